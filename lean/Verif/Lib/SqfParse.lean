import Verif.Lib.SqfGrammar
/-!
The parser follows the grammar; lemmas.
-/
namespace Verif.SqfParse
open Verif.Sqf

/-! ### Fuel -/

/-- With more fuel nothing changes. -/
structure Mono (env : Env) (n : Nat) : Prop where
  level : ∀ p ts, level env n p ts ≠ .out → level env (n + 1) p ts = level env n p ts
  operands : ∀ p e ts, operands env n p e ts ≠ .out → operands env (n + 1) p e ts = operands env n p e ts
  unary : ∀ ts, unary env n ts ≠ .out → unary env (n + 1) ts = unary env n ts
  atom : ∀ ts, atom env n ts ≠ .out → atom env (n + 1) ts = atom env n ts
  elements : ∀ ts, elements env n ts ≠ .out → elements env (n + 1) ts = elements env n ts
  moreElements : ∀ acc ts, moreElements env n acc ts ≠ .out → moreElements env (n + 1) acc ts = moreElements env n acc ts
  statement : ∀ ts, statement env n ts ≠ .out → statement env (n + 1) ts = statement env n ts
  assignment : ∀ ts, assignment env n ts ≠ .out → assignment env (n + 1) ts = assignment env n ts
  statements : ∀ ts, statements env n ts ≠ .out → statements env (n + 1) ts = statements env n ts
  moreStatements : ∀ acc ts, moreStatements env n acc ts ≠ .out →
    moreStatements env (n + 1) acc ts = moreStatements env n acc ts

/-- A step that looks at another result. -/
theorem res_step {α β : Type} {a b : Res α} {k l : α → List Tok → Res β} {f g : Res β}
    (hab : a ≠ .out → b = a) (hk : ∀ x r, k x r ≠ .out → l x r = k x r) (hf : f ≠ .out → g = f)
    (h : a.andThen k f ≠ .out) : b.andThen l g = a.andThen k f := by
  cases a with
  | ok x r => rw [hab (by simp)]; exact hk x r h
  | fail => rw [hab (by simp)]; exact hf h
  | out => exact absurd rfl h

theorem mono (env : Env) : ∀ n, Mono env n
  | 0 => ⟨fun _ _ h => absurd (by rw [level]) h, fun _ _ _ h => absurd (by rw [operands]) h,
      fun _ h => absurd (by rw [unary]) h, fun _ h => absurd (by rw [atom]) h, fun _ h => absurd (by rw [elements]) h,
      fun _ _ h => absurd (by rw [moreElements]) h, fun _ h => absurd (by rw [statement]) h,
      fun _ h => absurd (by rw [assignment]) h, fun _ h => absurd (by rw [statements]) h,
      fun _ _ h => absurd (by rw [moreStatements]) h⟩
  | n + 1 => by
    have ih := mono env n
    constructor
    · intro p ts h
      have e : ∀ m, level env (m + 1) p ts = if 10 ≤ p then unary env m ts
          else (level env m (p + 1) ts).andThen (fun e r => operands env m p e r) .fail := fun m => by rw [level]
      rw [e] at h ⊢
      rw [e]
      split
      · rename_i hp
        rw [if_pos hp] at h
        exact ih.unary _ h
      · rename_i hp
        rw [if_neg hp] at h
        exact res_step (ih.level _ _) (fun e r => ih.operands _ _ _) (fun _ => rfl) h
    · intro p e ts h
      cases ts with
      | nil => simp only [operands]
      | cons t ts =>
        rw [operands] at h ⊢
        rw [operands]
        cases hb : binTok env.db p t.1 with
        | none => rfl
        | some c =>
          rw [hb] at h
          exact res_step (ih.level _ _) (fun e r => ih.operands _ _ _) (fun _ => rfl) h
    · intro ts h
      cases ts with
      | nil => simp only [unary]
      | cons t ts =>
        rw [unary] at h ⊢
        rw [unary]
        cases hb : unTok env.db t.1 with
        | none =>
          rw [hb] at h
          exact ih.atom _ h
        | some c =>
          rw [hb] at h
          exact res_step (ih.unary _) (fun e r _ => rfl) (fun _ => rfl) h
    · intro ts h
      cases ts with
      | nil => simp only [atom]
      | cons t ts =>
        rw [atom] at h ⊢
        rw [atom]
        split
        · rename_i ht
          rw [if_pos ht] at h
          exact res_step (ih.elements _) (fun e r _ => rfl) (fun _ => rfl) h
        · rename_i ht
          rw [if_neg ht] at h
          split
          · rename_i ht
            rw [if_pos ht] at h
            exact res_step (ih.level _ _) (fun e r _ => rfl) (fun _ => rfl) h
          · rename_i ht
            rw [if_neg ht] at h
            split
            · rename_i ht
              rw [if_pos ht] at h
              exact res_step (ih.statements _) (fun e r _ => rfl) (fun _ => rfl) h
            · rfl
    · intro ts h
      rw [elements] at h ⊢
      rw [elements]
      exact res_step (ih.level _ _) (fun e r => ih.moreElements _ _) (fun _ => rfl) h
    · intro acc ts h
      cases ts with
      | nil => simp only [moreElements]
      | cons t ts =>
        rw [moreElements] at h ⊢
        rw [moreElements]
        split
        · rename_i ht
          rw [if_pos ht] at h
          exact res_step (ih.level _ _) (fun e r => ih.moreElements _ _) (fun _ => rfl) h
        · rfl
    · intro ts h
      rw [statement] at h ⊢
      rw [statement]
      exact res_step (ih.assignment _) (fun _ _ _ => rfl)
        (res_step (ih.level _ _) (fun e r _ => rfl) (fun _ => rfl)) h
    · intro ts h
      rw [assignment] at h ⊢
      rw [assignment]
      split
      · rename_i hm
        rw [hm] at h
        exact res_step (ih.level _ _) (fun e r _ => rfl) (fun _ => rfl) h
      · rfl
    · intro ts h
      rw [statements] at h ⊢
      rw [statements]
      exact res_step (ih.statement _) (fun e r => ih.moreStatements _ _) (fun _ => rfl) h
    · intro acc ts h
      cases ts with
      | nil => simp only [moreStatements]
      | cons t ts =>
        rw [moreStatements] at h ⊢
        rw [moreStatements]
        split
        · rename_i ht
          rw [if_pos ht] at h
          exact res_step (ih.statement _) (fun e r => ih.moreStatements _ _) (fun _ => rfl) h
        · rfl

theorem mono_le {env : Env} {n m : Nat} (hnm : n ≤ m) {ts : List Tok} (h : statements env n ts ≠ .out) :
    statements env m ts = statements env n ts := by
  induction hnm with
  | refl => rfl
  | step _ ih => rw [(mono env _).statements _ (by rw [ih]; exact h), ih]

/-! ### Words -/

theorem eqIgnore_iff {a b : Bytes} (hb : asciiLower b = b) : eqIgnore a b = true ↔ asciiLower a = b := by
  unfold eqIgnore
  rw [beq_iff_eq, hb]

theorem isSpecial_iff (n : Bytes) : isSpecial n = true ↔ asciiLower n ∈ reserved := by
  unfold isSpecial isIn nularSpecial binarySpecial reserved eqIgnore
  have h : ∀ s, asciiLower (ascii s) = ascii s → ((asciiLower (ascii s) == asciiLower n) = true ↔ asciiLower n = ascii s) := by
    intro s hs
    rw [beq_iff_eq, hs]
    exact eq_comm
  simp only [List.any_cons, List.any_nil, Bool.or_false, Bool.or_eq_true, List.mem_cons, List.not_mem_nil, or_false,
    h "true" (by decide), h "false" (by decide), h "or" (by decide), h "and" (by decide), h "else" (by decide),
    h "max" (by decide), h "min" (by decide), h "mod" (by decide), h "atan2" (by decide), or_assoc]

theorem isVariable_iff (db : Db) (n : Bytes) : isVariable db n = true ↔ IsVar db n := by
  unfold isVariable IsVar Db.hasCommand
  rw [← isSpecial_iff]
  cases db.hasNular n <;> cases db.hasUnary n <;> cases db.hasBinary n <;> cases isSpecial n <;> simp

theorem unTok_eq (db : Db) (t : Token) : unTok db t = unOf db t := by
  cases t with
  | op o => cases o <;> rfl
  | _ => rfl

/-- A word or symbol is taken at the level its precedence says, and at no other. -/
theorem binTok_iff {db : Db} (hs : ∀ n, asciiLower n ∈ reserved → db.hasBinary n = false) (p : Nat) (t : Token) (c : BinCmd) :
    binTok db p t = some c ↔ binOf db t = some c ∧ prec c = p := by
  cases t with
  | comment s => simp [binTok, binOf]
  | ctl s => simp [binTok, binOf]
  | num s => simp [binTok, binOf]
  | str s w => simp [binTok, binOf]
  | op o =>
    by_cases hp : p ∈ [1, 2, 3, 4, 5, 6, 7, 8, 9]
    · simp only [List.mem_cons, List.not_mem_nil, or_false] at hp
      rcases hp with rfl | rfl | rfl | rfl | rfl | rfl | rfl | rfl | rfl <;> cases o <;>
        simp only [binTok, binOf, Option.some.injEq, reduceCtorEq, false_and] <;>
        first
          | (constructor
             · rintro rfl; exact ⟨rfl, rfl⟩
             · rintro ⟨rfl, _⟩; rfl)
          | (constructor
             · intro h; cases h
             · rintro ⟨rfl, h⟩; cases h)
    · have : binTok db p (.op o) = none := by
        unfold binTok
        split <;> first | rfl | (exfalso; simp at hp)
      rw [this]
      constructor
      · intro h; cases h
      · rintro ⟨h, rfl⟩
        exfalso
        apply hp
        cases c <;> simp [prec]
  | ident n =>
    have k1 : eqIgnore n (ascii "mod") = decide (asciiLower n = ascii "mod") := by
      rw [Bool.eq_iff_iff, eqIgnore_iff (by decide), decide_eq_true_iff]
    have k2 : eqIgnore n (ascii "atan2") = decide (asciiLower n = ascii "atan2") := by
      rw [Bool.eq_iff_iff, eqIgnore_iff (by decide), decide_eq_true_iff]
    have k3 : eqIgnore n (ascii "max") = decide (asciiLower n = ascii "max") := by
      rw [Bool.eq_iff_iff, eqIgnore_iff (by decide), decide_eq_true_iff]
    have k4 : eqIgnore n (ascii "min") = decide (asciiLower n = ascii "min") := by
      rw [Bool.eq_iff_iff, eqIgnore_iff (by decide), decide_eq_true_iff]
    have k5 : eqIgnore n (ascii "else") = decide (asciiLower n = ascii "else") := by
      rw [Bool.eq_iff_iff, eqIgnore_iff (by decide), decide_eq_true_iff]
    have k6 : eqIgnore n (ascii "and") = decide (asciiLower n = ascii "and") := by
      rw [Bool.eq_iff_iff, eqIgnore_iff (by decide), decide_eq_true_iff]
    have k7 : eqIgnore n (ascii "or") = decide (asciiLower n = ascii "or") := by
      rw [Bool.eq_iff_iff, eqIgnore_iff (by decide), decide_eq_true_iff]
    have hb : ∀ q, binTok db q (.ident n) =
        if q = 7 then (if asciiLower n = ascii "mod" then some .mod else if asciiLower n = ascii "atan2" then some .atan2 else none)
        else if q = 6 then (if asciiLower n = ascii "max" then some .max else if asciiLower n = ascii "min" then some .min else none)
        else if q = 5 then (if asciiLower n = ascii "else" then some .els else none)
        else if q = 4 then (if db.hasBinary n then some (.named n) else none)
        else if q = 2 then (if asciiLower n = ascii "and" then some .and else none)
        else if q = 1 then (if asciiLower n = ascii "or" then some .or else none)
        else none := by
      intro q
      by_cases h7 : q = 7
      · subst h7; simp [binTok, k1, k2]
      · by_cases h6 : q = 6
        · subst h6; simp [binTok, k3, k4]
        · by_cases h5 : q = 5
          · subst h5; simp [binTok, k5]
          · by_cases h4 : q = 4
            · subst h4; simp [binTok]
            · by_cases h2 : q = 2
              · subst h2; simp [binTok, k6]
              · by_cases h1 : q = 1
                · subst h1; simp [binTok, k7]
                · simp only [h7, h6, h5, h4, h2, h1, if_false]
                  unfold binTok
                  split <;> first | rfl | contradiction
    rw [hb]
    have hs' : ∀ w, w ∈ reserved → asciiLower n = w → db.hasBinary n = false := fun w hw e => hs n (e ▸ hw)
    unfold binOf
    dsimp only
    by_cases e0 : asciiLower n = ascii "or"
    · have f := hs' _ (by decide) e0
      rw [e0]
      simp (decide := true) only [f, if_true, if_false, Option.some.injEq, Bool.false_eq_true]
      by_cases h : p = 1
      · subst h
        simp (decide := true) only [if_true, if_false, Option.some.injEq]
        constructor
        · rintro rfl; exact ⟨rfl, rfl⟩
        · rintro ⟨rfl, _⟩; rfl
      · simp only [h, if_false, ite_self, reduceCtorEq, false_iff, not_and]
        rintro rfl e
        exact h e.symm
    · rw [if_neg e0]
      by_cases e1 : asciiLower n = ascii "and"
      · have f := hs' _ (by decide) e1
        rw [e1]
        simp (decide := true) only [f, if_true, if_false, Option.some.injEq, Bool.false_eq_true]
        by_cases h : p = 2
        · subst h
          simp (decide := true) only [if_true, if_false, Option.some.injEq]
          constructor
          · rintro rfl; exact ⟨rfl, rfl⟩
          · rintro ⟨rfl, _⟩; rfl
        · simp only [h, if_false, ite_self, reduceCtorEq, false_iff, not_and]
          rintro rfl e
          exact h e.symm
      · rw [if_neg e1]
        by_cases e2 : asciiLower n = ascii "else"
        · have f := hs' _ (by decide) e2
          rw [e2]
          simp (decide := true) only [f, if_true, if_false, Option.some.injEq, Bool.false_eq_true]
          by_cases h : p = 5
          · subst h
            simp (decide := true) only [if_true, if_false, Option.some.injEq]
            constructor
            · rintro rfl; exact ⟨rfl, rfl⟩
            · rintro ⟨rfl, _⟩; rfl
          · simp only [h, if_false, ite_self, reduceCtorEq, false_iff, not_and]
            rintro rfl e
            exact h e.symm
        · rw [if_neg e2]
          by_cases e3 : asciiLower n = ascii "max"
          · have f := hs' _ (by decide) e3
            rw [e3]
            simp (decide := true) only [f, if_true, if_false, Option.some.injEq, Bool.false_eq_true]
            by_cases h : p = 6
            · subst h
              simp (decide := true) only [if_true, if_false, Option.some.injEq]
              constructor
              · rintro rfl; exact ⟨rfl, rfl⟩
              · rintro ⟨rfl, _⟩; rfl
            · simp only [h, if_false, ite_self, reduceCtorEq, false_iff, not_and]
              rintro rfl e
              exact h e.symm
          · rw [if_neg e3]
            by_cases e4 : asciiLower n = ascii "min"
            · have f := hs' _ (by decide) e4
              rw [e4]
              simp (decide := true) only [f, if_true, if_false, Option.some.injEq, Bool.false_eq_true]
              by_cases h : p = 6
              · subst h
                simp (decide := true) only [if_true, if_false, Option.some.injEq]
                constructor
                · rintro rfl; exact ⟨rfl, rfl⟩
                · rintro ⟨rfl, _⟩; rfl
              · simp only [h, if_false, ite_self, reduceCtorEq, false_iff, not_and]
                rintro rfl e
                exact h e.symm
            · rw [if_neg e4]
              by_cases e5 : asciiLower n = ascii "mod"
              · have f := hs' _ (by decide) e5
                rw [e5]
                simp (decide := true) only [f, if_true, if_false, Option.some.injEq, Bool.false_eq_true]
                by_cases h : p = 7
                · subst h
                  simp (decide := true) only [if_true, if_false, Option.some.injEq]
                  constructor
                  · rintro rfl; exact ⟨rfl, rfl⟩
                  · rintro ⟨rfl, _⟩; rfl
                · simp only [h, if_false, ite_self, reduceCtorEq, false_iff, not_and]
                  rintro rfl e
                  exact h e.symm
              · rw [if_neg e5]
                by_cases e6 : asciiLower n = ascii "atan2"
                · have f := hs' _ (by decide) e6
                  rw [e6]
                  simp (decide := true) only [f, if_true, if_false, Option.some.injEq, Bool.false_eq_true]
                  by_cases h : p = 7
                  · subst h
                    simp (decide := true) only [if_true, if_false, Option.some.injEq]
                    constructor
                    · rintro rfl; exact ⟨rfl, rfl⟩
                    · rintro ⟨rfl, _⟩; rfl
                  · simp only [h, if_false, ite_self, reduceCtorEq, false_iff, not_and]
                    rintro rfl e
                    exact h e.symm
                · rw [if_neg e6]
                  simp only [e0, e1, e2, e3, e4, e5, e6, if_false]
                  by_cases hb : db.hasBinary n = true
                  · simp only [hb, if_true, Option.some.injEq]
                    by_cases h : p = 4
                    · subst h
                      simp (decide := true) only [if_true, if_false, Option.some.injEq]
                      constructor
                      · rintro rfl; exact ⟨rfl, rfl⟩
                      · rintro ⟨rfl, _⟩; rfl
                    · simp only [h, if_false, ite_self, reduceCtorEq, false_iff, not_and]
                      rintro rfl e
                      exact h e.symm
                  · simp [hb]

/-! ### What is read is in the grammar -/

theorem andThen_ok {α β : Type} {a : Res α} {k : α → List Tok → Res β} {f : Res β} {x : β} {r : List Tok}
    (h : a.andThen k f = .ok x r) : (∃ y s, a = .ok y s ∧ k y s = .ok x r) ∨ (a = .fail ∧ f = .ok x r) := by
  cases a with
  | ok y s => exact Or.inl ⟨y, s, rfl, h⟩
  | fail => exact Or.inr ⟨rfl, h⟩
  | out => cases h

theorem andThen_ok' {α β : Type} {a : Res α} {k : α → List Tok → Res β} {x : β} {r : List Tok}
    (h : a.andThen k .fail = .ok x r) : ∃ y s, a = .ok y s ∧ k y s = .ok x r := by
  rcases andThen_ok h with h | ⟨_, h⟩
  · exact h
  · cases h

theorem leaf_sound {db : Db} {t : Tok} {e : Expr} (h : leaf db t = some e) : Der db false 10 e [t] := by
  obtain ⟨t, sp⟩ := t
  cases t with
  | num x => simp only [leaf, Option.some.injEq] at h; subst h; exact .num
  | str x w => simp only [leaf, Option.some.injEq] at h; subst h; exact .str
  | ident n =>
    rw [leaf] at h
    split at h
    · rename_i h1
      cases h
      exact .tru ((eqIgnore_iff (by decide)).1 h1)
    · rename_i h1
      split at h
      · rename_i h2
        cases h
        exact .fls ((eqIgnore_iff (by decide)).1 h2)
      · rename_i h2
        split at h
        · rename_i h3
          cases h
          exact .nular h3 (fun e => h1 ((eqIgnore_iff (by decide)).2 e)) (fun e => h2 ((eqIgnore_iff (by decide)).2 e))
        · split at h
          · rename_i h4
            cases h
            exact .var ((isVariable_iff db n).1 h4)
          · cases h
  | _ => simp [leaf] at h

theorem target_some {db : Db} {ts r : List Tok} {v : Bytes} (h : target db ts = some (v, r)) :
    ∃ s1 s2, ts = (.ident v, s1) :: (.op .assign, s2) :: r ∧ IsVar db v := by
  unfold target at h
  split at h
  · split at h
    · rename_i hv
      simp only [Option.some.injEq, Prod.mk.injEq] at h
      obtain ⟨rfl, rfl⟩ := h
      exact ⟨_, _, rfl, (isVariable_iff db _).1 hv⟩
    · cases h
  · cases h

theorem isPrivate_iff {ts : List Tok} (h : isPrivate ts = true) :
    ∃ m sp r, ts = (.ident m, sp) :: r ∧ asciiLower m = ascii "private" := by
  unfold isPrivate at h
  split at h
  · exact ⟨_, _, _, rfl, (eqIgnore_iff (by decide)).1 h⟩
  · cases h

structure Sound (env : Env) (n : Nat) : Prop where
  level : ∀ p ts e r, p ≤ 10 → level env n p ts = .ok e r → ∃ us, ts = us ++ r ∧ Der env.db false p e us
  operands : ∀ p e ts e' r us, p < 10 → Der env.db false p e us → operands env n p e ts = .ok e' r →
    ∃ vs, ts = vs ++ r ∧ Der env.db false p e' (us ++ vs)
  unary : ∀ ts e r, unary env n ts = .ok e r → ∃ us, ts = us ++ r ∧ Der env.db false 10 e us
  atom : ∀ ts e r, atom env n ts = .ok e r → ∃ us, ts = us ++ r ∧ Der env.db false 10 e us
  elements : ∀ ts es r, elements env n ts = .ok es r →
    (es = [] ∧ ts = r) ∨ ∃ us, ts = us ++ r ∧ DerList env.db false es us
  moreElements : ∀ acc ts es r, moreElements env n acc ts = .ok es r →
    ∃ es' vs, es = acc.reverse ++ es' ∧ ts = vs ++ r ∧
      ((es' = [] ∧ vs = []) ∨ ∃ sp us, vs = (.ctl .separator, sp) :: us ∧ DerList env.db false es' us)
  statement : ∀ ts s r, statement env n ts = .ok s r → ∃ us, ts = us ++ r ∧ DerStmt env.db false s us
  assignment : ∀ ts s r, assignment env n ts = .ok s r → ∃ us, ts = us ++ r ∧ DerStmt env.db false s us
  statements : ∀ ts ss r, statements env n ts = .ok ss r → ∃ us, ts = us ++ r ∧ DerBlock env.db false ss us
  moreStatements : ∀ acc ts ss r, moreStatements env n acc ts = .ok ss r →
    ∃ ss' vs, ss = acc.reverse ++ ss' ∧ ts = vs ++ r ∧
      ((ss' = [] ∧ vs = []) ∨ ∃ sp us, vs = (.ctl .terminator, sp) :: us ∧ DerBlock env.db false ss' us)

theorem sound {env : Env} (hs : ∀ n, asciiLower n ∈ reserved → env.db.hasBinary n = false) : ∀ n, Sound env n
  | 0 => ⟨fun _ _ _ _ _ h => (by rw [SqfParse.level] at h; cases h), fun _ _ _ _ _ _ _ _ h => (by rw [SqfParse.operands] at h; cases h),
      fun _ _ _ h => (by rw [SqfParse.unary] at h; cases h), fun _ _ _ h => (by rw [SqfParse.atom] at h; cases h),
      fun _ _ _ h => (by rw [SqfParse.elements] at h; cases h), fun _ _ _ _ h => (by rw [SqfParse.moreElements] at h; cases h),
      fun _ _ _ h => (by rw [SqfParse.statement] at h; cases h), fun _ _ _ h => (by rw [SqfParse.assignment] at h; cases h),
      fun _ _ _ h => (by rw [SqfParse.statements] at h; cases h), fun _ _ _ _ h => (by rw [SqfParse.moreStatements] at h; cases h)⟩
  | n + 1 => by
    have ih := sound hs n
    constructor
    · intro p ts e r hp h
      have e1 : SqfParse.level env (n + 1) p ts = if 10 ≤ p then SqfParse.unary env n ts
          else (SqfParse.level env n (p + 1) ts).andThen (fun e r => SqfParse.operands env n p e r) .fail := by
        rw [SqfParse.level]
      rw [e1] at h
      split at h
      · rename_i h10
        obtain rfl : p = 10 := by omega
        exact ih.unary _ _ _ h
      · rename_i h10
        obtain ⟨e0, r0, h1, h2⟩ := andThen_ok' h
        obtain ⟨us, rfl, hd⟩ := ih.level _ _ _ _ (by omega) h1
        obtain ⟨vs, rfl, hd'⟩ := ih.operands _ _ _ _ _ us (by omega) (.weaken (by omega) hd) h2
        exact ⟨us ++ vs, by simp, hd'⟩
    · intro p e ts e' r us hp hd h
      cases ts with
      | nil =>
        rw [SqfParse.operands] at h
        cases h
        exact ⟨[], by simp, by simpa using hd⟩
      | cons t ts =>
        rw [SqfParse.operands] at h
        cases hb : binTok env.db p t.1 with
        | none =>
          rw [hb] at h
          cases h
          exact ⟨[], by simp, by simpa using hd⟩
        | some c =>
          rw [hb] at h
          rcases andThen_ok h with ⟨e2, r2, h1, h2⟩ | ⟨_, h2⟩
          · obtain ⟨vs, rfl, hd'⟩ := ih.level _ _ _ _ (by omega) h1
            obtain ⟨hb1, hb2⟩ := (binTok_iff hs p t.1 c).1 hb
            obtain ⟨ws, rfl, hd''⟩ := ih.operands _ _ _ _ _ (us ++ t :: vs) hp (.bin hb1 hb2 hd hd') h2
            exact ⟨t :: vs ++ ws, by simp, by simpa using hd''⟩
          · cases h2
            exact ⟨[], by simp, by simpa using hd⟩
    · intro ts e r h
      cases ts with
      | nil => rw [SqfParse.unary] at h; cases h
      | cons t ts =>
        rw [SqfParse.unary] at h
        cases hb : unTok env.db t.1 with
        | none =>
          rw [hb] at h
          exact ih.atom _ _ _ h
        | some c =>
          rw [hb] at h
          obtain ⟨e0, r0, h1, h2⟩ := andThen_ok' h
          cases h2
          obtain ⟨us, rfl, hd⟩ := ih.unary _ _ _ h1
          exact ⟨t :: us, rfl, .un (by rw [← unTok_eq]; exact hb) hd⟩
    · intro ts e r h
      cases ts with
      | nil => rw [SqfParse.atom] at h; cases h
      | cons t ts =>
        rw [SqfParse.atom] at h
        obtain ⟨t, sp⟩ := t
        split at h
        · rename_i ht
          obtain rfl : t = _ := ht
          obtain ⟨es, r0, h1, h2⟩ := andThen_ok' h
          split at h2
          · cases h2
            rcases ih.elements _ _ _ h1 with ⟨rfl, rfl⟩ | ⟨us, rfl, hd⟩
            · exact ⟨_ :: [_], rfl, .arr0⟩
            · exact ⟨(.ctl .squareOpen, sp) :: us ++ [(.ctl .squareClose, _)], by rw [List.append_assoc]; rfl, .arr hd⟩
          · cases h2
        · split at h
          · rename_i ht
            obtain rfl : t = _ := ht
            obtain ⟨es, r0, h1, h2⟩ := andThen_ok' h
            split at h2
            · cases h2
              obtain ⟨us, rfl, hd⟩ := ih.level _ _ _ _ (by omega) h1
              exact ⟨(.ctl .roundOpen, sp) :: us ++ [(.ctl .roundClose, _)], by rw [List.append_assoc]; rfl, .paren hd⟩
            · cases h2
          · split at h
            · rename_i ht
              obtain rfl : t = _ := ht
              obtain ⟨es, r0, h1, h2⟩ := andThen_ok' h
              split at h2
              · cases h2
                obtain ⟨us, rfl, hd⟩ := ih.statements _ _ _ h1
                exact ⟨(.ctl .curlyOpen, sp) :: us ++ [(.ctl .curlyClose, _)], by rw [List.append_assoc]; rfl, .code hd⟩
              · cases h2
            · split at h
              · rename_i hl
                cases h
                exact ⟨[(t, sp)], rfl, leaf_sound hl⟩
              · cases h
    · intro ts es r h
      rw [SqfParse.elements] at h
      rcases andThen_ok h with ⟨e, r0, h1, h2⟩ | ⟨_, h2⟩
      · right
        obtain ⟨us, rfl, hd⟩ := ih.level _ _ _ _ (by omega) h1
        obtain ⟨es', vs, rfl, rfl, ⟨rfl, rfl⟩ | ⟨sp, ws, rfl, hd'⟩⟩ := ih.moreElements _ _ _ _ h2
        · exact ⟨us, by simp, by simpa using .one hd⟩
        · exact ⟨us ++ (.ctl .separator, sp) :: ws, by simp, by simpa using .cons hd hd'⟩
      · cases h2
        exact Or.inl ⟨rfl, rfl⟩
    · intro acc ts es r h
      cases ts with
      | nil =>
        rw [SqfParse.moreElements] at h
        cases h
        exact ⟨[], [], by simp, rfl, Or.inl ⟨rfl, rfl⟩⟩
      | cons t ts =>
        rw [SqfParse.moreElements] at h
        obtain ⟨t, sp⟩ := t
        split at h
        · rename_i ht
          obtain rfl : t = _ := ht
          rcases andThen_ok h with ⟨e, r0, h1, h2⟩ | ⟨_, h2⟩
          · obtain ⟨us, rfl, hd⟩ := ih.level _ _ _ _ (by omega) h1
            obtain ⟨es', vs, rfl, rfl, ⟨rfl, rfl⟩ | ⟨sp', ws, rfl, hd'⟩⟩ := ih.moreElements _ _ _ _ h2
            · exact ⟨[e], _ :: us, by simp, by simp, Or.inr ⟨sp, us, rfl, .one hd⟩⟩
            · exact ⟨e :: es', (.ctl .separator, sp) :: (us ++ (.ctl .separator, sp') :: ws), by simp, by simp,
                Or.inr ⟨sp, _, rfl, .cons hd hd'⟩⟩
          · cases h2
            exact ⟨[], [], by simp, rfl, Or.inl ⟨rfl, rfl⟩⟩
        · cases h
          exact ⟨[], [], by simp, rfl, Or.inl ⟨rfl, rfl⟩⟩
    · intro ts s r h
      rw [SqfParse.statement] at h
      rcases andThen_ok h with ⟨s0, r0, h1, h2⟩ | ⟨_, h2⟩
      · cases h2
        exact ih.assignment _ _ _ h1
      · obtain ⟨e, r0, h1, h3⟩ := andThen_ok' h2
        cases h3
        obtain ⟨us, rfl, hd⟩ := ih.level _ _ _ _ (by omega) h1
        exact ⟨us, rfl, .expr hd⟩
    · intro ts s r h
      rw [SqfParse.assignment] at h
      split at h
      · rename_i v r0 hv
        obtain ⟨e, r1, h1, h2⟩ := andThen_ok' h
        obtain ⟨us, rfl, hd⟩ := ih.level _ _ _ _ (by omega) h1
        obtain ⟨s1, s2, ht, hw⟩ := target_some hv
        cases hp : isPrivate ts with
        | false =>
          rw [hp, if_neg (by simp)] at ht
          rw [hp, if_neg (by simp)] at h2
          cases h2
          exact ⟨(.ident v, s1) :: (.op .assign, s2) :: us, by rw [ht]; rfl, .global hw hd⟩
        | true =>
          rw [hp, if_pos rfl] at ht
          rw [hp, if_pos rfl] at h2
          obtain ⟨m, sp, r2, rfl, hm⟩ := isPrivate_iff hp
          cases h2
          rw [List.tail_cons] at ht
          exact ⟨(.ident m, sp) :: (.ident v, s1) :: (.op .assign, s2) :: us, by rw [ht]; rfl, .priv hm hw hd⟩
      · cases h
    · intro ts ss r h
      rw [SqfParse.statements] at h
      rcases andThen_ok h with ⟨s, r0, h1, h2⟩ | ⟨_, h2⟩
      · obtain ⟨us, rfl, hd⟩ := ih.statement _ _ _ h1
        obtain ⟨es', vs, rfl, rfl, ⟨rfl, rfl⟩ | ⟨sp, ws, rfl, hd'⟩⟩ := ih.moreStatements _ _ _ _ h2
        · exact ⟨us, by simp, by simpa using .last hd⟩
        · exact ⟨us ++ (.ctl .terminator, sp) :: ws, by simp, by simpa using .cons hd hd'⟩
      · cases h2
        exact ⟨[], rfl, .nil⟩
    · intro acc ts ss r h
      cases ts with
      | nil =>
        rw [SqfParse.moreStatements] at h
        cases h
        exact ⟨[], [], by simp, rfl, Or.inl ⟨rfl, rfl⟩⟩
      | cons t ts =>
        rw [SqfParse.moreStatements] at h
        obtain ⟨t, sp⟩ := t
        split at h
        · rename_i ht
          obtain rfl : t = _ := ht
          rcases andThen_ok h with ⟨s, r0, h1, h2⟩ | ⟨_, h2⟩
          · obtain ⟨us, rfl, hd⟩ := ih.statement _ _ _ h1
            obtain ⟨es', vs, rfl, rfl, ⟨rfl, rfl⟩ | ⟨sp', ws, rfl, hd'⟩⟩ := ih.moreStatements _ _ _ _ h2
            · exact ⟨[s], _ :: us, by simp, by simp, Or.inr ⟨sp, us, rfl, .last hd⟩⟩
            · exact ⟨s :: es', (.ctl .terminator, sp) :: (us ++ (.ctl .terminator, sp') :: ws), by simp, by simp,
                Or.inr ⟨sp, _, rfl, .cons hd hd'⟩⟩
          · cases h2
            exact ⟨[], [(.ctl .terminator, sp)], by simp, by simp, Or.inr ⟨sp, [], rfl, .nil⟩⟩
        · cases h
          exact ⟨[], [], by simp, rfl, Or.inl ⟨rfl, rfl⟩⟩

/-! ### The parser always comes to an end -/

structure Shrinks (env : Env) (n : Nat) : Prop where
  level : ∀ p ts e r, level env n p ts = .ok e r → r.length < ts.length
  operands : ∀ p e ts e' r, operands env n p e ts = .ok e' r → r.length ≤ ts.length
  unary : ∀ ts e r, unary env n ts = .ok e r → r.length < ts.length
  atom : ∀ ts e r, atom env n ts = .ok e r → r.length < ts.length
  elements : ∀ ts es r, elements env n ts = .ok es r → r.length ≤ ts.length
  moreElements : ∀ acc ts es r, moreElements env n acc ts = .ok es r → r.length ≤ ts.length
  statement : ∀ ts s r, statement env n ts = .ok s r → r.length < ts.length
  assignment : ∀ ts s r, assignment env n ts = .ok s r → r.length < ts.length
  statements : ∀ ts ss r, statements env n ts = .ok ss r → r.length ≤ ts.length
  moreStatements : ∀ acc ts ss r, moreStatements env n acc ts = .ok ss r → r.length ≤ ts.length

theorem target_length {db : Db} {ts r : List Tok} {v : Bytes} (h : target db ts = some (v, r)) : r.length + 2 = ts.length := by
  obtain ⟨_, _, rfl, _⟩ := target_some h
  rfl

theorem privTail_length (ts : List Tok) : (if isPrivate ts then ts.tail else ts).length ≤ ts.length := by
  split
  · rw [List.length_tail]; omega
  · exact Nat.le_refl _

theorem shrinks (env : Env) : ∀ n, Shrinks env n
  | 0 => ⟨fun _ _ _ _ h => (by rw [SqfParse.level] at h; cases h), fun _ _ _ _ _ h => (by rw [SqfParse.operands] at h; cases h),
      fun _ _ _ h => (by rw [SqfParse.unary] at h; cases h), fun _ _ _ h => (by rw [SqfParse.atom] at h; cases h),
      fun _ _ _ h => (by rw [SqfParse.elements] at h; cases h), fun _ _ _ _ h => (by rw [SqfParse.moreElements] at h; cases h),
      fun _ _ _ h => (by rw [SqfParse.statement] at h; cases h), fun _ _ _ h => (by rw [SqfParse.assignment] at h; cases h),
      fun _ _ _ h => (by rw [SqfParse.statements] at h; cases h),
      fun _ _ _ _ h => (by rw [SqfParse.moreStatements] at h; cases h)⟩
  | n + 1 => by
    have ih := shrinks env n
    constructor
    · intro p ts e r h
      have e1 : SqfParse.level env (n + 1) p ts = if 10 ≤ p then SqfParse.unary env n ts
          else (SqfParse.level env n (p + 1) ts).andThen (fun e r => SqfParse.operands env n p e r) .fail := by
        rw [SqfParse.level]
      rw [e1] at h
      split at h
      · exact ih.unary _ _ _ h
      · obtain ⟨e0, r0, h1, h2⟩ := andThen_ok' h
        exact Nat.lt_of_le_of_lt (ih.operands _ _ _ _ _ h2) (ih.level _ _ _ _ h1)
    · intro p e ts e' r h
      cases ts with
      | nil => rw [SqfParse.operands] at h; cases h; exact Nat.le_refl _
      | cons t ts =>
        rw [SqfParse.operands] at h
        split at h
        · cases h; exact Nat.le_refl _
        · rcases andThen_ok h with ⟨e2, r2, h1, h2⟩ | ⟨_, h2⟩
          · have := ih.operands _ _ _ _ _ h2
            have := ih.level _ _ _ _ h1
            simp only [List.length_cons]
            omega
          · cases h2; exact Nat.le_refl _
    · intro ts e r h
      cases ts with
      | nil => rw [SqfParse.unary] at h; cases h
      | cons t ts =>
        rw [SqfParse.unary] at h
        split at h
        · obtain ⟨e0, r0, h1, h2⟩ := andThen_ok' h
          cases h2
          have := ih.unary _ _ _ h1
          simp only [List.length_cons]
          omega
        · exact ih.atom _ _ _ h
    · intro ts e r h
      cases ts with
      | nil => rw [SqfParse.atom] at h; cases h
      | cons t ts =>
        rw [SqfParse.atom] at h
        simp only [List.length_cons]
        split at h
        · obtain ⟨es, r0, h1, h2⟩ := andThen_ok' h
          have := ih.elements _ _ _ h1
          split at h2
          · cases h2
            simp only [List.length_cons] at this
            omega
          · cases h2
        · split at h
          · obtain ⟨es, r0, h1, h2⟩ := andThen_ok' h
            have := ih.level _ _ _ _ h1
            split at h2
            · cases h2
              simp only [List.length_cons] at this
              omega
            · cases h2
          · split at h
            · obtain ⟨es, r0, h1, h2⟩ := andThen_ok' h
              have := ih.statements _ _ _ h1
              split at h2
              · cases h2
                simp only [List.length_cons] at this
                omega
              · cases h2
            · split at h
              · cases h; omega
              · cases h
    · intro ts es r h
      rw [SqfParse.elements] at h
      rcases andThen_ok h with ⟨e, r0, h1, h2⟩ | ⟨_, h2⟩
      · have := ih.level _ _ _ _ h1
        have := ih.moreElements _ _ _ _ h2
        omega
      · cases h2; exact Nat.le_refl _
    · intro acc ts es r h
      cases ts with
      | nil => rw [SqfParse.moreElements] at h; cases h; exact Nat.le_refl _
      | cons t ts =>
        rw [SqfParse.moreElements] at h
        split at h
        · rcases andThen_ok h with ⟨e, r0, h1, h2⟩ | ⟨_, h2⟩
          · have := ih.level _ _ _ _ h1
            have := ih.moreElements _ _ _ _ h2
            simp only [List.length_cons]
            omega
          · cases h2; exact Nat.le_refl _
        · cases h; exact Nat.le_refl _
    · intro ts s r h
      rw [SqfParse.statement] at h
      rcases andThen_ok h with ⟨s0, r0, h1, h2⟩ | ⟨_, h2⟩
      · cases h2
        exact ih.assignment _ _ _ h1
      · obtain ⟨e, r0, h1, h3⟩ := andThen_ok' h2
        cases h3
        exact ih.level _ _ _ _ h1
    · intro ts s r h
      rw [SqfParse.assignment] at h
      split at h
      · rename_i v r0 hv
        obtain ⟨e, r1, h1, h2⟩ := andThen_ok' h
        have h3 := ih.level _ _ _ _ h1
        have h4 := target_length hv
        have h5 := privTail_length ts
        cases h2
        omega
      · cases h
    · intro ts ss r h
      rw [SqfParse.statements] at h
      rcases andThen_ok h with ⟨s, r0, h1, h2⟩ | ⟨_, h2⟩
      · have := ih.statement _ _ _ h1
        have := ih.moreStatements _ _ _ _ h2
        omega
      · cases h2; exact Nat.le_refl _
    · intro acc ts ss r h
      cases ts with
      | nil => rw [SqfParse.moreStatements] at h; cases h; exact Nat.le_refl _
      | cons t ts =>
        rw [SqfParse.moreStatements] at h
        simp only [List.length_cons]
        split at h
        · rcases andThen_ok h with ⟨s, r0, h1, h2⟩ | ⟨_, h2⟩
          · have := ih.statement _ _ _ h1
            have := ih.moreStatements _ _ _ _ h2
            omega
          · cases h2; omega
        · cases h; exact Nat.le_refl _

/-- Enough fuel for each of the functions. -/
structure Total (env : Env) (n : Nat) : Prop where
  level : ∀ p ts, 16 * ts.length + 13 ≤ n + min p 10 → level env n p ts ≠ .out
  operands : ∀ p e ts, 16 * ts.length + 1 ≤ n → operands env n p e ts ≠ .out
  unary : ∀ ts, 16 * ts.length + 2 ≤ n → unary env n ts ≠ .out
  atom : ∀ ts, 16 * ts.length + 1 ≤ n → atom env n ts ≠ .out
  elements : ∀ ts, 16 * ts.length + 13 ≤ n → elements env n ts ≠ .out
  moreElements : ∀ acc ts, 16 * ts.length + 1 ≤ n → moreElements env n acc ts ≠ .out
  statement : ∀ ts, 16 * ts.length + 13 ≤ n → statement env n ts ≠ .out
  assignment : ∀ ts, 16 * ts.length + 1 ≤ n → assignment env n ts ≠ .out
  statements : ∀ ts, 16 * ts.length + 14 ≤ n → statements env n ts ≠ .out
  moreStatements : ∀ acc ts, 16 * ts.length + 1 ≤ n → moreStatements env n acc ts ≠ .out

theorem andThen_ne_out {α β : Type} {a : Res α} {k : α → List Tok → Res β} {f : Res β} (ha : a ≠ .out)
    (hk : ∀ x r, a = .ok x r → k x r ≠ .out) (hf : f ≠ .out) : a.andThen k f ≠ .out := by
  cases a with
  | ok x r => exact hk x r rfl
  | fail => exact hf
  | out => exact absurd rfl ha

theorem total (env : Env) : ∀ n, Total env n
  | 0 => ⟨fun p _ h => (by omega), fun _ _ _ h => (by omega), fun _ h => (by omega), fun _ h => (by omega),
      fun _ h => (by omega), fun _ _ h => (by omega), fun _ h => (by omega), fun _ h => (by omega), fun _ h => (by omega),
      fun _ _ h => (by omega)⟩
  | n + 1 => by
    have ih := total env n
    have sh := shrinks env n
    constructor
    · intro p ts h
      have e1 : SqfParse.level env (n + 1) p ts = if 10 ≤ p then SqfParse.unary env n ts
          else (SqfParse.level env n (p + 1) ts).andThen (fun e r => SqfParse.operands env n p e r) .fail := by
        rw [SqfParse.level]
      rw [e1]
      split
      · exact ih.unary _ (by omega)
      · refine andThen_ne_out (ih.level _ _ (by omega)) (fun e r he => ih.operands _ _ _ ?_) (by simp)
        have := sh.level _ _ _ _ he
        omega
    · intro p e ts h
      cases ts with
      | nil => rw [SqfParse.operands]; simp
      | cons t ts =>
        simp only [List.length_cons] at h
        rw [SqfParse.operands]
        split
        · simp
        · refine andThen_ne_out (ih.level _ _ (by omega)) (fun e r he => ih.operands _ _ _ ?_) (by simp)
          have := sh.level _ _ _ _ he
          omega
    · intro ts h
      cases ts with
      | nil => rw [SqfParse.unary]; simp
      | cons t ts =>
        rw [SqfParse.unary]
        split
        · simp only [List.length_cons] at h
          exact andThen_ne_out (ih.unary _ (by omega)) (fun _ _ _ => by simp) (by simp)
        · exact ih.atom _ (by omega)
    · intro ts h
      cases ts with
      | nil => rw [SqfParse.atom]; simp
      | cons t ts =>
        simp only [List.length_cons] at h
        rw [SqfParse.atom]
        split
        · refine andThen_ne_out (ih.elements _ (by omega)) (fun _ _ _ => ?_) (by simp)
          split <;> simp
        · split
          · refine andThen_ne_out (ih.level _ _ (by omega)) (fun _ _ _ => ?_) (by simp)
            split <;> simp
          · split
            · refine andThen_ne_out (ih.statements _ (by omega)) (fun _ _ _ => ?_) (by simp)
              split <;> simp
            · split <;> simp
    · intro ts h
      rw [SqfParse.elements]
      refine andThen_ne_out (ih.level _ _ (by omega)) (fun e r he => ih.moreElements _ _ ?_) (by simp)
      have := sh.level _ _ _ _ he
      omega
    · intro acc ts h
      cases ts with
      | nil => rw [SqfParse.moreElements]; simp
      | cons t ts =>
        simp only [List.length_cons] at h
        rw [SqfParse.moreElements]
        split
        · refine andThen_ne_out (ih.level _ _ (by omega)) (fun e r he => ih.moreElements _ _ ?_) (by simp)
          have := sh.level _ _ _ _ he
          omega
        · simp
    · intro ts h
      rw [SqfParse.statement]
      exact andThen_ne_out (ih.assignment _ (by omega)) (fun _ _ _ => by simp)
        (andThen_ne_out (ih.level _ _ (by omega)) (fun _ _ _ => by simp) (by simp))
    · intro ts h
      rw [SqfParse.assignment]
      split
      · rename_i v r0 hv
        have h4 := target_length hv
        have h5 := privTail_length ts
        exact andThen_ne_out (ih.level _ _ (by omega)) (fun _ _ _ => by simp) (by simp)
      · simp
    · intro ts h
      rw [SqfParse.statements]
      refine andThen_ne_out (ih.statement _ (by omega)) (fun e r he => ih.moreStatements _ _ ?_) (by simp)
      have := sh.statement _ _ _ he
      omega
    · intro acc ts h
      cases ts with
      | nil => rw [SqfParse.moreStatements]; simp
      | cons t ts =>
        simp only [List.length_cons] at h
        rw [SqfParse.moreStatements]
        split
        · refine andThen_ne_out (ih.statement _ (by omega)) (fun e r he => ih.moreStatements _ _ ?_) (by simp)
          have := sh.statement _ _ _ he
          omega
        · simp

/-- The fuel `parse` gives is enough. -/
theorem parse_total (env : Env) (ts : List Tok) : statements env (fuel ts) ts ≠ .out :=
  (total env _).statements _ (by unfold fuel; omega)

end Verif.SqfParse
