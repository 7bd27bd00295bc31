import Verif.Lib.SqfParse
/-!
What is in the grammar is read; lemmas.
-/
namespace Verif.SqfParse
open Verif.Sqf

/-- The result with enough fuel. -/
def Runs {α : Type} (f : Nat → Res α) (v : Res α) : Prop := ∃ k, ∀ n, k ≤ n → f n = v

theorem Runs.const {α : Type} (v : Res α) : Runs (fun _ => v) v := ⟨0, fun _ _ => rfl⟩

theorem Runs.succ {α : Type} {f g : Nat → Res α} {v : Res α} (hg : Runs g v) (h : ∀ n, f (n + 1) = g n) : Runs f v := by
  obtain ⟨k, hk⟩ := hg
  refine ⟨k + 1, fun n hn => ?_⟩
  obtain ⟨m, rfl⟩ : ∃ m, n = m + 1 := ⟨n - 1, by omega⟩
  rw [h]
  exact hk m (by omega)

theorem Runs.pred {α : Type} {f g : Nat → Res α} {v : Res α} (hf : Runs f v) (h : ∀ n, f (n + 1) = g n) : Runs g v := by
  obtain ⟨k, hk⟩ := hf
  exact ⟨k, fun n hn => by rw [← h]; exact hk _ (by omega)⟩

theorem Runs.unique {α : Type} {f : Nat → Res α} {v w : Res α} (hv : Runs f v) (hw : Runs f w) : v = w := by
  obtain ⟨k, hk⟩ := hv
  obtain ⟨l, hl⟩ := hw
  rw [← hk (max k l) (by omega), hl (max k l) (by omega)]

theorem Runs.andThen {α β : Type} {a : Nat → Res α} {k : Nat → α → List Tok → Res β} {f : Nat → Res β} {x : α} {r : List Tok}
    {v : Res β} (ha : Runs a (.ok x r)) (hk : Runs (fun n => k n x r) v) : Runs (fun n => (a n).andThen (k n) (f n)) v := by
  obtain ⟨i, hi⟩ := ha
  obtain ⟨j, hj⟩ := hk
  refine ⟨max i j, fun n hn => ?_⟩
  dsimp only
  rw [hi n (by omega)]
  exact hj n (by omega)

theorem Runs.andThenFail {α β : Type} {a : Nat → Res α} {k : Nat → α → List Tok → Res β} {f : Nat → Res β}
    {v : Res β} (ha : Runs a .fail) (hf : Runs f v) : Runs (fun n => (a n).andThen (k n) (f n)) v := by
  obtain ⟨i, hi⟩ := ha
  obtain ⟨j, hj⟩ := hf
  refine ⟨max i j, fun n hn => ?_⟩
  dsimp only
  rw [hi n (by omega)]
  exact hj n (by omega)

section
variable {env : Env}

theorem runs_level {p : Nat} {ts r : List Tok} {e : Expr} {v : Res Expr} (hp : p < 10)
    (h1 : Runs (fun n => level env n (p + 1) ts) (.ok e r)) (h2 : Runs (fun n => operands env n p e r) v) :
    Runs (fun n => level env n p ts) v := by
  refine Runs.succ (h1.andThen (k := fun n e r => operands env n p e r) (f := fun _ => .fail) h2) fun n => ?_
  rw [level, if_neg (by omega)]

theorem runs_level_fail {p : Nat} {ts : List Tok} (hp : p < 10)
    (h1 : Runs (fun n => level env n (p + 1) ts) .fail) : Runs (fun n => level env n p ts) .fail := by
  refine Runs.succ (h1.andThenFail (k := fun n e r => operands env n p e r) (f := fun _ => .fail) (.const _)) fun n => ?_
  rw [level, if_neg (by omega)]

theorem runs_unary {ts : List Tok} {v : Res Expr} (h : Runs (fun n => unary env n ts) v) :
    Runs (fun n => level env n 10 ts) v := by
  refine h.succ fun n => ?_
  rw [level, if_pos (by omega)]

theorem runs_unary' {ts : List Tok} {v : Res Expr} (h : Runs (fun n => level env n 10 ts) v) :
    Runs (fun n => unary env n ts) v := by
  refine h.pred fun n => ?_
  rw [level, if_pos (by omega)]

/-- The next token is no command of level `q` or higher. -/
def Stops (env : Env) (q : Nat) (r : List Tok) : Prop := ∀ t r', r = t :: r' → ∀ p, q ≤ p → binTok env.db p t.1 = none

theorem Stops.mono {q q' : Nat} {r : List Tok} (h : Stops env q r) (hq : q ≤ q') : Stops env q' r :=
  fun t r' e p hp => h t r' e p (by omega)

theorem operands_stop {p : Nat} {e : Expr} {r : List Tok} (h : Stops env p r) :
    Runs (fun n => operands env n p e r) (.ok e r) := by
  refine ⟨1, fun n hn => ?_⟩
  obtain ⟨m, rfl⟩ : ∃ m, n = m + 1 := ⟨n - 1, by omega⟩
  cases r with
  | nil => show operands env (m + 1) p e [] = _; rw [operands]
  | cons t r => show operands env (m + 1) p e (t :: r) = _; rw [operands, h t r rfl p (Nat.le_refl _)]

theorem binTok_ten (db : Db) {p : Nat} (hp : 10 ≤ p) (t : Token) : binTok db p t = none := by
  unfold binTok
  split <;> first | rfl | omega

theorem stops_ten {p : Nat} (hp : 10 ≤ p) (r : List Tok) : Stops env p r := fun _ _ _ _ h => binTok_ten _ (by omega) _

/-- The level reads the expression, and goes on with its operands. -/
def Compl (env : Env) (p : Nat) (e : Expr) (ts : List Tok) : Prop := ∀ r, Stops env (p + 1) r → ∃ e', eraseE e' = eraseE e ∧
  ∀ v, Runs (fun n => operands env n p e' r) v → Runs (fun n => level env n p (ts ++ r)) v

theorem Compl.level {p : Nat} {e : Expr} {ts r : List Tok} (h : Compl env p e ts) (hr : Stops env p r) :
    ∃ e', eraseE e' = eraseE e ∧ Runs (fun n => level env n p (ts ++ r)) (.ok e' r) := by
  obtain ⟨e', he, h⟩ := h r (hr.mono (by omega))
  exact ⟨e', he, h _ (operands_stop hr)⟩

theorem compl_ten {e : Expr} {ts : List Tok}
    (h : ∀ r, ∃ e', eraseE e' = eraseE e ∧ Runs (fun n => unary env n (ts ++ r)) (.ok e' r)) : Compl env 10 e ts := by
  intro r _
  obtain ⟨e', he, h⟩ := h r
  refine ⟨e', he, fun v hv => ?_⟩
  rw [hv.unique (operands_stop (stops_ten (by omega) r))]
  exact runs_unary h

theorem compl_atom {e : Expr} {t : Tok} {ts : List Tok} (hu : unTok env.db t.1 = none)
    (h : ∀ r, ∃ e', eraseE e' = eraseE e ∧ Runs (fun n => atom env n (t :: ts ++ r)) (.ok e' r)) :
    Compl env 10 e (t :: ts) := by
  refine compl_ten fun r => ?_
  obtain ⟨e', he, h⟩ := h r
  refine ⟨e', he, h.succ fun n => ?_⟩
  rw [List.cons_append, unary, hu]

theorem compl_leaf {e : Expr} {t : Tok} (hu : unTok env.db t.1 = none) (h1 : t.1 ≠ .ctl .squareOpen)
    (h2 : t.1 ≠ .ctl .roundOpen) (h3 : t.1 ≠ .ctl .curlyOpen) (hl : leaf env.db t = some e) : Compl env 10 e [t] := by
  refine compl_atom hu fun r => ⟨e, rfl, 1, fun n hn => ?_⟩
  obtain ⟨m, rfl⟩ : ∃ m, n = m + 1 := ⟨n - 1, by omega⟩
  show atom env (m + 1) (t :: r) = _
  rw [atom, if_neg h1, if_neg h2, if_neg h3, hl]

/-- An expression cannot begin here. -/
def NoStart (env : Env) (ts : List Tok) : Prop := ∀ t r, ts = t :: r → unTok env.db t.1 = none ∧ t.1 ≠ .ctl .squareOpen ∧
  t.1 ≠ .ctl .roundOpen ∧ t.1 ≠ .ctl .curlyOpen ∧ leaf env.db t = none

theorem level_fails {ts : List Tok} (h : NoStart env ts) : ∀ k p, p + k = 10 → Runs (fun n => level env n p ts) .fail := by
  intro k
  induction k with
  | zero =>
    intro p hp
    obtain rfl : p = 10 := by omega
    refine runs_unary ⟨2, fun n hn => ?_⟩
    obtain ⟨m, rfl⟩ : ∃ m, n = m + 2 := ⟨n - 2, by omega⟩
    cases ts with
    | nil => show unary env (m + 1 + 1) [] = _; rw [unary]
    | cons t r =>
      obtain ⟨h1, h2, h3, h4, h5⟩ := h t r rfl
      show unary env (m + 1 + 1) (t :: r) = _
      rw [unary, h1]
      dsimp only
      rw [atom, if_neg h2, if_neg h3, if_neg h4, h5]
  | succ k ih =>
    intro p hp
    exact runs_level_fail (by omega) (ih (p + 1) (by omega))

/-- The statements end here. -/
def Closes (r : List Tok) : Prop := r = [] ∨ ∃ sp r', r = (.ctl .curlyClose, sp) :: r'

/-- A statement ends here. -/
def Ends (r : List Tok) : Prop := Closes r ∨ ∃ sp r', r = (.ctl .terminator, sp) :: r'

theorem Closes.noStart {r : List Tok} (h : Closes r) : NoStart env r := by
  rintro t r' rfl
  rcases h with h | ⟨sp, r', h⟩
  · cases h
  · cases h
    exact ⟨rfl, by simp, by simp, by simp, rfl⟩

theorem ctl_stops {c : Ctl} {sp : Span} {r : List Tok} (q : Nat) : Stops env q ((.ctl c, sp) :: r) := by
  intro t r' e p _
  cases e
  dsimp only
  unfold binTok
  split <;> first | rfl | contradiction

theorem Ends.stops {r : List Tok} (h : Ends r) (q : Nat) : Stops env q r := by
  rcases h with (rfl | ⟨_, _, rfl⟩) | ⟨_, _, rfl⟩
  · intro t r' e; cases e
  · exact ctl_stops q
  · exact ctl_stops q

/-! ### What follows a name at the beginning of an expression -/

/-- Nothing, or a binary command. -/
def OpNext (db : Db) (ts : List Tok) : Prop := ts = [] ∨ ∃ t ts', ts = t :: ts' ∧ (binOf db t.1).isSome = true

theorem OpNext.append {db : Db} {ts us : List Tok} (h : OpNext db ts) (hu : OpNext db us) : OpNext db (ts ++ us) := by
  rcases h with rfl | ⟨t, ts', rfl, h⟩
  · exact hu
  · exact Or.inr ⟨t, ts' ++ us, rfl, h⟩

end

theorem der_ne_nil {db : Db} {flex : Bool} : ∀ {p e ts}, Der db flex p e ts → ts ≠ []
  | _, _, _, .num | _, _, _, .str | _, _, _, .tru _ | _, _, _, .fls _ | _, _, _, .nular _ _ _ | _, _, _, .var _
  | _, _, _, .paren _ | _, _, _, .arr0 | _, _, _, .arr _ | _, _, _, .code _ | _, _, _, .un _ _ | _, _, _, .bin _ _ _ _ => by simp
  | _, _, _, .weaken _ h => der_ne_nil h

theorem cons_append_append {α : Type} {x y : α} {l r : List α} : x :: l.append [y] ++ r = x :: (l ++ y :: r) := by
  show x :: l ++ [y] ++ r = _
  simp

theorem cons_of_append {α : Type} {l m us : List α} {x : α} (hl : l ≠ []) (h : l ++ m = x :: us) :
    ∃ l', l = x :: l' ∧ us = l' ++ m := by
  cases l with
  | nil => exact absurd rfl hl
  | cons y l =>
    simp only [List.cons_append, List.cons.injEq] at h
    exact ⟨l, by rw [h.1], h.2.symm⟩

theorem var_next {db : Db} {flex : Bool} {n : Bytes} (hn : IsVar db n) : ∀ {p e ts}, Der db flex p e ts →
    ∀ s us, ts = (.ident n, s) :: us → OpNext db us
  | _, _, _, .num, s, us, h | _, _, _, .str, s, us, h | _, _, _, .paren _, s, us, h
  | _, _, _, .arr0, s, us, h | _, _, _, .arr _, s, us, h | _, _, _, .code _, s, us, h => by simp at h
  | _, _, _, .tru _, s, us, h | _, _, _, .fls _, s, us, h | _, _, _, .nular _ _ _, s, us, h | _, _, _, .var _, s, us, h => by
    simp only [List.cons.injEq] at h
    exact Or.inl h.2.symm
  | _, _, _, .un hu _, s, us, h => by
    simp only [List.cons.injEq, Prod.mk.injEq] at h
    obtain ⟨⟨rfl, rfl⟩, rfl⟩ := h
    simp [unOf, hn.2.1] at hu
  | _, _, _, .bin (tl := tl) (tr := tr) (t := t) (sp := sp) hb _ hl _, s, us, h => by
    obtain ⟨tl', h1, rfl⟩ := cons_of_append (der_ne_nil hl) h
    exact (var_next hn hl s tl' h1).append (Or.inr ⟨_, _, rfl, by rw [hb]; rfl⟩)
  | _, _, _, .weaken _ hd, s, us, h => var_next hn hd s us h

theorem un_next {db : Db} {flex : Bool} {n : Bytes} (hdb : db.Plain) (hn : db.hasUnary n = true) : ∀ {p e ts},
    Der db flex p e ts → ∀ s us, ts = (.ident n, s) :: us →
    ∃ e' vs ws, us = vs ++ ws ∧ Der db flex 10 e' vs ∧ OpNext db ws
  | _, _, _, .num, s, us, h | _, _, _, .str, s, us, h | _, _, _, .paren _, s, us, h
  | _, _, _, .arr0, s, us, h | _, _, _, .arr _, s, us, h | _, _, _, .code _, s, us, h => by simp at h
  | _, _, _, .tru h', s, us, h => by
    simp only [List.cons.injEq, Prod.mk.injEq, Token.ident.injEq] at h
    exact absurd (h.1.1 ▸ h') (hdb.operand n hn).2.1
  | _, _, _, .fls h', s, us, h => by
    simp only [List.cons.injEq, Prod.mk.injEq, Token.ident.injEq] at h
    exact absurd (h.1.1 ▸ h') (hdb.operand n hn).2.2
  | _, _, _, .nular h' _ _, s, us, h => by
    simp only [List.cons.injEq, Prod.mk.injEq, Token.ident.injEq] at h
    rw [h.1.1, (hdb.operand n hn).1] at h'
    cases h'
  | _, _, _, .var h', s, us, h => by
    simp only [List.cons.injEq, Prod.mk.injEq, Token.ident.injEq] at h
    have := h'.2.1
    rw [h.1.1, hn] at this
    cases this
  | _, _, _, .un _ hd, s, us, h => by
    simp only [List.cons.injEq] at h
    exact ⟨_, us, [], by simp, h.2 ▸ hd, Or.inl rfl⟩
  | _, _, _, .bin (tl := tl) hb _ hl _, s, us, h => by
    obtain ⟨tl', h1, rfl⟩ := cons_of_append (der_ne_nil hl) h
    obtain ⟨e', vs, ws, rfl, hd, ho⟩ := un_next hdb hn hl s tl' h1
    exact ⟨e', vs, _, List.append_assoc .., hd, ho.append (Or.inr ⟨_, _, rfl, by rw [hb]; rfl⟩)⟩
  | _, _, _, .weaken _ hd, s, us, h => un_next hdb hn hd s us h


/-! ### Completeness -/

section
variable {env : Env}

theorem target_none {r : List Tok} (hr : ∀ s2 r', r ≠ (.op .assign, s2) :: r') {v : Token} {s1 : Span} :
    target env.db ((v, s1) :: r) = none := by
  unfold target
  split
  · rename_i h
    simp only [List.cons.injEq] at h
    exact absurd h.2 (hr _ _)
  · rfl

theorem opNext_ends {db : Db} {ws r : List Tok} (h : OpNext db ws) (hr : Ends r) :
    ∀ s2 r', ws ++ r ≠ (.op .assign, s2) :: r' := by
  intro s2 r' e
  rcases h with rfl | ⟨t, ws', rfl, h⟩
  · rw [List.nil_append] at e
    subst e
    rcases hr with (h | ⟨_, _, h⟩) | ⟨_, _, h⟩ <;> simp at h
  · simp only [List.cons_append, List.cons.injEq] at e
    rw [e.1] at h
    simp [binOf] at h

/-- An expression is not taken for an assignment. -/
theorem no_assignment (hdb : env.db.Plain) {p : Nat} {e : Expr} {ts r : List Tok} (hd : Der env.db false p e ts) (hr : Ends r) :
    target env.db (if isPrivate (ts ++ r) then (ts ++ r).tail else ts ++ r) = none := by
  have key : ∀ {p e ts ws}, Der env.db false p e ts → OpNext env.db ws → target env.db (ts ++ (ws ++ r)) = none := by
    intro p e ts ws hd hw
    match ts, hd with
    | [], hd => exact absurd rfl (der_ne_nil hd)
    | (t, s) :: ts, hd =>
      cases h : target env.db ((t, s) :: ts ++ (ws ++ r)) with
      | none => rfl
      | some x =>
        obtain ⟨v, r0⟩ := x
        obtain ⟨s1, s2, he, hv⟩ := target_some h
        simp only [List.cons_append, List.cons.injEq, Prod.mk.injEq] at he
        obtain ⟨⟨rfl, rfl⟩, he⟩ := he
        rw [← List.append_assoc] at he
        exact absurd he (opNext_ends ((var_next hv hd s ts rfl).append hw) hr _ _)
  cases hp : isPrivate (ts ++ r) with
  | false =>
    rw [if_neg (by simp)]
    exact key (ws := []) hd (Or.inl rfl)
  | true =>
    rw [if_pos rfl]
    obtain ⟨m, sp, r0, he, hm⟩ := isPrivate_iff hp
    match ts, hd with
    | [], hd => exact absurd rfl (der_ne_nil hd)
    | t :: ts, hd =>
      simp only [List.cons_append, List.cons.injEq] at he
      obtain ⟨rfl, rfl⟩ := he
      obtain ⟨e', vs, ws, rfl, hd', ho⟩ := un_next hdb (hdb.priv m hm) hd sp ts rfl
      rw [List.cons_append, List.tail_cons, List.append_assoc]
      exact key hd' ho

theorem unTok_ctl (db : Db) (c : Ctl) : unTok db (.ctl c) = none := by cases c <;> rfl

theorem isPrivate_var (hdb : env.db.Plain) {n : Bytes} (hn : IsVar env.db n) {s : Span} {r : List Tok} :
    isPrivate ((.ident n, s) :: r) = false := by
  cases h : isPrivate ((.ident n, s) :: r) with
  | false => rfl
  | true =>
    obtain ⟨m, sp, r0, he, hm⟩ := isPrivate_iff h
    simp only [List.cons.injEq, Prod.mk.injEq, Token.ident.injEq] at he
    have := hdb.priv m hm
    rw [← he.1.1, hn.2.1] at this
    cases this

theorem leaf_ident (n : Bytes) (s : Span) (hu : env.db.hasUnary n = false) {e : Expr} (h : leaf env.db (.ident n, s) = some e) :
    Compl env 10 e [(.ident n, s)] :=
  compl_leaf (by simp [unTok, hu]) (by simp) (by simp) (by simp) h

mutual
theorem der_complete (hdb : env.db.Plain) : ∀ {p e ts}, Der env.db false p e ts → Compl env p e ts
  | _, _, _, .num => compl_leaf rfl (by simp) (by simp) (by simp) rfl
  | _, _, _, .str => compl_leaf rfl (by simp) (by simp) (by simp) rfl
  | _, _, _, .tru (n := n) h => by
    refine leaf_ident n _ ?_ (by rw [leaf, if_pos ((eqIgnore_iff (by decide)).2 h)])
    cases hu : env.db.hasUnary n with
    | false => rfl
    | true => exact absurd h (hdb.operand n hu).2.1
  | _, _, _, .fls (n := n) h => by
    refine leaf_ident n _ ?_ (by
      rw [leaf, if_neg (fun e => absurd (((eqIgnore_iff (by decide)).1 e).symm.trans h) (by decide)),
        if_pos ((eqIgnore_iff (by decide)).2 h)])
    cases hu : env.db.hasUnary n with
    | false => rfl
    | true => exact absurd h (hdb.operand n hu).2.2
  | _, _, _, .nular (n := n) h h1 h2 => by
    refine leaf_ident n _ ?_ (by
      rw [leaf, if_neg (fun e => h1 ((eqIgnore_iff (by decide)).1 e)), if_neg (fun e => h2 ((eqIgnore_iff (by decide)).1 e)),
        if_pos h])
    cases hu : env.db.hasUnary n with
    | false => rfl
    | true =>
      rw [(hdb.operand n hu).1] at h
      cases h
  | _, _, _, .var (n := n) h => by
    refine leaf_ident n _ h.2.1 ?_
    have h1 : ¬ eqIgnore n (ascii "true") = true := fun e =>
      h.2.2.2 (by rw [(eqIgnore_iff (by decide)).1 e]; decide)
    have h2 : ¬ eqIgnore n (ascii "false") = true := fun e =>
      h.2.2.2 (by rw [(eqIgnore_iff (by decide)).1 e]; decide)
    rw [leaf, if_neg h1, if_neg h2, if_neg (by rw [h.1]; simp), if_pos ((isVariable_iff _ _).2 h)]
  | _, _, _, .paren (e := e) (ts := ts) (s1 := s1) (s2 := s2) h => by
    refine compl_atom (unTok_ctl ..) fun r => ?_
    obtain ⟨e', he, h⟩ := (der_complete hdb h).level (r := (.ctl .roundClose, s2) :: r) (ctl_stops 1)
    refine ⟨e', he, (h.andThen (k := fun _ e r => match r with
      | (.ctl .roundClose, _) :: r' => .ok e r'
      | _ => .fail) (f := fun _ => .fail) (.const (.ok e' r))).succ fun n => ?_⟩
    rw [cons_append_append, atom, if_neg (by simp), if_pos rfl]
    rfl
  | _, _, _, .arr0 (s1 := s1) (s2 := s2) => by
    refine compl_atom (unTok_ctl ..) fun r => ?_
    have hf : Runs (fun n => elements env n ((.ctl .squareClose, s2) :: r)) (.ok [] ((.ctl .squareClose, s2) :: r)) := by
      refine (((level_fails (env := env) (ts := (.ctl .squareClose, s2) :: r) ?_ 9 1 rfl).andThenFail (k := fun n e r => moreElements env n [e] r)
        (f := fun _ => .ok [] ((.ctl .squareClose, s2) :: r)) (.const _))).succ fun n => ?_
      · rintro t r' e
        cases e
        exact ⟨rfl, by simp, by simp, by simp, rfl⟩
      · rw [elements]
    refine ⟨.arr [] (env.spanSince ((.ctl .squareClose, s2) :: r) ((.ctl .squareClose, s2) :: r)), rfl,
      (hf.andThen (k := fun _ es r' => match r' with
        | (.ctl .squareClose, _) :: r'' => .ok (.arr es (env.spanSince ((.ctl .squareClose, s2) :: r) r')) r''
        | _ => .fail) (f := fun _ => .fail) (.const _)).succ fun n => ?_⟩
    rw [List.cons_append, atom, if_pos rfl]
    rfl
  | _, _, _, .arr (es := es) (ts := ts) (s1 := s1) (s2 := s2) h => by
    refine compl_atom (unTok_ctl ..) fun r => ?_
    obtain ⟨es', he, h, _⟩ := list_complete hdb h ((.ctl .squareClose, s2) :: r) ⟨s2, r, rfl⟩
    refine ⟨.arr es' (env.spanSince (ts ++ (.ctl .squareClose, s2) :: r) ((.ctl .squareClose, s2) :: r)),
      by rw [eraseE, eraseE, he],
      (h.andThen (k := fun _ es r' => match r' with
        | (.ctl .squareClose, _) :: r'' => .ok (.arr es (env.spanSince (ts ++ (.ctl .squareClose, s2) :: r) r')) r''
        | _ => .fail) (f := fun _ => .fail) (.const _)).succ fun n => ?_⟩
    rw [cons_append_append, atom, if_pos rfl]
    rfl
  | _, _, _, .code (ss := ss) (ts := ts) (s1 := s1) (s2 := s2) h => by
    refine compl_atom (unTok_ctl ..) fun r => ?_
    obtain ⟨ss', he, h, _⟩ := block_complete hdb h ((.ctl .curlyClose, s2) :: r) (Or.inr ⟨s2, r, rfl⟩)
    refine ⟨.code ss' (env.extract (env.spanSince (ts ++ (.ctl .curlyClose, s2) :: r) ((.ctl .curlyClose, s2) :: r)))
      (env.spanSince (ts ++ (.ctl .curlyClose, s2) :: r) ((.ctl .curlyClose, s2) :: r)), by rw [eraseE, eraseE, he],
      (h.andThen (k := fun _ ss r' => match r' with
        | (.ctl .curlyClose, _) :: r'' => .ok (.code ss (env.extract (env.spanSince (ts ++ (.ctl .curlyClose, s2) :: r) r'))
            (env.spanSince (ts ++ (.ctl .curlyClose, s2) :: r) r')) r''
        | _ => .fail) (f := fun _ => .fail) (.const _)).succ fun n => ?_⟩
    rw [cons_append_append, atom, if_neg (by simp), if_neg (by simp), if_pos rfl]
    rfl
  | _, _, _, .un (t := t) (c := c) (e := e) (ts := ts) (sp := sp) hu h => by
    refine compl_ten fun r => ?_
    obtain ⟨e', he, h⟩ := (der_complete hdb h).level (stops_ten (Nat.le_refl _) r)
    refine ⟨.un c e' sp, by rw [eraseE, eraseE, he], ((runs_unary' h).andThen (k := fun _ e r => .ok (.un c e sp) r)
      (f := fun _ => .fail) (.const _)).succ fun n => ?_⟩
    rw [List.cons_append, unary, unTok_eq, hu]
  | _, _, _, .bin (t := t) (c := c) (p := p) (l := l) (r := r) (tl := tl) (tr := tr) (sp := sp) hb hp hl hr => by
    intro rest hrest
    have hbt : ∀ q c', binTok env.db q t = some c' ↔ binOf env.db t = some c' ∧ prec c' = q := fun q c' =>
      binTok_iff hdb.special q t c'
    have hst : Stops env (p + 1) ((t, sp) :: (tr ++ rest)) := by
      intro t' r' e q hq
      cases e
      cases hc : binTok env.db q t with
      | none => rfl
      | some c' =>
        obtain ⟨h1, h2⟩ := (hbt q c').1 hc
        rw [hb] at h1
        cases h1
        omega
    obtain ⟨l', hel, hl'⟩ := der_complete hdb hl ((t, sp) :: (tr ++ rest)) hst
    obtain ⟨r', her, hr'⟩ := (der_complete hdb hr).level hrest
    refine ⟨.bin c l' r' sp, by rw [eraseE, eraseE, hel, her], fun v hv => ?_⟩
    rw [List.append_assoc, List.cons_append]
    refine hl' v ((hr'.andThen (k := fun n e2 r => operands env n p (.bin c l' e2 sp) r)
      (f := fun _ => .ok l' ((t, sp) :: (tr ++ rest))) hv).succ fun n => ?_)
    rw [operands, (hbt p c).2 ⟨hb, hp⟩]
  | _, _, _, .weaken (p := p) (e := e) (ts := ts) hp h => by
    intro r hr
    obtain ⟨e', he, h⟩ := (der_complete hdb h).level hr
    exact ⟨e', he, fun v hv => runs_level hp h hv⟩

theorem list_complete (hdb : env.db.Plain) : ∀ {es ts}, DerList env.db false es ts → ∀ r,
    (∃ s r', r = (.ctl .squareClose, s) :: r') → ∃ es', eraseEs es' = eraseEs es ∧
      Runs (fun n => elements env n (ts ++ r)) (.ok es' r) ∧
      ∀ acc sp, Runs (fun n => moreElements env n acc ((.ctl .separator, sp) :: (ts ++ r))) (.ok (acc.reverse ++ es') r)
  | _, _, .one (e := e) (ts := ts) h, r, hr => by
    obtain ⟨s, r', rfl⟩ := hr
    obtain ⟨e', he, h⟩ := (der_complete hdb h).level (r := (.ctl .squareClose, s) :: r') (ctl_stops 1)
    have hm : ∀ acc, Runs (fun n => moreElements env n acc ((.ctl .squareClose, s) :: r'))
        (.ok acc.reverse ((.ctl .squareClose, s) :: r')) := fun acc =>
      (Runs.const _).succ fun n => by rw [moreElements, if_neg (by simp)]
    refine ⟨[e'], by simp [eraseEs, he], ?_, fun acc sp => ?_⟩
    · refine (h.andThen (k := fun n e r => moreElements env n [e] r)
        (f := fun _ => .ok [] (ts ++ (.ctl .squareClose, s) :: r')) (hm [e'])).succ fun n => by rw [elements]
    · have := hm (e' :: acc)
      rw [List.reverse_cons] at this
      exact (h.andThen (k := fun n e r => moreElements env n (e :: acc) r)
        (f := fun _ => .ok acc.reverse ((.ctl .separator, sp) :: (ts ++ (.ctl .squareClose, s) :: r'))) this).succ fun n => by
          rw [moreElements, if_pos rfl]
  | _, _, .cons (e := e) (es := es) (ts := ts) (us := us) (sp := sp0) h hl, r, hr => by
    obtain ⟨es', hes, _, hm⟩ := list_complete hdb hl r hr
    obtain ⟨e', he, h⟩ := (der_complete hdb h).level (r := (.ctl .separator, sp0) :: (us ++ r)) (ctl_stops 1)
    refine ⟨e' :: es', by simp [eraseEs, he, hes], ?_, fun acc sp => ?_⟩
    · rw [List.append_assoc, List.cons_append]
      exact (h.andThen (k := fun n e r => moreElements env n [e] r)
        (f := fun _ => .ok [] (ts ++ (.ctl .separator, sp0) :: (us ++ r))) (hm [e'] sp0)).succ fun n => by rw [elements]
    · rw [List.append_assoc, List.cons_append]
      have := hm (e' :: acc) sp0
      rw [List.reverse_cons, List.append_assoc] at this
      exact (h.andThen (k := fun n e r => moreElements env n (e :: acc) r)
        (f := fun _ => .ok acc.reverse ((.ctl .separator, sp) :: (ts ++ (.ctl .separator, sp0) :: (us ++ r)))) this).succ fun n => by
          rw [moreElements, if_pos rfl]

theorem stmt_complete (hdb : env.db.Plain) : ∀ {s ts}, DerStmt env.db false s ts → ∀ r, Ends r →
    ∃ s', eraseS s' = eraseS s ∧ Runs (fun n => statement env n (ts ++ r)) (.ok s' r)
  | _, _, .expr (e := e) (ts := ts) h, r, hr => by
    have hna := no_assignment hdb h hr
    obtain ⟨e', he, h⟩ := (der_complete hdb h).level (hr.stops 1)
    have ha : Runs (fun n => assignment env n (ts ++ r)) .fail :=
      (Runs.const _).succ fun n => by rw [assignment, hna]
    refine ⟨.expr e' (env.spanSince (ts ++ r) r), by simp [eraseS, he], ?_⟩
    refine (ha.andThenFail (k := fun _ s r => .ok s r)
      (f := fun n => (level env n 1 (ts ++ r)).andThen (fun e r' => .ok (Stmt.expr e (env.spanSince (ts ++ r) r')) r') .fail)
      (h.andThen (k := fun _ e r' => .ok (Stmt.expr e (env.spanSince (ts ++ r) r')) r') (f := fun _ => .fail)
        (.const _))).succ fun n => by rw [statement]
  | _, _, .global (n := v) (e := e) (ts := ts) (s1 := s1) (s2 := s2) hv h, r, hr => by
    obtain ⟨e', he, h⟩ := (der_complete hdb h).level (hr.stops 1)
    generalize hall : (Token.ident v, s1) :: (Token.op .assign, s2) :: ts ++ r = all
    have hp : isPrivate all = false := by rw [← hall]; exact isPrivate_var hdb hv
    have ht : target env.db all = some (v, ts ++ r) := by
      rw [← hall]
      simp only [List.cons_append, target]
      rw [if_pos ((isVariable_iff _ _).2 hv)]
    have ha : Runs (fun n => assignment env n all) (.ok (.assignGlobal v e' (env.spanSince all r)) r) := by
      refine (h.andThen (k := fun _ e r' => .ok (.assignGlobal v e (env.spanSince all r')) r') (f := fun _ => .fail)
        (.const _)).succ fun n => ?_
      rw [assignment, hp, if_neg (by simp), ht]
      simp
    exact ⟨.assignGlobal v e' (env.spanSince all r), by simp [eraseS, he],
      (ha.andThen (k := fun _ s r => .ok s r) (f := fun n => (level env n 1 all).andThen
        (fun e r' => .ok (Stmt.expr e (env.spanSince all r')) r') .fail) (.const _)).succ fun n => by rw [statement]⟩
  | _, _, .priv (m := m) (n := v) (e := e) (ts := ts) (s0 := s0) (s1 := s1) (s2 := s2) hm hv h, r, hr => by
    obtain ⟨e', he, h⟩ := (der_complete hdb h).level (hr.stops 1)
    generalize hall : (Token.ident m, s0) :: (Token.ident v, s1) :: (Token.op .assign, s2) :: ts ++ r = all
    have hp : isPrivate all = true := by
      rw [← hall]
      exact (eqIgnore_iff (by decide)).2 hm
    have ht : target env.db all.tail = some (v, ts ++ r) := by
      rw [← hall]
      simp only [List.cons_append, List.tail_cons, target]
      rw [if_pos ((isVariable_iff _ _).2 hv)]
    have ha : Runs (fun n => assignment env n all) (.ok (.assignLocal v e' (env.spanSince all r)) r) := by
      refine (h.andThen (k := fun _ e r' => .ok (.assignLocal v e (env.spanSince all r')) r') (f := fun _ => .fail)
        (.const _)).succ fun n => ?_
      rw [assignment, hp, if_pos rfl, ht]
      simp
    exact ⟨.assignLocal v e' (env.spanSince all r), by simp [eraseS, he],
      (ha.andThen (k := fun _ s r => .ok s r) (f := fun n => (level env n 1 all).andThen
        (fun e r' => .ok (Stmt.expr e (env.spanSince all r')) r') .fail) (.const _)).succ fun n => by rw [statement]⟩

theorem block_complete (hdb : env.db.Plain) : ∀ {ss ts}, DerBlock env.db false ss ts → ∀ r, Closes r →
    ∃ ss', eraseSs ss' = eraseSs ss ∧ Runs (fun n => statements env n (ts ++ r)) (.ok ss' r) ∧
      ∀ acc sp, Runs (fun n => moreStatements env n acc ((.ctl .terminator, sp) :: (ts ++ r))) (.ok (acc.reverse ++ ss') r)
  | _, _, .nil, r, hr => by
    have hf : Runs (fun n => statement env n r) .fail := by
      have ha : Runs (fun n => assignment env n r) .fail := by
        refine (Runs.const _).succ fun n => ?_
        rcases hr with rfl | ⟨s, r', rfl⟩
        · rw [assignment]; rfl
        · rw [assignment]; rfl
      exact (ha.andThenFail (k := fun _ s r => .ok s r)
        (f := fun n => (level env n 1 r).andThen (fun e r' => .ok (Stmt.expr e (env.spanSince r r')) r') .fail)
        ((level_fails hr.noStart 9 1 rfl).andThenFail (k := fun _ e r' => .ok (Stmt.expr e (env.spanSince r r')) r')
          (f := fun _ => .fail) (.const _))).succ fun n => by rw [statement]
    refine ⟨[], rfl, ?_, fun acc sp => ?_⟩
    · exact (hf.andThenFail (k := fun n s r => moreStatements env n [s] r) (f := fun _ => .ok [] r) (.const _)).succ
        fun n => by rw [List.nil_append, statements]
    · rw [List.append_nil]
      exact (hf.andThenFail (k := fun n s r => moreStatements env n (s :: acc) r) (f := fun _ => .ok acc.reverse r)
        (.const _)).succ fun n => by rw [List.nil_append, moreStatements, if_pos rfl]
  | _, _, .last (s := s) (ts := ts) h, r, hr => by
    obtain ⟨s', he, h⟩ := stmt_complete hdb h r (Or.inl hr)
    have hm : ∀ acc, Runs (fun n => moreStatements env n acc r) (.ok acc.reverse r) := fun acc =>
      (Runs.const _).succ fun n => by
        rcases hr with rfl | ⟨s, r', rfl⟩
        · rw [moreStatements]
        · rw [moreStatements, if_neg (by simp)]
    refine ⟨[s'], by simp [eraseSs, he], ?_, fun acc sp => ?_⟩
    · exact (h.andThen (k := fun n s r => moreStatements env n [s] r) (f := fun _ => .ok [] (ts ++ r)) (hm [s'])).succ
        fun n => by rw [statements]
    · have := hm (s' :: acc)
      rw [List.reverse_cons] at this
      exact (h.andThen (k := fun n s r => moreStatements env n (s :: acc) r) (f := fun _ => .ok acc.reverse (ts ++ r))
        this).succ fun n => by rw [moreStatements, if_pos rfl]
  | _, _, .cons (s := s) (ss := ss) (ts := ts) (us := us) (sp := sp0) h hl, r, hr => by
    obtain ⟨ss', hes, _, hm⟩ := block_complete hdb hl r hr
    obtain ⟨s', he, h⟩ := stmt_complete hdb h ((.ctl .terminator, sp0) :: (us ++ r)) (Or.inr ⟨sp0, _, rfl⟩)
    refine ⟨s' :: ss', by simp [eraseSs, he, hes], ?_, fun acc sp => ?_⟩
    · rw [List.append_assoc, List.cons_append]
      exact (h.andThen (k := fun n s r => moreStatements env n [s] r)
        (f := fun _ => .ok [] (ts ++ (.ctl .terminator, sp0) :: (us ++ r))) (hm [s'] sp0)).succ fun n => by rw [statements]
    · rw [List.append_assoc, List.cons_append]
      have := hm (s' :: acc) sp0
      rw [List.reverse_cons, List.append_assoc] at this
      exact (h.andThen (k := fun n s r => moreStatements env n (s :: acc) r)
        (f := fun _ => .ok acc.reverse (ts ++ (.ctl .terminator, sp0) :: (us ++ r))) this).succ fun n => by
          rw [moreStatements, if_pos rfl]
  | _, _, .skip h _, _, _ => by cases h
end

end

end Verif.SqfParse
