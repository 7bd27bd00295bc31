import Verif.Model.Math
/-! Property C05: the evaluator agrees with the conventional expression grammar. -/
namespace Verif.Math
variable {α : Type}

/-! ### Specification: the textbook grammar, with values -/

mutual
/-- `sum ::= sum ('+'|'-') product | product` -/
inductive Sum (N : Num α) : List (Token α) → α → Prop
  | add {l r a b} : Sum N l a → Product N r b → Sum N (l ++ .op '+' :: r) (N.add a b)
  | sub {l r a b} : Sum N l a → Product N r b → Sum N (l ++ .op '-' :: r) (N.sub a b)
  | up {l a} : Product N l a → Sum N l a
/-- `product ::= product ('*'|'/'|'%') power | power` -/
inductive Product (N : Num α) : List (Token α) → α → Prop
  | mul {l r a b} : Product N l a → Power N r b → Product N (l ++ .op '*' :: r) (N.mul a b)
  | div {l r a b} : Product N l a → Power N r b → Product N (l ++ .op '/' :: r) (N.div a b)
  | rem {l r a b} : Product N l a → Power N r b → Product N (l ++ .op '%' :: r) (N.rem a b)
  | up {l a} : Power N l a → Product N l a
/-- `power ::= atom '^' power | atom` -/
inductive Power (N : Num α) : List (Token α) → α → Prop
  | pow {l r a b} : Atom N l a → Power N r b → Power N (l ++ .op '^' :: r) (N.pow a b)
  | up {l a} : Atom N l a → Power N l a
/-- `atom ::= number | '(' sum ')'` -/
inductive Atom (N : Num α) : List (Token α) → α → Prop
  | num (a) : Atom N [.num a] a
  | paren {l a} : Sum N l a → Atom N (.lp :: l ++ [.rp]) a
end

/-! ### Proof -/

theorem run_append (s : List (Token α) × List (Token α)) (xs ys : List (Token α)) :
    run s (xs ++ ys) = match run s xs with | some s' => run s' ys | none => none := by
  induction xs generalizing s with
  | nil => rfl
  | cons x xs ih =>
    simp only [List.cons_append, run]
    cases step s x with
    | none => rfl
    | some s' => exact ih s'

theorem postfix_append (N : Num α) (st : List α) (xs ys : List (Token α)) :
    postfix' N st (xs ++ ys) = match postfix' N st xs with | some s' => postfix' N s' ys | none => none := by
  induction xs generalizing st with
  | nil => rfl
  | cons x xs ih =>
    cases x with
    | num a => simpa [postfix'] using ih (a :: st)
    | op c =>
      simp only [List.cons_append, postfix']
      match st with
      | [] => rfl
      | [_] => rfl
      | r :: l :: st' =>
        simp only
        cases applyOp N c l r with
        | none => rfl
        | some v => exact ih _
    | lp => rfl
    | rp => rfl

/-- Precedence of the pending operators is at least `p`. -/
def PendGe (p : Nat) (l : List (Token α)) : Prop :=
  ∀ t ∈ l, ∃ c q a, t = .op c ∧ operators c = some (q, a) ∧ p ≤ q

/-- The top of the stack is not an operator of precedence `p` or more. -/
def TopLt (p : Nat) (st : List (Token α)) : Prop :=
  ∀ c q a, st.head? = some (.op c) → operators c = some (q, a) → q < p

theorem popOps_pend {p : Nat} {c : Char} {q : Nat} (hc : operators c = some (q, .left)) (hq : q ≤ p)
    {pend st : List (Token α)} (hp : PendGe p pend) (hst : TopLt q st) :
    popOps c (pend ++ st) = (pend, st) := by
  induction pend with
  | nil =>
    cases st with
    | nil => rfl
    | cons t st =>
      cases t with
      | op d =>
        simp only [List.nil_append, popOps]
        have : shouldPop c d = false := by
          unfold shouldPop
          rw [hc]
          cases hd : operators d with
          | none => rfl
          | some x =>
            obtain ⟨q', a'⟩ := x
            have := hst d q' a' rfl hd
            simp; omega
        simp [this]
      | num _ => rfl
      | lp => rfl
      | rp => rfl
  | cons t pend ih =>
    obtain ⟨d, q', a', rfl, hd, hle⟩ := hp t (by simp)
    have : shouldPop c d = true := by
      unfold shouldPop; rw [hc, hd]; simp; omega
    simp only [List.cons_append, popOps, this, if_true]
    rw [ih (fun t ht => hp t (by simp [ht]))]

theorem popOps_pow (st : List (Token α)) : popOps '^' st = ([], st) := by
  cases st with
  | nil => rfl
  | cons t st =>
    cases t with
    | op d =>
      have : shouldPop '^' d = false := by
        have h : ∀ q a, operators d = some (q, a) → q ≤ 3 := by
          intro q a h
          unfold operators at h
          repeat' split at h
          all_goals first | (cases h; omega) | cases h
        unfold shouldPop
        have : operators '^' = some (3, .right) := by decide
        rw [this]
        cases hd : operators d with
        | none => rfl
        | some x =>
          have := h x.1 x.2 hd
          have e : (Assoc.right == Assoc.left) = false := by decide
          simp [e]; omega
      simp [popOps, this]
    | num _ => rfl
    | lp => rfl
    | rp => rfl

theorem popParen_pend {p : Nat} {pend st : List (Token α)} (hp : PendGe p pend) :
    popParen (pend ++ .lp :: st) = some (pend, st) := by
  induction pend with
  | nil => rfl
  | cons t pend ih =>
    obtain ⟨d, q', a', rfl, hd, hle⟩ := hp t (by simp)
    simp only [List.cons_append, popParen]
    rw [ih (fun t ht => hp t (by simp [ht]))]
    rfl

/-- What processing a phrase of level `p` achieves. -/
def Good (N : Num α) (p : Nat) (toks : List (Token α)) (v : α) : Prop :=
  ∀ out st, (p ≤ 2 → TopLt p st) → ∃ q pend, run (out, st) toks = some (out ++ q, pend ++ st) ∧
    PendGe p pend ∧ ∀ vs, postfix' N vs (q ++ pend) = some (v :: vs)

/-- What processing an atom achieves. -/
def GoodAtom (N : Num α) (toks : List (Token α)) (v : α) : Prop :=
  ∀ out st, ∃ q, run (out, st) toks = some (out ++ q, st) ∧
    ∀ vs, postfix' N vs q = some (v :: vs)

theorem good_up {N : Num α} {p : Nat} {l : List (Token α)} {a : α}
    (hg : Good N (p+1) l a) : Good N p l a := by
  intro out st hst
  obtain ⟨q, pend, h1, h2, h3⟩ := hg out st
    (fun h c q a h1 h2 => Nat.lt_succ_of_lt (hst (by omega) c q a h1 h2))
  exact ⟨q, pend, h1, fun t ht => by
    obtain ⟨c, q, a, e1, e2, e3⟩ := h2 t ht
    exact ⟨c, q, a, e1, e2, by omega⟩, h3⟩

theorem good_atom_up {N : Num α} {l : List (Token α)} {a : α} (hg : GoodAtom N l a) :
    Good N 3 l a := by
  intro out st _
  obtain ⟨q, h1, h2⟩ := hg out st
  exact ⟨q, [], by simpa using h1, by intro t ht; simp at ht, by simpa using h2⟩

theorem good_left {N : Num α} {p : Nat} {c : Char} (hp2 : p ≤ 2)
    (hc : operators c = some (p, .left))
    {l r : List (Token α)} {a b v : α} (hl : Good N p l a) (hr : Good N (p+1) r b)
    (hv : applyOp N c a b = some v) : Good N p (l ++ .op c :: r) v := by
  intro out st hst
  obtain ⟨q1, pend1, h1, h2, h3⟩ := hl out st hst
  have hst' : TopLt (p+1) (Token.op c :: st : List (Token α)) := by
    intro d q a hd ho
    simp at hd; subst hd; rw [hc] at ho; cases ho; omega
  obtain ⟨q2, pend2, g1, g2, g3⟩ := hr (out ++ q1 ++ pend1) (.op c :: st) (fun _ => hst')
  refine ⟨q1 ++ pend1 ++ q2, pend2 ++ [.op c], ?_, ?_, ?_⟩
  · rw [run_append, h1]
    simp only [run, step, popOps_pend hc (Nat.le_refl p) h2 (hst hp2)]
    rw [g1]; simp
  · intro t ht
    rcases List.mem_append.1 ht with ht | ht
    · obtain ⟨c, q, a, e1, e2, e3⟩ := g2 t ht
      exact ⟨c, q, a, e1, e2, by omega⟩
    · exact ⟨c, p, .left, by simpa using ht, hc, Nat.le_refl p⟩
  · intro vs
    have : q1 ++ pend1 ++ q2 ++ (pend2 ++ [.op c]) = (q1 ++ pend1) ++ ((q2 ++ pend2) ++ [.op c]) := by
      simp
    rw [this, postfix_append, h3]
    simp only
    rw [postfix_append, g3]
    simp only [postfix', hv]

theorem good_pow {N : Num α} {l r : List (Token α)} {a b : α} (hl : GoodAtom N l a) (hr : Good N 3 r b) :
    Good N 3 (l ++ .op '^' :: r) (N.pow a b) := by
  intro out st _
  obtain ⟨q1, h1, h3⟩ := hl out st
  obtain ⟨q2, pend2, g1, g2, g3⟩ := hr (out ++ q1) (.op '^' :: st) (by omega)
  refine ⟨q1 ++ q2, pend2 ++ [.op '^'], ?_, ?_, ?_⟩
  · rw [run_append, h1]
    simp only [run, step, popOps_pow, List.append_nil]
    rw [g1]; simp
  · intro t ht
    rcases List.mem_append.1 ht with ht | ht
    · exact g2 t ht
    · exact ⟨'^', 3, .right, by simpa using ht, by decide, Nat.le_refl 3⟩
  · intro vs
    have : q1 ++ q2 ++ (pend2 ++ [.op '^']) = q1 ++ ((q2 ++ pend2) ++ [.op '^']) := by simp
    have hv : applyOp N '^' a b = some (N.pow a b) := by simp [applyOp]
    rw [this, postfix_append, h3]
    simp only
    rw [postfix_append, g3]
    simp only [postfix', hv]

theorem good_paren {N : Num α} {l : List (Token α)} {a : α} (hl : Good N 1 l a) :
    GoodAtom N (.lp :: l ++ [.rp]) a := by
  intro out st
  have hst : TopLt 1 (Token.lp :: st : List (Token α)) := by
    intro d q a hd; simp at hd
  obtain ⟨q, pend, h1, h2, h3⟩ := hl out (.lp :: st) (fun _ => hst)
  refine ⟨q ++ pend, ?_, h3⟩
  simp only [List.cons_append, run, step]
  rw [run_append, h1]
  simp only [run, step, popParen_pend h2]
  simp

mutual
theorem sum_good {N : Num α} {l : List (Token α)} {a : α} : Sum N l a → Good N 1 l a
  | .add h1 h2 => good_left (by omega) (by decide) (sum_good h1) (product_good h2) (by simp [applyOp])
  | .sub h1 h2 => good_left (by omega) (by decide) (sum_good h1) (product_good h2) (by simp [applyOp])
  | .up h => good_up (product_good h)
theorem product_good {N : Num α} {l : List (Token α)} {a : α} : Product N l a → Good N 2 l a
  | .mul h1 h2 => good_left (by omega) (by decide) (product_good h1) (power_good h2) (by simp [applyOp])
  | .div h1 h2 => good_left (by omega) (by decide) (product_good h1) (power_good h2) (by simp [applyOp])
  | .rem h1 h2 => good_left (by omega) (by decide) (product_good h1) (power_good h2) (by simp [applyOp])
  | .up h => good_up (power_good h)
theorem power_good {N : Num α} {l : List (Token α)} {a : α} : Power N l a → Good N 3 l a
  | .pow h1 h2 => good_pow (atom_good h1) (power_good h2)
  | .up h => good_atom_up (atom_good h)
theorem atom_good {N : Num α} {l : List (Token α)} {a : α} : Atom N l a → GoodAtom N l a
  | .num a => fun out st => ⟨[.num a], by simp [run, step], by simp [postfix']⟩
  | .paren h => good_paren (sum_good h)
end

/-- C05 (token level): every token sequence derivable from the grammar evaluates to the value the
grammar assigns to it. -/
theorem C05_tokens (N : Num α) (toks : List (Token α)) (v : α) (h : Sum N toks v) :
    evalTokens N toks = some v := by
  obtain ⟨q, pend, h1, _, h3⟩ := sum_good h [] [] (fun _ => by intro c q a h; simp at h)
  simp only [List.nil_append, List.append_nil] at h1
  simp [evalTokens, shuntingYard, h1, evaluatePostfix, h3]

/-! ### Text level -/

/-- Written form of a token: numbers as typed, with an optional minus sign. -/
inductive Lexeme where
  | num (neg : Bool) (digits : Text)
  | op (c : Char)
  | lp
  | rp
deriving DecidableEq, Repr

/-- The characters of a lexeme. -/
def Lexeme.text : Lexeme → Text
  | .num neg ds => (if neg then ['-'] else []) ++ ds
  | .op c => [c]
  | .lp => ['(']
  | .rp => [')']

/-- The token a lexeme stands for. -/
def Lexeme.token? (N : Num α) : Lexeme → Option (Token α)
  | .num neg ds => (N.parse ((if neg then ['-'] else []) ++ ds)).map .num
  | .op c => some (.op c)
  | .lp => some .lp
  | .rp => some .rp

/-- Text of a lexeme sequence, every lexeme followed by a number of blanks. -/
def render : List (Lexeme × Nat) → Text
  | [] => []
  | (l, n) :: ls => l.text ++ List.replicate n ' ' ++ render ls

/-- Legal writing: digits are digits or dots and not empty, operators are the six known ones,
two numbers do not follow each other, and a minus sign is only part of a number directly
after an operator or an opening parenthesis. -/
def Legal : Option Lexeme → List Lexeme → Prop
  | _, [] => True
  | prev, l :: ls =>
    (match l with
     | .num neg ds => ds ≠ [] ∧ (∀ c ∈ ds, isNumChar c = true) ∧
        (∀ n d, prev ≠ some (.num n d)) ∧
        (neg = true → prev = some .lp ∨ ∃ c, prev = some (.op c))
     | .op c => c ∈ ['+', '-', '*', '/', '^', '%'] ∧ (c = '-' → prev ≠ some .lp ∧ ∀ d, prev ≠ some (.op d))
     | _ => True) ∧ Legal (some l) ls

/-- The tokens of a lexeme sequence. -/
def tokens? (N : Num α) : List Lexeme → Option (List (Token α))
  | [] => some []
  | l :: ls => match l.token? N, tokens? N ls with
    | some t, some ts => some (t :: ts)
    | _, _ => none

/-- The token list reflects the previous lexeme. -/
def Kind (prev : Option Lexeme) (T : List (Token α)) : Prop :=
  match prev with
  | none => T = []
  | some (.num _ _) => ∃ a r, T = .num a :: r
  | some (.op c) => ∃ r, T = .op c :: r
  | some .lp => ∃ r, T = .lp :: r
  | some .rp => ∃ r, T = .rp :: r

theorem flush_nil (N : Num α) (T : List (Token α)) : flush N T [] = some T := rfl

theorem tok_spaces (N : Num α) (n : Nat) (T T' : List (Token α)) (cur s : Text)
    (hf : flush N T cur = some T') :
    ∃ T2 cur2, tokLoop N T cur (List.replicate n ' ' ++ s) = tokLoop N T2 cur2 s ∧
      flush N T2 cur2 = some T' ∧ (cur2 ≠ [] → cur ≠ []) := by
  induction n generalizing T cur with
  | zero => exact ⟨T, cur, by simp, hf, id⟩
  | succ n ih =>
    obtain ⟨T2, c2, h1, h2, h3⟩ := ih T' [] (flush_nil N T')
    refine ⟨T2, c2, ?_, h2, fun h => absurd rfl (h3 h)⟩
    rw [← h1, List.replicate_succ, List.cons_append, tokLoop]
    have hn : isNumChar ' ' = false := by decide
    rw [hn, hf]
    rfl

theorem tok_digits (N : Num α) (T : List (Token α)) (cur ds s : Text)
    (h : ∀ c ∈ ds, isNumChar c = true) :
    tokLoop N T cur (ds ++ s) = tokLoop N T (cur ++ ds) s := by
  induction ds generalizing cur with
  | nil => simp
  | cons d ds ih =>
    have hd : isNumChar d = true := h d (by simp)
    rw [List.cons_append, tokLoop, hd, if_pos rfl, ih _ (fun c hc => h c (by simp [hc]))]
    simp

theorem tok_op (N : Num α) (T T' : List (Token α)) (cur s : Text) (c : Char)
    (hf : flush N T cur = some T') (hc : c ∈ ['+', '-', '*', '/', '^', '%'])
    (hm : c = '-' → (∀ r, T' ≠ .lp :: r) ∧ ∀ d r, T' ≠ .op d :: r) :
    tokLoop N T cur (c :: s) = tokLoop N (.op c :: T') [] s := by
  have hn : isNumChar c = false := by
    simp only [List.mem_cons, List.not_mem_nil, or_false] at hc
    rcases hc with rfl | rfl | rfl | rfl | rfl | rfl <;> decide
  rw [tokLoop, hn, hf]
  simp only [Bool.false_eq_true, if_false]
  by_cases h1 : c = '-'
  · subst h1
    obtain ⟨hm1, hm2⟩ := hm rfl
    rw [if_neg (by decide), if_neg (by decide), if_neg (by decide), if_pos rfl]
    split
    · exact absurd rfl (hm2 _ _)
    · exact absurd rfl (hm1 _)
    · rfl
  · rw [if_pos]
    simp only [List.mem_cons, List.not_mem_nil, or_false] at hc
    rcases hc with rfl | rfl | rfl | rfl | rfl | rfl <;> simp_all

theorem tok_main (N : Num α) (ls : List (Lexeme × Nat)) :
    ∀ (prev : Option Lexeme) (T T' : List (Token α)) (cur : Text) (ts : List (Token α)),
      flush N T cur = some T' → Kind prev T' → (cur ≠ [] → ∃ n d, prev = some (.num n d)) →
      Legal prev (ls.map Prod.fst) → tokens? N (ls.map Prod.fst) = some ts →
      tokLoop N T cur (render ls) = some (T'.reverse ++ ts) := by
  induction ls with
  | nil =>
    intro prev T T' cur ts hf _ _ _ ht
    simp [tokens?] at ht
    subst ht
    simp [render, tokLoop, hf]
  | cons x ls ih =>
    obtain ⟨l, n⟩ := x
    intro prev T T' cur ts hf hk hcur hleg ht
    simp only [List.map_cons, Legal] at hleg
    obtain ⟨hl, hrest⟩ := hleg
    simp only [List.map_cons, tokens?] at ht
    cases htok : l.token? N with
    | none => rw [htok] at ht; simp at ht
    | some t =>
      cases hts : tokens? N (ls.map Prod.fst) with
      | none => rw [htok, hts] at ht; simp at ht
      | some ts' =>
        rw [htok, hts] at ht
        simp at ht
        subst ht
        -- enough: after the lexeme itself we are in a state that flushes to `t :: T'`
        suffices h : ∃ T1 cur1, (∀ s, tokLoop N T cur (l.text ++ s) = tokLoop N T1 cur1 s) ∧
            flush N T1 cur1 = some (t :: T') ∧ (cur1 ≠ [] → ∃ n d, l = .num n d) ∧
            Kind (some l) (t :: T') by
          obtain ⟨T1, cur1, h1, h2, h3, h4⟩ := h
          obtain ⟨T2, cur2, g1, g2, g3⟩ := tok_spaces N n T1 (t :: T') cur1 (render ls) h2
          rw [render, List.append_assoc, h1, g1]
          have := ih (some l) T2 (t :: T') cur2 ts' g2 h4
            (fun h => by obtain ⟨n, d, e⟩ := h3 (g3 h); exact ⟨n, d, by rw [e]⟩) hrest hts
          rw [this]; simp
        cases l with
        | num neg ds =>
          simp only at hl
          obtain ⟨hne, hds, hprev, hneg⟩ := hl
          have hcur0 : cur = [] := by
            by_contra hc
            obtain ⟨n, d, e⟩ := hcur hc
            exact hprev n d e
          subst hcur0
          have hT : T = T' := by simpa [flush] using hf
          subst hT
          simp only [Lexeme.token?, Option.map_eq_some_iff] at htok
          obtain ⟨a, ha, rfl⟩ := htok
          have hkind : Kind (some (Lexeme.num neg ds)) (Token.num a :: T) := ⟨a, T, rfl⟩
          cases neg with
          | false =>
            refine ⟨T, ds, fun s => ?_, ?_, fun _ => ⟨_, _, rfl⟩, hkind⟩
            · simpa [Lexeme.text] using tok_digits N T [] ds s hds
            · simp only [Bool.false_eq_true, if_false, List.nil_append] at ha
              simp [flush, hne, ha]
          | true =>
            refine ⟨T, '-' :: ds, fun s => ?_, ?_, fun _ => ⟨_, _, rfl⟩, hkind⟩
            · have h1 : tokLoop N T [] ('-' :: (ds ++ s)) = tokLoop N T ['-'] (ds ++ s) := by
                have hn : isNumChar '-' = false := by decide
                rw [tokLoop, hn, flush_nil]
                simp only [Bool.false_eq_true, if_false]
                rw [if_neg (by decide), if_neg (by decide), if_neg (by decide), if_pos trivial]
                rcases hneg rfl with hp | ⟨c, hp⟩
                · subst hp; obtain ⟨r, rfl⟩ := hk; rfl
                · subst hp; obtain ⟨r, rfl⟩ := hk; rfl
              have h2 := tok_digits N T ['-'] ds s hds
              simpa [Lexeme.text] using h1.trans h2
            · simp only [if_true, List.cons_append, List.nil_append] at ha
              simp [flush, ha]
        | op c =>
          simp only [Lexeme.token?, Option.some.injEq] at htok
          subst htok
          simp only at hl
          refine ⟨.op c :: T', [], fun s => ?_, rfl, fun h => absurd rfl h, ⟨T', rfl⟩⟩
          refine tok_op N T T' cur s c hf hl.1 (fun e => ?_)
          obtain ⟨h1, h2⟩ := hl.2 e
          constructor
          · rintro r rfl
            match prev, hk with
            | some .lp, _ => exact h1 rfl
          · rintro d r rfl
            match prev, hk with
            | some (.op d'), _ => exact h2 d' rfl
        | lp =>
          simp only [Lexeme.token?, Option.some.injEq] at htok
          subst htok
          refine ⟨.lp :: T', [], fun s => ?_, rfl, fun h => absurd rfl h, ⟨T', rfl⟩⟩
          have hn : isNumChar '(' = false := by decide
          simp only [Lexeme.text, List.cons_append, List.nil_append]
          rw [tokLoop, hn, hf]
          rfl
        | rp =>
          simp only [Lexeme.token?, Option.some.injEq] at htok
          subst htok
          refine ⟨.rp :: T', [], fun s => ?_, rfl, fun h => absurd rfl h, ⟨T', rfl⟩⟩
          have hn : isNumChar ')' = false := by decide
          simp only [Lexeme.text, List.cons_append, List.nil_append]
          rw [tokLoop, hn, hf]
          rfl

/-- C05 (text level): for every legally written expression, with any amount of blanks between its
lexemes, evaluation of the text returns the value the grammar assigns to it. -/
theorem C05_eval (N : Num α) (lead : Nat) (ls : List (Lexeme × Nat)) (toks : List (Token α)) (v : α)
    (hlegal : Legal none (ls.map Prod.fst)) (htoks : tokens? N (ls.map Prod.fst) = some toks)
    (hv : Sum N toks v) :
    eval N (List.replicate lead ' ' ++ render ls) = some v := by
  obtain ⟨T2, cur2, h1, h2, h3⟩ := tok_spaces N lead [] [] [] (render ls) (flush_nil N [])
  have := tok_main N ls none T2 [] cur2 toks h2 rfl (fun h => absurd rfl (h3 h)) hlegal htoks
  simp only [List.reverse_nil, List.nil_append] at this
  simp only [eval, tokenize, h1, this, C05_tokens N toks v hv]

/-- C05: values in the grammar are unique, so the specification assigns one value to a text. -/
theorem C05_spec_unambiguous (N : Num α) (toks : List (Token α)) (v w : α)
    (hv : Sum N toks v) (hw : Sum N toks w) : v = w := by
  have h1 := C05_tokens N toks v hv
  have h2 := C05_tokens N toks w hw
  rw [h1] at h2; cases h2; rfl

/-! ### Concrete cases -/

/-- Integers as an instance of the number interface (decimal digits, optional sign). -/
def intNum : Num Int where
  parse := fun s => match s with
    | '-' :: ds => (parseDigits 0 ds).map (fun n => - (n : Int))
    | ds => (parseDigits 0 ds).map (fun n => (n : Int))
  add := (· + ·)
  sub := (· - ·)
  mul := (· * ·)
  div := (· / ·)
  pow := fun a b => a ^ b.toNat
  rem := fun a b => a % b

/-- `8 - 3 - 2 ^ 3 ^ 0 * -2` satisfies the hypotheses of `C05_eval`. -/
example :
    let ls : List (Lexeme × Nat) :=
      [(.num false ['8'], 1), (.op '-', 1), (.num false ['3'], 1), (.op '-', 0),
       (.num false ['2'], 0), (.op '^', 0), (.num false ['3'], 0), (.op '^', 0),
       (.num false ['0'], 2), (.op '*', 0), (.num true ['2'], 0)]
    Legal none (ls.map Prod.fst) ∧
    ∃ toks, tokens? intNum (ls.map Prod.fst) = some toks ∧ Sum intNum toks 9 := by
  refine ⟨?_, [.num 8, .op '-', .num 3, .op '-', .num 2, .op '^', .num 3, .op '^', .num 0, .op '*',
    .num (-2)], by decide, ?_⟩
  · simp only [List.map_cons, List.map_nil, Legal]
    simp
    decide
  · have p : Power intNum [.num 2, .op '^', .num 3, .op '^', .num 0] 2 :=
      .pow (l := [.num 2]) (.num 2) (.pow (l := [.num 3]) (a := 3) (b := 0) (.num 3) (.up (.num 0)))
    have m : Product intNum ([.num 2, .op '^', .num 3, .op '^', .num 0] ++ .op '*' :: [.num (-2)]) (-4) :=
      .mul (.up p) (.up (.num (-2)))
    have s1 : Sum intNum ([.num 8] ++ .op '-' :: [.num 3]) 5 :=
      .sub (a := 8) (b := 3) (.up (.up (.up (.num 8)))) (.up (.up (.num 3)))
    exact .sub s1 m

/-- C05, negative: text that is not an expression can be accepted (`1 2` evaluates to 2). -/
theorem C05_malformed_accepted : eval intNum "1 2".toList = some 2 := by decide

/-- C05, negative: a leading minus sign is not understood (`-1` is an error). -/
theorem C05_leading_minus_rejected : eval intNum "-1".toList = none := by decide

end Verif.Math
