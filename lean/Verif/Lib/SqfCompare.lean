import Verif.Model.SqfLint
import Verif.Spec.SqfCompare
/-! Lemmas about the check of comparisons. -/
namespace Verif.SqfLint
open Verif.Sqf
open scoped List

theorem flatGroup_cons (c : Cmp) (r : List Cmp) : flatGroup (c :: r) = flatGroup [c] ++ flatGroup r := by
  cases c <;> simp [flatGroup]

theorem flatGroup_group (cs : List Cmp) : flatGroup [.group cs] = flatGroup cs := by simp [flatGroup]

/-- The operator of a comparison. -/
def Rel.cmd : Rel → BinCmd
  | .lt => .less | .le => .lessEq | .eq => .eq | .ne => .notEq | .ge => .greaterEq | .gt => .greater

theorem relOf_iff {c : BinCmd} {k : Rel} : relOf c = some k ↔ c = k.cmd := by
  cases c <;> cases k <;> simp [relOf, Rel.cmd]

theorem isComparison_iff {c : BinCmd} : isComparison c = true ↔ ∃ k : Rel, c = k.cmd := by
  constructor
  · intro h
    cases c <;> simp only [isComparison] at h <;> first
      | exact ⟨.lt, rfl⟩ | exact ⟨.le, rfl⟩ | exact ⟨.eq, rfl⟩ | exact ⟨.ne, rfl⟩ | exact ⟨.ge, rfl⟩ | exact ⟨.gt, rfl⟩
      | cases h
  · rintro ⟨k, rfl⟩
    cases k <;> rfl

theorem identNumber_iff {l r : Expr} {n : Bytes} {x : UInt32} : identNumber l r = some (n, x) ↔
    ∃ p q, (l = .var n p ∧ r = .num x q) ∨ (l = .num x q ∧ r = .var n p) := by
  cases l <;> cases r <;> simp [identNumber, and_comm]

theorem extract_cmp {c : BinCmd} {l r : Expr} {sp : Span} (h1 : ¬ c = .or) (h2 : ¬ c = .and) :
    extract (.bin c l r sp) = match relOf c, identNumber l r with
      | some k, some (n, x) => .cmp k n x (fullSpan (.bin c l r sp))
      | _, _ => .ignored := by
  rw [extract.eq_def]
  cases c <;> first | exact absurd rfl h1 | exact absurd rfl h2 | rfl

theorem joined_and {a l r : Expr} {sp : Span} : Joined a (.bin .and l r sp) ↔
    a = .bin .and l r sp ∨ Joined a l ∨ Joined a r := by
  constructor
  · intro h
    cases h with
    | refl => exact .inl rfl
    | andL h => exact .inr (.inl h)
    | andR h => exact .inr (.inr h)
  · rintro (rfl | h | h)
    · exact .refl _
    · exact .andL h
    · exact .andR h

theorem joined_code {a : Expr} {c : BinCmd} {l r : Expr} {p sp sp' : Span} {src : Bytes} :
    Joined a (.code [.expr (.bin c l r p) sp] src sp') ↔
      a = .code [.expr (.bin c l r p) sp] src sp' ∨ Joined a (.bin c l r p) := by
  constructor
  · intro h
    cases h with
    | refl => exact .inl rfl
    | code h => exact .inr h
  · rintro (rfl | h)
    · exact .refl _
    · exact .code h

theorem joined_other {a e : Expr} (h1 : ∀ l r sp, e ≠ .bin .and l r sp)
    (h2 : ∀ c l r p sp src sp', e ≠ .code [.expr (.bin c l r p) sp] src sp') : Joined a e ↔ a = e := by
  constructor
  · intro h
    cases h with
    | refl => rfl
    | andL => exact absurd rfl (h1 _ _ _)
    | andR => exact absurd rfl (h1 _ _ _)
    | code => exact absurd rfl (h2 _ _ _ _ _ _ _)
  · rintro rfl
    exact .refl _

/-- A comparison at its place. -/
def AtomAt (a : Expr) (k : Rel) (n : Bytes) (x : UInt32) (p : Span) : Prop := Compares a k.cmd n x ∧ p = fullSpan a

theorem compares_bin {c : BinCmd} {l r : Expr} {sp : Span} {k : Rel} {n : Bytes} {x : UInt32} :
    Compares (.bin c l r sp) k.cmd n x ↔ c = k.cmd ∧ ∃ p q, (l = .var n p ∧ r = .num x q) ∨ (l = .num x q ∧ r = .var n p) := by
  unfold Compares
  constructor
  · rintro ⟨-, p, q, sp', h | h⟩
    · cases h; exact ⟨rfl, p, q, .inl ⟨rfl, rfl⟩⟩
    · cases h; exact ⟨rfl, p, q, .inr ⟨rfl, rfl⟩⟩
  · rintro ⟨rfl, p, q, ⟨rfl, rfl⟩ | ⟨rfl, rfl⟩⟩
    · exact ⟨isComparison_iff.2 ⟨k, rfl⟩, p, q, sp, .inl rfl⟩
    · exact ⟨isComparison_iff.2 ⟨k, rfl⟩, p, q, sp, .inr rfl⟩

theorem compares_not {e : Expr} {c : BinCmd} {n : Bytes} {x : UInt32} (h : ∀ c l r sp, e ≠ .bin c l r sp) :
    ¬ Compares e c n x := by
  rintro ⟨-, p, q, sp, rfl | rfl⟩ <;> exact h _ _ _ _ rfl

theorem AtomAt.bin {a : Expr} {k : Rel} {n : Bytes} {x : UInt32} {p : Span} (h : AtomAt a k n x p) :
    ∃ l r sp, a = .bin k.cmd l r sp := by
  obtain ⟨⟨-, p, q, sp, rfl | rfl⟩, -⟩ := h <;> exact ⟨_, _, _, rfl⟩

theorem flat_and (l r : Cmp) : flatGroup [.group [l, r]] = flatGroup [l] ++ flatGroup [r] := by
  rw [flatGroup_group, flatGroup_cons]

/-- The comparisons joined in a condition. -/
theorem mem_atoms (e : Expr) {k : Rel} {n : Bytes} {x : UInt32} {p : Span} :
    Cmp.cmp k n x p ∈ flatGroup [extract e] ↔ ∃ a, Joined a e ∧ AtomAt a k n x p := by
  fun_induction extract e with
  | case1 l r sp =>
    simp only [flatGroup, List.mem_singleton, reduceCtorEq, false_iff, not_exists, not_and]
    intro a ha h
    rw [joined_other (by simp) (by simp)] at ha
    subst ha
    obtain ⟨_, _, _, hb⟩ := h.bin
    cases k <;> cases hb
  | case2 l r sp ih1 ih2 =>
    rw [flat_and, List.mem_append, ih1, ih2]
    constructor
    · rintro (⟨a, h1, h2⟩ | ⟨a, h1, h2⟩)
      · exact ⟨a, .andL h1, h2⟩
      · exact ⟨a, .andR h1, h2⟩
    · rintro ⟨a, h1, h2⟩
      rcases joined_and.1 h1 with rfl | h1 | h1
      · obtain ⟨_, _, _, hb⟩ := h2.bin
        cases k <;> cases hb
      · exact .inl ⟨a, h1, h2⟩
      · exact .inr ⟨a, h1, h2⟩
  | case3 c l r sp ho ha k' n' x' hn hk =>
    have hj : ∀ a, Joined a (.bin c l r sp) ↔ a = .bin c l r sp := fun a =>
      joined_other (fun _ _ _ h => ha (by cases h; rfl)) (by simp)
    simp only [flatGroup, List.mem_singleton, Cmp.cmp.injEq, hj, exists_eq_left, AtomAt, compares_bin]
    rw [relOf_iff] at hk
    rw [identNumber_iff] at hn
    constructor
    · rintro ⟨rfl, rfl, rfl, rfl⟩
      exact ⟨⟨hk, hn⟩, rfl⟩
    · rintro ⟨⟨h1, h2⟩, rfl⟩
      have e1 : k = k' := by
        rw [hk] at h1
        cases k <;> cases k' <;> first | rfl | cases h1
      have e2 := identNumber_iff.2 h2
      rw [identNumber_iff.2 hn] at e2
      cases e2
      exact ⟨e1, rfl, rfl, rfl⟩
  | case4 c l r sp ho ha hno =>
    simp only [flatGroup, List.not_mem_nil, false_iff, not_exists, not_and]
    intro a hj h
    rw [joined_other (fun _ _ _ h => ha (by cases h; rfl)) (by simp)] at hj
    subst hj
    obtain ⟨h1, -⟩ := h
    rw [compares_bin] at h1
    exact hno k n x (relOf_iff.2 h1.1) (identNumber_iff.2 h1.2)
  | case5 c l r sp sp1 src sp2 ih =>
    rw [ih]
    constructor
    · rintro ⟨a, h1, h2⟩
      exact ⟨a, .code h1, h2⟩
    · rintro ⟨a, h1, h2⟩
      rcases joined_code.1 h1 with rfl | h1
      · obtain ⟨_, _, _, hb⟩ := h2.bin
        cases hb
      · exact ⟨a, h1, h2⟩
  | case6 e h1 h2 h3 h4 =>
    simp only [flatGroup, List.not_mem_nil, false_iff, not_exists, not_and]
    intro a hj h
    rw [joined_other (fun _ _ _ h => h2 _ _ _ h) (fun _ _ _ _ _ _ _ h => h4 _ _ _ _ _ _ _ h)] at hj
    subst hj
    obtain ⟨_, _, _, hb⟩ := h.bin
    exact h3 _ _ _ _ hb

theorem pair_append {α : Type} {A B : α} {l1 l2 : List α} :
    [A, B] <+ l1 ++ l2 ↔ [A, B] <+ l1 ∨ (A ∈ l1 ∧ B ∈ l2) ∨ [A, B] <+ l2 := by
  rw [List.sublist_append_iff]
  constructor
  · rintro ⟨u, v, h, h1, h2⟩
    match u, v, h with
    | [], _, h => cases h; exact .inr (.inr h2)
    | [_], _, h =>
      cases h
      exact .inr (.inl ⟨List.singleton_sublist.1 h1, List.singleton_sublist.1 h2⟩)
    | [_, _], _, h => cases h; exact .inl h1
    | _ :: _ :: _ :: _, _, h => simp at h
  · rintro (h | ⟨h1, h2⟩ | h)
    · exact ⟨[A, B], [], rfl, h, by simp⟩
    · exact ⟨[A], [B], rfl, List.singleton_sublist.2 h1, List.singleton_sublist.2 h2⟩
    · exact ⟨[], [A, B], rfl, by simp, h⟩

theorem pair_and {a b l r : Expr} {sp : Span} : JoinedPair a b (.bin .and l r sp) ↔
    JoinedPair a b l ∨ (Joined a l ∧ Joined b r) ∨ JoinedPair a b r := by
  constructor
  · rintro ⟨l', r', sp', h, h1, h2⟩
    rcases joined_and.1 h with e | h | h
    · cases e; exact .inr (.inl ⟨h1, h2⟩)
    · exact .inl ⟨l', r', sp', h, h1, h2⟩
    · exact .inr (.inr ⟨l', r', sp', h, h1, h2⟩)
  · rintro (⟨l', r', sp', h, h1, h2⟩ | ⟨h1, h2⟩ | ⟨l', r', sp', h, h1, h2⟩)
    · exact ⟨l', r', sp', .andL h, h1, h2⟩
    · exact ⟨l, r, sp, .refl _, h1, h2⟩
    · exact ⟨l', r', sp', .andR h, h1, h2⟩

theorem pair_code {a b : Expr} {c : BinCmd} {l r : Expr} {p sp sp' : Span} {src : Bytes} :
    JoinedPair a b (.code [.expr (.bin c l r p) sp] src sp') ↔ JoinedPair a b (.bin c l r p) := by
  constructor
  · rintro ⟨l', r', sp', h, h1, h2⟩
    rcases joined_code.1 h with e | h
    · cases e
    · exact ⟨l', r', sp', h, h1, h2⟩
  · rintro ⟨l', r', sp', h, h1, h2⟩
    exact ⟨l', r', sp', .code h, h1, h2⟩

theorem pair_other {a b e : Expr} (h1 : ∀ l r sp, e ≠ .bin .and l r sp)
    (h2 : ∀ c l r p sp src sp', e ≠ .code [.expr (.bin c l r p) sp] src sp') : ¬ JoinedPair a b e := by
  rintro ⟨l', r', sp', h, -⟩
  rw [joined_other h1 h2] at h
  exact h1 _ _ _ h.symm

/-- The pairs of comparisons joined in a condition. -/
theorem pair_atoms (e : Expr) {k k' : Rel} {n n' : Bytes} {x x' : UInt32} {p p' : Span} :
    [Cmp.cmp k n x p, .cmp k' n' x' p'] <+ flatGroup [extract e] ↔
      ∃ a b, JoinedPair a b e ∧ AtomAt a k n x p ∧ AtomAt b k' n' x' p' := by
  fun_induction extract e with
  | case1 l r sp =>
    constructor
    · intro h
      have := h.length_le
      simp [flatGroup] at this
    · rintro ⟨a, b, h, -⟩
      exact absurd h (pair_other (by simp) (by simp))
  | case2 l r sp ih1 ih2 =>
    rw [flat_and, pair_append, ih1, ih2, mem_atoms, mem_atoms]
    constructor
    · rintro (⟨a, b, h1, h2⟩ | ⟨⟨a, h1, h2⟩, ⟨b, h3, h4⟩⟩ | ⟨a, b, h1, h2⟩)
      · exact ⟨a, b, pair_and.2 (.inl h1), h2⟩
      · exact ⟨a, b, pair_and.2 (.inr (.inl ⟨h1, h3⟩)), h2, h4⟩
      · exact ⟨a, b, pair_and.2 (.inr (.inr h1)), h2⟩
    · rintro ⟨a, b, h, h2⟩
      rcases pair_and.1 h with h | ⟨h1, h3⟩ | h
      · exact .inl ⟨a, b, h, h2⟩
      · exact .inr (.inl ⟨⟨a, h1, h2.1⟩, ⟨b, h3, h2.2⟩⟩)
      · exact .inr (.inr ⟨a, b, h, h2⟩)
  | case3 c l r sp ho ha k' n' x' hn hk =>
    constructor
    · intro h
      have := h.length_le
      simp [flatGroup] at this
    · rintro ⟨a, b, h, -⟩
      exact absurd h (pair_other (fun _ _ _ h => ha (by cases h; rfl)) (by simp))
  | case4 c l r sp ho ha hno =>
    constructor
    · intro h
      have := h.length_le
      simp [flatGroup] at this
    · rintro ⟨a, b, h, -⟩
      exact absurd h (pair_other (fun _ _ _ h => ha (by cases h; rfl)) (by simp))
  | case5 c l r sp sp1 src sp2 ih =>
    rw [ih]
    simp only [pair_code]
  | case6 e h1 h2 h3 h4 =>
    constructor
    · intro h
      have := h.length_le
      simp [flatGroup] at this
    · rintro ⟨a, b, h, -⟩
      exact absurd h (pair_other (fun _ _ _ h => h2 _ _ _ h) (fun _ _ _ _ _ _ _ h => h4 _ _ _ _ _ _ _ h))

theorem mem_pairIssues {i : Issue} {cs : List Cmp} : i ∈ pairIssues cs ↔
    ∃ A B, [A, B] <+ cs ∧ (checkIssue A B).or (checkIssue B A) = some i := by
  induction cs with
  | nil => simp [pairIssues]
  | cons c cs ih =>
    rw [pairIssues, List.mem_append, ih, issuesWith, List.mem_filterMap]
    constructor
    · rintro (⟨b, h1, h2⟩ | ⟨A, B, h1, h2⟩)
      · exact ⟨c, b, List.Sublist.cons_cons c (List.singleton_sublist.2 h1), h2⟩
      · exact ⟨A, B, h1.cons c, h2⟩
    · rintro ⟨A, B, h1, h2⟩
      cases h1 with
      | cons _ h => exact .inr ⟨A, B, h, h2⟩
      | cons_cons _ h => exact .inl ⟨B, List.singleton_sublist.1 h, h2⟩

theorem alternative_other {d e : Expr} (h1 : ∀ l r sp, e ≠ .bin .or l r sp)
    (h2 : ∀ c l r p sp src sp', e ≠ .code [.expr (.bin c l r p) sp] src sp') : Alternative d e ↔ d = e := by
  constructor
  · intro h
    cases h with
    | refl => rfl
    | orL => exact absurd rfl (h1 _ _ _)
    | orR => exact absurd rfl (h1 _ _ _)
    | code => exact absurd rfl (h2 _ _ _ _ _ _ _)
  · rintro rfl
    exact .refl _

theorem pairIssues_one (c : Cmp) : pairIssues [c] = [] := by simp [pairIssues, issuesWith]

/-- The alternatives of a condition are looked at one by one. -/
theorem mem_findIssues (e : Expr) {i : Issue} : i ∈ findIssues (flatten (extract e)) ↔
    ∃ d, Alternative d e ∧ i ∈ pairIssues (flatGroup [extract d]) := by
  fun_induction extract e with
  | case1 l r sp ih1 ih2 =>
    simp only [flatten, flattens, findIssues, findIssuess, List.append_nil, List.mem_append, ih1, ih2]
    constructor
    · rintro (⟨d, h1, h2⟩ | ⟨d, h1, h2⟩)
      · exact ⟨d, .orL h1, h2⟩
      · exact ⟨d, .orR h1, h2⟩
    · rintro ⟨d, h1, h2⟩
      cases h1 with
      | refl =>
        simp [extract, flatGroup, pairIssues_one] at h2
      | orL h => exact .inl ⟨d, h, h2⟩
      | orR h => exact .inr ⟨d, h, h2⟩
  | case2 l r sp ih1 ih2 =>
    simp only [flatten, findIssues]
    constructor
    · intro h
      exact ⟨_, .refl _, by rw [extract, flatGroup_group]; exact h⟩
    · rintro ⟨d, h1, h2⟩
      rw [alternative_other (by simp) (by simp)] at h1
      subst h1
      rw [extract, flatGroup_group] at h2
      exact h2
  | case3 c l r sp ho ha k' n' x' hn hk =>
    simp only [flatten, findIssues, List.not_mem_nil, false_iff, not_exists, not_and]
    intro d h1
    rw [alternative_other (fun _ _ _ h => ho (by cases h; rfl)) (by simp)] at h1
    subst h1
    rw [extract_cmp ho ha, hk, hn]
    simp [flatGroup, pairIssues_one]
  | case4 c l r sp ho ha hno =>
    simp only [flatten, findIssues, List.not_mem_nil, false_iff, not_exists, not_and]
    intro d h1
    rw [alternative_other (fun _ _ _ h => ho (by cases h; rfl)) (by simp)] at h1
    subst h1
    have : extract (.bin c l r sp) = .ignored := by
      rw [extract_cmp ho ha]
      split
      · rename_i h1 h2; exact (hno _ _ _ h1 h2).elim
      · rfl
    rw [this]
    simp [flatGroup, pairIssues]
  | case5 c l r sp sp1 src sp2 ih =>
    rw [ih]
    constructor
    · rintro ⟨d, h1, h2⟩
      exact ⟨d, .code h1, h2⟩
    · rintro ⟨d, h1, h2⟩
      cases h1 with
      | refl => exact ⟨_, .refl _, by rw [extract] at h2; exact h2⟩
      | code h => exact ⟨d, h, h2⟩
  | case6 e h1 h2 h3 h4 =>
    simp only [flatten, findIssues, List.not_mem_nil, false_iff, not_exists, not_and]
    intro d h
    rw [alternative_other (fun _ _ _ h => h1 _ _ _ h) (fun _ _ _ _ _ _ _ h => h4 _ _ _ _ _ _ _ h)] at h
    subst h
    have : extract d = .ignored := by
      rw [extract.eq_def]
      split <;> first | rfl | (exfalso; solve_by_elim)
    rw [this]
    simp [flatGroup, pairIssues]

end Verif.SqfLint
