import Verif.Lib.SqfCompare
import Mathlib.Tactic.Tauto
import Mathlib.Tactic.Order
/-!
C64: what is reported about the comparisons of a condition, and what it means.
-/
namespace Verif.SqfLint
open Verif.Sqf

theorem ford_lt {x y : UInt32} (hx : Literal x) (hy : Literal y) : ford x < ford y ↔ x.toNat < y.toNat := by
  unfold Literal at hx hy
  unfold ford
  rw [if_pos (by omega), if_pos (by omega)]
  omega

theorem check_iff {k k' : Rel} {n n' : Bytes} {x x' : UInt32} {p p' : Span} (hx : Literal x) (hx' : Literal x') {i : Issue} :
    checkIssue (.cmp k n x p) (.cmp k' n' x' p') = some i ↔ n = n' ∧ p = i.a ∧ p' = i.b ∧
      ((i.kind = .impossible ∧ Contradicts k.cmd x k'.cmd x') ∨ (i.kind = .overlapping ∧ Overlaps k.cmd x k'.cmd x')) := by
  rw [checkIssue.eq_def]
  obtain ⟨ik, ia, ib⟩ := i
  by_cases hn : n = n'
  · subst hn
    simp only [ne_eq, not_true_eq_false, if_false, ford_lt hx hx']
    cases k <;> cases k' <;> cases ik <;>
      simp [Contradicts, Overlaps, Upper, Lower, Rel.cmd, -Prod.mk.injEq] <;> tauto
  · simp [hn]

theorem contradicts_asymm {k k' : Rel} {x x' : UInt32} (h : Contradicts k.cmd x k'.cmd x') :
    ¬ Contradicts k'.cmd x' k.cmd x ∧ ¬ Overlaps k'.cmd x' k.cmd x := by
  cases k <;> cases k' <;> simp [Contradicts, Overlaps, Upper, Lower, Rel.cmd] at h ⊢

theorem joined_pair {a b d : Expr} (h : JoinedPair a b d) : Joined a d ∧ Joined b d := by
  obtain ⟨l, r, sp, h, h1, h2⟩ := h
  have key : ∀ {x y z : Expr}, Joined x y → Joined y z → Joined x z := by
    intro x y z hx hy
    induction hy with
    | refl => exact hx
    | andL _ ih => exact .andL ih
    | andR _ ih => exact .andR ih
    | code _ ih => exact .code ih
  exact ⟨key (.andL h1) h, key (.andR h2) h⟩

theorem cmp_of_some {A B : Cmp} {i : Issue} (h : checkIssue A B = some i) :
    ∃ k n x p k' n' x' p', A = .cmp k n x p ∧ B = .cmp k' n' x' p' := by
  cases A <;> cases B <;> simp [checkIssue] at h
  exact ⟨_, _, _, _, _, _, _, _, rfl, rfl⟩

/-- C64: every report names two conditions joined by `&&` which compare the same variable, and is about what it says: an upper
bound below a lower bound, `!=` and `==` of the same number, two bounds on the same side, or the same thing twice. The
operators are read as if the variable stood first. -/
theorem C64_sound {e : Expr} {m : Bytes} {sp : Span} {i : Issue} (hl : LiteralIn e) (h : i ∈ comparisons (.un (.named m) e sp)) :
    m = ascii "if" ∧ ∃ d a b n c x c' x', Alternative d e ∧ (JoinedPair a b d ∨ JoinedPair b a d) ∧ Compares a c n x ∧
      Compares b c' n x' ∧ i.a = fullSpan a ∧ i.b = fullSpan b ∧
      ((i.kind = .impossible ∧ Contradicts c x c' x') ∨ (i.kind = .overlapping ∧ Overlaps c x c' x')) := by
  rw [comparisons] at h
  split at h
  case isFalse => cases h
  case isTrue hm =>
  refine ⟨hm, ?_⟩
  obtain ⟨d, hd, h⟩ := (mem_findIssues e).1 h
  obtain ⟨A, B, hs, h⟩ := mem_pairIssues.1 h
  rcases Option.or_eq_some_iff.1 h with h | ⟨-, h⟩
  · obtain ⟨k, n, x, p, k', n', x', p', rfl, rfl⟩ := cmp_of_some h
    obtain ⟨a, b, hj, ha, hb⟩ := (pair_atoms d).1 hs
    have hx := hl d a _ _ _ hd (joined_pair hj).1 ha.1
    have hx' := hl d b _ _ _ hd (joined_pair hj).2 hb.1
    obtain ⟨rfl, h1, h2, h3⟩ := (check_iff hx hx').1 h
    exact ⟨d, a, b, n, k.cmd, x, k'.cmd, x', hd, .inl hj, ha.1, hb.1, h1.symm.trans ha.2, h2.symm.trans hb.2, h3⟩
  · obtain ⟨k, n, x, p, k', n', x', p', rfl, rfl⟩ := cmp_of_some h
    obtain ⟨b, a, hj, hb, ha⟩ := (pair_atoms d).1 hs
    have hx := hl d a _ _ _ hd (joined_pair hj).2 ha.1
    have hx' := hl d b _ _ _ hd (joined_pair hj).1 hb.1
    obtain ⟨rfl, h1, h2, h3⟩ := (check_iff hx hx').1 h
    exact ⟨d, a, b, n, k.cmd, x, k'.cmd, x', hd, .inr hj, ha.1, hb.1, h1.symm.trans ha.2, h2.symm.trans hb.2, h3⟩

theorem rel_of {a : Expr} {c : BinCmd} {n : Bytes} {x : UInt32} (h : Compares a c n x) : ∃ k : Rel, c = k.cmd :=
  isComparison_iff.1 h.1

/-- C64: every such pair is reported, once with the positions of the two. -/
theorem C64_complete {e d a b : Expr} {sp : Span} {n : Bytes} {c c' : BinCmd} {x x' : UInt32} (hl : LiteralIn e)
    (hd : Alternative d e) (ha : Compares a c n x) (hb : Compares b c' n x') :
    (JoinedPair a b d ∨ JoinedPair b a d → Contradicts c x c' x' →
      ⟨.impossible, fullSpan a, fullSpan b⟩ ∈ comparisons (.un (.named (ascii "if")) e sp)) ∧
    (JoinedPair a b d → Overlaps c x c' x' →
      ⟨.overlapping, fullSpan a, fullSpan b⟩ ∈ comparisons (.un (.named (ascii "if")) e sp)) := by
  obtain ⟨k, rfl⟩ := rel_of ha
  obtain ⟨k', rfl⟩ := rel_of hb
  rw [comparisons, if_pos rfl]
  constructor
  · rintro (hj | hj) hc
    · have hx := hl d a _ _ _ hd (joined_pair hj).1 ha
      have hx' := hl d b _ _ _ hd (joined_pair hj).2 hb
      refine (mem_findIssues e).2 ⟨d, hd, mem_pairIssues.2 ⟨_, _, (pair_atoms d).2 ⟨a, b, hj, ⟨ha, rfl⟩, ⟨hb, rfl⟩⟩, ?_⟩⟩
      rw [Option.or_eq_some_iff]
      exact .inl ((check_iff hx hx').2 ⟨rfl, rfl, rfl, .inl ⟨rfl, hc⟩⟩)
    · have hx := hl d a _ _ _ hd (joined_pair hj).2 ha
      have hx' := hl d b _ _ _ hd (joined_pair hj).1 hb
      refine (mem_findIssues e).2 ⟨d, hd, mem_pairIssues.2 ⟨_, _, (pair_atoms d).2 ⟨b, a, hj, ⟨hb, rfl⟩, ⟨ha, rfl⟩⟩, ?_⟩⟩
      rw [Option.or_eq_some_iff]
      refine .inr ⟨?_, (check_iff hx hx').2 ⟨rfl, rfl, rfl, .inl ⟨rfl, hc⟩⟩⟩
      rw [Option.eq_none_iff_forall_ne_some]
      intro i hi
      obtain ⟨-, -, -, h | h⟩ := (check_iff hx' hx).1 hi
      · exact (contradicts_asymm hc).1 h.2
      · exact (contradicts_asymm hc).2 h.2
  · intro hj hc
    have hx := hl d a _ _ _ hd (joined_pair hj).1 ha
    have hx' := hl d b _ _ _ hd (joined_pair hj).2 hb
    refine (mem_findIssues e).2 ⟨d, hd, mem_pairIssues.2 ⟨_, _, (pair_atoms d).2 ⟨a, b, hj, ⟨ha, rfl⟩, ⟨hb, rfl⟩⟩, ?_⟩⟩
    rw [Option.or_eq_some_iff]
    exact .inl ((check_iff hx hx').2 ⟨rfl, rfl, rfl, .inr ⟨rfl, hc⟩⟩)

section
variable {V : Type} [LinearOrder V] (N : Numbers V) (env : Bytes → Option V) (other : Expr → Prop)

theorem truth_joined {a d : Expr} (h : Joined a d) (ht : Truth N env other d) : Truth N env other a := by
  induction h with
  | refl => exact ht
  | andL _ ih => rw [Truth] at ht; exact ih ht.1
  | andR _ ih => rw [Truth] at ht; exact ih ht.2
  | code _ ih => rw [Truth] at ht; exact ih ht

theorem truth_compares {a : Expr} {k : Rel} {n : Bytes} {x : UInt32} (h : Compares a k.cmd n x) (hn : ¬ NumFirst a) :
    Truth N env other a ↔ Holds k.cmd (env n) (some (N.val x)) := by
  obtain ⟨-, p, q, sp, rfl | rfl⟩ := h
  · cases k <;> simp [Rel.cmd, Truth, compared, isComparison, operand]
  · have : k.cmd = .eq ∨ k.cmd = .notEq := by
      by_contra hc
      exact hn ⟨_, n, x, p, q, sp, rfl, fun h => hc (.inl h), fun h => hc (.inr h)⟩
    cases k <;> simp only [Rel.cmd, reduceCtorEq, or_self] at this
    · cases hv : env n <;> simp [Rel.cmd, Truth, compared, isComparison, operand, Holds, hv, eq_comm]
    · cases hv : env n <;> simp [Rel.cmd, Truth, compared, isComparison, operand, Holds, hv, eq_comm]

theorem contradicts_holds {k k' : Rel} {x x' : UInt32} {v : Option V} (hx : Literal x) (hx' : Literal x')
    (h : Contradicts k.cmd x k'.cmd x') (h1 : Holds k.cmd v (some (N.val x))) (h2 : Holds k'.cmd v (some (N.val x'))) : False := by
  have hm := N.mono x x' hx hx'
  cases v with
  | none => cases k <;> cases k' <;> simp_all [Contradicts, Upper, Lower, Rel.cmd, Holds]
  | some v =>
    cases k <;> cases k' <;> simp [Contradicts, Upper, Lower, Rel.cmd] at h <;> simp only [Rel.cmd, Holds] at h1 h2
    · have := hm h; order
    · have := hm h; order
    · have := hm h; order
    · have := hm h; order
    · exact h1 (by rw [h2, h])

theorem val_le {x x' : UInt32} (hx : Literal x) (hx' : Literal x') (h : x.toNat ≤ x'.toNat) : N.val x ≤ N.val x' := by
  rcases Nat.lt_or_eq_of_le h with h | h
  · exact (N.mono x x' hx hx' h).le
  · rw [UInt32.toNat_inj.1 h]

end

/-- One of two overlapping comparisons follows from the other, whatever the value. -/
theorem overlaps_holds {k k' : Rel} {x x' : UInt32} (hx : Literal x) (hx' : Literal x') (h : Overlaps k.cmd x k'.cmd x') :
    (∀ (V : Type) [LinearOrder V] (N : Numbers V) (v : Option V), Holds k.cmd v (some (N.val x)) → Holds k'.cmd v (some (N.val x'))) ∨
    (∀ (V : Type) [LinearOrder V] (N : Numbers V) (v : Option V), Holds k'.cmd v (some (N.val x')) → Holds k.cmd v (some (N.val x))) := by
  have nn : ∀ {c : Rel} {V : Type} [LinearOrder V] {y : V}, (Upper c.cmd ∨ Lower c.cmd ∨ c.cmd = .eq) → ¬ Holds c.cmd none (some y) := by
    intro c V _ y
    cases c <;> simp [Rel.cmd, Upper, Lower, Holds]
  rcases lt_trichotomy x.toNat x'.toNat with hlt | heq | hgt
  · cases k <;> cases k' <;> simp [Overlaps, Upper, Lower, Rel.cmd] at h <;> first
      | (left; intro V _ N v hv
         have := N.mono x x' hx hx' hlt
         cases v <;> simp only [Rel.cmd, Holds] at hv ⊢ <;> order)
      | (right; intro V _ N v hv
         have := N.mono x x' hx hx' hlt
         cases v <;> simp only [Rel.cmd, Holds] at hv ⊢ <;> order)
      | (subst h; omega)
  · have := UInt32.toNat_inj.1 heq
    subst this
    cases k <;> cases k' <;> simp [Overlaps, Upper, Lower, Rel.cmd] at h <;> first
      | (left; intro V _ N v hv; exact hv)
      | (left; intro V _ N v hv
         cases v <;> simp only [Rel.cmd, Holds] at hv ⊢ <;> order)
      | (right; intro V _ N v hv
         cases v <;> simp only [Rel.cmd, Holds] at hv ⊢ <;> order)
  · cases k <;> cases k' <;> simp [Overlaps, Upper, Lower, Rel.cmd] at h <;> first
      | (left; intro V _ N v hv
         have := N.mono x' x hx' hx hgt
         cases v <;> simp only [Rel.cmd, Holds] at hv ⊢ <;> order)
      | (right; intro V _ N v hv
         have := N.mono x' x hx' hx hgt
         cases v <;> simp only [Rel.cmd, Holds] at hv ⊢ <;> order)
      | (subst h; omega)

/-- C64: if the variables stand first, a report of an impossible comparison is right: the alternative of the condition it is
about is false, whatever the values of the variables and of everything else in it. -/
theorem C64_impossible {e : Expr} {m : Bytes} {sp : Span} {i : Issue} (hl : LiteralIn e) (hv : VarFirstIn e)
    (h : i ∈ comparisons (.un (.named m) e sp)) (hi : i.kind = .impossible) :
    ∃ d, Alternative d e ∧ ∀ (V : Type) [LinearOrder V] (N : Numbers V) env other, ¬ Truth N env other d := by
  obtain ⟨-, d, a, b, n, c, x, c', x', hd, hj, ha, hb, -, -, hk⟩ := C64_sound hl h
  have hj' : Joined a d ∧ Joined b d := hj.elim joined_pair fun h => (joined_pair h).symm
  rcases hk with ⟨-, hc⟩ | ⟨h', -⟩
  · refine ⟨d, hd, fun V _ N env other ht => ?_⟩
    obtain ⟨k, rfl⟩ := rel_of ha
    obtain ⟨k', rfl⟩ := rel_of hb
    exact contradicts_holds N (hl d a _ _ _ hd hj'.1 ha) (hl d b _ _ _ hd hj'.2 hb) hc
      ((truth_compares N env other ha (hv d a hd hj'.1)).1 (truth_joined N env other hj'.1 ht))
      ((truth_compares N env other hb (hv d b hd hj'.2)).1 (truth_joined N env other hj'.2 ht))
  · rw [hi] at h'; cases h'

/-- C64: if the variables stand first, a report of overlapping comparisons is right: one of the two follows from the other. -/
theorem C64_overlapping {e : Expr} {m : Bytes} {sp : Span} {i : Issue} (hl : LiteralIn e) (hv : VarFirstIn e)
    (h : i ∈ comparisons (.un (.named m) e sp)) (hi : i.kind = .overlapping) :
    ∃ d a b, Alternative d e ∧ (JoinedPair a b d ∨ JoinedPair b a d) ∧ i.a = fullSpan a ∧ i.b = fullSpan b ∧
      ((∀ (V : Type) [LinearOrder V] (N : Numbers V) env other, Truth N env other a → Truth N env other b) ∨
       (∀ (V : Type) [LinearOrder V] (N : Numbers V) env other, Truth N env other b → Truth N env other a)) := by
  obtain ⟨-, d, a, b, n, c, x, c', x', hd, hj, ha, hb, h1, h2, hk⟩ := C64_sound hl h
  have hj' : Joined a d ∧ Joined b d := hj.elim joined_pair fun h => (joined_pair h).symm
  rcases hk with ⟨h', -⟩ | ⟨-, hc⟩
  · rw [hi] at h'; cases h'
  · refine ⟨d, a, b, hd, hj, h1, h2, ?_⟩
    obtain ⟨k, rfl⟩ := rel_of ha
    obtain ⟨k', rfl⟩ := rel_of hb
    refine (overlaps_holds (hl d a _ _ _ hd hj'.1 ha) (hl d b _ _ _ hd hj'.2 hb) hc).imp ?_ ?_
    · intro ho V _ N env other ht
      rw [truth_compares N env other ha (hv d a hd hj'.1)] at ht
      rw [truth_compares N env other hb (hv d b hd hj'.2)]
      exact ho V N _ ht
    · intro ho V _ N env other ht
      rw [truth_compares N env other hb (hv d b hd hj'.2)] at ht
      rw [truth_compares N env other ha (hv d a hd hj'.1)]
      exact ho V N _ ht

/-! ### Examples -/

/-- The order of numbers, by their bits. -/
def bitsN : Numbers Nat := ⟨UInt32.toNat, fun _ _ _ _ h => h⟩

/-- `(_x < 10 || {_y != 5}) && …`: helpers for the examples; positions are counted from 0. -/
def cmpX (c : BinCmd) (x : UInt32) (p : Nat) : Expr := .bin c (.var (ascii "_x") (p, p + 2)) (.num x (p + 5, p + 7)) (p, p + 7)
def cmpR (c : BinCmd) (x : UInt32) (p : Nat) : Expr := .bin c (.num x (p, p + 2)) (.var (ascii "_x") (p + 5, p + 7)) (p, p + 7)

/-- `if (a || _x < 10 && {_x > 20})`, reported. -/
example : comparisons (.un (.named (ascii "if")) (.bin .or (.var (ascii "a") (4, 5)) (.bin .and (cmpX .less 0x41200000 9)
    (.code [.expr (cmpX .greater 0x41a00000 21) (21, 28)] (ascii "_x > 20") (20, 29)) (0, 0)) (0, 0)) (0, 2)) =
    [⟨.impossible, (9, 16), (21, 28)⟩] := by decide +kernel

/-- Two lower bounds, and the same number twice; the name of the command has to be `if` with small letters. -/
example : comparisons (.un (.named (ascii "if")) (.bin .and (cmpX .greater 0x41200000 4) (cmpX .greaterEq 0x41a00000 15) (0, 0)) (0, 2)) =
      [⟨.overlapping, (4, 11), (15, 22)⟩] ∧
    comparisons (.un (.named (ascii "If")) (.bin .and (cmpX .eq 5 4) (cmpX .notEq 5 15) (0, 0)) (0, 2)) = [] ∧
    comparisons (.un (.named (ascii "if")) (.bin .and (cmpX .eq 5 4) (cmpX .notEq 5 15) (0, 0)) (0, 2)) =
      [⟨.impossible, (15, 22), (4, 11)⟩] := by decide +kernel

/-- C64, violated: operators are read as if the variable stood first. `if (10 < _x && _x > 20)` is reported as impossible though
it holds for 30, and `if (10 < _x && _x < 20)`, which is the usual way to ask for a range, as overlapping, though neither
follows from the other. -/
theorem C64_violated :
    (∃ e : Expr, e = .bin .and (cmpR .less 0x41200000 4) (cmpX .greater 0x41a00000 15) (0, 0) ∧
      comparisons (.un (.named (ascii "if")) e (0, 2)) = [⟨.impossible, (4, 11), (15, 22)⟩] ∧
      Truth bitsN (fun _ => some 0x41f00000) (fun _ => False) e) ∧
    (∃ a b : Expr, a = cmpR .less 0x41200000 4 ∧ b = cmpX .less 0x41a00000 15 ∧
      comparisons (.un (.named (ascii "if")) (.bin .and a b (0, 0)) (0, 2)) = [⟨.overlapping, (4, 11), (15, 22)⟩] ∧
      (∃ v, Truth bitsN (fun _ => v) (fun _ => False) a ∧ ¬ Truth bitsN (fun _ => v) (fun _ => False) b) ∧
      (∃ v, Truth bitsN (fun _ => v) (fun _ => False) b ∧ ¬ Truth bitsN (fun _ => v) (fun _ => False) a)) := by
  refine ⟨⟨_, rfl, by decide +kernel, ?_⟩, _, _, rfl, rfl, by decide +kernel, ⟨some 0x41f00000, ?_⟩, ⟨some 0, ?_⟩⟩ <;>
    simp [Truth, compared, cmpR, cmpX, isComparison, operand, Holds, bitsN]

/-- The hypotheses of the theorems, for `_x < 10 && _x > 20`. -/
example : let e : Expr := .bin .and (cmpX .less 0x41200000 4) (cmpX .greater 0x41a00000 15) (0, 0)
    LiteralIn e ∧ VarFirstIn e ∧ JoinedPair (cmpX .less 0x41200000 4) (cmpX .greater 0x41a00000 15) e ∧
    Contradicts .less 0x41200000 .greater 0x41a00000 ∧ ⟨.impossible, (4, 11), (15, 22)⟩ ∈ comparisons (.un (.named (ascii "if")) e (0, 2)) := by
  have key : ∀ d a, Alternative d (.bin .and (cmpX .less 0x41200000 4) (cmpX .greater 0x41a00000 15) (0, 0)) → Joined a d →
      a = .bin .and (cmpX .less 0x41200000 4) (cmpX .greater 0x41a00000 15) (0, 0) ∨ a = cmpX .less 0x41200000 4 ∨
      a = cmpX .greater 0x41a00000 15 := by
    intro d a hd ha
    rw [alternative_other (by simp) (by simp)] at hd
    subst hd
    rcases joined_and.1 ha with h | h | h
    · exact .inl h
    · exact .inr (.inl ((joined_other (by simp [cmpX]) (by simp [cmpX])).1 h))
    · exact .inr (.inr ((joined_other (by simp [cmpX]) (by simp [cmpX])).1 h))
  refine ⟨?_, ?_, ⟨_, _, _, .refl _, .refl _, .refl _⟩, ?_, by decide +kernel⟩
  · rintro d a c n x hd ha ⟨hc, p, q, sp, h⟩
    rcases key d a hd ha with rfl | rfl | rfl
    · rcases h with h | h <;> cases h
    · rcases h with h | h <;> cases h
      unfold Literal; decide
    · rcases h with h | h <;> cases h
      unfold Literal; decide
  · rintro d a hd ha ⟨c, n, x, p, q, sp, rfl, -⟩
    rcases key _ _ hd ha with h | h | h <;> cases h
  · exact .inl ⟨.inl rfl, .inl rfl, by decide⟩

end Verif.SqfLint
