import Verif.Lib.SqfFormat
import Mathlib.Data.List.Perm.Subperm
/-!
C65: what is reported about format strings.
-/
namespace Verif.SqfLint
open Verif.Sqf
open Verif.SqfLex (dec)

/-- A text is either a format string, with one list of numbers, or has a lone `%`, at one place. -/
theorem C65_cases (s : Text) :
    ((∃ us, Format s us ∧ ∀ us', Format s us' → us'.map usize = us.map usize) ∧ ∀ i, ¬ LoneAt s i) ∨
    ((∀ us, ¬ Format s us) ∧ ∃ i, LoneAt s i ∧ ∀ j, LoneAt s j → j = i) := by
  rcases format_or s.length s (Nat.le_refl _) with ⟨us, h⟩ | ⟨i, h⟩
  · obtain ⟨k, e⟩ := scan_ok h
    refine .inl ⟨⟨us, h, fun us' h' => ?_⟩, fun i hi => ?_⟩
    · obtain ⟨k', e'⟩ := scan_ok h'
      rw [e] at e'
      exact (congrArg Scan.tokens (Except.ok.inj e')).symm
    · rw [scan_lone hi] at e; cases e
  · have e := scan_lone h
    refine .inr ⟨fun us hu => ?_, i, h, fun j hj => ?_⟩
    · obtain ⟨k, e'⟩ := scan_ok hu
      rw [e] at e'; cases e'
    · rw [scan_lone hj] at e; cases e; rfl

/-- C65: a lone `%` is reported, with the position behind it, if and only if there is one. -/
theorem C65_unescaped {s : Text} {args i : Nat} : formatProblem s args = some (.unescaped i) ↔ ∃ j, LoneAt s j ∧ i = j + 1 := by
  constructor
  · intro h
    rcases format_or s.length s (Nat.le_refl _) with ⟨us, hu⟩ | ⟨j, hj⟩
    · obtain ⟨k, e⟩ := scan_ok hu
      rw [formatProblem] at h
      simp only [e] at h
      split at h
      · cases h
      · split at h
        · cases h
        · split at h <;> cases h
    · rw [formatProblem] at h
      simp only [scan_lone hj, Option.some.injEq, Problem.unescaped.injEq] at h
      exact ⟨j, hj, h.symm⟩
  · rintro ⟨j, hj, rfl⟩
    rw [formatProblem]
    simp only [scan_lone hj]

/-- The result for a format string. -/
theorem problem_of {s : Text} {us : List Text} {n args : Nat} (h : Format s us) (hc : Countable us) (hn : Highest us n) :
    formatProblem s args = if args < n then some (.undefined n args) else if args > n then some (.unused n args)
      else if n > us.length then some (.skipped n us.length) else none := by
  obtain ⟨k, e⟩ := scan_ok h
  rw [formatProblem]
  simp only [e, h.usize hc, highest_iff.1 hn, List.length_map]

/-- C65: what is reported about a format string follows from the highest number in it, how many tokens it has, and the number
of arguments. -/
theorem C65_exact {s : Text} {us : List Text} {n args : Nat} (h : Format s us) (hc : Countable us) (hn : Highest us n) :
    (formatProblem s args = none ↔ args = n ∧ n ≤ us.length) ∧
    (∀ u p, formatProblem s args = some (.undefined u p) ↔ args < n ∧ u = n ∧ p = args) ∧
    (∀ u p, formatProblem s args = some (.unused u p) ↔ n < args ∧ u = n ∧ p = args) ∧
    (∀ u t, formatProblem s args = some (.skipped u t) ↔ args = n ∧ us.length < n ∧ u = n ∧ t = us.length) ∧
    (∀ i, formatProblem s args ≠ some (.unescaped i)) := by
  rw [problem_of h hc hn]
  refine ⟨?_, fun u p => ?_, fun u p => ?_, fun u t => ?_, fun i => ?_⟩ <;> split <;> try split
  all_goals try split
  all_goals simp
  all_goals omega

/-- C65: without a report, `%` is used rightly, every token has its argument, and the last argument is used. -/
theorem C65_clean {s : Text} {args : Nat} (h : formatProblem s args = none) : ∃ us, Format s us ∧
    (Countable us → (∀ u ∈ us, number u ≤ args) ∧ (args ≠ 0 → ∃ u ∈ us, number u = args)) := by
  rcases format_or s.length s (Nat.le_refl _) with ⟨us, hu⟩ | ⟨j, hj⟩
  · refine ⟨us, hu, fun hc => ?_⟩
    have hn := highest_iff.2 (rfl : maxTok (us.map number) = _)
    obtain ⟨rfl, -⟩ := (C65_exact hu hc hn).1.1 h
    rcases hn with ⟨rfl, hn⟩ | ⟨h1, h2⟩
    · exact ⟨by simp, fun h => absurd hn h⟩
    · exact ⟨h2, fun _ => h1⟩
  · rw [C65_unescaped.2 ⟨j, hj, rfl⟩] at h
    cases h

/-- C65: each report is right. A token without argument is named; an argument no token uses exists. -/
theorem C65_report {s : Text} {us : List Text} {args : Nat} (h : Format s us) (hc : Countable us) :
    (∀ u p, formatProblem s args = some (.undefined u p) → p = args ∧ args < u ∧ ∃ t ∈ us, number t = u) ∧
    (∀ u p, formatProblem s args = some (.unused u p) → p = args ∧ 0 < args ∧ ∀ t ∈ us, number t ≠ args) ∧
    (∀ u t, formatProblem s args = some (.skipped u t) → ∃ k, 0 < k ∧ k ≤ args ∧ ∀ t ∈ us, number t ≠ k) := by
  have hn := highest_iff.2 (rfl : maxTok (us.map number) = _)
  obtain ⟨-, h1, h2, h3, -⟩ := C65_exact (args := args) h hc hn
  refine ⟨fun u p hp => ?_, fun u p hp => ?_, fun u p hp => ?_⟩
  · obtain ⟨a, rfl, rfl⟩ := (h1 u p).1 hp
    rcases hn with ⟨-, hn⟩ | ⟨b, -⟩
    · omega
    · exact ⟨rfl, a, b⟩
  · obtain ⟨a, rfl, rfl⟩ := (h2 u p).1 hp
    refine ⟨rfl, by omega, fun t ht => ?_⟩
    rcases hn with ⟨rfl, -⟩ | ⟨-, b⟩
    · cases ht
    · have := b t ht; omega
  · obtain ⟨a, b, rfl, rfl⟩ := (h3 u p).1 hp
    by_contra hcon
    have hsub : List.range' 1 args ⊆ us.map number := by
      intro k hk
      rw [List.mem_range'_1] at hk
      by_contra hk'
      exact hcon ⟨k, by omega, by omega, fun t ht e => hk' (List.mem_map.2 ⟨t, ht, e⟩)⟩
    have := (List.Nodup.subperm (List.nodup_range' 1) hsub).length_le
    rw [List.length_range', List.length_map] at this
    omega

/-- C65: which expressions are checked: `format` and `formatText` with an array, the first element of which is a string. -/
theorem C65_expression {lower : Bytes → Bytes} {e : Expr} {r : FormatReport} : formatArgs lower e = some r ↔
    ∃ n args sp sp', e = .un (.named n) (.arr args sp) sp' ∧ (lower n = ascii "format" ∨ lower n = ascii "formattext") ∧
      ((args = [] ∧ r = .empty) ∨
       ∃ s q w rest p, args = .str s q w :: rest ∧ formatProblem (dec s) rest.length = some p ∧ r = .problem p) := by
  constructor
  · intro h
    unfold formatArgs at h
    split at h
    · split at h
      · rename_i n args sp sp' hn
        refine ⟨n, args, sp, sp', rfl, hn, ?_⟩
        split at h
        · cases h; exact .inl ⟨rfl, rfl⟩
        · rename_i s q w rest
          obtain ⟨p, hp, rfl⟩ := Option.map_eq_some_iff.1 h
          exact .inr ⟨s, q, w, rest, p, rfl, hp, rfl⟩
        · cases h
      · cases h
    · cases h
  · rintro ⟨n, args, sp, sp', rfl, hn, ⟨rfl, rfl⟩ | ⟨s, q, w, rest, p, rfl, hp, rfl⟩⟩
    · simp only [formatArgs, if_pos hn]
    · simp only [formatArgs, if_pos hn, hp, Option.map_some]

/-! ### Examples -/

/-- `%1 of %%2 and %12` -/
example : Format "%1 of %%2 and %12".toList [['1'], ['1', '2']] ∧ Countable [['1'], ['1', '2']] ∧ Highest [['1'], ['1', '2']] 12 := by
  refine ⟨?_, by unfold Countable; decide, .inr ⟨⟨['1', '2'], by decide, by decide⟩, by decide⟩⟩
  refine .token (d := ['1']) (by decide) (by unfold Digit; decide) (by rintro ⟨c, t, h, hc⟩; cases h; revert hc; unfold Digit; decide) ?_
  refine .char (by decide) (.char (by decide) (.char (by decide) (.char (by decide) (.percent ?_))))
  refine .char (by decide) (.char (by decide) (.char (by decide) (.char (by decide) (.char (by decide) (.char (by decide) ?_)))))
  refine .token (d := ['1', '2']) (s := []) (by decide) (by unfold Digit; decide) (by rintro ⟨c, t, h, hc⟩; cases h) .nil

example : formatProblem "%1 of %2".toList 1 = some (.undefined 2 1) ∧ formatProblem "100%".toList 0 = some (.unescaped 4) ∧
    formatProblem "%1%2".toList 2 = none ∧ formatProblem "%2".toList 2 = some (.skipped 2 1) ∧
    formatProblem "%%1".toList 1 = some (.unused 0 1) := by decide +kernel

example : LoneAt "100%".toList 3 :=
  ⟨['1', '0', '0'], [], [], rfl, .char (by decide) (.char (by decide) (.char (by decide) .nil)),
    (by rintro ⟨c, t, h, -⟩; cases h), by simp, rfl⟩

/-- C65, violated: that no argument is left out is checked by counting tokens, so `%1 %1 %3` with three arguments passes though
the second is never used; and a number the computer cannot count is taken for 0, so the token `%18446744073709551616` passes
without any argument. -/
theorem C65_violated :
    (formatProblem "%1 %1 %3".toList 3 = none ∧ ∃ us, Format "%1 %1 %3".toList us ∧ ∀ u ∈ us, number u ≠ 2) ∧
    (formatProblem "%18446744073709551616".toList 0 = none ∧ Format "%18446744073709551616".toList ["18446744073709551616".toList] ∧
      number "18446744073709551616".toList ≠ 0) := by
  refine ⟨⟨by decide +kernel, [['1'], ['1'], ['3']], ?_, by decide⟩, by decide +kernel, ?_, by decide +kernel⟩
  · have nd : ∀ t : Text, ¬ StartsDigit (' ' :: t) := fun t => starts_blank
    refine .token (d := ['1']) (by decide) (by unfold Digit; decide) (nd _) (.char (by decide) ?_)
    refine .token (d := ['1']) (by decide) (by unfold Digit; decide) (nd _) (.char (by decide) ?_)
    exact .token (d := ['3']) (s := []) (by decide) (by unfold Digit; decide) (by rintro ⟨c, t, h, hc⟩; cases h) .nil
  · have := Format.token (d := "18446744073709551616".toList) (s := []) (us := []) (by decide) (by unfold Digit; decide)
      (by rintro ⟨c, t, h, hc⟩; cases h) .nil
    simpa using this

end Verif.SqfLint
