import Verif.Lib.SqfBlocks
/-! C74: names of variables and commands (S17, S04, S09). -/
namespace Verif.SqfLint
open Verif.Sqf Verif.SqfLex

/-- `p` stands for the name `n` in a list of names to ignore: it is the name, or the beginning of it with a star. -/
inductive Stands (n : Bytes) : Bytes → Prop where
  | same : Stands n n
  | prefix_ (p : Bytes) : p <+: n → Stands n (p ++ ascii "*")

/-- C74: variables reported as written in capitals are exactly the ones that do not begin with `_`, have no small letter
`a` to `z` in them, are not `SLX_XEH_COMPILE_NEW`, and are not stood for in the list of names to ignore. -/
theorem C74_capitals {ignore : List Bytes} {n : Bytes} {sp : Span} {r : Bytes × Span} : allCaps ignore (.var n sp) = some r ↔
    r = (n, sp) ∧ (∀ t, n ≠ ascii "_" ++ t) ∧ (∀ b ∈ n, ¬(97 ≤ b ∧ b ≤ 122)) ∧ n ≠ ascii "SLX_XEH_COMPILE_NEW" ∧
      ∀ p ∈ ignore, ¬Stands n p := by
  have hup : asciiUpper n = n ↔ ∀ b ∈ n, ¬(97 ≤ b ∧ b ≤ 122) := by
    unfold asciiUpper
    rw [show List.map upperByte n = n ↔ ∀ b ∈ n, upperByte b = b from by
      conv_lhs => rhs; rw [← List.map_id n]
      exact List.map_inj_left]
    refine forall₂_congr fun b _ => ?_
    unfold upperByte
    constructor
    · intro h hb
      rw [if_pos hb] at h
      have := congrArg UInt8.toNat h
      have h1 : 97 ≤ b.toNat := UInt8.le_iff_toNat_le.1 hb.1
      rw [UInt8.toNat_sub_of_le b 32 (by rw [UInt8.le_iff_toNat_le]; exact le_trans (by decide) h1)] at this
      have h32 : (32 : UInt8).toNat = 32 := rfl
      omega
    · intro h
      rw [if_neg h]
  have hund : n.head? = some 95 ↔ ∃ t, n = ascii "_" ++ t := by
    have : ascii "_" = [95] := by decide +kernel
    rw [this]
    cases n with
    | nil => simp
    | cons a n => simp
  have hst : ∀ p, (p == n || (p.getLast? == some 42 && p.dropLast.isPrefixOf n)) = true ↔ Stands n p := by
    intro p
    have hstar : ascii "*" = [42] := by decide +kernel
    simp only [Bool.or_eq_true, beq_iff_eq, Bool.and_eq_true, List.isPrefixOf_iff_prefix]
    constructor
    · rintro (rfl | ⟨h1, h2⟩)
      · exact .same
      · obtain ⟨q, rfl⟩ := List.getLast?_eq_some_iff.1 h1
        rw [List.dropLast_concat] at h2
        have h3 := Stands.prefix_ _ h2
        rwa [hstar] at h3
    · intro h
      cases h with
      | same => exact .inl rfl
      | prefix_ p hp =>
        right
        rw [hstar]
        simpa using hp
  unfold allCaps
  dsimp only
  by_cases h1 : n.head? = some 95 ∨ asciiUpper n ≠ n ∨ n = ascii "SLX_XEH_COMPILE_NEW"
  · rw [if_pos h1]
    constructor
    · intro h; cases h
    · rintro ⟨_, h2, h3, h4, _⟩
      rcases h1 with h1 | h1 | h1
      · obtain ⟨t, ht⟩ := hund.1 h1
        exact absurd ht (h2 t)
      · exact absurd (hup.2 h3) h1
      · exact absurd h1 h4
  · rw [if_neg h1]
    simp only [not_or, not_not] at h1
    by_cases h2 : ignore.any (fun s => s == n || (s.getLast? == some 42 && s.dropLast.isPrefixOf n)) = true
    · rw [if_pos h2]
      constructor
      · intro h; cases h
      · rintro ⟨_, _, _, _, h⟩
        obtain ⟨p, hp, hq⟩ := List.any_eq_true.1 h2
        exact absurd ((hst p).1 hq) (h p hp)
    · rw [if_neg h2]
      constructor
      · intro h
        cases h
        refine ⟨rfl, fun t ht => h1.1 (hund.2 ⟨t, ht⟩), hup.1 h1.2.1, h1.2.2, ?_⟩
        intro p hp hs
        exact h2 (List.any_eq_true.2 ⟨p, hp, (hst p).2 hs⟩)
      · rintro ⟨rfl, _⟩
        rfl

/-- C74: a command is reported for its letter case exactly if it is not ignored (up to letter case) and the wiki spells it
otherwise; the wiki's spelling is suggested. -/
theorem C74_case {lower : Bytes → Bytes} {ignore : List Bytes} {wiki : Bytes → Option Bytes} {e : Expr} {c w : Bytes} :
    commandCase lower ignore wiki e = some (c, w) ↔ (∃ sp, UseOf c sp e) ∧ (∀ i ∈ ignore, lower i ≠ lower c) ∧ wiki c = some w ∧ c ≠ w := by
  have hn : commandName e = some c ↔ ∃ sp, UseOf c sp e := by
    constructor
    · intro h
      unfold commandName at h
      split at h <;> cases h
      · exact ⟨_, .nular ..⟩
      · exact ⟨_, .un ..⟩
      · exact ⟨_, .bin ..⟩
    · rintro ⟨sp, h⟩
      cases h <;> rfl
  rw [← hn]
  unfold commandCase
  cases hc : commandName e with
  | none => simp
  | some d =>
    dsimp only
    split
    · rename_i h
      obtain ⟨i, hi, h⟩ := List.any_eq_true.1 h
      constructor
      · intro h; cases h
      · rintro ⟨hd, h', _⟩
        cases hd
        exact absurd (by simpa using h) (h' i hi)
    · rename_i h
      split
      · rename_i hw
        constructor
        · intro h; cases h
        · rintro ⟨hd, _, h', _⟩
          cases hd
          rw [hw] at h'
          cases h'
      · rename_i w' hw
        split
        · rename_i hne
          constructor
          · intro h'
            cases h'
            exact ⟨rfl, fun i hi hl => h (List.any_eq_true.2 ⟨i, hi, by simpa using hl⟩), hw, hne⟩
          · rintro ⟨hd, _, h', _⟩
            cases hd
            rw [hw] at h'
            cases h'
            rfl
        · rename_i hne
          constructor
          · intro h; cases h
          · rintro ⟨hd, _, h', h''⟩
            cases hd
            rw [hw] at h'
            cases h'
            exact absurd h'' hne

/-- C74: a command is reported as banned exactly if it is not ignored, the wiki knows it, and it is broken or in the list of banned
commands (up to letter case). -/
theorem C74_banned {lower : Bytes → Bytes} {ignore banned : List Bytes} {broken : Bytes → Option Bool} {e : Expr} {c : Bytes} {f : Bool} :
    bannedCommand lower ignore banned broken e = some (c, f) ↔ (∃ sp, UseOf c sp e) ∧ (∀ i ∈ ignore, lower i ≠ lower c) ∧
      broken c = some f ∧ (f = false → ∃ i ∈ banned, lower i = lower c) := by
  have hn : commandName e = some c ↔ ∃ sp, UseOf c sp e := by
    constructor
    · intro h
      unfold commandName at h
      split at h <;> cases h
      · exact ⟨_, .nular ..⟩
      · exact ⟨_, .un ..⟩
      · exact ⟨_, .bin ..⟩
    · rintro ⟨sp, h⟩
      cases h <;> rfl
  rw [← hn]
  unfold bannedCommand
  cases hc : commandName e with
  | none => simp
  | some d =>
    dsimp only
    split
    · rename_i h
      obtain ⟨i, hi, h⟩ := List.any_eq_true.1 h
      constructor
      · intro h; cases h
      · rintro ⟨hd, h', _⟩
        cases hd
        exact absurd (by simpa using h) (h' i hi)
    · rename_i h
      have hi : ∀ i ∈ ignore, lower i ≠ lower d := fun i hi hl => h (List.any_eq_true.2 ⟨i, hi, by simpa using hl⟩)
      split
      · rename_i hw
        constructor
        · intro h; cases h
        · rintro ⟨hd, _, h', _⟩
          cases hd
          rw [hw] at h'
          cases h'
      · rename_i hw
        constructor
        · intro h'
          cases h'
          exact ⟨rfl, hi, hw, fun h => (nomatch h)⟩
        · rintro ⟨hd, _, h', _⟩
          cases hd
          rw [hw] at h'
          cases h'
          rfl
      · rename_i hw
        split
        · rename_i hb
          constructor
          · intro h'
            cases h'
            obtain ⟨i, hi', h⟩ := List.any_eq_true.1 hb
            exact ⟨rfl, hi, hw, fun _ => ⟨i, hi', by simpa using h⟩⟩
          · rintro ⟨hd, _, h', _⟩
            cases hd
            rw [hw] at h'
            cases h'
            rfl
        · rename_i hb
          constructor
          · intro h; cases h
          · rintro ⟨hd, _, h', h''⟩
            cases hd
            rw [hw] at h'
            cases h'
            obtain ⟨i, hi', h⟩ := h'' rfl
            exact absurd (List.any_eq_true.2 ⟨i, hi', by simpa using h⟩) hb

/-- C74: a command the wiki does not know is not reported even if the project bans it. -/
theorem C74_banned_violated {lower : Bytes → Bytes} {ignore banned : List Bytes} {broken : Bytes → Option Bool} {c : Bytes}
    (h : broken c = none) (l r : Expr) (sp : Span) : bannedCommand lower ignore banned broken (.bin (.named c) l r sp) = none := by
  simp [bannedCommand, commandName, BinCmd.asStr, h]

example : allCaps [ascii "ACE_*"] (.var (ascii "MY_VAR") (0, 6)) = some (ascii "MY_VAR", 0, 6) := by decide +kernel
example : allCaps [ascii "MY_*"] (.var (ascii "MY_VAR") (0, 6)) = none := by decide +kernel
example : commandCase asciiLower [ascii "PLAYER"] (fun c => if asciiLower c = ascii "objnull" then some (ascii "objNull") else none)
    (.nular (ascii "OBJNULL") (0, 7)) = some (ascii "OBJNULL", ascii "objNull") := by decide +kernel
example : bannedCommand asciiLower [] [ascii "execVM"] (fun _ => some false) (.un (.named (ascii "EXECVM")) (.var (ascii "x") (7, 8)) (0, 6)) =
    some (ascii "EXECVM", false) := by decide +kernel
example : bannedCommand asciiLower [] [ascii "execVM"] (fun _ => none) (.bin (.named (ascii "execVM")) (.var (ascii "y") (0, 1)) (.var (ascii "x") (7, 8)) (0, 6)) =
    none := C74_banned_violated rfl _ _ _

end Verif.SqfLint
