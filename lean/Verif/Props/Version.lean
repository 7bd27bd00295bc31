import Verif.Model.Version
import Mathlib.Data.List.TakeWhile
/-! Properties C03 and C04. -/
namespace Verif.Ver

/-- The numeric components are `u32`s: true of every Rust `Version`. -/
def Ok32 (v : Version) : Prop :=
  v.major < 2 ^ 32 ∧ v.minor < 2 ^ 32 ∧ v.patch < 2 ^ 32 ∧ ∀ b, v.build = some b → b < 2 ^ 32

/-- A hash without its part from the first `-` on. -/
def cutHash (h : Text) : Text := h.takeWhile (· ≠ '-')

theorem split_head_cut (h : Text) : (split '-' h).head? = some (cutHash h) := by
  induction h with
  | nil => rfl
  | cons a s ih =>
    simp only [split, cutHash] at ih ⊢
    by_cases ha : a = '-'
    · simp [ha]
    · simp only [ha, if_false, ne_eq, not_false_eq_true, decide_true, List.takeWhile_cons_of_pos]
      cases hs : split '-' s with
      | nil => rw [hs] at ih; simp at ih
      | cons p ps => rw [hs] at ih; simp at ih; simp [ih]

/-- The dotted part of the text. -/
def dotted (v : Version) : Text :=
  decimal v.major ++ '.' :: decimal v.minor ++ '.' :: decimal v.patch
    ++ (match v.build with | some b => '.' :: decimal b | none => [])

theorem dotted_no_dash (v : Version) : '-' ∉ dotted v := by
  unfold dotted
  have h := @decimal_not_mem
  cases v.build <;> simp [h]

theorem dotted_ne_nil (v : Version) : dotted v ≠ [] := by
  unfold dotted
  simp

theorem split_display (v : Version) :
    split '-' (display v) = dotted v :: (match v.hash with | some h => split '-' h | none => []) := by
  have hd := dotted_no_dash v
  cases hh : v.hash with
  | none =>
    have : display v = dotted v := by
      cases hb : v.build <;> simp [display, dotted, hh, hb]
    rw [this, split_of_not_mem hd]
  | some h =>
    have : display v = dotted v ++ '-' :: h := by
      cases hb : v.build <;> simp [display, dotted, hh, hb]
    rw [this, split_append hd]

theorem split_dotted (v : Version) :
    split '.' (dotted v) = decimal v.major :: decimal v.minor :: decimal v.patch ::
      (match v.build with | some b => [decimal b] | none => []) := by
  have h := fun n => (@decimal_not_mem n).2.1
  cases hb : v.build with
  | none =>
    have : dotted v = decimal v.major ++ '.' :: (decimal v.minor ++ '.' :: decimal v.patch) := by
      simp [dotted, hb]
    rw [this, split_append (h _), split_append (h _), split_of_not_mem (h _)]
  | some b =>
    have : dotted v = decimal v.major ++ '.' :: (decimal v.minor ++ '.' :: (decimal v.patch
        ++ '.' :: decimal b)) := by
      simp [dotted, hb]
    rw [this, split_append (h _), split_append (h _), split_append (h _), split_of_not_mem (h _)]

/-- C03: parsing the printed text of any version gives that version, with its hash cut at the
first dash. -/
theorem C03_parse_display (v : Version) (h : Ok32 v) :
    parse (display v) = .ok { v with hash := v.hash.map cutHash } := by
  obtain ⟨h1, h2, h3, h4⟩ := h
  have hne : display v ≠ [] := by simp [display]
  obtain ⟨major, minor, patch, build, hash⟩ := v
  unfold parse
  rw [if_neg hne, split_display]
  simp only [split_dotted, parseU32_decimal h1, parseU32_decimal h2, parseU32_decimal h3]
  cases build with
  | none => cases hash <;> simp [split_head_cut]
  | some b => cases hash <;> simp [split_head_cut, parseU32_decimal (h4 b rfl)]

/-- C03: the round trip is exact precisely when the hash has no dash. -/
theorem C03_round_trip_iff (v : Version) (h : Ok32 v) :
    parse (display v) = .ok v ↔ ∀ t, v.hash = some t → '-' ∉ t := by
  rw [C03_parse_display v h]
  obtain ⟨major, minor, patch, build, hash⟩ := v
  cases hash with
  | none => simp
  | some t =>
    simp only [Except.ok.injEq, Version.mk.injEq, true_and, Option.map_some, Option.some.injEq,
      cutHash, forall_eq']
    rw [List.takeWhile_eq_self_iff]
    constructor
    · intro hc hm; simpa using hc _ hm
    · intro hc x hx
      have : x ≠ '-' := fun e => hc (e ▸ hx)
      simpa using this

/-- C03: whatever text was accepted, printing and re-parsing is stable, and components are `u32`. -/
theorem C03_parse_stable (s : Text) (v : Version) (h : parse s = .ok v) :
    parse (display v) = .ok v := by
  have key : Ok32 v ∧ ∀ t, v.hash = some t → '-' ∉ t := by
    unfold parse at h
    split at h
    · simp at h
    have hp := @split_pieces '-' s
    dsimp only at h
    revert h
    generalize split '-' s = parts at hp
    intro h
    have hhash : ∀ (first : Text) (more : List Text), parts = first :: more →
        ∀ t, more.head? = some t → '-' ∉ t := by
      intro first more e t ht
      apply hp
      rw [e]
      exact List.mem_cons_of_mem _ (List.mem_of_mem_head? ht)
    repeat' (split at h <;> try (simp at h; done))
    · cases h
      exact ⟨⟨parseU32_lt ‹_›, parseU32_lt ‹_›, parseU32_lt ‹_›, by simp⟩,
        hhash _ _ rfl⟩
    · cases h
      refine ⟨⟨parseU32_lt ‹_›, parseU32_lt ‹parseU32 _ = some _›, parseU32_lt ‹parseU32 _ = some _›, ?_⟩,
        hhash _ _ rfl⟩
      intro b hb; cases hb; exact parseU32_lt ‹_›
  exact (C03_round_trip_iff v key.1).2 key.2

/-- C03: text is accepted only if it reads `u32.u32.u32[.u32[.anything]][-anything]`; in particular a
missing component is never filled in with a default. -/
theorem C03_accepts_only (s : Text) (v : Version) (h : parse s = .ok v) :
    ∃ (first : Text) (more : List Text) (a b c : Text) (tail : List Text),
      split '-' s = first :: more ∧ split '.' first = a :: b :: c :: tail ∧
      parseU32 a = some v.major ∧ parseU32 b = some v.minor ∧ parseU32 c = some v.patch ∧
      tail.head?.map parseU32 = v.build.map some ∧ v.hash = more.head? := by
  unfold parse at h
  split at h
  · simp at h
  dsimp only at h
  repeat' (split at h <;> try (simp at h; done))
  · cases h
    exact ⟨_, _, _, _, _, _, ‹_›, ‹_›, ‹_›, ‹_›, ‹_›, rfl, rfl⟩
  · cases h
    exact ⟨_, _, _, _, _, _, ‹_›, ‹_›, ‹_›, ‹_›, ‹_›, by simpa using ‹_›, rfl⟩

example : Ok32 ⟨1, 10, 1, some 4294967295, some ['a']⟩ ∧ '-' ∉ ['a'] := by
  refine ⟨⟨by norm_num, by norm_num, by norm_num, ?_⟩, by decide⟩
  intro b hb; cases hb; norm_num

/-- C03, negative witness: `1.10.1-local-debug` loses its tail. -/
theorem C03_hash_with_dash_lost :
    ∃ v, Ok32 v ∧ parse (display v) ≠ .ok v :=
  ⟨⟨1, 10, 1, none, some "local-debug".toList⟩,
   ⟨by norm_num, by norm_num, by norm_num, by simp⟩, by
    rw [Ne, C03_round_trip_iff _ ⟨by norm_num, by norm_num, by norm_num, by simp⟩]
    intro h
    exact absurd (h _ rfl) (by decide)⟩

/-! ### C04 -/

/-- Specification: the comparison key, `build` absent sorts before any build number. -/
def key (v : Version) : List Nat :=
  [v.major, v.minor, v.patch, match v.build with | none => 0 | some b => b + 1]

/-- Specification: lexicographic strict order on equally long lists. -/
def lexLt : List Nat → List Nat → Prop
  | a :: as, b :: bs => a < b ∨ (a = b ∧ lexLt as bs)
  | _, _ => False

/-- C04: comparison is the lexicographic comparison of (major, minor, patch, build). -/
theorem C04_cmp_spec (a b : Version) :
    (partialCmp a b = some .lt ↔ lexLt (key a) (key b)) ∧
    (partialCmp a b = some .gt ↔ lexLt (key b) (key a)) ∧
    (partialCmp a b = some .eq ↔ key a = key b) := by
  obtain ⟨a1, a2, a3, a4, a5⟩ := a
  obtain ⟨b1, b2, b3, b4, b5⟩ := b
  simp only [partialCmp, lexLt, key]
  by_cases h1 : a1 = b1
  · by_cases h2 : a2 = b2
    · by_cases h3 : a3 = b3
      · cases a4 <;> cases b4 <;> simp [h1, h2, h3, Nat.compare_eq_lt, Nat.compare_eq_gt]
      · simp [h1, h2, h3, Nat.compare_eq_lt, Nat.compare_eq_gt, Ne.symm h3]
    · simp [h1, h2, Nat.compare_eq_lt, Nat.compare_eq_gt, Ne.symm h2]
  · simp [h1, Nat.compare_eq_lt, Nat.compare_eq_gt, Ne.symm h1]

/-- The Rust operator `a <= b`. -/
def le (a b : Version) : Prop := partialCmp a b = some .lt ∨ partialCmp a b = some .eq

theorem le_iff (a b : Version) : le a b ↔ lexLt (key a) (key b) ∨ key a = key b := by
  have h := C04_cmp_spec a b
  unfold le; rw [h.1, h.2.2]

/-- C04: any two versions are comparable, `<=` is total and transitive, swapping the operands swaps
the result, and versions comparing equal agree on everything but the hash. -/
theorem C04_total_order (a b c : Version) :
    (partialCmp a b).isSome ∧
    (partialCmp a b).map Ordering.swap = partialCmp b a ∧
    (le a b ∨ le b a) ∧
    (le a b → le b c → le a c) ∧
    (partialCmp a b = some .eq ↔
      a.major = b.major ∧ a.minor = b.minor ∧ a.patch = b.patch ∧ a.build = b.build) := by
  have hsome : ∃ o, partialCmp a b = some o := by
    unfold partialCmp
    repeat' split
    all_goals exact ⟨_, rfl⟩
  refine ⟨?_, ?_, ?_, ?_, ?_⟩
  · obtain ⟨o, ho⟩ := hsome; simp [ho]
  · obtain ⟨o, ho⟩ := hsome
    have h1 := C04_cmp_spec a b
    have h2 := C04_cmp_spec b a
    rw [ho]
    cases o
    · exact (h2.2.1.2 (h1.1.1 ho)).symm
    · exact (h2.2.2.2 (h1.2.2.1 ho).symm).symm
    · exact (h2.1.2 (h1.2.1.1 ho)).symm
  · rw [le_iff, le_iff]; simp [lexLt, key]; omega
  · rw [le_iff, le_iff, le_iff]; simp [lexLt, key]; omega
  · rw [(C04_cmp_spec a b).2.2]
    obtain ⟨a1, a2, a3, a4, a5⟩ := a
    obtain ⟨b1, b2, b3, b4, b5⟩ := b
    cases a4 <;> cases b4 <;> simp [key]

/-- C04: the largest of a non-empty list of versions is well defined: there is an element that is
`>=` all the others. -/
theorem C04_max_exists (vs : List Version) (h : vs ≠ []) : ∃ m ∈ vs, ∀ v ∈ vs, le v m := by
  induction vs with
  | nil => exact absurd rfl h
  | cons a vs ih =>
    by_cases hv : vs = []
    · subst hv
      refine ⟨a, by simp, ?_⟩
      intro v hv
      rw [List.mem_singleton.1 hv, le_iff]; right; rfl
    · obtain ⟨m, hm, hmax⟩ := ih hv
      have ht := C04_total_order a m
      rcases (ht m).2.2.1 with hle | hle
      · exact ⟨m, by simp [hm], fun v hv => by
          rcases List.mem_cons.1 hv with rfl | hv
          · exact hle
          · exact hmax v hv⟩
      · exact ⟨a, by simp, fun v hv => by
          rcases List.mem_cons.1 hv with rfl | hv
          · rw [le_iff]; right; rfl
          · exact (C04_total_order v m a).2.2.2.1 (hmax v hv) hle⟩

/-- C04: `==` and comparison disagree on versions that differ only in hash. -/
theorem C04_eq_differs : ∃ a b : Version, partialCmp a b = some .eq ∧ a ≠ b :=
  ⟨⟨1, 0, 0, none, some ['a']⟩, ⟨1, 0, 0, none, some ['b']⟩, by decide, by decide⟩

example : partialCmp ⟨1, 2, 3, none, none⟩ ⟨1, 2, 3, some 0, none⟩ = some .lt := by decide

end Verif.Ver
