import Verif.Props.ConfigLint
import Verif.Lib.ConfigFits
import Verif.Lib.ConfigComplete
import Verif.Props.ConfigParse
/-!
C56: from the text of a config to the binary file and back.

Specification: the grammar of Lib/ConfigText (`Written`), the reader of binary configs of Spec/Rapify (`decode`), and
`propsRap`, which keeps the tree and writes its texts in UTF-8.
-/
namespace Verif.ConfigLint
open Verif.ConfigParse

variable {α : Type} {F : Fl α} {lower : Text → Text} {ofF32 : Nat → Ver.Version} {pre : Option Text}
  {configs : Text → Option Lints.Override} {lints : List (Lints.Lint Target Code)} {ps : List Prp} {s : Text}

/-- What is read from text: names are names, where braces are missing there is a parent, and arrays are declared. -/
theorem C56_parsed (h : config F s = .ok ps []) (hs : '\x00' ∉ s) : AllProper ps :=
  (props_proper reading_splits (C52_sound h).1 hs).1

theorem parsed_braces (h : AllProper ps) : ∀ a n qs, ¬ At ps a (.loc n none qs true) := by
  intro a n qs ha
  exact (h _ _ ha).2.2 rfl rfl

/-- C56. The text of a config never makes the run abort behind the parser: the config is written, or something is reported. -/
theorem C56_outcome (hl : lints.Perm (configLints lower pre)) (h : config F s = .ok ps []) (hs : '\x00' ∉ s) :
    (∃ file, build lower ofF32 configs lints ps = .written file) ∨
    (∃ c codes, build lower ofF32 configs lints ps = .refused (c :: codes)) ∨
    (∃ e es, build lower ofF32 configs lints ps = .badLints (e :: es)) := by
  have := C55_build (lower := lower) (ofF32 := ofF32) (configs := configs) hl (parsed_braces (C56_parsed h hs))
  revert this
  cases build lower ofF32 configs lints ps with
  | written file => exact fun _ => .inl ⟨file, rfl⟩
  | refused codes =>
    cases codes with
    | nil => exact fun h => absurd rfl h.1
    | cons c cs => exact fun _ => .inr (.inl ⟨c, cs, rfl⟩)
  | badLints es =>
    cases es with
    | nil => exact fun h => absurd rfl h.1
    | cons c cs => exact fun _ => .inr (.inr ⟨c, cs, rfl⟩)
  | panicked => exact fun h => h.elim

/-- C56. The file written for a text, read back, is the tree the text stands for. -/
theorem C56_file (hl : lints.Perm (configLints lower pre)) (h : config F s = .ok ps []) (hs : '\x00' ∉ s)
    {file : List UInt8} (hf : build lower ofF32 configs lints ps = .written file) (hsize : file.length < 2 ^ 32) :
    Written (Reading F) ps s ∧ Rap.Spec.decode file = some (propsRap ps) := by
  have hp := C56_parsed h hs
  have := C55_build (lower := lower) (ofF32 := ofF32) (configs := configs) hl (parsed_braces hp)
  rw [hf] at this
  exact ⟨(C52_sound h).1, Rap.C16_decode _ file ((props_clean ps).2 this.1) (props_fits ps hp) this.2.1 hsize⟩

/-- C56. Text written by the rules, of which nothing is reported, gives a file, and that file, read back, is what the text
says. -/
theorem C56_written (hl : lints.Perm (configLints lower pre)) (h : Written (Writing F) ps s) (he : AllEnded ps)
    (hs : '\x00' ∉ s) {r : Report} (hr : report lower ofF32 configs lints ps = .ok r) (hc : r.codes = []) :
    config F s = .ok ps [] ∧ ∃ file, build lower ofF32 configs lints ps = .written file ∧
      (file.length < 2 ^ 32 → Rap.Spec.decode file = some (propsRap ps)) := by
  have hp := C52_complete h he
  refine ⟨hp, ?_⟩
  have := C55_build (lower := lower) (ofF32 := ofF32) (configs := configs) hl (parsed_braces (C56_parsed hp hs))
  cases hb : build lower ofF32 configs lints ps with
  | written file => exact ⟨file, rfl, fun hsz => (C56_file hl hp hs hb hsz).2⟩
  | refused codes =>
    rw [hb] at this
    obtain ⟨h1, r', h2, h3⟩ := this
    rw [hr] at h2
    cases h2
    exact absurd (h3.symm.trans hc) h1
  | badLints es =>
    rw [hb] at this
    have := this.2 ps
    rw [hr] at this
    cases this
  | panicked =>
    rw [hb] at this
    exact this.elim

theorem written_plain (hl : lints.Perm (configLints lower pre)) (hp : AllProper ps)
    {file : List UInt8} (hf : build lower ofF32 configs lints ps = .written file) : ∀ a p, At ps a p → Plain p := by
  have := C55_build (lower := lower) (ofF32 := ofF32) (configs := configs) hl (parsed_braces hp)
  rw [hf] at this
  obtain ⟨hu, -, r, hr, hc⟩ := this
  intro a p ha
  cases p with
  | entry n v e =>
    have h1 : v ≠ .invalid := by
      rintro rfl
      exact hu (.value ha trivial)
    refine ⟨h1, ?_, ?_⟩
    · rintro is rfl
      exact hu (.unexpected ha)
    · refine ⟨?_, (hp _ _ ha).2.2⟩
      rintro rfl
      by_contra hna
      have := (C55_expected_array hl hr n).2 ⟨a, v, ha, hna, h1⟩
      simp [hc] at this
  | loc n par qs b =>
    cases b with
    | false => rfl
    | true =>
      cases par with
      | none => exact absurd rfl ((hp _ _ ha).2.2 rfl)
      | some q =>
        have := (C55_missing_braces hl hr q).2 ⟨a, n, qs, ha⟩
        simp [hc] at this
  | _ => trivial

/-- C56. The file tells which config it is: two texts (under any lint settings) that give the same file are the same config. -/
theorem C56_injective {lints' : List (Lints.Lint Target Code)} {configs' : Text → Option Lints.Override} {pre' : Option Text}
    {qs : List Prp} {t : Text} (hl : lints.Perm (configLints lower pre)) (hl' : lints'.Perm (configLints lower pre'))
    (h : config F s = .ok ps []) (h' : config F t = .ok qs []) (hs : '\x00' ∉ s) (ht : '\x00' ∉ t) {file : List UInt8}
    (hf : build lower ofF32 configs lints ps = .written file) (hf' : build lower ofF32 configs' lints' qs = .written file)
    (hsize : file.length < 2 ^ 32) : ps = qs := by
  have h1 := (C56_file hl h hs hf hsize).2
  have h2 := (C56_file hl' h' ht hf' hsize).2
  rw [h1] at h2
  exact propsRap_inj ps qs (written_plain hl (C56_parsed h hs) hf) (written_plain hl' (C56_parsed h' ht) hf') (by simpa using h2)

/-! ### Cases -/

/-- A text, what is read from it, and that nothing is reported. -/
def tidyText : Text := "class Base;\nclass A: Base { y[] = {5, \"it\"}; class In {}; delete Out; };".toList

example : (match config sampleFl tidyText with
    | .ok [b, a] [] => decide (codesOf [b, a] = [] ∧ b.name = "Base".toList ∧ a.inner.map Prp.name =
        ["y".toList, "In".toList, "Out".toList])
    | _ => false) = true := by decide +kernel

example : '\x00' ∉ tidyText := by decide

/-- And one of which something is reported. -/
example : (match config sampleFl "x[] = 5; class A: B;".toList with
    | .ok ps [] => decide (codesOf ps = [.parentMissing [1] "B".toList, .expectedArray "x".toList, .missingBraces "B".toList])
    | _ => false) = true := by decide +kernel

end Verif.ConfigLint
