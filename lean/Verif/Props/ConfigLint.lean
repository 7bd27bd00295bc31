import Verif.Lib.ConfigLint
import Verif.Props.Rapify
/-!
C55: what is wrong in a config is reported, and only a config without such parts is written.

The specification is Spec/ConfigLint: places (`At`), parts the parser could not read (`BadValue`). `lints` is the list of
the lints in any order, `configs` what the project says about lints.
-/
namespace Verif.ConfigLint
open Verif.ConfigParse

variable {lower : Text → Text} {ofF32 : Nat → Ver.Version} {pre : Option Text} {configs : Text → Option Lints.Override}
  {lints : List (Lints.Lint Target Code)} {ps : List Prp} {r : Report}

theorem report_ok (hl : lints.Perm (configLints lower pre)) (h : report lower ofF32 configs lints ps = .ok r) :
    ∃ m, Accepted lower pre configs lints m ∧ r.codes = analyze m.run ps ∧ r.config = ps ∧
      r.patches = patches lower ofF32 ps := by
  unfold report at h
  split at h
  · simp at h
  · rename_i m hm
    simp only [Except.ok.injEq] at h
    subst h
    exact ⟨m, ⟨hl, hm⟩, rfl, rfl, rfl⟩

theorem mem_analyze {run : Target → List Code} {c : Code} : c ∈ analyze run ps ↔
    c ∈ run (.config ps) ∨ c ∈ run (.root ps) ∨ ∃ a p, At ps a p ∧ c ∈ fullProp run p := by
  rw [analyze, List.mem_append, List.mem_append, mem_props]

theorem mem_fullProp {run : Target → List Code} {c : Code} {p : Prp} : c ∈ fullProp run p ↔
    c ∈ run (.prop p) ∨ (((∃ n par qs b, p = .loc n par qs b) ∨ ∃ n, p = .ext n) ∧ c ∈ run (.cls p)) ∨
    ∃ n v e, p = .entry n v e ∧ (c ∈ ownVal run v ∨ ∃ j, ItemIn j (items v) ∧ c ∈ ownItem run j) := by
  cases p <;> simp [fullProp, ownProp, mem_value]

/-- The codes of lints that look at properties one by one. -/
theorem mem_codes {m} (ha : Accepted lower pre configs lints m) {c : Code} (hc : (∃ n, c = .unexpectedArray n) ∨
      (∃ n, c = .expectedArray n) ∨ (∃ n, c = .missingSemicolon n) ∨ (∃ n, c = .missingBraces n) ∨ c = .panic) :
    c ∈ analyze m.run ps ↔ ∃ a p, At ps a p ∧
      (c ∈ runUnexpected (.prop p) ∨ c ∈ runExpected (.prop p) ∨ c ∈ runSemicolon (.prop p) ∨ c ∈ runBraces (.prop p)) := by
  have key : ∀ t, c ∈ m.run t ↔ c ∈ runUnexpected t ∨ c ∈ runExpected t ∨ c ∈ runSemicolon t ∨ c ∈ runBraces t := by
    intro t
    rw [mem_run ha]
    constructor
    · rintro (h | h | h | h | h | ⟨_, h⟩ | h | h | h | ⟨_, h⟩ | h)
      · have := kind_value h; rcases hc with ⟨_, rfl⟩ | ⟨_, rfl⟩ | ⟨_, rfl⟩ | ⟨_, rfl⟩ | rfl <;> simp at this
      · have := kind_item h; rcases hc with ⟨_, rfl⟩ | ⟨_, rfl⟩ | ⟨_, rfl⟩ | ⟨_, rfl⟩ | rfl <;> simp at this
      · have := kind_dupProperty h; rcases hc with ⟨_, rfl⟩ | ⟨_, rfl⟩ | ⟨_, rfl⟩ | ⟨_, rfl⟩ | rfl <;> simp at this
      · have := kind_dupClass h; rcases hc with ⟨_, rfl⟩ | ⟨_, rfl⟩ | ⟨_, rfl⟩ | ⟨_, rfl⟩ | rfl <;> simp at this
      · have := kind_missing h; rcases hc with ⟨_, rfl⟩ | ⟨_, rfl⟩ | ⟨_, rfl⟩ | ⟨_, rfl⟩ | rfl <;> simp at this
      · have := kind_parentCase h; rcases hc with ⟨_, rfl⟩ | ⟨_, rfl⟩ | ⟨_, rfl⟩ | ⟨_, rfl⟩ | rfl <;> simp at this
      · exact .inl h
      · exact .inr (.inl h)
      · exact .inr (.inr (.inl h))
      · have := kind_magwell h; rcases hc with ⟨_, rfl⟩ | ⟨_, rfl⟩ | ⟨_, rfl⟩ | ⟨_, rfl⟩ | rfl <;> simp at this
      · exact .inr (.inr (.inr h))
    · rintro (h | h | h | h) <;> simp [h]
  rw [mem_analyze]
  constructor
  · rintro (h | h | ⟨a, p, hp, h⟩)
    · rw [key] at h; simp [runUnexpected, runExpected, runSemicolon, runBraces] at h
    · rw [key] at h; simp [runUnexpected, runExpected, runSemicolon, runBraces] at h
    · refine ⟨a, p, hp, ?_⟩
      rw [mem_fullProp] at h
      rcases h with h | ⟨_, h⟩ | ⟨n, v, e, rfl, h⟩
      · exact (key _).1 h
      · rw [key] at h; simp [runUnexpected, runExpected, runSemicolon, runBraces] at h
      · rcases h with h | ⟨j, _, h⟩
        · unfold ownVal at h
          rw [List.mem_append, key] at h
          cases v <;> simp [runUnexpected, runExpected, runSemicolon, runBraces, key] at h
        · unfold ownItem at h
          rw [List.mem_append, key] at h
          cases j <;> simp [runUnexpected, runExpected, runSemicolon, runBraces, key] at h
  · rintro ⟨a, p, hp, h⟩
    exact .inr (.inr ⟨a, p, hp, mem_fullProp.2 (.inl ((key _).2 h))⟩)

/-- C55. An array where none is declared is reported, with the name of the property, exactly when there is one. -/
theorem C55_unexpected_array (hl : lints.Perm (configLints lower pre)) (h : report lower ofF32 configs lints ps = .ok r)
    (n : Text) : .unexpectedArray n ∈ r.codes ↔ ∃ a is e, At ps a (.entry n (.uarr is) e) := by
  obtain ⟨m, ha, hc, -, -⟩ := report_ok hl h
  rw [hc, mem_codes ha (.inl ⟨n, rfl⟩)]
  constructor
  · rintro ⟨a, p, hp, (h | h | h | h)⟩
    · unfold runUnexpected at h
      split at h <;> simp at h
      rename_i heq
      cases heq
      subst h
      exact ⟨a, _, _, hp⟩
    · simpa using kind_expected h
    · simpa using kind_semicolon h
    · simpa using kind_braces h
  · rintro ⟨a, is, e, hp⟩
    exact ⟨a, _, hp, .inl (by simp [runUnexpected])⟩

/-- C55. A value that is no array, where one is declared, is reported exactly when there is one. A value that could not be
read is reported as such. -/
theorem C55_expected_array (hl : lints.Perm (configLints lower pre)) (h : report lower ofF32 configs lints ps = .ok r)
    (n : Text) : .expectedArray n ∈ r.codes ↔ ∃ a v, At ps a (.entry n v true) ∧ ¬ IsArray v ∧ v ≠ .invalid := by
  obtain ⟨m, ha, hc, -, -⟩ := report_ok hl h
  rw [hc, mem_codes ha (.inr (.inl ⟨n, rfl⟩))]
  constructor
  · rintro ⟨a, p, hp, (h | h | h | h)⟩
    · simpa using kind_unexpected h
    · unfold runExpected at h
      split at h
      · rename_i n' v e heq
        cases heq
        split at h
        · simp at h
        · rename_i he
          simp only [Bool.not_eq_false] at he
          subst he
          split at h
          · simp at h
          · simp at h
          · rename_i h1 h2
            simp at h
            subst h
            refine ⟨a, v, hp, ?_, h2⟩
            cases v <;> simp [IsArray]
            exact h1 _ _ rfl
      · simp at h
    · simpa using kind_semicolon h
    · simpa using kind_braces h
  · rintro ⟨a, v, hp, h1, h2⟩
    refine ⟨a, _, hp, .inr (.inl ?_)⟩
    cases v <;> simp_all [runExpected, IsArray]

/-- C55. A missing semicolon is reported exactly when there is one. -/
theorem C55_missing_semicolon (hl : lints.Perm (configLints lower pre)) (h : report lower ofF32 configs lints ps = .ok r)
    (n : Text) : .missingSemicolon n ∈ r.codes ↔ ∃ a, At ps a (.missing n) := by
  obtain ⟨m, ha, hc, -, -⟩ := report_ok hl h
  rw [hc, mem_codes ha (.inr (.inr (.inl ⟨n, rfl⟩)))]
  constructor
  · rintro ⟨a, p, hp, (h | h | h | h)⟩
    · simpa using kind_unexpected h
    · simpa using kind_expected h
    · unfold runSemicolon at h
      split at h <;> simp at h
      rename_i heq
      cases heq
      subst h
      exact ⟨a, hp⟩
    · simpa using kind_braces h
  · rintro ⟨a, hp⟩
    exact ⟨a, _, hp, .inr (.inr (.inl (by simp [runSemicolon])))⟩

/-- C55. A class that has a parent but no braces is reported exactly when there is one. -/
theorem C55_missing_braces (hl : lints.Perm (configLints lower pre)) (h : report lower ofF32 configs lints ps = .ok r)
    (par : Text) : .missingBraces par ∈ r.codes ↔ ∃ a n qs, At ps a (.loc n (some par) qs true) := by
  obtain ⟨m, ha, hc, -, -⟩ := report_ok hl h
  rw [hc, mem_codes ha (.inr (.inr (.inr (.inl ⟨par, rfl⟩))))]
  constructor
  · rintro ⟨a, p, hp, (h | h | h | h)⟩
    · simpa using kind_unexpected h
    · simpa using kind_expected h
    · simpa using kind_semicolon h
    · unfold runBraces at h
      split at h
      · rename_i n par' qs heq
        cases heq
        split at h <;> simp at h
        subst h
        exact ⟨a, _, _, hp⟩
      · simp at h
  · rintro ⟨a, n, qs, hp⟩
    exact ⟨a, _, hp, .inr (.inr (.inr (by simp [runBraces])))⟩

theorem mem_panic (hl : lints.Perm (configLints lower pre)) (h : report lower ofF32 configs lints ps = .ok r) :
    .panic ∈ r.codes ↔ ∃ a n qs, At ps a (.loc n none qs true) := by
  obtain ⟨m, ha, hc, -, -⟩ := report_ok hl h
  rw [hc, mem_codes ha (.inr (.inr (.inr (.inr rfl))))]
  constructor
  · rintro ⟨a, p, hp, (h | h | h | h)⟩
    · simpa using kind_unexpected h
    · simpa using kind_expected h
    · simpa using kind_semicolon h
    · unfold runBraces at h
      split at h
      · rename_i n par' qs heq
        cases heq
        split at h <;> simp at h
        exact ⟨a, _, _, hp⟩
      · simp at h
  · rintro ⟨a, n, qs, hp⟩
    exact ⟨a, _, hp, .inr (.inr (.inr (by simp [runBraces])))⟩

/-- C55. A value that could not be read, or one in an array, is reported exactly when there is one. -/
theorem C55_invalid (hl : lints.Perm (configLints lower pre)) (h : report lower ofF32 configs lints ps = .ok r) :
    .invalid ∈ r.codes ↔ ∃ a n v e, At ps a (.entry n v e) ∧ BadValue v := by
  obtain ⟨m, ha, hc, -, -⟩ := report_ok hl h
  have key : ∀ t, .invalid ∈ m.run t ↔ .invalid ∈ runValue t ∨ .invalid ∈ runItem t := by
    intro t
    rw [mem_run ha]
    constructor
    · rintro (h | h | h | h | h | ⟨_, h⟩ | h | h | h | ⟨_, h⟩ | h)
      · exact .inl h
      · exact .inr h
      · simpa using kind_dupProperty h
      · simpa using kind_dupClass h
      · simpa using kind_missing h
      · simpa using kind_parentCase h
      · simpa using kind_unexpected h
      · simpa using kind_expected h
      · simpa using kind_semicolon h
      · simpa using kind_magwell h
      · simpa using kind_braces h
    · rintro (h | h) <;> simp [h]
  rw [hc, mem_analyze, key, key]
  have hv : ∀ v, (Code.invalid ∈ ownVal m.run v ∨ ∃ j, ItemIn j (items v) ∧ Code.invalid ∈ ownItem m.run j) ↔
      BadValue v := by
    intro v
    have hi : ∀ j, Code.invalid ∈ ownItem m.run j ↔ j = .invalid := by
      intro j
      cases j <;> simp [ownItem, key, runValue, runItem]
    have h1 : Code.invalid ∈ ownVal m.run v ↔ v = .invalid := by
      cases v <;> simp [ownVal, key, runValue, runItem]
    rw [h1]
    simp only [hi, exists_eq_right]
    cases v <;> simp [BadValue, items, not_itemIn_nil]
  have hp : ∀ p, Code.invalid ∈ fullProp m.run p ↔ ∃ n v e, p = .entry n v e ∧ BadValue v := by
    intro p
    rw [mem_fullProp, key, key]
    simp [runValue, runItem, hv]
  simp only [hp]
  simp only [runValue, runItem, List.not_mem_nil, or_self, false_or]
  constructor
  · rintro ⟨a, p, hp, n, v, e, rfl, hv⟩
    exact ⟨a, n, v, e, hp, hv⟩
  · rintro ⟨a, n, v, e, hp, hv⟩
    exact ⟨a, _, hp, n, v, e, rfl, hv⟩

/-- A part that cannot be written. -/
inductive Unwritable (ps : List Prp) : Prop
  | value {a n v e} : At ps a (.entry n v e) → BadValue v → Unwritable ps
  | unexpected {a n is e} : At ps a (.entry n (.uarr is) e) → Unwritable ps
  | missing {a n} : At ps a (.missing n) → Unwritable ps

mutual
theorem item_clean : ∀ i : Item, (itemRap i).clean ↔ ¬ ItemIn .invalid [i]
  | .str s => by simp [itemRap, Rap.Item.clean, itemIn_cons, not_itemIn_nil]
  | .num s => by simp [itemRap, Rap.Item.clean, itemIn_cons, not_itemIn_nil]
  | .invalid => by simp [itemRap, Rap.Item.clean, itemIn_cons, not_itemIn_nil]
  | .arr is => by
    have := items_clean is
    simp [itemRap, Rap.Item.clean, itemIn_cons, not_itemIn_nil, this]
theorem items_clean : ∀ is : List Item, Rap.itemsClean (itemsRap is) ↔ ¬ ItemIn .invalid is
  | [] => by simp [itemsRap, Rap.itemsClean, not_itemIn_nil]
  | i :: is => by
    have h1 := item_clean i
    have h2 := items_clean is
    rw [itemsRap, Rap.itemsClean, h1, h2, itemIn_cons, itemIn_cons]
    simp only [not_itemIn_nil, or_false, ← not_or, or_assoc]
end

theorem val_clean (v : Val) : (valRap v).clean ↔ ¬ BadValue v ∧ ∀ is, v ≠ .uarr is := by
  cases v <;> simp [valRap, Rap.Value.clean, BadValue, items_clean]

/-- What is wrong at one property. -/
def BadProp : Prp → Prop
  | .entry _ v _ => BadValue v ∨ ∃ is, v = .uarr is
  | .missing _ => True
  | _ => False

theorem unwritable_iff : Unwritable ps ↔ ∃ a p, At ps a p ∧ BadProp p := by
  constructor
  · rintro (⟨h, hv⟩ | h | h)
    · exact ⟨_, _, h, .inl hv⟩
    · exact ⟨_, _, h, .inr ⟨_, rfl⟩⟩
    · exact ⟨_, _, h, trivial⟩
  · rintro ⟨a, p, h, hp⟩
    cases p with
    | entry n v e =>
      rcases hp with hv | ⟨is, rfl⟩
      · exact .value h hv
      · exact .unexpected h
    | missing n => exact .missing h
    | _ => exact absurd hp (by simp [BadProp])

mutual
theorem prop_clean : ∀ p : Prp, (propRap p).clean ↔ ¬ BadProp p ∧ ∀ n par qs b, p = .loc n par qs b → ¬ Unwritable qs
  | .entry n v e => by simp [propRap, Rap.Prp.clean, BadProp, val_clean]
  | .ext n => by simp [propRap, Rap.Prp.clean, BadProp]
  | .del n => by simp [propRap, Rap.Prp.clean, BadProp]
  | .missing n => by simp [propRap, Rap.Prp.clean, BadProp]
  | .loc n par qs b => by
    have := props_clean qs
    simp only [propRap, Rap.Prp.clean, BadProp, this, not_false_eq_true, true_and]
    exact ⟨fun h _ _ _ _ e => by cases e; exact h, fun h => h _ _ _ _ rfl⟩
theorem props_clean : ∀ ps : List Prp, Rap.propsClean (propsRap ps) ↔ ¬ Unwritable ps
  | [] => by simp [propsRap, Rap.propsClean, unwritable_iff, not_at_nil]
  | p :: ps => by
    have h1 := prop_clean p
    have h2 := props_clean ps
    rw [propsRap, Rap.propsClean, h1, h2, unwritable_iff (ps := p :: ps), ex_at_cons, ← unwritable_iff]
    simp only [← unwritable_iff]
    constructor
    · rintro ⟨⟨h1, h2⟩, h3⟩ (h | ⟨n, par, qs, b, rfl, h⟩ | h)
      · exact h1 h
      · exact h2 _ _ _ _ rfl h
      · exact h3 h
    · intro h
      exact ⟨⟨fun h' => h (.inl h'), fun n par qs b e h' => h (.inr (.inl ⟨n, par, qs, b, e, h'⟩))⟩,
        fun h' => h (.inr (.inr h'))⟩
end

/-- C55. What becomes of a config, whatever the project says about lints. It is written if and only if nothing is reported,
and then nothing in it is unwritable and the file is that of the whole tree. If it is not written there is a report: codes,
or complaints about the lint settings. The run never aborts. (A class without braces has a parent: `C56_parsed`.) -/
theorem C55_build (hl : lints.Perm (configLints lower pre)) (hb : ∀ a n qs, ¬ At ps a (.loc n none qs true)) :
    match build lower ofF32 configs lints ps with
    | .written file => ¬ Unwritable ps ∧ Rap.rapify (propsRap ps) = .ok file ∧
        ∃ r, report lower ofF32 configs lints ps = .ok r ∧ r.codes = []
    | .refused codes => codes ≠ [] ∧ ∃ r, report lower ofF32 configs lints ps = .ok r ∧ r.codes = codes
    | .badLints es => es ≠ [] ∧ ∀ qs, report lower ofF32 configs lints qs = .error es
    | .panicked => False := by
  unfold build
  cases hr : report lower ofF32 configs lints ps with
  | error es =>
    simp only
    unfold report at hr ⊢
    unfold Lints.Manager.extend at hr ⊢
    split at hr
    · rename_i he
      split at he
      · simp at he
      · rename_i hne
        simp only [Except.error.injEq] at he hr
        subst hr
        exact ⟨by rw [← he]; exact hne, fun qs => rfl⟩
    · simp at hr
  | ok r =>
    have hp := mem_panic hl hr
    have hnp : Code.panic ∉ r.codes := by
      rw [hp]
      rintro ⟨a, n, qs, h⟩
      exact hb a n qs h
    have herr : r.errors = r.codes := by
      simp [Report.errors, Code.severity]
    simp only [hnp, if_false, herr]
    by_cases hc : r.codes = []
    · rw [if_neg (by simp [hc])]
      have hcl : ¬ Unwritable ps := by
        rintro (⟨h, hv⟩ | h | h)
        · have := (C55_invalid hl hr).2 ⟨_, _, _, _, h, hv⟩
          simp [hc] at this
        · have := (C55_unexpected_array hl hr _).2 ⟨_, _, _, h⟩
          simp [hc] at this
        · have := (C55_missing_semicolon hl hr _).2 ⟨_, h⟩
          simp [hc] at this
      obtain ⟨m, -, -, hcfg, -⟩ := report_ok hl hr
      obtain ⟨file, hf, -⟩ := Rap.C17_config_length _ ((props_clean ps).2 hcl)
      rw [hcfg, hf]
      exact ⟨hcl, rfl, r, rfl, hc⟩
    · rw [if_pos hc]
      exact ⟨hc, r, rfl, rfl⟩

/-! ### Cases -/

/-- ASCII lower case. -/
def low : Text → Text := List.map Char.toLower

/-- What is reported about a config, with the settings a project has by default. -/
def codesOf (ps : List Prp) : List Code :=
  match report low (fun b => ⟨b / 100, b % 100, 0, none, none⟩) (fun _ => none) (configLints low none) ps with
  | .ok r => r.codes
  | .error _ => [.panic]

/-- `x = {1, $}; class A { y[] = 5; z = $; t = 1 }; class B : C` and so on -/
def messy : List Prp :=
  [.entry "x".toList (.uarr [.num (.i32 1), .arr [.invalid]]) false,
   .loc "A".toList none [.entry "y".toList (.num (.i32 5)) true, .entry "z".toList .invalid false, .missing "t".toList] false,
   .loc "B".toList (some "A".toList) [] true]

example : codesOf messy = [.unexpectedArray "x".toList, .invalid, .expectedArray "y".toList, .invalid,
    .missingSemicolon "t".toList, .missingBraces "A".toList] := by decide +kernel

example : At messy [1, 2] (.missing "t".toList) :=
  .deep (n := "A".toList) (par := none) (b := false) rfl (.here rfl)

example : Unwritable messy := .value (a := [1, 1]) (.deep (n := "A".toList) (par := none) (b := false) rfl (.here rfl)) trivial

/-- The hypotheses of the theorems are met: the settings are accepted, by default and with a lint that may be turned off
turned off. -/
example : ∃ r, report low (fun _ => ⟨0, 0, 0, none, none⟩) (fun k => if k = "external_parent_case".toList then
    some ⟨some false, none, fun _ => none⟩ else none) (configLints low none) messy = .ok r ∧ r.codes.length = 6 := by
  refine ⟨_, rfl, ?_⟩
  decide +kernel

/-- A config that is written. -/
def tidy : List Prp :=
  [.ext "Base".toList, .loc "A".toList (some "Base".toList) [.entry "y".toList (.arr false [.num (.i32 5)]) true] false]

theorem tidy_codes : (match report low (fun _ => ⟨0, 0, 0, none, none⟩) (fun _ => none) (configLints low none) tidy with
    | .ok r => decide (r.codes = [])
    | .error _ => false) = true := by decide +kernel

example : ∃ file, build low (fun _ => ⟨0, 0, 0, none, none⟩) (fun _ => none) (configLints low none) tidy = .written file := by
  have hc := tidy_codes
  have h := C55_build (lower := low) (ofF32 := fun _ => ⟨0, 0, 0, none, none⟩) (configs := fun _ => none) (pre := none)
    (ps := tidy) (List.Perm.refl _) (by
      intro a n qs h
      simp only [tidy, at_cons, not_at_nil] at h
      simp at h
      obtain ⟨a', -, h⟩ := h
      simp [at_cons, not_at_nil] at h)
  cases hb : build low (fun _ => ⟨0, 0, 0, none, none⟩) (fun _ => none) (configLints low none) tidy with
  | written file => exact ⟨file, rfl⟩
  | refused cs =>
    rw [hb] at h
    obtain ⟨h1, r, h2, h3⟩ := h
    rw [h2] at hc
    exact absurd (h3.symm.trans (of_decide_eq_true hc)) h1
  | badLints es =>
    rw [hb] at h
    rw [h.2] at hc
    exact Bool.noConfusion hc
  | panicked =>
    rw [hb] at h
    exact h.elim

end Verif.ConfigLint
