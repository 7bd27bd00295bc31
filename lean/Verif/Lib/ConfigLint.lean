import Verif.Spec.ConfigLint
import Verif.Props.Lint
/-! Lemmas: which lints see which part of the tree. -/
namespace Verif.ConfigLint
open Verif.ConfigParse

theorem not_at_nil {a p} : ¬ At [] a p := by
  rintro (h | ⟨h, _⟩) <;> simp at h

theorem at_cons {q ps a p} : At (q :: ps) a p ↔
    (a = [0] ∧ p = q) ∨ (∃ n par qs b a', q = .loc n par qs b ∧ a = 0 :: a' ∧ At qs a' p) ∨
    (∃ i a', a = (i + 1) :: a' ∧ At ps (i :: a') p) := by
  constructor
  · rintro (h | ⟨h, h'⟩)
    · rename_i i
      cases i with
      | zero => simp at h; exact .inl ⟨rfl, h.symm⟩
      | succ i => exact .inr (.inr ⟨i, [], rfl, .here (by simpa using h)⟩)
    · rename_i i n par qs b a
      cases i with
      | zero => simp at h; exact .inr (.inl ⟨n, par, qs, b, a, h, rfl, h'⟩)
      | succ i => exact .inr (.inr ⟨i, a, rfl, .deep (by simpa using h) h'⟩)
  · rintro (⟨rfl, rfl⟩ | ⟨n, par, qs, b, a', rfl, rfl, h⟩ | ⟨i, a', rfl, h⟩)
    · exact .here (by simp)
    · exact .deep (n := n) (par := par) (b := b) (by simp) h
    · cases h with
      | here h => exact .here (by simpa using h)
      | deep h h' => exact .deep (by simpa using h) h'

theorem at_ne_nil {ps p} : ¬ At ps [] p := by rintro ⟨⟩

/-- Some place of a list with a head. -/
theorem ex_at_cons {q ps} {P : Prp → Prop} : (∃ a p, At (q :: ps) a p ∧ P p) ↔
    P q ∨ (∃ n par qs b, q = .loc n par qs b ∧ ∃ a p, At qs a p ∧ P p) ∨ ∃ a p, At ps a p ∧ P p := by
  constructor
  · rintro ⟨a, p, h, hp⟩
    rcases at_cons.1 h with ⟨_, rfl⟩ | ⟨n, par, qs, b, a', rfl, rfl, h'⟩ | ⟨i, a', rfl, h'⟩
    · exact .inl hp
    · exact .inr (.inl ⟨n, par, qs, b, rfl, a', p, h', hp⟩)
    · exact .inr (.inr ⟨_, p, h', hp⟩)
  · rintro (hp | ⟨n, par, qs, b, rfl, a, p, h, hp⟩ | ⟨a, p, h, hp⟩)
    · exact ⟨[0], q, at_cons.2 (.inl ⟨rfl, rfl⟩), hp⟩
    · exact ⟨0 :: a, p, at_cons.2 (.inr (.inl ⟨n, par, qs, b, a, rfl, rfl, h⟩)), hp⟩
    · cases a with
      | nil => exact absurd h at_ne_nil
      | cons i a => exact ⟨(i + 1) :: a, p, at_cons.2 (.inr (.inr ⟨i, a, rfl, h⟩)), hp⟩

theorem not_itemIn_nil {i} : ¬ ItemIn i [] := by
  rintro (h | ⟨h, _⟩) <;> simp at h

theorem itemIn_cons {i j is} : ItemIn i (j :: is) ↔ i = j ∨ (∃ js, j = .arr js ∧ ItemIn i js) ∨ ItemIn i is := by
  constructor
  · rintro (h | ⟨h, h'⟩)
    · rcases List.mem_cons.1 h with h | h
      · exact .inl h
      · exact .inr (.inr (.here h))
    · rcases List.mem_cons.1 h with h | h
      · exact .inr (.inl ⟨_, h.symm, h'⟩)
      · exact .inr (.inr (.deep h h'))
  · rintro (rfl | ⟨js, rfl, h⟩ | h)
    · exact .here (by simp)
    · exact .deep (by simp) h
    · cases h with
      | here h => exact .here (by simp [h])
      | deep h h' => exact .deep (by simp [h]) h'

variable {run : Target → List Code} {c : Code}

/-- What is reported about one item, the items inside left out. -/
def ownItem (run : Target → List Code) (i : Item) : List Code :=
  run (.item i) ++ match i with
    | .str s => run (.str s)
    | .num n => run (.num n)
    | _ => []

/-- What is reported about one value, the items inside left out. -/
def ownVal (run : Target → List Code) (v : Val) : List Code :=
  run (.value v) ++ match v with
    | .str s => run (.str s)
    | .num n => run (.num n)
    | .expr s => run (.expr s)
    | .arr _ is => run (.array is)
    | .uarr is => run (.array is)
    | .invalid => []

/-- What is reported about one property, the value and the properties inside left out. -/
def ownProp (run : Target → List Code) (p : Prp) : List Code :=
  run (.prop p) ++ match p with
    | .loc .. => run (.cls p)
    | .ext _ => run (.cls p)
    | _ => []

/-- The items of a value. -/
def items : Val → List Item
  | .arr _ is => is
  | .uarr is => is
  | _ => []

mutual
theorem mem_item : ∀ i : Item, c ∈ analyzeItem run i ↔ ∃ j, ItemIn j [i] ∧ c ∈ ownItem run j
  | .str s => by
    simp [analyzeItem, itemIn_cons, not_itemIn_nil, ownItem]
  | .num s => by
    simp [analyzeItem, itemIn_cons, not_itemIn_nil, ownItem]
  | .invalid => by
    simp [analyzeItem, itemIn_cons, not_itemIn_nil, ownItem]
  | .arr is => by
    have ih := mem_items is
    simp only [analyzeItem, List.mem_append, ih, itemIn_cons, not_itemIn_nil, or_false]
    constructor
    · rintro (h | ⟨j, hj, h⟩)
      · exact ⟨.arr is, .inl rfl, by simp [ownItem, h]⟩
      · exact ⟨j, .inr ⟨is, rfl, hj⟩, h⟩
    · rintro ⟨j, (rfl | ⟨js, h, hj⟩), hc⟩
      · simp [ownItem] at hc
        exact .inl hc
      · cases h
        exact .inr ⟨j, hj, hc⟩
theorem mem_items : ∀ is : List Item, c ∈ analyzeItems run is ↔ ∃ j, ItemIn j is ∧ c ∈ ownItem run j
  | [] => by simp [analyzeItems, not_itemIn_nil]
  | i :: is => by
    have h1 := mem_item i
    have h2 := mem_items is
    simp only [analyzeItems, List.mem_append, h1, h2, itemIn_cons, not_itemIn_nil, or_false]
    constructor
    · rintro (⟨j, h, hc⟩ | ⟨j, h, hc⟩)
      · rcases h with h | h
        · exact ⟨j, .inl h, hc⟩
        · exact ⟨j, .inr (.inl h), hc⟩
      · exact ⟨j, .inr (.inr h), hc⟩
    · rintro ⟨j, (h | h | h), hc⟩
      · exact .inl ⟨j, .inl h, hc⟩
      · exact .inl ⟨j, .inr h, hc⟩
      · exact .inr ⟨j, h, hc⟩
end

theorem mem_value (v : Val) :
    c ∈ analyzeValue run v ↔ c ∈ ownVal run v ∨ ∃ j, ItemIn j (items v) ∧ c ∈ ownItem run j := by
  cases v <;> simp [analyzeValue, ownVal, items, mem_items, not_itemIn_nil, or_assoc]

/-- The value of an entry. -/
def Prp.vals : Prp → List Val
  | .entry _ v _ => [v]
  | _ => []

/-- What is reported about one property and its value. -/
def fullProp (run : Target → List Code) (p : Prp) : List Code :=
  ownProp run p ++ match p with
    | .entry _ v _ => analyzeValue run v
    | _ => []

mutual
theorem mem_prop : ∀ p : Prp, c ∈ analyzeProp run p ↔ c ∈ fullProp run p ∨
    ∃ n par qs b, p = .loc n par qs b ∧ ∃ a q, At qs a q ∧ c ∈ fullProp run q
  | .entry n v e => by simp [analyzeProp, fullProp, ownProp]
  | .ext n => by simp [analyzeProp, fullProp, ownProp]
  | .del n => by simp [analyzeProp, fullProp, ownProp]
  | .missing n => by simp [analyzeProp, fullProp, ownProp]
  | .loc n par qs b => by
    have ih := mem_props qs
    simp only [analyzeProp, fullProp, ownProp, List.mem_append, ih, List.not_mem_nil, or_false]
    constructor
    · rintro (h | h | h)
      · exact .inl (.inl h)
      · exact .inl (.inr h)
      · exact .inr ⟨_, _, _, _, rfl, h⟩
    · rintro ((h | h) | ⟨_, _, _, _, h, h'⟩)
      · exact .inl h
      · exact .inr (.inl h)
      · cases h
        exact .inr (.inr h')
theorem mem_props : ∀ ps : List Prp, c ∈ analyzeProps run ps ↔ ∃ a p, At ps a p ∧ c ∈ fullProp run p
  | [] => by simp [analyzeProps, not_at_nil]
  | p :: ps => by
    have h1 := mem_prop p
    have h2 := mem_props ps
    rw [analyzeProps, List.mem_append, h1, h2, ex_at_cons (P := fun p => c ∈ fullProp run p), or_assoc]
end

/-- The lint manager of configs. -/
structure Accepted (lower : Text → Text) (pre : Option Text) (configs : Text → Option Lints.Override)
    (lints : List (Lints.Lint Target Code)) (m : Lints.Manager Target Code) : Prop where
  perm : lints.Perm (configLints lower pre)
  ok : (Lints.Manager.new configs).extend lints = .ok m

variable {lower : Text → Text} {pre : Option Text} {configs : Text → Option Lints.Override}
  {lints : List (Lints.Lint Target Code)} {m : Lints.Manager Target Code}

theorem Accepted.history (h : Accepted lower pre configs lints m) : Lints.History configs m := .extend .new h.ok

theorem Accepted.mem (h : Accepted lower pre configs lints m) {l} : l ∈ m.lints ↔ l ∈ configLints lower pre := by
  rw [(Lints.extend_ok h.ok).2]
  simp [Lints.Manager.new, h.perm.mem_iff]

theorem Accepted.groups (h : Accepted lower pre configs lints m) : m.groups = [] := by
  rw [(Lints.extend_ok h.ok).2]
  rfl

/-- Whether the project has a lint that can be turned off turned on. -/
def On (configs : Text → Option Lints.Override) (ident : String) : Prop :=
  ∀ o, configs ident.toList = some o → o.enabled ≠ some false

theorem chosen_on {id : String} {s mi : Lints.Severity} {rs} {c : Lints.Config} (h : Lints.Chosen configs (lint id s mi rs) c) :
    c.enabled = true ↔ On configs id := by
  unfold On
  cases hc : configs id.toList with
  | none =>
    have := h.default hc
    subst this
    simp [lint, conf]
  | some o =>
    cases ho : o.enabled with
    | none =>
      have := h.enabled' o hc ho
      simp [this, lint, conf, ho]
    | some b =>
      have := h.enabled o hc b ho
      simp [this, ho]

theorem mem_run (h : Accepted lower pre configs lints m) (t : Target) (c : Code) : c ∈ m.run t ↔
    c ∈ runValue t ∨ c ∈ runItem t ∨ c ∈ runDupProperty lower t ∨ c ∈ runDupClass lower t ∨ c ∈ runMissing lower t ∨
    (On configs "external_parent_case" ∧ c ∈ runParentCase lower t) ∨ c ∈ runUnexpected t ∨ c ∈ runExpected t ∨
    c ∈ runSemicolon t ∨ (On configs "magwell_missing_magazine" ∧ c ∈ runMagwell lower pre t) ∨ c ∈ runBraces t := by
  rw [Lints.C38_run h.history (by simp [h.groups])]
  have hg : ∀ (id : String) (s mi : Lints.Severity) (rs : List (Target → List Code)),
      lint id s mi rs ∈ configLints lower pre →
      ((∃ cf, Lints.Chosen configs (lint id s mi rs) cf ∧ cf.enabled = true ∧
        ∃ r ∈ (lint id s mi rs).runners, c ∈ r cf t) ↔ On configs id ∧ ∃ r ∈ rs, c ∈ r t) := by
    intro id s mi rs hl
    have hch := Lints.chosen_config m (lint id s mi rs)
    rw [Lints.history_configs h.history] at hch
    constructor
    · rintro ⟨cf, hcf, he, r, hr, hc⟩
      refine ⟨(chosen_on hcf).1 he, ?_⟩
      simp only [lint, List.mem_map] at hr
      obtain ⟨r', hr', rfl⟩ := hr
      exact ⟨r', hr', hc⟩
    · rintro ⟨hon, r, hr, hc⟩
      exact ⟨_, hch, (chosen_on hch).2 hon, _, List.mem_map.2 ⟨r, hr, rfl⟩, hc⟩
  have hon : ∀ (id : String) (rs : List (Target → List Code)), lint id .error .error rs ∈ configLints lower pre →
      On configs id := by
    intro id rs hl
    have hch := Lints.chosen_config m (lint id .error .error rs)
    rw [Lints.history_configs h.history] at hch
    exact (chosen_on hch).1 (Lints.C38_not_disabled h.history _ (.inl (h.mem.2 hl)) rfl rfl _ hch)
  have hs : (∃ l ∈ m.lints, ∃ cf, Lints.Chosen configs l cf ∧ cf.enabled = true ∧ ∃ r ∈ l.runners, c ∈ r cf t) ↔
      ∃ l ∈ configLints lower pre, ∃ cf, Lints.Chosen configs l cf ∧ cf.enabled = true ∧ ∃ r ∈ l.runners, c ∈ r cf t := by
    constructor <;> rintro ⟨l, hl, h'⟩
    · exact ⟨l, h.mem.1 hl, h'⟩
    · exact ⟨l, h.mem.2 hl, h'⟩
  rw [hs]
  have h1 := hon "invalid_value" [runValue, runItem] (by simp [configLints])
  have h2 := hon "duplicate_property" [runDupProperty lower] (by simp [configLints])
  have h3 := hon "duplicate_classes" [runDupClass lower] (by simp [configLints])
  have h4 := hon "external_missing" [runMissing lower] (by simp [configLints])
  have h6 := hon "unexpected_array" [runUnexpected] (by simp [configLints])
  have h7 := hon "expected_array" [runExpected] (by simp [configLints])
  have h8 := hon "missing_semicolon" [runSemicolon] (by simp [configLints])
  have h10 := hon "class_missing_braces" [runBraces] (by simp [configLints])
  simp only [h.groups, List.not_mem_nil, false_and, exists_false, or_false]
  simp only [configLints, List.mem_cons, List.not_mem_nil, or_false, exists_eq_or_imp, exists_eq_left]
  rw [hg _ _ _ _ (by simp [configLints]), hg _ _ _ _ (by simp [configLints]), hg _ _ _ _ (by simp [configLints]),
    hg _ _ _ _ (by simp [configLints]), hg _ _ _ _ (by simp [configLints]), hg _ _ _ _ (by simp [configLints]),
    hg _ _ _ _ (by simp [configLints]), hg _ _ _ _ (by simp [configLints]), hg _ _ _ _ (by simp [configLints]),
    hg _ _ _ _ (by simp [configLints])]
  simp [h1, h2, h3, h4, h6, h7, h8, h10, or_assoc]

/-! ### What each lint can report -/

theorem kind_value {t} (h : c ∈ runValue t) : c = .invalid := by
  unfold runValue at h
  split at h <;> simp at h
  exact h

theorem kind_item {t} (h : c ∈ runItem t) : c = .invalid := by
  unfold runItem at h
  split at h <;> simp at h
  exact h

theorem kind_dupProperty {t} (h : c ∈ runDupProperty lower t) : ∃ l, c = .dupProperty l := by
  unfold runDupProperty at h
  split at h
  · rw [List.mem_filterMap] at h
    obtain ⟨e, _, h⟩ := h
    split at h <;> simp at h
    exact ⟨_, h.symm⟩
  · simp at h

theorem kind_dupReport {s} (hs : ∀ c ∈ s.1, ∃ l, c = Code.dupClass l) (h : c ∈ dupReport s) : ∃ l, c = .dupClass l := by
  rw [dupReport, List.mem_append] at h
  rcases h with h | h
  · exact hs c h
  · rw [List.mem_filterMap] at h
    obtain ⟨e, _, h⟩ := h
    split at h <;> simp at h
    exact ⟨_, h.symm⟩

mutual
theorem kind_dupCls (a : Addr) : ∀ (p : Prp) (s), (∀ c ∈ s.1, ∃ l, c = Code.dupClass l) →
    ∀ c ∈ (dupCls lower a p s).1, ∃ l, c = .dupClass l
  | .ext n, (cs, m), hs => by simpa [dupCls] using hs
  | .entry .., (cs, m), hs => by simpa [dupCls] using hs
  | .del .., (cs, m), hs => by simpa [dupCls] using hs
  | .missing .., (cs, m), hs => by simpa [dupCls] using hs
  | .loc n par qs b, (cs, m), hs => by
    intro c hc
    simp only [dupCls, List.mem_append] at hc
    rcases hc with hc | hc
    · exact hs c hc
    · exact kind_dupReport (kind_dupClss a 0 qs ([], []) (by simp)) hc
theorem kind_dupClss (a : Addr) : ∀ (i : Nat) (ps : List Prp) (s), (∀ c ∈ s.1, ∃ l, c = Code.dupClass l) →
    ∀ c ∈ (dupClss lower a i ps s).1, ∃ l, c = .dupClass l
  | _, [], s, hs => by simpa [dupClss] using hs
  | i, p :: ps, s, hs => by
    simp only [dupClss]
    exact kind_dupClss a (i + 1) ps _ (kind_dupCls _ p s hs)
end

theorem kind_dupClass {t} (h : c ∈ runDupClass lower t) : ∃ l, c = .dupClass l := by
  unfold runDupClass at h
  split at h
  · exact kind_dupReport (kind_dupClss _ _ _ _ (by simp)) h
  · simp at h

mutual
theorem kind_missing1 (a : Addr) : ∀ (p : Prp) (s), (∀ c ∈ s.1, ∃ a l, c = Code.parentMissing a l) →
    ∀ c ∈ (missing lower a p s).1, ∃ a l, c = .parentMissing a l
  | .ext n, (cs, m), hs => by simpa [missing] using hs
  | .entry .., (cs, m), hs => by simpa [missing] using hs
  | .del .., (cs, m), hs => by simpa [missing] using hs
  | .missing .., (cs, m), hs => by simpa [missing] using hs
  | .loc n par qs b, (cs, m), hs => by
    simp only [missing]
    apply kind_missings
    intro c hc
    cases par with
    | none => exact hs c hc
    | some p =>
      simp only at hc
      split at hc
      · rcases List.mem_append.1 hc with hc | hc
        · exact hs c hc
        · simp at hc
          exact ⟨_, _, hc⟩
      · exact hs c hc
theorem kind_missings (a : Addr) : ∀ (i : Nat) (ps : List Prp) (s), (∀ c ∈ s.1, ∃ a l, c = Code.parentMissing a l) →
    ∀ c ∈ (missings lower a i ps s).1, ∃ a l, c = .parentMissing a l
  | _, [], s, hs => by simpa [missings] using hs
  | i, p :: ps, s, hs => by
    simp only [missings]
    exact kind_missings a (i + 1) ps _ (kind_missing1 _ p s hs)
end

theorem kind_missing {t} (h : c ∈ runMissing lower t) : ∃ a l, c = .parentMissing a l := by
  unfold runMissing at h
  split at h
  · exact kind_missings _ _ _ _ (by simp) c h
  · simp at h

mutual
theorem kind_parentCase1 : ∀ (p : Prp) (s), (∀ c ∈ s.1, ∃ a b d, c = Code.parentCase a b d) →
    ∀ c ∈ (parentCase lower p s).1, ∃ a b d, c = .parentCase a b d
  | .ext n, (cs, m), hs => by simpa [parentCase] using hs
  | .entry .., (cs, m), hs => by simpa [parentCase] using hs
  | .del .., (cs, m), hs => by simpa [parentCase] using hs
  | .missing .., (cs, m), hs => by simpa [parentCase] using hs
  | .loc n par qs b, (cs, m), hs => by
    simp only [parentCase]
    apply kind_parentCases
    intro c hc
    cases par with
    | none => exact hs c hc
    | some p =>
      simp only at hc
      split at hc
      · split at hc
        · split at hc
          · rcases List.mem_append.1 hc with hc | hc
            · exact hs c hc
            · simp at hc
              exact ⟨_, _, _, hc⟩
          · exact hs c hc
        · exact hs c hc
      · split at hc
        · rcases List.mem_append.1 hc with hc | hc
          · exact hs c hc
          · simp at hc
            exact ⟨_, _, _, hc⟩
        · exact hs c hc
theorem kind_parentCases : ∀ (ps : List Prp) (s), (∀ c ∈ s.1, ∃ a b d, c = Code.parentCase a b d) →
    ∀ c ∈ (parentCases lower ps s).1, ∃ a b d, c = .parentCase a b d
  | [], s, hs => by simpa [parentCases] using hs
  | p :: ps, s, hs => by
    simp only [parentCases]
    exact kind_parentCases ps _ (kind_parentCase1 p s hs)
end

theorem kind_parentCase {t} (h : c ∈ runParentCase lower t) : ∃ a b d, c = .parentCase a b d := by
  unfold runParentCase at h
  split at h
  · exact kind_parentCases _ _ (by simp) c h
  · exact kind_parentCases _ _ (by simp) c h
  · simp at h

theorem kind_unexpected {t} (h : c ∈ runUnexpected t) : ∃ n, c = .unexpectedArray n := by
  unfold runUnexpected at h
  split at h <;> simp at h
  exact ⟨_, h⟩

theorem kind_expected {t} (h : c ∈ runExpected t) : ∃ n, c = .expectedArray n := by
  unfold runExpected at h
  split at h
  · split at h
    · simp at h
    · split at h <;> simp at h
      exact ⟨_, h⟩
  · simp at h

theorem kind_semicolon {t} (h : c ∈ runSemicolon t) : ∃ n, c = .missingSemicolon n := by
  unfold runSemicolon at h
  split at h <;> simp at h
  exact ⟨_, h⟩

theorem kind_magwell {t} (h : c ∈ runMagwell lower pre t) : ∃ a b, c = .missingMagazine a b := by
  unfold runMagwell at h
  split at h
  · split at h
    · split at h
      · simp only [List.mem_flatMap] at h
        obtain ⟨w, _, h⟩ := h
        split at h
        · rw [List.mem_flatMap] at h
          obtain ⟨p, _, h⟩ := h
          split at h
          · rw [magItems, List.mem_flatMap] at h
            obtain ⟨i, _, h⟩ := h
            split at h
            · split at h
              · simp at h
              · split at h <;> simp at h
                exact ⟨_, _, h⟩
            · simp at h
          · simp at h
        · simp at h
      · simp at h
    · simp at h
  · simp at h

theorem kind_braces {t} (h : c ∈ runBraces t) : (∃ p, c = .missingBraces p) ∨ c = .panic := by
  unfold runBraces at h
  split at h
  · split at h <;> simp at h
    · exact .inl ⟨_, h⟩
    · exact .inr h
  · simp at h

end Verif.ConfigLint
