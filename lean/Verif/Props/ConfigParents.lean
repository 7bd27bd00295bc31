import Verif.Props.ConfigDup
import Verif.Lib.ConfigHeads
import Verif.Props.Version
/-!
C59: parents that are missing. C60: letter case of parents. C61: severity of what is reported. C62: required version.
C63: magazines of magazine wells.

Specification: `Earlier` and `KnownAs` of Spec/ConfigLint, `Requires` and `Listed` below.
-/
namespace Verif.ConfigLint
open Verif.ConfigParse

variable {lower : Text → Text} {ofF32 : Nat → Ver.Version} {pre : Option Text} {configs : Text → Option Lints.Override}
  {lints : List (Lints.Lint Target Code)} {ps : List Prp} {r : Report}

/-! ### C59 -/

/-- C59. A class is reported for its parent exactly when no class of that name is declared before it: in the text above, or
around it. A class may extend one of its own name. -/
theorem C59_exact (hl : lints.Perm (configLints lower pre)) (h : report lower ofF32 configs lints ps = .ok r)
    (a : Addr) (p : Text) : .parentMissing a p ∈ r.codes ↔
      ∃ n qs b, At ps a (.loc n (some p) qs b) ∧ lower p ≠ lower n ∧ ¬ Earlier lower ps a (lower p) := by
  obtain ⟨m, ha, hc, -, -⟩ := report_ok hl h
  rw [hc, mem_codes_config (run := runMissing lower), mem_missing]
  · constructor
    · rintro ⟨a, n, p, qs, b, e, h⟩
      cases e
      exact ⟨n, qs, b, h⟩
    · rintro ⟨n, qs, b, h⟩
      exact ⟨a, n, p, qs, b, rfl, h⟩
  · intro t
    rw [mem_run ha]
    constructor
    · rintro (h | h | h | h | h | ⟨_, h⟩ | h | h | h | ⟨_, h⟩ | h)
      · simpa using kind_value h
      · simpa using kind_item h
      · simpa using kind_dupProperty h
      · simpa using kind_dupClass h
      · exact h
      · simpa using kind_parentCase h
      · simpa using kind_unexpected h
      · simpa using kind_expected h
      · simpa using kind_semicolon h
      · simpa using kind_magwell h
      · simpa using kind_braces h
    · intro h; simp [h]
  · intro t ht
    cases t <;> simp_all [runMissing]

/-- C59. In a config that is written, every parent is the name of a class above or around, or of the class itself. -/
theorem C59_written (hl : lints.Perm (configLints lower pre)) (hb : ∀ a n qs, ¬ At ps a (.loc n none qs true))
    {file} (hw : build lower ofF32 configs lints ps = .written file) {a n p qs b}
    (ha : At ps a (.loc n (some p) qs b)) : lower p = lower n ∨ Earlier lower ps a (lower p) := by
  have := C55_build (lower := lower) (ofF32 := ofF32) (configs := configs) hl hb
  rw [hw] at this
  obtain ⟨-, -, r, hr, hc⟩ := this
  by_contra hn
  rw [not_or] at hn
  have := (C59_exact hl hr a p).2 ⟨n, qs, b, ha, hn.1, hn.2⟩
  simp [hc] at this

/-! ### C60 -/

/-- The bodies that are looked at: that of the config, and that of every class. -/
def Body (ps qs : List Prp) : Prop := qs = ps ∨ ∃ a n par b, At ps a (.loc n par qs b)

theorem kind_case {m} (ha : Accepted lower pre configs lints m) {n p q : Text} (t : Target) :
    .parentCase n p q ∈ m.run t ↔ On configs "external_parent_case" ∧ .parentCase n p q ∈ runParentCase lower t := by
  rw [mem_run ha]
  constructor
  · rintro (h | h | h | h | h | h | h | h | h | ⟨_, h⟩ | h)
    · simpa using kind_value h
    · simpa using kind_item h
    · simpa using kind_dupProperty h
    · simpa using kind_dupClass h
    · simpa using kind_missing h
    · exact h
    · simpa using kind_unexpected h
    · simpa using kind_expected h
    · simpa using kind_semicolon h
    · simpa using kind_magwell h
    · simpa using kind_braces h
  · intro h
    simp [h.1, h.2]

/-- C60. A class is reported for how its parent is written exactly when the lint is on and, in some body around it, the parent
is written differently from the class it names: the class itself if that is its own name, else the last class with a body
before it, else the first external class. -/
theorem C60_exact (hl : lints.Perm (configLints lower pre)) (h : report lower ofF32 configs lints ps = .ok r)
    (n p q : Text) : .parentCase n p q ∈ r.codes ↔ On configs "external_parent_case" ∧
      ∃ qs, Body ps qs ∧ ∃ a es b, At qs a (.loc n (some p) es b) ∧ q ≠ p ∧
        ((lower p ≠ lower n ∧ KnownAs lower qs a (lower p) q) ∨ (lower p = lower n ∧ q = n)) := by
  obtain ⟨m, ha, hc, -, -⟩ := report_ok hl h
  have key := kind_case ha (n := n) (p := p) (q := q)
  have hbody : ∀ qs, .parentCase n p q ∈ (parentCases lower qs ([], fun _ => none)).1 ↔
      ∃ a es b, At qs a (.loc n (some p) es b) ∧ q ≠ p ∧
        ((lower p ≠ lower n ∧ KnownAs lower qs a (lower p) q) ∨ (lower p = lower n ∧ q = n)) := by
    intro qs
    rw [mem_parentCases]
    constructor
    · rintro ⟨a, n, p, es, b, q, e, h⟩
      cases e
      exact ⟨a, es, b, h⟩
    · rintro ⟨a, es, b, h⟩
      exact ⟨a, n, p, es, b, q, rfl, h⟩
  simp only [← hbody]
  rw [hc, mem_analyze]
  constructor
  · rintro (h | h | ⟨a, p', hp, h⟩)
    · rw [key] at h; simp [runParentCase] at h
    · rw [key] at h
      exact ⟨h.1, ps, .inl rfl, h.2⟩
    · rw [mem_fullProp] at h
      rcases h with h | ⟨hcl, h⟩ | ⟨n', v, e, rfl, h⟩
      · rw [key] at h; simp [runParentCase] at h
      · rw [key] at h
        cases p' with
        | loc n' par qs b => exact ⟨h.1, qs, .inr ⟨a, n', par, b, hp⟩, h.2⟩
        | _ => simp [runParentCase] at h
      · rcases h with h | ⟨j, _, h⟩
        · unfold ownVal at h
          rw [List.mem_append, key] at h
          cases v <;> simp [runParentCase, key] at h
        · unfold ownItem at h
          rw [List.mem_append, key] at h
          cases j <;> simp [runParentCase, key] at h
  · rintro ⟨hon, qs, rfl | ⟨a, n', par, b, hat⟩, h2⟩
    · exact .inr (.inl ((key _).2 ⟨hon, h2⟩))
    · exact .inr (.inr ⟨a, _, hat, mem_fullProp.2 (.inr (.inl ⟨by simp, (key _).2 ⟨hon, h2⟩⟩))⟩)

/-- C60. If the lint is on and reports nothing, every parent is written as the class it names. -/
theorem C60_clean (hl : lints.Perm (configLints lower pre)) (h : report lower ofF32 configs lints ps = .ok r)
    (hon : On configs "external_parent_case") (hc : ∀ n p q, .parentCase n p q ∉ r.codes) {a n p es b}
    (ha : At ps a (.loc n (some p) es b)) :
    (lower p = lower n → p = n) ∧ ∀ q, lower p ≠ lower n → KnownAs lower ps a (lower p) q → p = q := by
  constructor
  · intro he
    by_contra hne
    exact hc n p n ((C60_exact hl h n p n).2 ⟨hon, ps, .inl rfl, a, es, b, ha, fun h => hne h.symm, .inr ⟨he, rfl⟩⟩)
  · intro q hne hk
    by_contra hq
    exact hc n p q ((C60_exact hl h n p q).2 ⟨hon, ps, .inl rfl, a, es, b, ha, fun h => hq h.symm, .inl ⟨hne, hk⟩⟩)

/-! ### C61 -/

/-- C61, violated. Whatever severity the project gives a lint, all that is reported counts as an error, so the config is not
written. -/
theorem C61_violated (hl : lints.Perm (configLints lower pre)) (hb : ∀ a n qs, ¬ At ps a (.loc n none qs true))
    (h : report lower ofF32 configs lints ps = .ok r) (hc : r.codes ≠ []) :
    build lower ofF32 configs lints ps = .refused r.codes := by
  have := C55_build (lower := lower) (ofF32 := ofF32) (configs := configs) hl hb
  cases hw : build lower ofF32 configs lints ps with
  | written file =>
    rw [hw] at this
    obtain ⟨-, -, r', hr, hc'⟩ := this
    rw [h] at hr
    cases hr
    exact absurd hc' hc
  | refused codes =>
    rw [hw] at this
    obtain ⟨-, r', hr, hc'⟩ := this
    rw [h] at hr
    cases hr
    rw [hc']
  | badLints es =>
    rw [hw] at this
    have := this.2 ps
    rw [h] at this
    cases this
  | panicked =>
    rw [hw] at this
    exact this.elim

/-! ### C62 -/

/-- A decimal number for `requiredVersion`. -/
def Decimal (lower : Text → Text) (p : Prp) (b : Nat) : Prop :=
  ∃ k e, p = .entry k (.num (.f32 b)) e ∧ lower k = "requiredversion".toList

/-- The version the body of a patch asks for: the last decimal number given as `requiredVersion`, or 0.0.0. -/
def Requires (lower : Text → Text) (ofF32 : Nat → Ver.Version) (es : List Prp) (v : Ver.Version) : Prop :=
  (∃ front p back b, es = front ++ p :: back ∧ Decimal lower p b ∧ v = ofF32 b ∧ ∀ q ∈ back, ∀ b, ¬ Decimal lower q b) ∨
  ((∀ q ∈ es, ∀ b, ¬ Decimal lower q b) ∧ v = ⟨0, 0, 0, none, none⟩)

/-- The versions of the patches of a config: of the classes in a class `CfgPatches` of the config itself. -/
def Listed (lower : Text → Text) (ofF32 : Nat → Ver.Version) (ps : List Prp) (m : Text) (v : Ver.Version) : Prop :=
  ∃ n par qs b par' es b', .loc n par qs b ∈ ps ∧ lower n = "cfgpatches".toList ∧ .loc m par' es b' ∈ qs ∧
    Requires lower ofF32 es v

/-- one turn of the loop over the properties of a patch -/
def pick (lower : Text → Text) (ofF32 : Nat → Ver.Version) (v : Ver.Version) (e : Prp) : Ver.Version :=
  match e with
  | .entry k (.num (.f32 b)) _ => if lower k = "requiredversion".toList then ofF32 b else v
  | _ => v

theorem pick_eq (v : Ver.Version) (p : Prp) : (∃ b, Decimal lower p b ∧ pick lower ofF32 v p = ofF32 b) ∨
    ((∀ b, ¬ Decimal lower p b) ∧ pick lower ofF32 v p = v) := by
  unfold pick
  split
  · rename_i k b e
    split
    · rename_i hk
      exact .inl ⟨b, ⟨k, e, rfl, hk⟩, rfl⟩
    · rename_i hk
      refine .inr ⟨?_, rfl⟩
      rintro b' ⟨k', e', h, hk'⟩
      cases h
      exact hk hk'
  · rename_i hn
    refine .inr ⟨?_, rfl⟩
    rintro b' ⟨k', e', h, hk'⟩
    exact hn _ _ _ h

theorem fold_pick : ∀ (es : List Prp) (v0 : Ver.Version),
    (∃ front p back b, es = front ++ p :: back ∧ Decimal lower p b ∧ es.foldl (pick lower ofF32) v0 = ofF32 b ∧
      ∀ q ∈ back, ∀ b, ¬ Decimal lower q b) ∨
    ((∀ q ∈ es, ∀ b, ¬ Decimal lower q b) ∧ es.foldl (pick lower ofF32) v0 = v0)
  | [], v0 => by simp
  | e :: es, v0 => by
    rw [List.foldl_cons]
    rcases fold_pick es (pick lower ofF32 v0 e) with ⟨f, p, k, b, rfl, h1, h2, h3⟩ | ⟨h1, h2⟩
    · exact .inl ⟨e :: f, p, k, b, rfl, h1, h2, h3⟩
    · rcases pick_eq (lower := lower) (ofF32 := ofF32) v0 e with ⟨b, h3, h4⟩ | ⟨h3, h4⟩
      · exact .inl ⟨[], e, es, b, rfl, h3, by rw [h2, h4], h1⟩
      · refine .inr ⟨?_, by rw [h2, h4]⟩
        intro q hq
        rcases List.mem_cons.1 hq with rfl | hq
        · exact h3
        · exact h1 q hq

theorem decimal_unique {p : Prp} {b b' : Nat} (h : Decimal lower p b) (h' : Decimal lower p b') : b = b' := by
  obtain ⟨k, e, rfl, -⟩ := h
  obtain ⟨k', e', h, -⟩ := h'
  cases h
  rfl

theorem requires_unique {es : List Prp} {v w : Ver.Version} (h : Requires lower ofF32 es v) (h' : Requires lower ofF32 es w) :
    v = w := by
  rcases h with ⟨f, p, k, b, rfl, h1, rfl, h3⟩ | ⟨h1, rfl⟩
  · rcases h' with ⟨f', p', k', b', he, h1', rfl, h3'⟩ | ⟨h1', -⟩
    · rcases List.append_eq_append_iff.1 he with ⟨l, h4, h5⟩ | ⟨l, h4, h5⟩
      · cases l with
        | nil =>
          simp only [List.nil_append, List.cons.injEq] at h5
          rw [h5.1] at h1
          rw [decimal_unique h1 h1']
        | cons x l =>
          simp only [List.cons_append, List.cons.injEq] at h5
          exact absurd h1' (h3 p' (by simp [h5.2]) b')
      · cases l with
        | nil =>
          simp only [List.nil_append, List.cons.injEq] at h5
          rw [← h5.1] at h1
          rw [decimal_unique h1 h1']
        | cons x l =>
          simp only [List.cons_append, List.cons.injEq] at h5
          exact absurd h1 (h3' p (by simp [h5.2]) b)
    · exact absurd h1 (h1' p (by simp) b)
  · rcases h' with ⟨f', p', k', b', rfl, h1', rfl, h3'⟩ | ⟨h1', rfl⟩
    · exact absurd h1' (h1 p' (by simp) b')
    · rfl

theorem requires_fold (es : List Prp) : Requires lower ofF32 es (es.foldl (pick lower ofF32) ⟨0, 0, 0, none, none⟩) := by
  rcases fold_pick (lower := lower) (ofF32 := ofF32) es ⟨0, 0, 0, none, none⟩ with ⟨f, p, k, b, h, h1, h2, h3⟩ | ⟨h1, h2⟩
  · exact .inl ⟨f, p, k, b, h, h1, h2, h3⟩
  · exact .inr ⟨h1, h2⟩

/-- C62. The patches of a report are the patches of the config, with the versions they ask for. -/
theorem C62_patches (hl : lints.Perm (configLints lower pre)) (h : report lower ofF32 configs lints ps = .ok r) (m : Text)
    (v : Ver.Version) : (m, v) ∈ r.patches ↔ Listed lower ofF32 ps m v := by
  obtain ⟨-, -, -, -, hp⟩ := report_ok hl h
  rw [hp]
  unfold patches Listed
  rw [List.mem_flatMap]
  constructor
  · rintro ⟨p, hm, h⟩
    split at h
    · rename_i n par qs b
      split at h
      · rename_i hn
        obtain ⟨q, hq, h⟩ := List.mem_filterMap.1 h
        split at h
        · rename_i m' par' es b'
          simp only [Option.some.injEq, Prod.mk.injEq] at h
          obtain ⟨rfl, rfl⟩ := h
          exact ⟨n, par, qs, b, par', es, b', hm, hn, hq, requires_fold es⟩
        · simp at h
      · simp at h
    · simp at h
  · rintro ⟨n, par, qs, b, par', es, b', hm, hn, hq, hr⟩
    refine ⟨_, hm, ?_⟩
    simp only [hn, if_true]
    refine List.mem_filterMap.2 ⟨_, hq, ?_⟩
    simp only [Option.some.injEq, Prod.mk.injEq, true_and]
    exact requires_unique (requires_fold es) hr

theorem le_of_not_gt {a b : Ver.Version} (h : gt a b = false) : Ver.le a b := by
  have h1 := (Ver.C04_total_order a b a).1
  unfold gt at h
  simp only [decide_eq_false_iff_not] at h
  unfold Ver.le
  cases hc : Ver.partialCmp a b with
  | none => simp [hc] at h1
  | some o =>
    cases o with
    | lt => exact .inl rfl
    | eq => exact .inr rfl
    | gt => exact absurd hc h

theorem le_of_gt {a b : Ver.Version} (h : gt a b = true) : Ver.le b a := by
  unfold gt at h
  simp only [decide_eq_true_eq] at h
  have := (Ver.C04_total_order a b a).2.1
  rw [h] at this
  exact .inl this.symm

theorem le_refl (a : Ver.Version) : Ver.le a a := by
  rcases (Ver.C04_total_order a a a).2.2.1 with h | h <;> exact h

theorem fold_required : ∀ (L : List (Text × Ver.Version)) (v0 : Ver.Version) (w0 : Option Text),
    let s := L.foldl (fun s e => if gt e.2 s.1 then (e.2, some e.1) else s) (v0, w0)
    Ver.le v0 s.1 ∧ (∀ e ∈ L, Ver.le e.2 s.1) ∧ (s = (v0, w0) ∨ ∃ e ∈ L, s = (e.2, some e.1))
  | [], v0, w0 => by simp [le_refl]
  | e :: L, v0, w0 => by
    simp only [List.foldl_cons]
    by_cases hg : gt e.2 v0 = true
    · simp only [hg, if_true]
      obtain ⟨h1, h2, h3⟩ := fold_required L e.2 (some e.1)
      refine ⟨(Ver.C04_total_order _ _ _).2.2.2.1 (le_of_gt hg) h1, ?_, ?_⟩
      · intro x hx
        rcases List.mem_cons.1 hx with rfl | hx
        · exact h1
        · exact h2 x hx
      · rcases h3 with h3 | ⟨x, hx, h3⟩
        · exact .inr ⟨e, by simp, h3⟩
        · exact .inr ⟨x, by simp [hx], h3⟩
    · simp only [hg, if_false]
      obtain ⟨h1, h2, h3⟩ := fold_required L v0 w0
      refine ⟨h1, ?_, ?_⟩
      · intro x hx
        rcases List.mem_cons.1 hx with rfl | hx
        · exact (Ver.C04_total_order _ _ _).2.2.2.1 (le_of_not_gt (by simpa using hg)) h1
        · exact h2 x hx
      · rcases h3 with h3 | ⟨x, hx, h3⟩
        · exact .inl h3
        · exact .inr ⟨x, by simp [hx], h3⟩

/-- C62. The required version is the highest the patches ask for, with a patch that asks for it; 0.0.0 if none asks for more. -/
theorem C62_highest (hl : lints.Perm (configLints lower pre)) (h : report lower ofF32 configs lints ps = .ok r) :
    (∀ m v, Listed lower ofF32 ps m v → Ver.le v (requiredVersion r.patches).1) ∧
    (requiredVersion r.patches = (⟨0, 0, 0, none, none⟩, none) ∨
      ∃ m v, Listed lower ofF32 ps m v ∧ requiredVersion r.patches = (v, some m)) := by
  obtain ⟨-, h2, h3⟩ := fold_required r.patches ⟨0, 0, 0, none, none⟩ none
  refine ⟨fun m v hv => h2 (m, v) ((C62_patches hl h m v).2 hv), ?_⟩
  rcases h3 with h3 | ⟨⟨m, v⟩, he, h3⟩
  · exact .inl h3
  · exact .inr ⟨m, v, (C62_patches hl h m v).1 he, h3⟩

/-- C62, violated. If all patches give their version as a whole number (or as text), no version is required. -/
theorem C62_violated (hl : lints.Perm (configLints lower pre)) (h : report lower ofF32 configs lints ps = .ok r)
    (hn : ∀ a n b e, At ps a (.entry n (.num (.f32 b)) e) → lower n ≠ "requiredversion".toList) :
    requiredVersion r.patches = (⟨0, 0, 0, none, none⟩, none) := by
  have hz : ∀ m v, Listed lower ofF32 ps m v → v = ⟨0, 0, 0, none, none⟩ := by
    rintro m v ⟨n, par, qs, b, par', es, b', hm, -, hq, hr⟩
    rcases hr with ⟨f, p, k, x, rfl, ⟨key, e, rfl, hk⟩, -, -⟩ | ⟨-, rfl⟩
    · obtain ⟨i, hi, hi'⟩ := List.mem_iff_getElem.1 hm
      obtain ⟨j, hj, hj'⟩ := List.mem_iff_getElem.1 hq
      refine absurd hk (hn [i, j, f.length] key x e ?_)
      refine .deep (n := n) (par := par) (b := b) (List.getElem?_eq_some_iff.2 ⟨hi, hi'⟩) ?_
      refine .deep (n := m) (par := par') (b := b') (List.getElem?_eq_some_iff.2 ⟨hj, hj'⟩) ?_
      exact .here (by simp)
    · rfl
  have hall : ∀ e ∈ r.patches, e.2 = ⟨0, 0, 0, none, none⟩ := by
    rintro ⟨m, v⟩ he
    exact hz m v ((C62_patches hl h m v).1 he)
  unfold requiredVersion
  generalize r.patches = L at hall
  induction L with
  | nil => rfl
  | cons e L ih =>
    rw [List.foldl_cons, hall e (by simp)]
    have : gt ⟨0, 0, 0, none, none⟩ ⟨0, 0, 0, none, none⟩ = false := by decide
    rw [if_neg (by simp [this])]
    exact ih fun x hx => hall x (by simp [hx])

/-! ### C63 -/

/-- The class with a body under a (lower case) name, if the first property of that name is one. -/
def First (lower : Text → Text) (ps : List Prp) (k : Text) (qs : List Prp) : Prop :=
  ∃ front n par b back, ps = front ++ .loc n par qs b :: back ∧ lower n = k ∧ ∀ p ∈ front, lower p.name ≠ k

theorem first_iff {k : Text} {qs : List Prp} : First lower ps k qs ↔
    ∃ n par b, ps.find? (fun p => lower p.name = k) = some (.loc n par qs b) := by
  constructor
  · rintro ⟨f, n, par, b, back, rfl, hk, hf⟩
    refine ⟨n, par, b, ?_⟩
    rw [List.find?_append, List.find?_eq_none.2 (by simpa using hf)]
    simp [Prp.name, hk]
  · rintro ⟨n, par, b, h⟩
    obtain ⟨h1, f, back, h2, h3⟩ := List.find?_eq_some_iff_append.1 h
    exact ⟨f, n, par, b, back, h2, of_decide_eq_true h1, by simpa using h3⟩

/-- C63. A magazine is reported exactly when the lint is on, the config has both magazine wells and magazines, the magazine is
an item of an array of a well, its name begins with the prefix of the project up to case (if there is one), and there is no
class with a body of just that name among the magazines. -/
theorem C63_exact (hl : lints.Perm (configLints lower pre)) (h : report lower ofF32 configs lints ps = .ok r)
    (n v : Text) : .missingMagazine n v ∈ r.codes ↔ On configs "magwell_missing_magazine" ∧
      ∃ wells mags, First lower ps "cfgmagazinewells".toList wells ∧ First lower ps "cfgmagazines".toList mags ∧
        (∃ w par qs b e e' is, .loc w par qs b ∈ wells ∧ .entry n (.arr e is) e' ∈ qs ∧ .str v ∈ is) ∧
        (∀ p, pre = some p → lower p <+: lower v) ∧ ∀ par qs b, .loc v par qs b ∉ mags := by
  obtain ⟨m, ha, hc, -, -⟩ := report_ok hl h
  classical
  rw [hc, mem_codes_config (run := fun t => if On configs "magwell_missing_magazine" then runMagwell lower pre t else [])]
  rotate_left
  · intro t
    rw [mem_run ha]
    constructor
    · rintro (h | h | h | h | h | ⟨_, h⟩ | h | h | h | ⟨hon, h⟩ | h)
      · simpa using kind_value h
      · simpa using kind_item h
      · simpa using kind_dupProperty h
      · simpa using kind_dupClass h
      · simpa using kind_missing h
      · simpa using kind_parentCase h
      · simpa using kind_unexpected h
      · simpa using kind_expected h
      · simpa using kind_semicolon h
      · simpa [hon] using h
      · simpa using kind_braces h
    · intro h
      split at h
      · rename_i hon
        simp [h, hon]
      · simp at h
  · intro t ht
    split
    · cases t <;> simp_all [runMagwell]
    · rfl
  split
  · rename_i hon
    simp only [hon, true_and, runMagwell]
    constructor
    · intro h
      split at h
      · rename_i wn wpar wells wb hw
        split at h
        · rename_i mn mpar mags mb hm
          refine ⟨wells, mags, first_iff.2 ⟨wn, wpar, wb, hw⟩, first_iff.2 ⟨mn, mpar, mb, hm⟩, ?_⟩
          obtain ⟨w, hw', h⟩ := List.mem_flatMap.1 h
          split at h
          · rename_i w par qs b
            obtain ⟨p, hp, h⟩ := List.mem_flatMap.1 h
            split at h
            · rename_i n' e is e'
              unfold magItems at h
              obtain ⟨i, hi, h⟩ := List.mem_flatMap.1 h
              split at h
              · rename_i s
                split at h
                · simp at h
                · rename_i hours
                  split at h
                  · simp at h
                  · rename_i hcls
                    simp only [List.mem_singleton, Code.missingMagazine.injEq] at h
                    obtain ⟨rfl, rfl⟩ := h
                    refine ⟨⟨w, par, qs, b, e, e', is, hw', hp, hi⟩, ?_, ?_⟩
                    · rintro p rfl
                      simpa [ours] using hours
                    · intro par qs b hin
                      exact hcls (List.mem_filterMap.2 ⟨_, hin, rfl⟩)
              · simp at h
            · simp at h
          · simp at h
        · simp at h
      · simp at h
    · rintro ⟨wells, mags, hw, hm, ⟨w, par, qs, b, e, e', is, h1, h2, h3⟩, h4, h5⟩
      obtain ⟨wn, wpar, wb, hw⟩ := first_iff.1 hw
      obtain ⟨mn, mpar, mb, hm⟩ := first_iff.1 hm
      rw [hw]
      simp only
      rw [hm]
      simp only
      refine List.mem_flatMap.2 ⟨_, h1, ?_⟩
      simp only
      refine List.mem_flatMap.2 ⟨_, h2, ?_⟩
      simp only
      unfold magItems
      refine List.mem_flatMap.2 ⟨_, h3, ?_⟩
      simp only
      have ho : ours lower pre v = true := by
        cases pre with
        | none => rfl
        | some p => simpa [ours] using h4 p rfl
      rw [if_neg (by simp [ho]), if_neg]
      · simp
      · intro hin
        obtain ⟨p, hp, hpv⟩ := List.mem_filterMap.1 hin
        split at hpv
        · simp only [Option.some.injEq] at hpv
          subst hpv
          exact h5 _ _ _ hp
        · simp at hpv
  · rename_i hon
    simp [hon]

/-! ### Cases -/

/-- `class A { class B {}; class C : D {}; }; class D : d {}; class E : b {};` -/
def family : List Prp :=
  [.loc "A".toList none [.loc "B".toList none [] false, .loc "C".toList (some "D".toList) [] false] false,
   .loc "D".toList (some "d".toList) [] false, .loc "E".toList (some "b".toList) [] false]

/-- `D` is declared too late. `D : d` and `E : b` are written differently from the classes they name. -/
example : codesOf family = [.parentMissing [0, 1] "D".toList, .parentCase "D".toList "d".toList "D".toList,
    .parentCase "E".toList "b".toList "B".toList] := by decide +kernel

/-- C59, the limit of the check: the class `B` inside `A` counts as declared for `E`, though nothing `E` sees is called so. -/
theorem C59_any_scope : Earlier low family [2] "b".toList ∧ ∀ (i : Nat) (q : Prp), family[i]? = some q → low q.name ≠ "b".toList := by
  refine ⟨⟨[0, 0], _, .deep (n := "A".toList) (par := none) (b := false) rfl (.here rfl), trivial, by decide, rfl⟩, ?_⟩
  intro i q h
  match i, h with
  | 0, h => cases h; decide
  | 1, h => cases h; decide
  | 2, h => cases h; decide
  | i + 3, h => simp [family] at h

example : KnownAs low family [2] "b".toList "B".toList := by
  refine ⟨[0, 0], _, .deep (n := "A".toList) (par := none) (b := false) rfl (.here rfl), trivial, by decide, rfl, rfl, ?_,
    fun h => absurd trivial h⟩
  intro _ b p hb _ _ hk
  have := mem_heads0.2 ⟨hb, by cases p <;> simp_all [IsLocal, IsClass]⟩
  simp only [family, headss, heads, spot, List.nil_append, List.cons_append, List.append_nil, List.mem_cons, Prod.mk.injEq,
    List.not_mem_nil, or_false, Nat.zero_add, Nat.reduceAdd] at this
  rcases this with ⟨rfl, rfl⟩ | ⟨rfl, rfl⟩ | ⟨rfl, rfl⟩ | ⟨rfl, rfl⟩ | ⟨rfl, rfl⟩ <;> revert hk <;> decide

/-- A mistake inside of classes is reported once for every class around it. -/
example : codesOf [.loc "X".toList none [.loc "Y".toList none [.ext "Z".toList, .loc "W".toList (some "z".toList) [] false]
    false] false] = List.replicate 3 (.parentCase "W".toList "z".toList "Z".toList) := by decide +kernel

/-- C61: the lint about letter case is a warning by default, and is set to be no more than help here. The project is not
built because of it. -/
example : (match build low (fun _ => ⟨0, 0, 0, none, none⟩)
    (fun k => if k = "external_parent_case".toList then some ⟨none, some .help, fun _ => none⟩ else none) (configLints low none)
    [.ext "Base".toList, .loc "A".toList (some "base".toList) [] false] with
    | .refused cs => cs
    | _ => []) = [.parentCase "A".toList "base".toList "Base".toList] := by decide +kernel

/-- `class CfgPatches { class a { requiredVersion = v; }; class b { requiredVersion = w; }; };` -/
def patched (v w : Rap.Num) : List Prp :=
  [.loc "CfgPatches".toList none
    [.loc "a".toList none [.entry "requiredVersion".toList (.num v) false] false,
     .loc "b".toList none [.entry "RequiredVersion".toList (.num w) false] false] false]

/-- The version of `v.vv`, where the number stands for its hundredfold. -/
def hundredth (b : Nat) : Ver.Version := ⟨b / 100, b % 100, 0, none, none⟩

example : requiredVersion (patches low hundredth (patched (.f32 210) (.f32 198))) = (⟨2, 10, 0, none, none⟩, some "a".toList) := by
  decide +kernel

/-- `requiredVersion = 2;` asks for no version, so the lower version of the other patch is what counts. -/
example : requiredVersion (patches low hundredth (patched (.i32 2) (.f32 198))) = (⟨1, 98, 0, none, none⟩, some "b".toList) := by
  decide +kernel

/-- `class CfgMagazineWells { class w { x[] = {"abe_a", "ABE_b", "other", "abe_c"}; }; };
class CfgMagazines { class abe_a {}; class abe_B {}; class abe_c; };` -/
def wells : List Prp :=
  [.loc "CfgMagazineWells".toList none [.loc "w".toList none [.entry "x".toList (.arr false
      [.str "abe_a".toList, .str "ABE_b".toList, .str "other".toList, .str "abe_c".toList]) true] false] false,
   .loc "CfgMagazines".toList none [.loc "abe_a".toList none [] false, .loc "abe_B".toList none [] false,
      .ext "abe_c".toList] false]

/-- Names of magazines are compared letter by letter, and only classes with a body count. -/
example : (match report low hundredth (fun _ => none) (configLints low (some "abe".toList)) wells with
    | .ok r => r.codes
    | .error _ => []) =
    [.missingMagazine "x".toList "ABE_b".toList, .missingMagazine "x".toList "abe_c".toList] := by decide +kernel

end Verif.ConfigLint
