import Verif.Model.Coverage
import Verif.Props.Stringtable
/-! Property C95: the coverage report. -/
namespace Verif.Coverage
open Verif.Stringtable

/-! ### Specification -/

/-- The packages of an addon. -/
def Addon.packages (a : Addon) : List Package := (a.stringtable.getD none).getD []

/-- All keys of an addon. -/
def Addon.keys (a : Addon) : List Key := a.packages.flatMap allKeys

def Key.has (l : Lang) (k : Key) : Bool := (k.text l).isSome

/-! ### Proofs -/

theorem packages_state (folder : Text) (ps : List Package) (s : State) :
    (ps.foldl (package folder) s).global.total = s.global.total + (ps.flatMap allKeys).length ∧
    (∀ l, (ps.foldl (package folder) s).global.lang l = s.global.lang l + (ps.flatMap allKeys).countP (Key.has l)) ∧
    ∀ l, (ps.foldl (package folder) s).missing l =
      s.missing l ++ List.replicate (ps.countP fun p => ¬ ∀ k ∈ allKeys p, Key.has l k) folder := by
  induction ps generalizing s with
  | nil => simp
  | cons p ps ih =>
    obtain ⟨h1, h2, h3⟩ := ih (package folder s p)
    obtain ⟨t1, t2⟩ := C45_totals p
    refine ⟨?_, ?_, ?_⟩
    · rw [List.foldl_cons, h1, List.flatMap_cons, List.length_append, ← t1]
      simp only [package, Totals.merge]
      omega
    · intro l
      rw [List.foldl_cons, h2, List.flatMap_cons, List.countP_append]
      have := t2 l
      simp only [package, Totals.merge]
      rw [this]
      unfold Key.has
      omega
    · intro l
      rw [List.foldl_cons, h3, List.countP_cons]
      have hc := C45_complete_iff p l
      by_cases h : ∀ k ∈ allKeys p, Key.has l k
      · have : (totals p).lang l = (totals p).total := hc.2 h
        simp [package, this]
        exact h
      · have : (totals p).lang l ≠ (totals p).total := fun e => h (hc.1 e)
        rw [if_pos (by simpa using h), Nat.add_comm, ← List.replicate_append_replicate]
        simp [package, this]

theorem addons_state (as : List Addon) (s t : State) (h : addons s as = some t) :
    t.global.total = s.global.total + (as.flatMap Addon.keys).length ∧
    (∀ l, t.global.lang l = s.global.lang l + (as.flatMap Addon.keys).countP (Key.has l)) ∧
    ∀ l, t.missing l = s.missing l ++
      as.flatMap fun a => List.replicate (a.packages.countP fun p => ¬ ∀ k ∈ allKeys p, Key.has l k) a.folder := by
  induction as generalizing s with
  | nil => obtain rfl : s = t := Option.some.inj h; simp
  | cons a as ih =>
    rw [addons] at h
    rcases ha : a.stringtable with _ | _ | ps
    · rw [ha] at h
      have hp : a.packages = [] := by unfold Addon.packages; rw [ha]; rfl
      have hk : a.keys = [] := by unfold Addon.keys; rw [hp]; rfl
      simpa [hp, hk] using ih s h
    · rw [ha] at h; cases h
    · rw [ha] at h
      have hp : a.packages = ps := by unfold Addon.packages; rw [ha]; rfl
      have hk : a.keys = ps.flatMap allKeys := by unfold Addon.keys; rw [hp]
      obtain ⟨h1, h2, h3⟩ := ih _ h
      obtain ⟨g1, g2, g3⟩ := packages_state a.folder ps s
      refine ⟨?_, ?_, ?_⟩
      · rw [h1, g1, List.flatMap_cons, hk, List.length_append]; omega
      · intro l; rw [h2, g2, List.flatMap_cons, hk, List.countP_append]; omega
      · intro l; rw [h3, g3, List.flatMap_cons, hp, List.append_assoc]

theorem order_mem (l : Lang) : l ∈ order := by cases l <;> decide

/-- C95: nothing is printed exactly if the stringtable of some addon cannot be read. -/
theorem C95_printed (as : List Addon) : coverage as = none ↔ ∃ a ∈ as, a.stringtable = some none := by
  unfold coverage
  rw [Option.map_eq_none_iff]
  have : ∀ s, addons s as = none ↔ ∃ a ∈ as, a.stringtable = some none := by
    induction as with
    | nil => intro s; simp [addons]
    | cons a as ih =>
      intro s
      rw [addons]
      rcases ha : a.stringtable with _ | _ | ps
      · simp [ih, ha]
      · simp [ha]
      · simp [ih, ha]
  exact this start

/-- C95: there is one row for each language that some key has a text in, in the order of the languages; it gives how many
of how many keys have one. -/
theorem C95_rows (as : List Addon) (rows : List Row) (h : coverage as = some rows) :
    rows.map Row.lang = order.filter (fun l => (as.flatMap Addon.keys).any (Key.has l)) ∧
    ∀ r ∈ rows, r.have_ = (as.flatMap Addon.keys).countP (Key.has r.lang) ∧ r.total = (as.flatMap Addon.keys).length := by
  unfold coverage at h
  obtain ⟨t, ht, rfl⟩ := Option.map_eq_some_iff.1 h
  obtain ⟨h1, h2, _⟩ := addons_state as start t ht
  have e1 : t.global.total = (as.flatMap Addon.keys).length := by rw [h1]; simp [start, Totals.zero]
  have e2 : ∀ l, t.global.lang l = (as.flatMap Addon.keys).countP (Key.has l) := by
    intro l; rw [h2]; simp [start, Totals.zero]
  constructor
  · have : ∀ ls : List Lang, (ls.filterMap (row t)).map Row.lang =
        ls.filter (fun l => (as.flatMap Addon.keys).any (Key.has l)) := by
      intro ls
      induction ls with
      | nil => rfl
      | cons l ls ih =>
        have hr : row t l = if (as.flatMap Addon.keys).any (Key.has l) then
            some ⟨l, t.global.lang l, t.global.total, t.missing l⟩ else none := by
          unfold row
          rw [e2]
          have : (as.flatMap Addon.keys).countP (Key.has l) ≠ 0 ↔ (as.flatMap Addon.keys).any (Key.has l) = true := by
            rw [Nat.ne_zero_iff_zero_lt, List.countP_pos_iff, List.any_eq_true]
          simp only [this]
        rw [List.filterMap_cons, hr, List.filter_cons]
        by_cases hc : (as.flatMap Addon.keys).any (Key.has l) = true
        · rw [if_pos hc, if_pos hc, List.map_cons, ih]
        · rw [if_neg hc, if_neg hc, ih]
    exact this order
  · intro r hr
    obtain ⟨l, _, hl⟩ := List.mem_filterMap.1 hr
    unfold row at hl
    split at hl
    · obtain rfl := Option.some.inj hl
      exact ⟨e2 l, e1⟩
    · cases hl

/-- C95: a row names the addons with a gap, in their order, each once for each of its packages with a gap. -/
theorem C95_missing (as : List Addon) (rows : List Row) (h : coverage as = some rows) (r : Row) (hr : r ∈ rows) :
    r.missing = as.flatMap fun a =>
      List.replicate (a.packages.countP fun p => ∃ k ∈ allKeys p, k.text r.lang = none) a.folder := by
  unfold coverage at h
  obtain ⟨t, ht, rfl⟩ := Option.map_eq_some_iff.1 h
  obtain ⟨_, _, h3⟩ := addons_state as start t ht
  obtain ⟨l, _, hl⟩ := List.mem_filterMap.1 hr
  unfold row at hl
  split at hl
  · obtain rfl := Option.some.inj hl
    show t.missing l = _
    rw [h3]
    have : start.missing l = [] := rfl
    rw [this, List.nil_append]
    apply List.flatMap_congr
    intro a _
    congr 1
    apply List.countP_congr
    intro p _
    simp [Key.has]
  · cases hl

/-- C95: so an addon is named exactly if a key of its stringtable lacks the language. -/
theorem C95_named (as : List Addon) (rows : List Row) (h : coverage as = some rows) (r : Row) (hr : r ∈ rows) (f : Text) :
    f ∈ r.missing ↔ ∃ a ∈ as, a.folder = f ∧ ∃ k ∈ a.keys, k.text r.lang = none := by
  rw [C95_missing as rows h r hr, List.mem_flatMap]
  constructor
  · rintro ⟨a, ha, hf⟩
    obtain ⟨hn, rfl⟩ := List.mem_replicate.1 hf
    rw [Nat.ne_zero_iff_zero_lt, List.countP_pos_iff] at hn
    obtain ⟨p, hp, hk⟩ := hn
    obtain ⟨k, hk, hl⟩ := of_decide_eq_true hk
    exact ⟨a, ha, rfl, k, List.mem_flatMap.2 ⟨p, hp, hk⟩, hl⟩
  · rintro ⟨a, ha, rfl, k, hk, hl⟩
    obtain ⟨p, hp, hkp⟩ := List.mem_flatMap.1 hk
    refine ⟨a, ha, List.mem_replicate.2 ⟨?_, rfl⟩⟩
    rw [Nat.ne_zero_iff_zero_lt, List.countP_pos_iff]
    exact ⟨p, hp, decide_eq_true ⟨k, hkp, hl⟩⟩

/-- C95: the row says `None` exactly if all keys have the language (if no folder is called so). -/
theorem C95_none (as : List Addon) (rows : List Row) (h : coverage as = some rows) (r : Row) (hr : r ∈ rows)
    (hf : ∀ a ∈ as, 'N' ∉ a.folder.head?) : display r.missing = "None".toList ↔ r.have_ = r.total := by
  obtain ⟨_, h2⟩ := C95_rows as rows h
  obtain ⟨e1, e2⟩ := h2 r hr
  have hn := C95_named as rows h r hr
  have hall : r.have_ = r.total ↔ r.missing = [] := by
    rw [e1, e2, List.countP_eq_length, List.eq_nil_iff_forall_not_mem]
    constructor
    · intro hall f hm
      obtain ⟨a, ha, _, k, hk, hl⟩ := (hn f).1 hm
      have := hall k (List.mem_flatMap.2 ⟨a, ha, hk⟩)
      unfold Key.has at this
      rw [hl] at this
      cases this
    · intro hno k hk
      obtain ⟨a, ha, hk⟩ := List.mem_flatMap.1 hk
      unfold Key.has
      rw [Option.isSome_iff_ne_none]
      exact fun hl => hno a.folder ((hn _).2 ⟨a, ha, rfl, k, hk, hl⟩)
  rw [hall]
  constructor
  · intro hd
    by_contra hne
    obtain ⟨f, fs, hfs⟩ := List.exists_cons_of_ne_nil hne
    obtain ⟨a, ha, hfa, _⟩ := (hn f).1 (by rw [hfs]; simp)
    have hN : 'N' ∉ f.head? := hfa ▸ hf a ha
    unfold display at hd
    rw [if_neg hne, hfs] at hd
    have hh : (display r.missing).head? = some 'N' := by
      unfold display; rw [if_neg hne, hfs, hd]; rfl
    cases hf0 : f with
    | cons c cs =>
      subst hf0
      rw [hfs] at hh
      unfold display at hh
      rw [if_neg (by simp)] at hh
      split at hh
      · cases fs with
        | nil => exact hN (by simpa using hh)
        | cons g gs => exact hN (by simpa [List.intercalate, List.intersperse] using hh)
      · exact hN (by simpa using hh)
    | nil =>
      subst hf0
      rw [hfs] at hh
      unfold display at hh
      rw [if_neg (by simp)] at hh
      split at hh
      · cases fs with
        | nil => simp at hh
        | cons g gs => simp [List.intercalate, List.intersperse] at hh
      · simp at hh
  · intro hm
    unfold display
    rw [if_pos hm]

/-! ### Non-vacuity -/

def exK (ls : List Lang) : Key := ⟨ascii "k", fun l => if l ∈ ls then some (ascii "t") else none⟩

/-- Two addons with stringtables, the first with two packages, one of them with a container; and one without. -/
def exAddons : List Addon :=
  [⟨"addons/a".toList, some (some [.mk (ascii "p") [exK [.english, .german]] [.mk (ascii "c") [exK [.english]] []],
      .mk (ascii "q") [exK [.english]] []])⟩,
   ⟨"addons/b".toList, none⟩,
   ⟨"addons/c".toList, some (some [.mk (ascii "p") [exK [.german, .english]] []])⟩]

example : coverage exAddons = some
    [⟨.english, 4, 4, []⟩, ⟨.german, 2, 4, ["addons/a".toList, "addons/a".toList]⟩] := by decide +kernel

example : coverage (exAddons ++ [⟨"addons/d".toList, some none⟩]) = none :=
  (C95_printed _).2 ⟨_, List.mem_append_right _ (List.mem_singleton.2 rfl), rfl⟩

example : display [] = "None".toList ∧ display ["addons/a".toList, "addons/a".toList] = "addons/a, addons/a".toList := by
  decide

example : display (List.replicate 4 "addons/a".toList) = "addons/a and 3 more".toList := by
  have : decimal 3 = ['3'] := by unfold decimal; rfl
  show "addons/a".toList ++ " and ".toList ++ decimal 3 ++ " more".toList = _
  rw [this]
  decide

example (r : Row) (hr : r ∈ [(⟨.english, 4, 4, []⟩ : Row), ⟨.german, 2, 4, ["addons/a".toList, "addons/a".toList]⟩]) :
    display r.missing = "None".toList ↔ r.have_ = r.total :=
  C95_none exAddons _ (by decide +kernel) r hr (by decide)

end Verif.Coverage
