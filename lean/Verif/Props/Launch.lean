import Verif.Model.Launch
import Mathlib.Data.List.Induction
import Mathlib.Data.List.Pairwise
import Mathlib.Data.List.Perm.Basic
/-!
C40: inheritance of launch configurations.

Specification. `Walk` follows the `extends` of a configuration: the configurations met, nearest first, and how the walk
ends. A walk is finite; where there is none the configurations met go round in a circle. `Merged` says what the
configurations of a walk make together.
-/
namespace Verif.Launch

/-- How following `extends` from a configuration named `k` ends. -/
inductive Stop
  | done | self | missing (e : Bytes)
  deriving DecidableEq, Repr

/-- The configurations met from `o` on, for the configuration named `k`. -/
inductive Walk (get : Bytes → Option Options) (k : Bytes) : Options → List Options → Stop → Prop
  | done {o} : o.parent = none → Walk get k o [o] .done
  | self {o} : o.parent = some k → Walk get k o [o] .self
  | missing {o e} : o.parent = some e → e ≠ k → get e = none → Walk get k o [o] (.missing e)
  | link {o e p l s} : o.parent = some e → e ≠ k → get e = some p → Walk get k p l s → Walk get k o (o :: l) s

/-- A list option holds what the configurations list, in ascending order and once each. -/
def Collected {α : Type} (le : α → α → Bool) (field : Options → List α) (l : List Options) (r : List α) : Prop :=
  (∀ x, x ∈ r ↔ ∃ o ∈ l, x ∈ field o) ∧ r.Pairwise fun a b => le a b = true ∧ a ≠ b

/-- What configurations make together, the nearest first: list options collect, the others come from the nearest
configuration that sets them. -/
structure Merged (l : List Options) (r : Options) : Prop where
  parent : r.parent = none
  workshop : Collected lexLe Options.workshop l r.workshop
  dlc : Collected (fun a b => decide (a ≤ b)) Options.dlc l r.dlc
  presets : Collected lexLe Options.presets l r.presets
  optionals : Collected lexLe Options.optionals l r.optionals
  parameters : Collected lexLe Options.parameters l r.parameters
  mission : r.mission = l.findSome? Options.mission
  executable : r.executable = l.findSome? Options.executable
  binarize : r.binarize = l.findSome? Options.binarize
  filePatching : r.filePatching = l.findSome? Options.filePatching
  instances : r.instances = l.findSome? Options.instances
  rapify : r.rapify = l.findSome? Options.rapify

/-! ### Sorting -/

theorem mem_dedupFrom {α : Type} [DecidableEq α] (x a : α) (l : List α) :
    x ∈ a :: dedupFrom a l ↔ x ∈ a :: l := by
  induction l generalizing a with
  | nil => rfl
  | cons b l ih =>
    rw [dedupFrom]
    split
    · rename_i h
      subst h
      rw [ih]
      simp
    · rw [List.mem_cons, ih, ← List.mem_cons]

theorem mem_dedup {α : Type} [DecidableEq α] (x : α) (l : List α) : x ∈ dedup l ↔ x ∈ l := by
  cases l with
  | nil => rfl
  | cons a l => exact mem_dedupFrom x a l

theorem dedupFrom_sorted {α : Type} [DecidableEq α] {le : α → α → Bool}
    (anti : ∀ a b, le a b = true → le b a = true → a = b) (a : α) (l : List α)
    (h : (a :: l).Pairwise fun a b => le a b = true) :
    (a :: dedupFrom a l).Pairwise fun a b => le a b = true ∧ a ≠ b := by
  induction l generalizing a with
  | nil => simp [dedupFrom]
  | cons b l ih =>
    rw [dedupFrom]
    have ha := List.pairwise_cons.1 h
    split
    · rename_i hab
      subst hab
      exact ih a ha.2
    · rename_i hab
      rw [List.pairwise_cons]
      refine ⟨fun x hx => ?_, ih b ha.2⟩
      have hx := (mem_dedupFrom x _ _).1 hx
      refine ⟨ha.1 x hx, ?_⟩
      rintro rfl
      rcases List.mem_cons.1 hx with rfl | hx
      · exact hab rfl
      · exact hab (anti _ _ (ha.1 b (List.mem_cons_self ..)) ((List.pairwise_cons.1 ha.2).1 _ hx))

theorem dedup_sorted {α : Type} [DecidableEq α] {le : α → α → Bool}
    (anti : ∀ a b, le a b = true → le b a = true → a = b) (l : List α)
    (h : l.Pairwise fun a b => le a b = true) : (dedup l).Pairwise fun a b => le a b = true ∧ a ≠ b := by
  cases l with
  | nil => exact List.Pairwise.nil
  | cons a l => exact dedupFrom_sorted anti a l h

theorem collected_sortDedup {field : Options → List Bytes} {l : List Options} {b : List Bytes}
    (h : b = l.reverse.flatMap field) : Collected lexLe field l (sortDedup b) := by
  subst h
  constructor
  · intro x
    rw [sortDedup, mem_dedup, List.mem_mergeSort]
    simp
  · exact dedup_sorted lexLe_antisymm _ (List.pairwise_mergeSort (fun a b c => lexLe_trans a b c)
      (fun a b => lexLe_total a b) _)

theorem collected_dlc {l : List Options} {b : List Nat} (h : b = l.reverse.flatMap Options.dlc) :
    Collected (fun a b => decide (a ≤ b)) Options.dlc l (dedup (b.mergeSort fun a b => a ≤ b)) := by
  subst h
  constructor
  · intro x
    rw [mem_dedup, List.mem_mergeSort]
    simp
  · refine dedup_sorted (fun a b h1 h2 => ?_) _ (List.pairwise_mergeSort (fun a b c h1 h2 => ?_) (fun a b => ?_) _)
    · simp only [decide_eq_true_eq] at h1 h2
      omega
    · simp only [decide_eq_true_eq] at h1 h2 ⊢
      omega
    · simp only [Bool.or_eq_true, decide_eq_true_eq]
      omega

/-! ### The loop -/

/-- The configuration the loop carries after it has met `l`, the nearest first. -/
structure Acc (l : List Options) (b : Options) : Prop where
  workshop : b.workshop = l.reverse.flatMap Options.workshop
  dlc : b.dlc = l.reverse.flatMap Options.dlc
  presets : b.presets = l.reverse.flatMap Options.presets
  optionals : b.optionals = l.reverse.flatMap Options.optionals
  parameters : b.parameters = l.reverse.flatMap Options.parameters
  mission : b.mission = l.findSome? Options.mission
  executable : b.executable = l.findSome? Options.executable
  binarize : b.binarize = l.findSome? Options.binarize
  filePatching : b.filePatching = l.findSome? Options.filePatching
  instances : b.instances = l.findSome? Options.instances
  rapify : b.rapify = l.findSome? Options.rapify

theorem acc_one (o : Options) : Acc [o] o := by
  constructor <;> simp [List.findSome?]
  all_goals split <;> simp_all

theorem over_findSome {α : Type} (f : Options → Option α) (l : List Options) (o : Options) :
    over (l.findSome? f) (f o) = (l ++ [o]).findSome? f := by
  rw [List.findSome?_append]
  cases h : l.findSome? f with
  | none =>
    cases h' : f o with
    | none => simp [over, List.findSome?, h']
    | some x => simp [over, List.findSome?, h']
  | some x => simp [over]

theorem acc_step {l b} (h : Acc l b) (o : Options) : Acc (l ++ [o]) (b.extend o) := by
  constructor
  · simp [Options.extend, h.workshop]
  · simp [Options.extend, h.dlc]
  · simp [Options.extend, h.presets]
  · simp [Options.extend, h.optionals]
  · simp [Options.extend, h.parameters]
  · simp only [Options.extend, h.mission, over_findSome]
  · simp only [Options.extend, h.executable, over_findSome]
  · simp only [Options.extend, h.binarize, over_findSome]
  · simp only [Options.extend, h.filePatching, over_findSome]
  · simp only [Options.extend, h.instances, over_findSome]
  · simp only [Options.extend, h.rapify, over_findSome]

theorem acc_merged {l b} (h : Acc l b) (hp : b.parent = none) : Merged l b.dedup where
  parent := hp
  workshop := collected_sortDedup h.workshop
  dlc := collected_dlc h.dlc
  presets := collected_sortDedup h.presets
  optionals := collected_sortDedup h.optionals
  parameters := collected_sortDedup h.parameters
  mission := h.mission
  executable := h.executable
  binarize := h.binarize
  filePatching := h.filePatching
  instances := h.instances
  rapify := h.rapify

/-- What resolving answers at the end of a walk. -/
def Answer (k : Bytes) (l : List Options) : Stop → Except LErr Options → Prop
  | .done, r => ∃ o, r = .ok o ∧ Merged l o
  | .self, r => r = .error (.extendsSelf k)
  | .missing e, r => r = .error (.extendsMissing k e)

theorem resolve_walk {get k} {p : Options} {l s} (h : Walk get k p l s) : ∀ (acc : List Options) (b : Options),
    Acc (acc ++ [p]) b → b.parent = p.parent →
    ∃ r, Answer k (acc ++ l) s r ∧ ∀ n, l.length ≤ n → resolve n get k b = some r := by
  induction h with
  | done hp =>
    intro acc b ha hb
    refine ⟨.ok b.dedup, ⟨_, rfl, acc_merged ha (hb.trans hp)⟩, ?_⟩
    intro n hn
    obtain ⟨n, rfl⟩ : ∃ m, n = m + 1 := ⟨n - 1, by simp at hn; omega⟩
    rw [resolve, hb, hp]
  | self hp =>
    intro acc b ha hb
    refine ⟨_, rfl, ?_⟩
    intro n hn
    obtain ⟨n, rfl⟩ : ∃ m, n = m + 1 := ⟨n - 1, by simp at hn; omega⟩
    rw [resolve, hb, hp]
    simp
  | missing hp hk hg =>
    intro acc b ha hb
    refine ⟨_, rfl, ?_⟩
    intro n hn
    obtain ⟨n, rfl⟩ : ∃ m, n = m + 1 := ⟨n - 1, by simp at hn; omega⟩
    rw [resolve, hb, hp]
    simp [hk, hg]
  | link hp hk hg _ ih =>
    rename_i o e p l s _
    intro acc b ha hb
    obtain ⟨r, hr, hn⟩ := ih (acc ++ [o]) (b.extend p) (acc_step ha p) rfl
    refine ⟨r, by simpa using hr, ?_⟩
    intro n hl
    obtain ⟨n, rfl⟩ : ∃ m, n = m + 1 := ⟨n - 1, by simp at hl; omega⟩
    rw [resolve, hb, hp]
    simp only [hk, if_false, hg]
    exact hn n (by simp at hl; omega)

/-- Where the `extends` of a configuration come to an end the answer is right: without an error the configurations met,
merged; an error if the walk comes back to where it started or meets a name that is not there. -/
theorem C40_resolved {get k o l s} (h : Walk get k o l s) :
    ∃ r, Answer k l s r ∧ ∀ n, l.length ≤ n → resolve n get k o = some r :=
  resolve_walk h [] o (acc_one o) rfl

theorem walk_of_resolve (get : Bytes → Option Options) (k : Bytes) : ∀ (n : Nat) (b p : Options) (r : Except LErr Options),
    b.parent = p.parent → resolve n get k b = some r → ∃ l s, Walk get k p l s
  | 0, b, p, r, _, h => by simp [resolve] at h
  | n + 1, b, p, r, hb, h => by
    rw [resolve, hb] at h
    cases hp : p.parent with
    | none => exact ⟨_, _, .done hp⟩
    | some e =>
      rw [hp] at h
      dsimp only at h
      by_cases hk : e = k
      · subst hk
        exact ⟨_, _, .self hp⟩
      · rw [if_neg hk] at h
        cases hg : get e with
        | none => exact ⟨_, _, .missing hp hk hg⟩
        | some o =>
          rw [hg] at h
          obtain ⟨l, s, hw⟩ := walk_of_resolve get k n (b.extend o) o r rfl h
          exact ⟨_, _, .link hp hk hg hw⟩

/-- Resolving ends exactly where the walk does. -/
theorem C40_ends_iff (get : Bytes → Option Options) (k : Bytes) (o : Options) :
    (∃ n r, resolve n get k o = some r) ↔ ∃ l s, Walk get k o l s := by
  constructor
  · rintro ⟨n, r, h⟩
    exact walk_of_resolve get k n o o r rfl h
  · rintro ⟨l, s, h⟩
    obtain ⟨r, _, hn⟩ := C40_resolved h
    exact ⟨_, r, hn _ le_rfl⟩

/-- Without circles among the configurations, resolving ends. (`rank` orders them: a parent comes before its child.) -/
theorem C40_acyclic_ends (get : Bytes → Option Options) (rank : Bytes → Nat)
    (hr : ∀ c o e, get c = some o → o.parent = some e → rank e < rank c) (k : Bytes) (o : Options) (hk : get k = some o) :
    ∃ l s, Walk get k o l s ∧ s ≠ .self := by
  have key : ∀ (m : Nat) (c : Bytes) (p : Options), get c = some p → rank c ≤ m → rank c ≤ rank k →
      ∃ l s, Walk get k p l s ∧ s ≠ .self := by
    intro m
    induction m with
    | zero =>
      intro c p hc hm hck
      cases hp : p.parent with
      | none => exact ⟨_, _, .done hp, by simp⟩
      | some e => have := hr c p e hc hp; omega
    | succ m ih =>
      intro c p hc hm hck
      cases hp : p.parent with
      | none => exact ⟨_, _, .done hp, by simp⟩
      | some e =>
        have hlt := hr c p e hc hp
        have hek : e ≠ k := by rintro rfl; omega
        cases hg : get e with
        | none => exact ⟨_, _, .missing hp hek hg, by simp⟩
        | some q =>
          obtain ⟨l, s, hw, hs⟩ := ih e q hg (by omega) (by omega)
          exact ⟨_, _, .link hp hek hg hw, hs⟩
  exact key (rank k) k o hk le_rfl le_rfl

/-- Without circles and without missing names, all configurations are resolved, in whatever order the table is
iterated. -/
theorem C40_config (entries : List (Bytes × Options)) (get : Bytes → Option Options) (rank : Bytes → Nat)
    (hget : ∀ p ∈ entries, get p.1 = some p.2)
    (hr : ∀ c o e, get c = some o → o.parent = some e → rank e < rank c ∧ get e ≠ none) :
    ∃ n0 os, (∀ n, n0 ≤ n → resolveAll n get entries = some (.ok os)) ∧ os.map (·.1) = entries.map (·.1) ∧
      ∀ (i : Nat) (p q : Bytes × Options), entries[i]? = some p → os[i]? = some q → ∃ l, Walk get p.1 p.2 l .done ∧ Merged l q.2 := by
  induction entries with
  | nil => exact ⟨0, [], fun _ _ => rfl, rfl, by simp⟩
  | cons p entries ih =>
    obtain ⟨n0, os, h1, h2, h3⟩ := ih (fun q hq => hget q (List.mem_cons_of_mem _ hq))
    obtain ⟨l, s, hw, hs⟩ := C40_acyclic_ends get rank (fun c o e hc he => (hr c o e hc he).1) p.1 p.2
      (hget p (List.mem_cons_self ..))
    have hm : ∀ {o l s} (c : Bytes), get c = some o → Walk get p.1 o l s → ∀ e, s ≠ .missing e := by
      intro o l s c hc hwk
      induction hwk generalizing c with
      | done => simp
      | self => simp
      | missing hp hk hg => exact absurd hg (hr c _ _ hc hp).2
      | link hp hk hg _ ih => exact ih _ hg
    have hs : s = .done := by
      cases s with
      | done => rfl
      | self => exact absurd rfl hs
      | missing e => exact absurd rfl (hm p.1 (hget p (List.mem_cons_self ..)) hw e)
    subst hs
    obtain ⟨r, ⟨o, rfl, hmo⟩, hn⟩ := C40_resolved hw
    refine ⟨max n0 l.length, (p.1, o) :: os, ?_, by simp [h2], ?_⟩
    · intro n hle
      rw [resolveAll, hn n (by omega)]
      simp only
      rw [h1 n (by omega)]
    · intro i a b ha hb
      cases i with
      | zero =>
        simp only [List.getElem?_cons_zero, Option.some.injEq] at ha hb
        subst ha hb
        exact ⟨l, hw, hmo⟩
      | succ i => exact h3 i a b (by simpa using ha) (by simpa using hb)

/-! ### Circles -/

/-- The violation: `a` extends `b`, and `b` and `c` extend each other. -/
def loop : List (Bytes × Options) :=
  [(ascii "a", { parent := some (ascii "b") }), (ascii "b", { parent := some (ascii "c") }),
   (ascii "c", { parent := some (ascii "b") })]

theorem no_walk_loop {o l s} (h : Walk (table loop) (ascii "a") o l s) :
    o.parent ≠ some (ascii "b") ∧ o.parent ≠ some (ascii "c") := by
  induction h with
  | done hp => rw [hp]; simp
  | self hp => rw [hp]; decide +kernel
  | missing hp hk hg =>
    rw [hp]
    constructor
    · rintro ⟨⟩
      exact absurd hg (by decide +kernel)
    · rintro ⟨⟩
      exact absurd hg (by decide +kernel)
  | link hp hk hg _ ih =>
    rw [hp]
    constructor
    · rintro ⟨⟩
      have : table loop (ascii "b") = some { parent := some (ascii "c") } := by decide +kernel
      rw [this] at hg
      simp only [Option.some.injEq] at hg
      subst hg
      exact ih.2 rfl
    · rintro ⟨⟩
      have : table loop (ascii "c") = some { parent := some (ascii "b") } := by decide +kernel
      rw [this] at hg
      simp only [Option.some.injEq] at hg
      subst hg
      exact ih.1 rfl

/-- Violation: a circle that does not go through the starting configuration is not noticed. Whether the program then
hangs or reports an error depends on the order in which the hash table is iterated. -/
theorem C40_violated : (∀ n, resolveAll n (table loop) loop = none) ∧
    ∃ n, resolveAll n (table loop) loop.reverse = some (.error (.extendsSelf (ascii "c"))) := by
  constructor
  · intro n
    have : resolve n (table loop) (ascii "a") { parent := some (ascii "b") } = none := by
      cases h : resolve n (table loop) (ascii "a") { parent := some (ascii "b") } with
      | none => rfl
      | some r =>
        obtain ⟨l, s, hw⟩ := walk_of_resolve _ _ n _ _ r rfl h
        exact absurd rfl (no_walk_loop hw).1
    show resolveAll n (table loop) ((_, _) :: _) = none
    rw [resolveAll, this]
  · exact ⟨3, by decide +kernel⟩

/-- A circle through every configuration it is reached from is reported, never followed for ever: the walk from a
member of a circle comes back to it. -/
theorem C40_circle_reported {get k o l} (h : Walk get k o l .self) :
    ∀ n, l.length ≤ n → resolve n get k o = some (.error (.extendsSelf k)) := by
  obtain ⟨r, hr, hn⟩ := C40_resolved h
  intro n hle
  rw [hn n hle]
  exact congrArg some hr

/-- Several configurations named on the command line: the last one that sets an option decides, lists are put one
after the other. -/
theorem C40_overlay (os : List Options) :
    (os.foldl Options.overlay {}).workshop = os.flatMap Options.workshop ∧
    (os.foldl Options.overlay {}).dlc = os.flatMap Options.dlc ∧
    (os.foldl Options.overlay {}).presets = os.flatMap Options.presets ∧
    (os.foldl Options.overlay {}).optionals = os.flatMap Options.optionals ∧
    (os.foldl Options.overlay {}).parameters = os.flatMap Options.parameters ∧
    (os.foldl Options.overlay {}).mission = os.reverse.findSome? Options.mission ∧
    (os.foldl Options.overlay {}).executable = os.reverse.findSome? Options.executable ∧
    (os.foldl Options.overlay {}).binarize = os.reverse.findSome? Options.binarize ∧
    (os.foldl Options.overlay {}).filePatching = os.reverse.findSome? Options.filePatching ∧
    (os.foldl Options.overlay {}).instances = os.reverse.findSome? Options.instances ∧
    (os.foldl Options.overlay {}).rapify = os.reverse.findSome? Options.rapify := by
  have cons : ∀ {α : Type} (f : Options → Option α) (l : List Options) (o : Options),
      over (f o) (l.findSome? f) = (o :: l).findSome? f := by
    intro α f l o
    rw [List.findSome?_cons]
    cases f o <;> rfl
  induction os using List.reverseRecOn with
  | nil => simp
  | append_singleton os o ih =>
    obtain ⟨h1, h2, h3, h4, h5, h6, h7, h8, h9, h10, h11⟩ := ih
    simp only [List.foldl_append, List.foldl_cons, List.foldl_nil, List.reverse_append, List.reverse_cons,
      List.reverse_nil, List.nil_append, List.singleton_append, List.flatMap_append, List.flatMap_cons,
      List.flatMap_nil, List.append_nil, ← cons]
    simp only [Options.overlay, h1, h2, h3, h4, h5, h6, h7, h8, h9, h10, h11, and_self]

/-! ### Cases -/

/-- A base, a configuration on it and one on that. -/
def sample : List (Bytes × Options) :=
  [(ascii "base", { workshop := [ascii "9", ascii "1"], mission := some (ascii "old"), dlc := [3] }),
   (ascii "mid", { parent := some (ascii "base"), workshop := [ascii "1"], dlc := [0, 3], binarize := some true }),
   (ascii "top", { parent := some (ascii "mid"), mission := some (ascii "new"), workshop := [ascii "5"] })]

/-- The walk from `top`, and what comes out. -/
example : ∃ l r, Walk (table sample) (ascii "top") (sample[2].2) l .done ∧ l = [sample[2].2, sample[1].2, sample[0].2] ∧
    resolve 3 (table sample) (ascii "top") (sample[2].2) = some (.ok r) ∧ Merged l r ∧
    r.mission = some (ascii "new") ∧ r.binarize = some true ∧ r.rapify = none ∧
    (∀ w, w ∈ r.workshop ↔ w = ascii "1" ∨ w = ascii "5" ∨ w = ascii "9") := by
  have hw : Walk (table sample) (ascii "top") (sample[2].2) [sample[2].2, sample[1].2, sample[0].2] .done :=
    .link (e := ascii "mid") rfl (by decide +kernel) (by decide +kernel)
      (.link (e := ascii "base") rfl (by decide +kernel) (by decide +kernel) (.done rfl))
  obtain ⟨r, ⟨o, rfl, hm⟩, hn⟩ := C40_resolved hw
  refine ⟨_, o, hw, rfl, hn 3 (by simp), hm, ?_, ?_, ?_, ?_⟩
  · rw [hm.mission]; rfl
  · rw [hm.binarize]; rfl
  · rw [hm.rapify]; rfl
  · intro w
    rw [hm.workshop.1]
    simp [sample]
    tauto

/-- `sample` meets the hypotheses of `C40_config`. -/
example : (∀ p ∈ sample, table sample p.1 = some p.2) ∧ ∃ rank : Bytes → Nat, ∀ c o e, table sample c = some o →
    o.parent = some e → rank e < rank c ∧ table sample e ≠ none := by
  refine ⟨by decide +kernel, fun c => if c = ascii "base" then 0 else if c = ascii "mid" then 1 else 2, ?_⟩
  intro c o e hc he
  unfold table at hc
  obtain ⟨p, hp, rfl⟩ := Option.map_eq_some_iff.1 hc
  have hm := List.mem_of_find?_eq_some hp
  have hpc := List.find?_some hp
  simp only [decide_eq_true_eq] at hpc
  subst hpc
  simp only [sample, List.mem_cons, List.not_mem_nil, or_false] at hm
  rcases hm with rfl | rfl | rfl
  · simp at he
  · simp only [Option.some.injEq] at he
    subst he
    decide +kernel
  · simp only [Option.some.injEq] at he
    subst he
    decide +kernel

end Verif.Launch
