import Verif.Model.Similar
import Verif.Spec.Similar
import Verif.Props.Launcher
import Mathlib.Data.List.Basic
/-!
C124: what is suggested instead of a name that is not known.
-/
namespace Verif.Similar
open Spec

/-! ### There is a distance -/

/-- Two texts beside each other, with the number of places where they differ. -/
inductive Align : Nat → Text → Text → Prop
  | nil : Align 0 [] []
  | keep {n a b} (c : Char) : Align n a b → Align n (c :: a) (c :: b)
  | sub {n a b} (c d : Char) : Align n a b → Align (n + 1) (c :: a) (d :: b)
  | del {n a b} (c : Char) : Align n a b → Align (n + 1) (c :: a) b
  | ins {n a b} (d : Char) : Align n a b → Align (n + 1) a (d :: b)

theorem Align.refl : ∀ a, Align 0 a a
  | [] => .nil
  | c :: a => .keep c (Align.refl a)

theorem Align.append {n m : Nat} {a b c d : Text} (h1 : Align n a b) (h2 : Align m c d) : Align (n + m) (a ++ c) (b ++ d) := by
  induction h1 with
  | nil => simpa using h2
  | keep c _ ih => exact .keep c ih
  | sub c d _ ih => rw [Nat.succ_add]; exact .sub c d ih
  | del c _ ih => rw [Nat.succ_add]; exact .del c ih
  | ins c _ ih => rw [Nat.succ_add]; exact .ins c ih

theorem Align.split {n : Nat} {a b : Text} (h : Align n a b) : ∀ u v, b = u ++ v →
    ∃ a1 a2 n1 n2, a = a1 ++ a2 ∧ n = n1 + n2 ∧ Align n1 a1 u ∧ Align n2 a2 v := by
  induction h with
  | nil =>
    intro u v h
    obtain ⟨rfl, rfl⟩ := List.append_eq_nil_iff.1 h.symm
    exact ⟨[], [], 0, 0, rfl, rfl, .nil, .nil⟩
  | @keep n a b c h ih =>
    intro u v hb
    cases u with
    | nil => obtain rfl : _ = v := hb; exact ⟨[], _, 0, _, rfl, (Nat.zero_add _).symm, .nil, .keep c h⟩
    | cons x u =>
      obtain ⟨rfl, hb'⟩ := List.cons.inj hb
      obtain ⟨a1, a2, n1, n2, rfl, rfl, h1, h2⟩ := ih u v hb'
      exact ⟨_ :: a1, a2, n1, n2, rfl, rfl, .keep _ h1, h2⟩
  | @sub n a b c d h ih =>
    intro u v hb
    cases u with
    | nil => obtain rfl : _ = v := hb; exact ⟨[], _, 0, _, rfl, (Nat.zero_add _).symm, .nil, .sub c d h⟩
    | cons x u =>
      obtain ⟨rfl, hb'⟩ := List.cons.inj hb
      obtain ⟨a1, a2, n1, n2, rfl, rfl, h1, h2⟩ := ih u v hb'
      exact ⟨_ :: a1, a2, n1 + 1, n2, rfl, by omega, .sub _ _ h1, h2⟩
  | @del n a b c h ih =>
    intro u v hb
    obtain ⟨a1, a2, n1, n2, rfl, rfl, h1, h2⟩ := ih u v hb
    exact ⟨_ :: a1, a2, n1 + 1, n2, rfl, by omega, .del _ h1, h2⟩
  | @ins n a b d h ih =>
    intro u v hb
    cases u with
    | nil => obtain rfl : _ = v := hb; exact ⟨[], _, 0, _, rfl, (Nat.zero_add _).symm, .nil, .ins d h⟩
    | cons x u =>
      obtain ⟨rfl, hb'⟩ := List.cons.inj hb
      obtain ⟨a1, a2, n1, n2, rfl, rfl, h1, h2⟩ := ih u v hb'
      exact ⟨a1, a2, n1 + 1, n2, rfl, by omega, .ins _ h1, h2⟩

theorem Align.replace {n : Nat} {a b : Text} (h : Align n a b) : ∀ {c v} (d : Char), b = c :: v → ∃ m ≤ n + 1, Align m a (d :: v) := by
  induction h with
  | nil => intro c v d h; cases h
  | keep c h _ => intro c' v d hb; obtain ⟨rfl, rfl⟩ := List.cons.inj hb; exact ⟨_, Nat.le_refl _, .sub _ d h⟩
  | sub c e h _ => intro c' v d hb; obtain ⟨rfl, rfl⟩ := List.cons.inj hb; exact ⟨_, Nat.le_succ _, .sub _ d h⟩
  | del c _ ih =>
    intro c' v d hb
    obtain ⟨m, hm, h⟩ := ih d hb
    exact ⟨m + 1, by omega, .del c h⟩
  | ins e h _ => intro c' v d hb; obtain ⟨rfl, rfl⟩ := List.cons.inj hb; exact ⟨_, Nat.le_succ _, .ins d h⟩

theorem Align.leave {n : Nat} {a b : Text} (h : Align n a b) : ∀ {c v}, b = c :: v → ∃ m ≤ n + 1, Align m a v := by
  induction h with
  | nil => intro c v h; cases h
  | keep c h _ => intro c' v hb; obtain ⟨rfl, rfl⟩ := List.cons.inj hb; exact ⟨_, Nat.le_refl _, .del _ h⟩
  | sub c e h _ => intro c' v hb; obtain ⟨rfl, rfl⟩ := List.cons.inj hb; exact ⟨_, Nat.le_succ _, .del _ h⟩
  | del c _ ih =>
    intro c' v hb
    obtain ⟨m, hm, h⟩ := ih hb
    exact ⟨m + 1, by omega, .del c h⟩
  | ins e h _ => intro c' v hb; obtain ⟨rfl, rfl⟩ := List.cons.inj hb; exact ⟨_, by omega, h⟩

theorem Align.step {n : Nat} {a b c : Text} (h : Align n a b) (hs : Step b c) : ∃ m ≤ n + 1, Align m a c := by
  cases hs with
  | put u v c =>
    obtain ⟨a1, a2, n1, n2, rfl, rfl, h1, h2⟩ := h.split u v rfl
    exact ⟨_, by omega, h1.append (.ins c h2)⟩
  | leave u v c =>
    obtain ⟨a1, a2, n1, n2, rfl, rfl, h1, h2⟩ := h.split u _ rfl
    obtain ⟨m, hm, h3⟩ := h2.leave rfl
    exact ⟨_, by omega, h1.append h3⟩
  | replace u v c d =>
    obtain ⟨a1, a2, n1, n2, rfl, rfl, h1, h2⟩ := h.split u _ rfl
    obtain ⟨m, hm, h3⟩ := h2.replace d rfl
    exact ⟨_, by omega, h1.append h3⟩

theorem Align.of_chain {n : Nat} {a b : Text} (h : Chain n a b) : ∃ m ≤ n, Align m a b := by
  induction h with
  | same a => exact ⟨0, Nat.le_refl _, Align.refl a⟩
  | step _ hs ih =>
    obtain ⟨m, hm, h⟩ := ih
    obtain ⟨k, hk, h⟩ := h.step hs
    exact ⟨k, by omega, h⟩

theorem Spec.Step.cons {a b : Text} (c : Char) (h : Step a b) : Step (c :: a) (c :: b) := by
  cases h with
  | put u v d => exact .put (c :: u) v d
  | leave u v d => exact .leave (c :: u) v d
  | replace u v d e => exact .replace (c :: u) v d e

theorem Spec.Chain.cons {n : Nat} {a b : Text} (c : Char) (h : Chain n a b) : Chain n (c :: a) (c :: b) := by
  induction h with
  | same a => exact .same _
  | step _ hs ih => exact .step ih (hs.cons c)

theorem Spec.Chain.first {n : Nat} {a b c : Text} (hs : Step a b) (h : Chain n b c) : Chain (n + 1) a c := by
  induction h with
  | same _ => exact .step (.same _) hs
  | step _ hs' ih => exact .step (ih hs) hs'

theorem Align.chain {n : Nat} {a b : Text} (h : Align n a b) : Chain n a b := by
  induction h with
  | nil => exact .same _
  | keep c _ ih => exact ih.cons c
  | @sub n a b c d _ ih => exact Spec.Chain.first (.replace [] a c d) (ih.cons d)
  | @del n a b c _ ih => exact Spec.Chain.first (.leave [] a c) ih
  | @ins n a b d _ ih => exact .step ih (.put [] b d)

/-- The distance, row by row. -/
def levRow (c : Char) (f : Text → Nat) : Text → Nat
  | [] => f [] + 1
  | d :: b => min (f b + if c = d then 0 else 1) (min (f (d :: b) + 1) (levRow c f b + 1))

/-- The distance of two texts. -/
def lev : Text → Text → Nat
  | [] => List.length
  | c :: a => levRow c (lev a)

theorem lev_align : ∀ a b, Align (lev a b) a b
  | [], b => by
    induction b with
    | nil => exact .nil
    | cons d b ih => exact .ins d ih
  | c :: a, b => by
    induction b with
    | nil => exact .del c (lev_align a [])
    | cons d b ih =>
      rw [lev, levRow]
      rcases min_choice (lev a b + if c = d then 0 else 1) (min (lev a (d :: b) + 1) (levRow c (lev a) b + 1)) with h | h
      · rw [h]
        split
        · next h => subst h; exact .keep c (lev_align a b)
        · exact .sub c d (lev_align a b)
      · rw [h]
        rcases min_choice (lev a (d :: b) + 1) (levRow c (lev a) b + 1) with h | h
        · rw [h]; exact .del c (lev_align a (d :: b))
        · rw [h]; exact .ins d ih

theorem lev_le {n : Nat} {a b : Text} (h : Align n a b) : lev a b ≤ n := by
  induction h with
  | nil => exact Nat.le_refl _
  | @keep n a b c _ ih => rw [lev, levRow, if_pos rfl]; omega
  | @sub n a b c d _ ih =>
    rw [lev, levRow]
    have : (if c = d then 0 else 1) ≤ 1 := by split <;> omega
    omega
  | @del n a b c _ ih =>
    cases b with
    | nil => rw [lev, levRow]; omega
    | cons d b => rw [lev, levRow]; omega
  | @ins n a b d _ ih =>
    cases a with
    | nil => rw [lev] at ih ⊢; simpa using ih
    | cons c a =>
      rw [lev] at ih
      rw [lev, levRow]
      omega

/-- There is such a distance. -/
theorem lev_distance : Distance lev := by
  intro a b n
  constructor
  · intro h
    exact ⟨_, h, (lev_align a b).chain⟩
  · rintro ⟨k, hk, h⟩
    obtain ⟨m, hm, h⟩ := Align.of_chain h
    exact (lev_le h).trans (hm.trans hk)

/-! ### What is suggested -/

theorem mem_take_sorted {α : Type} {l : List (α × Nat)} (hl : l.Pairwise fun a b => a.2 ≤ b.2) {x : α × Nat}
    (hx : x ∈ l) (k : Nat) : x ∈ l.take k ∨ ((l.take k).length = k ∧ ∀ y ∈ l.take k, y.2 ≤ x.2) := by
  rw [← List.take_append_drop k l] at hx
  rcases List.mem_append.1 hx with h | h
  · exact .inl h
  · right
    constructor
    · rw [List.length_take]
      have : (l.drop k).length ≠ 0 := by
        intro h0
        rw [List.length_eq_zero_iff.1 h0] at h
        cases h
      rw [List.length_drop] at this
      omega
    · intro y hy
      have := hl
      rw [← List.take_append_drop k l, List.pairwise_append] at this
      exact this.2.2 y hy x h

/-- What is suggested among some names: at most three of them, none farther than 3, the nearest first, and nothing that is left
out is nearer. -/
structure Suggested {α : Type} (far : α → Nat) (hay res : List α) : Prop where
  few : res.length ≤ 3
  from_hay : ∃ rest, (res ++ rest).Perm hay
  near : ∀ s ∈ res, far s ≤ 3
  sorted : res.Pairwise fun a b => far a ≤ far b
  best : ∀ v ∈ hay, far v ≤ 3 → v ∈ res ∨ (res.length = 3 ∧ ∀ s ∈ res, far s ≤ far v)

theorem nearest_suggested {α : Type} (far : α → Nat) (hay : List α) : Suggested far hay (nearest far hay) := by
  generalize hl : (hay.map fun v => (v, far v)).insertionSort (fun a b => a.2 ≤ b.2) = l
  have hp : l.Perm (hay.map fun v => (v, far v)) := by rw [← hl]; exact List.perm_insertionSort _ _
  have hs : l.Pairwise fun a b => a.2 ≤ b.2 := by
    rw [← hl]
    have : Std.Total fun a b : α × Nat => a.2 ≤ b.2 := ⟨fun a b => Nat.le_total _ _⟩
    have : IsTrans (α × Nat) fun a b => a.2 ≤ b.2 := ⟨fun a b c => Nat.le_trans⟩
    exact List.pairwise_insertionSort _ _
  have hf : ∀ x ∈ l, x.2 = far x.1 := by
    intro x hx
    obtain ⟨v, -, rfl⟩ := List.mem_map.1 (hp.mem_iff.1 hx)
    rfl
  have he : nearest far hay = ((l.filter fun s => decide (s.2 ≤ 3)).take 3).map (·.1) := by rw [nearest, hl]
  have hfs : (l.filter fun s => decide (s.2 ≤ 3)).Pairwise fun a b => a.2 ≤ b.2 := hs.filter _
  have hmem : ∀ x ∈ (l.filter fun s => decide (s.2 ≤ 3)).take 3, x ∈ l ∧ x.2 ≤ 3 := by
    intro x hx
    have := List.mem_filter.1 (List.mem_of_mem_take hx)
    exact ⟨this.1, by simpa using this.2⟩
  rw [he]
  refine ⟨?_, ?_, ?_, ?_, ?_⟩
  · simp only [List.length_map, List.length_take]; omega
  · have h1 : ((l.filter fun s => decide (s.2 ≤ 3)).take 3).Sublist l := (List.take_sublist _ _).trans List.filter_sublist
    obtain ⟨r, hr⟩ := h1.exists_perm_append
    refine ⟨r.map (·.1), ?_⟩
    rw [← List.map_append]
    refine (hr.symm.map _).trans ((hp.map _).trans ?_)
    rw [List.map_map]
    exact List.Perm.of_eq (List.map_id hay)
  · intro s hs
    obtain ⟨x, hx, rfl⟩ := List.mem_map.1 hs
    rw [← hf x (hmem x hx).1]
    exact (hmem x hx).2
  · rw [List.pairwise_map]
    refine (hfs.take).imp_of_mem ?_
    intro a b ha hb hab
    rw [← hf a (hmem a ha).1, ← hf b (hmem b hb).1]
    exact hab
  · intro v hv h3
    have hx : (v, far v) ∈ l.filter fun s => decide (s.2 ≤ 3) := by
      rw [List.mem_filter]
      exact ⟨hp.mem_iff.2 (List.mem_map.2 ⟨v, hv, rfl⟩), by simpa using h3⟩
    rcases mem_take_sorted hfs hx 3 with h | ⟨h1, h2⟩
    · exact .inl (List.mem_map.2 ⟨_, h, rfl⟩)
    · right
      refine ⟨by rw [List.length_map]; exact h1, ?_⟩
      intro s hs
      obtain ⟨x, hx, rfl⟩ := List.mem_map.1 hs
      rw [← hf x (hmem x hx).1]
      exact h2 x hx


/-- What is suggested instead of a text, in terms of mistakes. -/
structure Near (name : α → Text) (search : Text) (hay res : List α) : Prop where
  /-- At most three. -/
  few : res.length ≤ 3
  /-- Of the names there are, none more often than it is there. -/
  from_hay : ∃ rest, (res ++ rest).Perm hay
  /-- At most three mistakes away. -/
  near : ∀ s ∈ res, Within 3 (name s) search
  /-- The nearest first. -/
  sorted : res.Pairwise fun a b => ∀ n, Within n (name b) search → Within n (name a) search
  /-- A name at most three mistakes away is among them, or there are three as near. -/
  best : ∀ v ∈ hay, ∀ n ≤ 3, Within n (name v) search → v ∈ res ∨ (res.length = 3 ∧ ∀ s ∈ res, Within n (name s) search)

theorem Suggested.near_text {α : Type} {dist : Text → Text → Nat} (hd : Distance dist) {name : α → Text} {search : Text}
    {hay res : List α} (h : Suggested (fun v => dist (name v) search) hay res) : Near name search hay res where
  few := h.few
  from_hay := h.from_hay
  near s hs := (hd _ _ _).1 (h.near s hs)
  sorted := h.sorted.imp fun {a b} hab n (hn : Within n (name b) search) => (hd (name a) search n).1 (Nat.le_trans hab ((hd _ _ _).2 hn))
  best v hv n hn hw := by
    have := (hd _ _ _).2 hw
    rcases h.best v hv (this.trans hn) with h' | ⟨h1, h2⟩
    · exact .inl h'
    · exact .inr ⟨h1, fun s hs => (hd _ _ _).1 ((h2 s hs).trans this)⟩

/-- C124. What is suggested instead of a name: of those there are, at most three, at most three mistakes away if upper and lower
case are the same, the nearest first; and a name that is left out is no nearer than the three that are suggested. -/
theorem C124_values (dist : Text → Text → Nat) (hd : Distance dist) (lower : Text → Text) (search : Text) (hay : List Text) :
    Near lower (lower search) hay (similarValues dist lower search hay) :=
  (nearest_suggested _ hay).near_text hd

/-- C124. A name with a single mistake is recognised, if there are not three others like that. -/
theorem C124_typo (dist : Text → Text → Nat) (hd : Distance dist) (lower : Text → Text) (search meant : Text) (hay : List Text)
    (hm : meant ∈ hay) (h1 : Within 1 (lower meant) (lower search))
    (ho : ∀ a b c r, hay.Perm (a :: b :: c :: r) → (∀ s ∈ [a, b, c], Within 1 (lower s) (lower search)) → meant ∈ [a, b, c]) :
    meant ∈ similarValues dist lower search hay := by
  have h := C124_values dist hd lower search hay
  rcases h.best meant hm 1 (by omega) h1 with h' | ⟨h2, h3⟩
  · exact h'
  · obtain ⟨rest, hr⟩ := h.from_hay
    obtain ⟨a, b, c, habc⟩ := List.length_eq_three.1 h2
    rw [habc] at h3 hr ⊢
    exact ho a b c rest hr.symm h3

/-- The names of the macros that stand for something, in the order of the table. -/
def valueNames (table : List Entry) : List Text := (table.filter fun e => match e.2.defn with | .value _ => true | _ => false).map (·.1)

theorem mem_valueNames {table : List Entry} {s : Text} : s ∈ valueNames table ↔ ∃ e b, (s, e) ∈ table ∧ e.defn = .value b := by
  constructor
  · intro h
    obtain ⟨⟨n, e⟩, he, rfl⟩ := List.mem_map.1 h
    obtain ⟨h1, h2⟩ := List.mem_filter.1 he
    dsimp only at h2 ⊢
    split at h2
    · next b hb => exact ⟨e, b, h1, hb⟩
    · simp at h2
  · rintro ⟨e, b, h, he⟩
    exact List.mem_map.2 ⟨(s, e), List.mem_filter.2 ⟨h, by dsimp only; rw [he]⟩, rfl⟩

/-- C124. What is suggested for an `#if` instead of a macro that is not defined: macros that are defined as a value, that `#if`
takes, the nearest ones whatever the order of the table. -/
theorem C124_macros (dist : Text → Text → Nat) (hd : Distance dist) (env : Preproc.Env) (d : Preproc.Defines) (table : List Entry)
    (ht : ∀ n e, (n, e) ∈ table ↔ d.global n = some e) (hs : d.stack = [])
    (hb : ∀ n, Preproc.builtinGen.contains n = true → d.global n = none) (search : Text) :
    Near id search (valueNames table) (similarMacros dist search table) ∧
    ∀ s ∈ similarMacros dist search table, ∀ pos, ∃ b, Preproc.resolveValue env d ⟨.word s, pos⟩ = .ok ((b, true), d) := by
  have h : Near id search (valueNames table) (similarMacros dist search table) := (nearest_suggested _ _).near_text hd
  refine ⟨h, ?_⟩
  intro s hsim pos
  obtain ⟨rest, hr⟩ := h.from_hay
  obtain ⟨e, b, he, hv⟩ := mem_valueNames.1 (hr.mem_iff.1 (List.mem_append_left _ hsim))
  have hg := (ht _ _).1 he
  refine ⟨b, ?_⟩
  have hnb : Preproc.builtinGen.contains s = false := by
    by_contra hc
    rw [hb s (by simpa using hc)] at hg
    cases hg
  have hget : d.getWithGen env ⟨.word s, pos⟩ pos = (some e, d) := by
    unfold Preproc.Defines.getWithGen
    dsimp only [Preproc.Sym.text]
    rw [if_neg (by rw [hnb]; simp)]
    simp only [Preproc.Defines.getReadonly, hs, hg, hv]
  rw [Preproc.resolveValue]
  simp only [hget, hv]

/-- C124. What is suggested for `#pragma hemtt` would have been taken. -/
theorem C124_pragma (dist : Text → Text → Nat) (lower : Text → Text) (root : Bool) (token : Text) :
    (∀ s ∈ pragmaScopes dist lower root token, Preproc.Scope.parse s ≠ none) ∧
    (∀ s ∈ pragmaFlags dist lower token, Preproc.Flag.parse s ≠ none) ∧
    (∀ s ∈ pragmaSuppress dist lower token, Preproc.Suppress.parse s ≠ none) ∧
    ∀ s ∈ pragmaCommands dist lower token, s = "suppress".toList := by
  have key : ∀ {hay : List Text} {s}, s ∈ similarValues dist lower token hay → s ∈ hay := by
    intro hay s hs
    obtain ⟨rest, hr⟩ := (nearest_suggested (fun v => dist (lower v) (lower token)) hay).from_hay
    exact hr.mem_iff.1 (List.mem_append_left _ hs)
  refine ⟨?_, ?_, ?_, ?_⟩
  · intro s hs
    have h0 := key hs
    have h1 : ∀ s ∈ (["line".toList, "file".toList, "config".toList] : List Text), Preproc.Scope.parse s ≠ none := by decide +kernel
    apply h1
    cases root with
    | true => exact h0
    | false =>
      simp only [Bool.false_eq_true, if_false] at h0
      rcases List.mem_cons.1 h0 with h | h
      · exact List.mem_cons.2 (.inl h)
      · exact List.mem_cons.2 (.inr (List.mem_cons.2 (.inl (List.mem_singleton.1 h))))
  · intro s hs
    have h0 := key hs
    have h1 : ∀ s ∈ (["pw3_ignore_format".toList, "pe23_ignore_has_include".toList] : List Text), Preproc.Flag.parse s ≠ none := by
      decide +kernel
    exact h1 s h0
  · intro s hs
    have h0 := key hs
    have h1 : ∀ s ∈ (["pw3_padded_arg".toList] : List Text), Preproc.Suppress.parse s ≠ none := by decide +kernel
    exact h1 s h0
  · intro s hs
    exact List.mem_singleton.1 (key hs)

/-- C124. And every flag, and in the file itself every scope, that is at most three mistakes away is suggested. -/
theorem C124_pragma_all (dist : Text → Text → Nat) (hd : Distance dist) (lower : Text → Text) (token s : Text)
    (h3 : Within 3 (lower s) (lower token)) :
    (Preproc.Scope.parse s ≠ none → s ∈ pragmaScopes dist lower true token) ∧
    (Preproc.Flag.parse s ≠ none → s ∈ pragmaFlags dist lower token) ∧
    (Preproc.Suppress.parse s ≠ none → s ∈ pragmaSuppress dist lower token) := by
  have key : ∀ hay : List Text, hay.length ≤ 3 → s ∈ hay → s ∈ similarValues dist lower token hay := by
    intro hay hl hs
    have h := C124_values dist hd lower token hay
    rcases h.best s hs 3 (Nat.le_refl _) h3 with h' | ⟨h1, -⟩
    · exact h'
    · obtain ⟨rest, hr⟩ := h.from_hay
      have := hr.length_eq
      rw [List.length_append] at this
      obtain rfl : rest = [] := List.length_eq_zero_iff.1 (by omega)
      rw [List.append_nil] at hr
      exact hr.mem_iff.2 hs
  refine ⟨fun h => key _ (by decide) ?_, fun h => key _ (by decide) ?_, fun h => key _ (by decide) ?_⟩
  · rw [Preproc.Scope.parse] at h
    rw [if_pos rfl]
    split at h
    · next e => rw [e]; decide +kernel
    split at h
    · next e => rw [e]; decide +kernel
    split at h
    · next e => rw [e]; decide +kernel
    · exact absurd rfl h
  · rw [Preproc.Flag.parse] at h
    split at h
    · next e => rw [e]; decide +kernel
    split at h
    · next e => rw [e]; decide +kernel
    · exact absurd rfl h
  · rw [Preproc.Suppress.parse] at h
    split at h
    · next e => rw [e]; decide +kernel
    · exact absurd rfl h

theorem trimEnd_html {n : Bytes} (h : 46 ∉ n) : trimEnd (ascii ".html") (n ++ ascii ".html") = n := by
  have h0 : ∀ k, trimEnd.go (ascii ".html") k n = n := by
    intro k
    cases k with
    | zero => rfl
    | succ k =>
      rw [trimEnd.go, if_neg]
      rintro ⟨r, hr⟩
      exact h (by rw [← hr]; exact List.mem_append_right _ (by decide))
  have hl : (n ++ ascii ".html").length = (n.length + 4) + 1 := by
    rw [List.length_append, show (ascii ".html").length = 5 by decide]
  rw [trimEnd, hl, trimEnd.go, if_pos (List.suffix_append _ _)]
  rw [show (n ++ ascii ".html").take ((n ++ ascii ".html").length - (ascii ".html").length) = n by
    rw [List.length_append, Nat.add_sub_cancel]; exact List.take_left' rfl]
  exact h0 _

/-- C124. If there are only presets in `.hemtt/presets`, with names without dots, what is suggested are presets there, which would
have been found; and what is left out is no nearer. -/
theorem C124_presets (h : Launcher.Host) (far : Bytes → Nat) (names : List Bytes) (hd : ∀ n ∈ names, 46 ∉ n ∧ h.sep ∉ n ∧ h.absolute n = false)
    (hl : h.sep ∉ ascii "presets") (hr : h.absolute (ascii ".hemtt/presets") = false)
    (hp : ∀ n ∈ names, h.present (h.join h.cwd (ascii ".hemtt/presets") ++ h.sep :: n ++ ascii ".html") = true) :
    Suggested far names (presets far (names.map fun n => (n ++ ascii ".html", true))) ∧
    ∀ s ∈ presets far (names.map fun n => (n ++ ascii ".html", true)), ∀ l codes,
      Launcher.addPreset h l codes s ≠ .ok (l, codes ++ [.presetNotFound s]) := by
  have e : fileNames (ascii ".html") (names.map fun n => (n ++ ascii ".html", true)) = names := by
    rw [fileNames, List.filterMap_map]
    conv_rhs => rw [← List.filterMap_some (l := names)]
    apply List.filterMap_congr
    intro n hn
    simp only [Function.comp, if_true]
    rw [trimEnd_html (hd n hn).1]
  have hs : Suggested far names (presets far (names.map fun n => (n ++ ascii ".html", true))) := by
    rw [presets, e]; exact nearest_suggested far names
  refine ⟨hs, ?_⟩
  intro s hsim l codes
  obtain ⟨rest, hr'⟩ := hs.from_hay
  have hm := hr'.mem_iff.1 (List.mem_append_left _ hsim)
  have hf := Launcher.C84_file h s (hd s hm).1 (hd s hm).2.1 (hd s hm).2.2 hl hr
  rw [Launcher.presetFile] at hf
  rw [Launcher.addPreset]
  dsimp only
  rw [hf, hp s hm, if_neg (by simp)]
  split
  · simp
  · intro hc
    have := congrArg List.length (congrArg Prod.snd (Except.ok.inj hc))
    simp at this

/-- C124. What is suggested instead of a configuration for launching is one, and what is left out is no nearer. -/
theorem C124_configs (p : Launcher.Project) (far : Bytes → Nat) (names : List Bytes) (hn : ∀ c, c ∈ names ↔ p.launch c ≠ none) :
    Suggested far names (configs far names) ∧ ∀ s ∈ configs far names, ∃ o, Launcher.readConfig p [s] = .ok o := by
  have hs := nearest_suggested far names
  refine ⟨hs, ?_⟩
  intro s hsim
  obtain ⟨rest, hr⟩ := hs.from_hay
  have hm := (hn s).1 (hr.mem_iff.1 (List.mem_append_left _ hsim))
  cases ho : p.launch s with
  | none => exact absurd ho hm
  | some o => exact ⟨_, by simp [Launcher.readConfig, Launcher.findConfigs, ho]; rfl⟩

/-! ### The theorems apply -/

/-- One character is missing. -/
example : "release".toList ∈ similarValues lev id "relese".toList ["debug".toList, "release".toList] :=
  C124_typo lev lev_distance id _ _ _ (by decide +kernel) ⟨1, Nat.le_refl _, .step (.same _) (.leave "rele".toList "se".toList 'a')⟩
    (fun a b c r h _ => by have := h.length_eq; simp at this)

/-- A preset that is there. -/
example (l : Launcher.Plan) : Launcher.addPreset Launcher.sampleHost l [] (ascii "main") ≠ .ok (l, [.presetNotFound (ascii "main")]) :=
  (C124_presets Launcher.sampleHost (fun _ => 1) [ascii "main"] (by decide +kernel) (by decide +kernel) (by decide +kernel)
    (by decide +kernel)).2 _ (by decide +kernel) _ _

/-! ### Where it fails -/

def lowA (s : Text) : Text := s.map Char.toLower

/-- The distance of two texts of ASCII, in lower case. -/
def farB (search : Bytes) (v : Bytes) : Nat :=
  lev (lowA (v.map fun b => Char.ofNat b.toNat)) (lowA (search.map fun b => Char.ofNat b.toNat))

/-- The nearest are suggested, the nearest first; case does not matter. -/
example : similarValues lev lowA "relese".toList ["debug".toList, "Release".toList, "reuse".toList, "profile".toList] =
    ["Release".toList, "reuse".toList] := by decide +kernel

/-- C124 fails for missions: a mission in `.hemtt/missions` is not suggested, but the files of the project are, which are no
missions. -/
theorem C124_violated_mission :
    Launcher.missionFile Launcher.sampleHost (ascii "tst.VR") = .error (.missionNotFound (ascii "tst.VR")) ∧
    Launcher.missionFile Launcher.sampleHost (ascii "test.VR") = .ok (ascii "C:/mod/.hemtt/missions/test.VR/mission.sqm") ∧
    missions (farB (ascii "tst.VR")) [(ascii ".hemtt", false), (ascii "addons", false), (ascii "test.py", true)] = [ascii "test.py"] ∧
    Launcher.missionFile Launcher.sampleHost (ascii "test.py") = .error (.missionNotFound (ascii "test.py")) := by
  decide +kernel

/-- C124 fails for presets: other files in the folder are suggested, and so are names with a dot, neither of which is found. -/
theorem C124_violated_preset :
    presets (farB (ascii "v1.1")) [(ascii "v1.2.html", true), (ascii "v1.md", true)] = [ascii "v1.2", ascii "v1.md"] ∧
    Launcher.presetFile Launcher.sampleHost (ascii "v1.2") = ascii "C:/mod/.hemtt/presets/v1.html" ∧
    Launcher.presetFile Launcher.sampleHost (ascii "v1.md") = ascii "C:/mod/.hemtt/presets/v1.html" := by
  decide +kernel

/-- C124 fails for `#pragma hemtt`: the other command, `flag`, is not suggested, nor is `config` in an included file. -/
theorem C124_violated_pragma : pragmaCommands lev lowA "flagg".toList = [] ∧ pragmaScopes lev lowA false "confg".toList = [] := by
  decide +kernel

/-- A macro of the table. -/
def sampleEntry (d : Preproc.Definition) : Preproc.Entry := ⟨⟨.word [], ⟨⟨0, 0, 0⟩, ⟨0, 0, 0⟩, []⟩⟩, d, .source []⟩

/-- C124 fails for macros: which of more than three is suggested depends on the order of the hash map, and other than for all
else, case matters. -/
theorem C124_violated_order :
    similarMacros lev "A".toList (["A1", "A2", "A3", "A4"].map fun n => (n.toList, sampleEntry (.value []))) =
      ["A1".toList, "A2".toList, "A3".toList] ∧
    similarMacros lev "A".toList (["A4", "A3", "A2", "A1"].map fun n => (n.toList, sampleEntry (.value []))) =
      ["A4".toList, "A3".toList, "A2".toList] ∧
    similarMacros lev "debug".toList [("DEBUG".toList, sampleEntry (.value []))] = [] := by
  decide +kernel

end Verif.Similar
