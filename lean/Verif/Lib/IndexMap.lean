import Mathlib.Tactic.Ring
/-!
Models of the map types used by the code: `indexmap::IndexMap` (insertion ordered) as a list of pairs.
`std::collections::HashMap` is modelled by the same type; wherever its iteration order matters the model
takes the order as a separate argument (any permutation).
-/
namespace Verif.IMap

variable {κ ν : Type} [DecidableEq κ]

/-- `IndexMap::insert`: replaces the value in place or appends. -/
def insert (m : List (κ × ν)) (k : κ) (v : ν) : List (κ × ν) :=
  match m with
  | [] => [(k, v)]
  | (k', v') :: r => if k' = k then (k, v) :: r else (k', v') :: insert r k v

/-- `IndexMap::get` / `HashMap::get`. -/
def get (m : List (κ × ν)) (k : κ) : Option ν :=
  match m with
  | [] => none
  | (k', v') :: r => if k' = k then some v' else get r k

/-- `IndexMap::swap_remove`: the last element takes the removed one's place. -/
def swapRemove (m : List (κ × ν)) (k : κ) : List (κ × ν) :=
  match m with
  | [] => []
  | (k', v') :: r =>
    if k' = k then
      match r.getLast? with
      | none => []
      | some last => last :: r.dropLast
    else (k', v') :: swapRemove r k

/-- The keys in order. -/
def keys (m : List (κ × ν)) : List κ := m.map Prod.fst

theorem get_insert (m : List (κ × ν)) (k k' : κ) (v : ν) :
    get (insert m k v) k' = if k' = k then some v else get m k' := by
  induction m with
  | nil =>
    by_cases h : k' = k
    · simp [insert, get, h]
    · have : ¬ k = k' := fun e => h e.symm
      simp [insert, get, h, this]
  | cons x m ih =>
    obtain ⟨a, b⟩ := x
    simp only [insert]
    by_cases h : a = k
    · subst h
      by_cases h2 : k' = a
      · simp [get, h2]
      · have : ¬ a = k' := fun e => h2 e.symm
        simp [get, h2, this]
    · simp only [h, if_false, get]
      by_cases h2 : a = k'
      · subst h2; simp [h]
      · simp [h2, ih]

theorem keys_insert (m : List (κ × ν)) (k : κ) (v : ν) :
    keys (insert m k v) = if k ∈ keys m then keys m else keys m ++ [k] := by
  induction m with
  | nil => simp [insert, keys]
  | cons x m ih =>
    obtain ⟨a, b⟩ := x
    simp only [insert]
    by_cases h : a = k
    · subst h; simp [keys]
    · have hk : ¬ k = a := fun e => h e.symm
      simp only [keys, List.map_cons, h, if_false, List.mem_cons, hk, false_or] at ih ⊢
      rw [ih]
      split <;> simp_all

theorem nodup_insert (m : List (κ × ν)) (k : κ) (v : ν) (h : (keys m).Nodup) :
    (keys (insert m k v)).Nodup := by
  rw [keys_insert]
  split
  · exact h
  · rw [List.nodup_append]
    refine ⟨h, by simp, ?_⟩
    intro a ha b hb
    simp at hb; subst hb
    rintro rfl; contradiction

theorem mem_insert {m : List (κ × ν)} {k : κ} {v : ν} {x : κ × ν} (h : x ∈ insert m k v) :
    x = (k, v) ∨ x ∈ m := by
  induction m with
  | nil => simpa [insert] using h
  | cons y m ih =>
    obtain ⟨a, b⟩ := y
    simp only [insert] at h
    split at h
    · rcases List.mem_cons.1 h with h | h
      · exact Or.inl h
      · exact Or.inr (by simp [h])
    · rcases List.mem_cons.1 h with h | h
      · exact Or.inr (by simp [h])
      · rcases ih h with h | h
        · exact Or.inl h
        · exact Or.inr (by simp [h])

theorem swapRemove_perm (m : List (κ × ν)) (k : κ) (h : (keys m).Nodup) :
    (swapRemove m k).Perm (m.filter (fun x => x.1 ≠ k)) := by
  induction m with
  | nil => simp [swapRemove]
  | cons x m ih =>
    obtain ⟨a, b⟩ := x
    simp only [keys, List.map_cons, List.nodup_cons] at h
    simp only [swapRemove]
    by_cases hk : a = k
    · subst hk
      have hf : m.filter (fun x => decide (x.1 ≠ a)) = m := by
        rw [List.filter_eq_self]
        intro y hy
        have : y.1 ≠ a := fun e => h.1 (e ▸ List.mem_map_of_mem hy)
        simpa using this
      simp only [if_true, ne_eq, not_true_eq_false, decide_false, Bool.false_eq_true, not_false_eq_true,
        List.filter_cons_of_neg]
      simp only [ne_eq] at hf
      rw [hf]
      cases hl : m.getLast? with
      | none => rw [List.getLast?_eq_none_iff] at hl; subst hl; exact List.Perm.refl _
      | some last =>
        have hne : m ≠ [] := by rintro rfl; simp at hl
        have hd : m.dropLast ++ [last] = m := by
          have h1 := List.dropLast_concat_getLast hne
          rw [List.getLast?_eq_some_getLast hne] at hl
          cases hl; exact h1
        conv_rhs => rw [← hd]
        exact List.perm_append_comm (l₁ := [last])
    · simp only [hk, if_false]
      rw [List.filter_cons_of_pos (by simpa using hk)]
      exact (ih h.2).cons _

theorem get_of_mem {m : List (κ × ν)} (h : (keys m).Nodup) {k : κ} {v : ν} (hm : (k, v) ∈ m) :
    get m k = some v := by
  induction m with
  | nil => simp at hm
  | cons x m ih =>
    obtain ⟨a, b⟩ := x
    simp only [keys, List.map_cons, List.nodup_cons] at h
    rcases List.mem_cons.1 hm with e | hm
    · cases e; simp [get]
    · have : a ≠ k := by
        rintro rfl
        exact h.1 (List.mem_map_of_mem (f := Prod.fst) hm)
      simp [get, this, ih h.2 hm]

theorem mem_of_get {m : List (κ × ν)} {k : κ} {v : ν} (h : get m k = some v) : (k, v) ∈ m := by
  induction m with
  | nil => simp [get] at h
  | cons x m ih =>
    obtain ⟨a, b⟩ := x
    simp only [get] at h
    split at h
    · rename_i e; subst e; cases h; simp
    · simp [ih h]

theorem get_perm {m m' : List (κ × ν)} (hp : m.Perm m') (h : (keys m).Nodup) (k : κ) :
    get m k = get m' k := by
  have h' : (keys m').Nodup := (hp.map Prod.fst).nodup_iff.1 h
  cases hg : get m' k with
  | some v => exact get_of_mem h (hp.mem_iff.2 (mem_of_get hg))
  | none =>
    cases hg2 : get m k with
    | none => rfl
    | some v =>
      rw [get_of_mem h' (hp.mem_iff.1 (mem_of_get hg2))] at hg; cases hg

theorem nodup_swapRemove (m : List (κ × ν)) (k : κ) (h : (keys m).Nodup) :
    (keys (swapRemove m k)).Nodup := by
  rw [keys, ((swapRemove_perm m k h).map Prod.fst).nodup_iff]
  exact List.Nodup.sublist (List.Sublist.map _ List.filter_sublist) h

theorem get_swapRemove (m : List (κ × ν)) (k k' : κ) (h : (keys m).Nodup) :
    get (swapRemove m k) k' = if k' = k then none else get m k' := by
  rw [get_perm (swapRemove_perm m k h) (nodup_swapRemove m k h)]
  clear h
  induction m with
  | nil => simp [get]
  | cons x m ih =>
    obtain ⟨a, b⟩ := x
    by_cases ha : a = k
    · subst ha
      rw [List.filter_cons_of_neg (by simp), ih]
      by_cases h2 : k' = a
      · simp [h2]
      · have : ¬ a = k' := fun e => h2 e.symm
        simp [h2, get, this]
    · rw [List.filter_cons_of_pos (by simpa using ha)]
      by_cases h2 : a = k'
      · subst h2; simp [get, ha]
      · rw [get, if_neg h2, ih, get, if_neg h2]

theorem mem_swapRemove {m : List (κ × ν)} {k : κ} (h : (keys m).Nodup) {x : κ × ν}
    (hx : x ∈ swapRemove m k) : x ∈ m :=
  (List.mem_filter.1 ((swapRemove_perm m k h).mem_iff.1 hx)).1

end Verif.IMap
