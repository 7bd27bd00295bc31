import Verif.Lib.ConfigLint
import Mathlib.Data.List.Nodup
/-! Lemmas: the maps in which the lints collect definitions. -/
namespace Verif.ConfigLint
open Verif.ConfigParse

section
variable {β : Type}

/-- The values pushed under a key, in order. -/
def sel (k : Text) (evs : List (Text × β)) : List β := (evs.filter fun e => e.1 = k).map (·.2)

/-- Pushing all. -/
def pushes (m : List (Text × List β)) (evs : List (Text × β)) : List (Text × List β) :=
  evs.foldl (fun m e => push e.1 e.2 m) m

theorem keys_push (k : Text) (v : β) : ∀ m : List (Text × List β),
    (push k v m).map (·.1) = if k ∈ m.map (·.1) then m.map (·.1) else m.map (·.1) ++ [k]
  | [] => by simp [push]
  | (k', vs) :: m => by
    rw [push]
    by_cases h : k' = k
    · simp [h]
    · rw [if_neg h, List.map_cons, keys_push k v m]
      simp only [List.map_cons, List.mem_cons, Ne.symm h, false_or]
      split <;> simp

theorem nodup_push {k : Text} {v : β} {m : List (Text × List β)} (h : (m.map (·.1)).Nodup) :
    ((push k v m).map (·.1)).Nodup := by
  rw [keys_push]
  split
  · exact h
  · rw [List.nodup_append]
    refine ⟨h, by simp, ?_⟩
    rintro a ha b hb
    simp only [List.mem_singleton] at hb
    rintro rfl
    subst hb
    contradiction

theorem mem_push {k : Text} {v : β} : ∀ {m : List (Text × List β)}, (m.map (·.1)).Nodup → ∀ {k' vs'},
    ((k', vs') ∈ push k v m ↔ (k' ≠ k ∧ (k', vs') ∈ m) ∨
      (k' = k ∧ ((∃ vs, (k, vs) ∈ m ∧ vs' = vs ++ [v]) ∨ (k ∉ m.map (·.1) ∧ vs' = [v]))))
  | [], _, k', vs' => by simp [push]
  | (k0, vs0) :: m, hn, k', vs' => by
    simp only [List.map_cons, List.nodup_cons] at hn
    have ih := mem_push (k := k) (v := v) hn.2 (k' := k') (vs' := vs')
    rw [push]
    by_cases h : k0 = k
    · subst h
      rw [if_pos rfl]
      simp only [List.mem_cons, Prod.mk.injEq, List.map_cons, true_or, not_true, false_and, or_false]
      have hk : ∀ vs, (k0, vs) ∉ m := fun vs hv => hn.1 (List.mem_map.2 ⟨_, hv, rfl⟩)
      constructor
      · rintro (⟨rfl, rfl⟩ | hm)
        · exact .inr ⟨rfl, vs0, .inl (by simp), rfl⟩
        · by_cases he : k' = k0
          · subst he
            exact absurd hm (hk _)
          · exact .inl ⟨he, .inr hm⟩
      · rintro (⟨he, (⟨rfl, _⟩ | hm)⟩ | ⟨rfl, vs, hv, rfl⟩)
        · exact absurd rfl he
        · exact .inr hm
        · rcases hv with hv | hv
          · simp only [true_and] at hv
            subst hv
            exact .inl ⟨rfl, rfl⟩
          · exact absurd hv (hk _)
    · rw [if_neg h]
      simp only [List.mem_cons, Prod.mk.injEq, List.map_cons, ih]
      constructor
      · rintro (⟨rfl, rfl⟩ | ⟨h1, h2⟩ | ⟨rfl, (⟨vs, h2, rfl⟩ | ⟨h2, rfl⟩)⟩)
        · exact .inl ⟨h, .inl ⟨rfl, rfl⟩⟩
        · exact .inl ⟨h1, .inr h2⟩
        · exact .inr ⟨rfl, .inl ⟨vs, .inr h2, rfl⟩⟩
        · exact .inr ⟨rfl, .inr ⟨by simp only [not_or]; exact ⟨Ne.symm h, h2⟩, rfl⟩⟩
      · rintro (⟨h1, (⟨rfl, rfl⟩ | h2)⟩ | ⟨rfl, (⟨vs, (⟨rfl, rfl⟩ | h2), rfl⟩ | ⟨h2, rfl⟩)⟩)
        · exact .inl ⟨rfl, rfl⟩
        · exact .inr (.inl ⟨h1, h2⟩)
        · exact absurd rfl h
        · exact .inr (.inr ⟨rfl, .inl ⟨vs, h2, rfl⟩⟩)
        · simp only [not_or] at h2
          exact .inr (.inr ⟨rfl, .inr ⟨h2.2, rfl⟩⟩)

theorem sel_append (k : Text) (a b : List (Text × β)) : sel k (a ++ b) = sel k a ++ sel k b := by simp [sel]

/-- The map after some pushes. -/
structure Holds (m : List (Text × List β)) (evs : List (Text × β)) : Prop where
  nodup : (m.map (·.1)).Nodup
  mem : ∀ k vs, (k, vs) ∈ m ↔ vs ≠ [] ∧ vs = sel k evs

theorem holds_push {m : List (Text × List β)} {evs : List (Text × β)} (h : Holds m evs) (k : Text) (v : β) :
    Holds (push k v m) (evs ++ [(k, v)]) := by
  refine ⟨nodup_push h.nodup, fun k' vs' => ?_⟩
  rw [mem_push h.nodup, sel_append]
  by_cases he : k' = k
  · subst he
    have hs : sel k' [(k', v)] = [v] := by simp [sel]
    have hk : k' ∉ m.map (·.1) ↔ sel k' evs = [] := by
      constructor
      · intro hk
        by_contra hne
        exact hk (List.mem_map.2 ⟨(k', sel k' evs), (h.mem _ _).2 ⟨hne, rfl⟩, rfl⟩)
      · intro he hk
        obtain ⟨⟨k0, vs⟩, hm, rfl⟩ := List.mem_map.1 hk
        have := (h.mem _ _).1 hm
        exact this.1 (this.2.trans he)
    rw [hs, hk]
    simp only [ne_eq, not_true, false_and, true_and, false_or, h.mem]
    constructor
    · rintro (⟨vs, ⟨_, rfl⟩, rfl⟩ | ⟨h1, rfl⟩)
      · simp
      · simp [h1]
    · rintro ⟨_, rfl⟩
      by_cases h1 : sel k' evs = []
      · exact .inr ⟨h1, by simp [h1]⟩
      · exact .inl ⟨_, ⟨h1, rfl⟩, rfl⟩
  · have hs : sel k' [(k, v)] = [] := by simp [sel, Ne.symm he]
    simp [hs, he, h.mem]

theorem holds_pushes : ∀ (evs : List (Text × β)) {m : List (Text × List β)} {evs0 : List (Text × β)}, Holds m evs0 →
    Holds (pushes m evs) (evs0 ++ evs)
  | [], m, evs0, h => by simpa [pushes] using h
  | (k, v) :: evs, m, evs0, h => by
    have := holds_pushes evs (holds_push h k v)
    simpa [pushes] using this

theorem holds_nil : Holds ([] : List (Text × List β)) [] := ⟨by simp, by simp [sel]⟩

theorem mem_pushes {evs : List (Text × β)} {k : Text} {vs : List β} :
    (k, vs) ∈ pushes [] evs ↔ vs ≠ [] ∧ vs = sel k evs := by
  simpa using (holds_pushes evs holds_nil).mem k vs

theorem mem_sel {k : Text} {evs : List (Text × β)} {v : β} : v ∈ sel k evs ↔ (k, v) ∈ evs := by
  simp only [sel, List.mem_map, List.mem_filter, decide_eq_true_eq]
  constructor
  · rintro ⟨⟨k', v'⟩, ⟨h, rfl⟩, rfl⟩
    exact h
  · intro h
    exact ⟨(k, v), ⟨h, rfl⟩, rfl⟩

end

/-! ### Properties -/

mutual
/-- The definitions of a property and of those inside it, in the order they are met. -/
def defs (lower : Text → Text) (scope : Text) (a : Addr) : Prp → List (Text × Bool × Addr × Text)
  | .loc n _ qs _ => defss lower (scope ++ '.' :: lower n) a 0 qs ++ [(scope ++ '.' :: lower n, true, a, n)]
  | .entry n _ _ => [(scope ++ '.' :: lower n, false, a, n)]
  | .missing n => [(scope ++ '.' :: lower n, false, a, n)]
  | .ext _ => []
  | .del _ => []
def defss (lower : Text → Text) (scope : Text) (a : Addr) (i : Nat) : List Prp → List (Text × Bool × Addr × Text)
  | [] => []
  | p :: ps => defs lower scope (spot a i) p ++ defss lower scope a (i + 1) ps
end

variable {lower : Text → Text}

theorem pushes_append {β : Type} (m : List (Text × List β)) (a b : List (Text × β)) :
    pushes m (a ++ b) = pushes (pushes m a) b := by simp [pushes]

mutual
theorem dupProp_eq (scope : Text) (a : Addr) : ∀ (p : Prp) (seen : Seen),
    dupProp lower scope a p seen = pushes seen (defs lower scope a p)
  | .loc n par qs b, seen => by
    rw [dupProp, defs, pushes_append, ← dupProps_eq (scope ++ '.' :: lower n) a 0 qs seen]
    simp [pushes]
  | .entry .., seen => by simp [dupProp, defs, pushes]
  | .missing .., seen => by simp [dupProp, defs, pushes]
  | .ext _, seen => by simp [dupProp, defs, pushes]
  | .del _, seen => by simp [dupProp, defs, pushes]
theorem dupProps_eq (scope : Text) (a : Addr) : ∀ (i : Nat) (ps : List Prp) (seen : Seen),
    dupProps lower scope a i ps seen = pushes seen (defss lower scope a i ps)
  | _, [], seen => by simp [dupProps, defss, pushes]
  | i, p :: ps, seen => by
    rw [dupProps, defss, pushes_append, dupProp_eq scope (spot a i) p seen, dupProps_eq scope a (i + 1) ps]
end

/-- The text under which a definition is kept. -/
def keyOf (l : List Text) : Text := l.flatMap fun n => '.' :: n

theorem def_cons {q ps a l p} : Def lower (q :: ps) a l p ↔
    (a = [0] ∧ l = [lower q.name] ∧ p = q) ∨
    (∃ n par qs b a' l', q = .loc n par qs b ∧ a = 0 :: a' ∧ l = lower n :: l' ∧ Def lower qs a' l' p) ∨
    (∃ i a', a = (i + 1) :: a' ∧ Def lower ps (i :: a') l p) := by
  constructor
  · rintro (h | ⟨h, h'⟩)
    · rename_i i
      cases i with
      | zero => simp at h; exact .inl ⟨rfl, by rw [h], h.symm⟩
      | succ i => exact .inr (.inr ⟨i, [], rfl, .here (by simpa using h)⟩)
    · rename_i i n par qs b a l
      cases i with
      | zero => simp at h; exact .inr (.inl ⟨n, par, qs, b, a, l, h, rfl, rfl, h'⟩)
      | succ i => exact .inr (.inr ⟨i, a, rfl, .deep (by simpa using h) h'⟩)
  · rintro (⟨rfl, rfl, rfl⟩ | ⟨n, par, qs, b, a', l', rfl, rfl, rfl, h⟩ | ⟨i, a', rfl, h⟩)
    · exact .here (by simp)
    · exact .deep (n := n) (par := par) (b := b) (by simp) h
    · cases h with
      | here h => exact .here (by simpa using h)
      | deep h h' => exact .deep (by simpa using h) h'

theorem not_def_nil {a l p} : ¬ Def lower [] a l p := by
  rintro (h | ⟨h, _⟩) <;> simp at h

theorem def_at {ps a l p} (h : Def lower ps a l p) : At ps a p := by
  induction h with
  | here h => exact .here h
  | deep h _ ih => exact .deep h ih

theorem at_def {ps a p} (h : At ps a p) : ∃ l, Def lower ps a l p := by
  induction h with
  | here h => exact ⟨_, .here h⟩
  | deep h _ ih =>
    obtain ⟨l, hl⟩ := ih
    exact ⟨_, .deep h hl⟩

theorem at_unique {ps a p q} (h : At ps a p) (h' : At ps a q) : p = q := by
  induction h with
  | here h =>
    cases h' with
    | here h' => rw [h] at h'; exact Option.some.inj h'
    | deep _ h' => exact absurd h' at_ne_nil
  | deep h h2 ih =>
    cases h' with
    | here h' => exact absurd h2 at_ne_nil
    | deep h' h3 =>
      rw [h] at h'
      cases h'
      exact ih h3

/-- Places at or behind the `i`-th. -/
def shift (i : Nat) : Addr → Addr
  | [] => []
  | j :: a => (i + j) :: a

theorem shift_succ (i j : Nat) (a : Addr) : shift i ((j + 1) :: a) = shift (i + 1) (j :: a) := by
  simp only [shift, List.cons.injEq, and_true]
  omega

mutual
theorem mem_defs (scope : Text) (a : Addr) : ∀ (p : Prp) (k : Text) (b : Bool) (x : Addr) (n : Text),
    (k, b, x, n) ∈ defs lower scope a p ↔
      (k = scope ++ keyOf [lower p.name] ∧ x = a ∧ Defines p ∧ (b = true ↔ IsLocal p) ∧ n = p.name) ∨
      ∃ m par qs c, p = .loc m par qs c ∧ ∃ a' l q, Def lower qs a' l q ∧ k = scope ++ keyOf (lower m :: l) ∧
        x = a ++ a' ∧ Defines q ∧ (b = true ↔ IsLocal q) ∧ n = q.name
  | .entry m v e, k, b, x, n => by
    simp [defs, Defines, IsLocal, keyOf, Prp.name]
    intro _
    tauto
  | .missing m, k, b, x, n => by
    simp [defs, Defines, IsLocal, keyOf, Prp.name]
    intro _
    tauto
  | .ext m, k, b, x, n => by simp [defs, Defines]
  | .del m, k, b, x, n => by simp [defs, Defines]
  | .loc m par qs c, k, b, x, n => by
    have ih := mem_defss (scope ++ '.' :: lower m) a 0 qs k b x n
    rw [defs, List.mem_append, ih]
    simp only [List.mem_singleton, Prod.mk.injEq, Defines, IsLocal, iff_true, true_and, Prp.name]
    constructor
    · rintro (⟨a', l, q, hd, rfl, rfl, h1, h2, rfl⟩ | ⟨rfl, rfl, rfl, rfl⟩)
      · refine .inr ⟨m, par, qs, c, rfl, a', l, q, hd, by simp [keyOf], ?_, h1, h2, rfl⟩
        cases a' with
        | nil => exact absurd (def_at hd) at_ne_nil
        | cons j a' => simp [shift]
      · exact .inl ⟨by simp [keyOf], rfl, rfl, rfl⟩
    · rintro (⟨rfl, rfl, rfl, rfl⟩ | ⟨_, _, _, _, h, a', l, q, hd, rfl, rfl, h1, h2, rfl⟩)
      · exact .inr ⟨by simp [keyOf], rfl, rfl, rfl⟩
      · cases h
        refine .inl ⟨a', l, q, hd, by simp [keyOf], ?_, h1, h2, rfl⟩
        cases a' with
        | nil => exact absurd (def_at hd) at_ne_nil
        | cons j a' => simp [shift]
theorem mem_defss (scope : Text) (a : Addr) : ∀ (i : Nat) (ps : List Prp) (k : Text) (b : Bool) (x : Addr) (n : Text),
    (k, b, x, n) ∈ defss lower scope a i ps ↔ ∃ a' l q, Def lower ps a' l q ∧ k = scope ++ keyOf l ∧
        x = a ++ shift i a' ∧ Defines q ∧ (b = true ↔ IsLocal q) ∧ n = q.name
  | i, [], k, b, x, n => by simp [defss, not_def_nil]
  | i, p :: ps, k, b, x, n => by
    have h1 := mem_defs scope (spot a i) p k b x n
    have h2 := mem_defss scope a (i + 1) ps k b x n
    rw [defss, List.mem_append, h1, h2]
    constructor
    · rintro ((⟨rfl, rfl, h3, h4, rfl⟩ | ⟨m, par, qs, c, rfl, a', l, q, hd, rfl, rfl, h3, h4, rfl⟩) |
        ⟨a', l, q, hd, rfl, rfl, h3, h4, rfl⟩)
      · exact ⟨[0], _, p, def_cons.2 (.inl ⟨rfl, rfl, rfl⟩), rfl, by simp [shift, spot], h3, h4, rfl⟩
      · exact ⟨0 :: a', _, q, def_cons.2 (.inr (.inl ⟨m, par, qs, c, a', l, rfl, rfl, rfl, hd⟩)), rfl,
          by simp [shift, spot], h3, h4, rfl⟩
      · cases a' with
        | nil => exact absurd (def_at hd) at_ne_nil
        | cons j a' =>
          exact ⟨(j + 1) :: a', l, q, def_cons.2 (.inr (.inr ⟨j, a', rfl, hd⟩)), rfl, by rw [shift_succ], h3, h4, rfl⟩
    · rintro ⟨a', l, q, hd, rfl, rfl, h3, h4, rfl⟩
      rcases def_cons.1 hd with ⟨rfl, rfl, rfl⟩ | ⟨m, par, qs, c, a', l', rfl, rfl, rfl, hd'⟩ | ⟨j, a', rfl, hd'⟩
      · exact .inl (.inl ⟨rfl, by simp [shift, spot], h3, h4, rfl⟩)
      · exact .inl (.inr ⟨m, par, qs, c, rfl, a', l', q, hd', rfl, by simp [shift, spot], h3, h4, rfl⟩)
      · exact .inr ⟨j :: a', l, q, hd', rfl, by rw [shift_succ], h3, h4, rfl⟩
end

mutual
theorem nodup_defs (scope : Text) (a : Addr) : ∀ p : Prp, ((defs lower scope a p).map (·.2.2.1)).Nodup
  | .entry .. => by simp [defs]
  | .missing .. => by simp [defs]
  | .ext _ => by simp [defs]
  | .del _ => by simp [defs]
  | .loc n par qs b => by
    rw [defs, List.map_append, List.nodup_append]
    refine ⟨nodup_defss _ a 0 qs, by simp, ?_⟩
    rintro x hx y hy rfl
    simp only [List.map_cons, List.map_nil, List.mem_singleton] at hy
    subst hy
    obtain ⟨⟨k, b, y, n⟩, hm, rfl⟩ := List.mem_map.1 hx
    obtain ⟨a', l, q, hd, _, h, _⟩ := (mem_defss _ _ _ _ _ _ _ _).1 hm
    cases a' with
    | nil => exact at_ne_nil (def_at hd)
    | cons j a' =>
      have := congrArg List.length h
      simp [shift] at this
theorem nodup_defss (scope : Text) (a : Addr) : ∀ (i : Nat) (ps : List Prp),
    ((defss lower scope a i ps).map (·.2.2.1)).Nodup
  | _, [] => by simp [defss]
  | i, p :: ps => by
    rw [defss, List.map_append, List.nodup_append]
    refine ⟨nodup_defs _ _ p, nodup_defss scope a (i + 1) ps, ?_⟩
    rintro x hx y hy rfl
    obtain ⟨⟨k, b, y, n⟩, hm, rfl⟩ := List.mem_map.1 hx
    obtain ⟨⟨k', b', y', n'⟩, hm', he⟩ := List.mem_map.1 hy
    simp only at he
    subst he
    obtain ⟨a', l, q, hd, _, h, _⟩ := (mem_defss _ _ _ _ _ _ _ _).1 hm'
    cases a' with
    | nil => exact at_ne_nil (def_at hd)
    | cons j a' =>
      rcases (mem_defs _ _ _ _ _ _ _).1 hm with ⟨_, h2, _⟩ | ⟨_, _, _, _, _, a2, _, _, _, _, h2, _⟩
      · rw [h, spot] at h2
        simp [shift] at h2
        omega
      · rw [h, spot] at h2
        simp [shift] at h2
        omega
end

theorem keyOf_inj : ∀ {l l' : List Text}, (∀ n ∈ l, '.' ∉ n) → (∀ n ∈ l', '.' ∉ n) → keyOf l = keyOf l' → l = l'
  | [], [], _, _, _ => rfl
  | [], n :: l', _, _, h => by simp [keyOf] at h
  | n :: l, [], _, _, h => by simp [keyOf] at h
  | n :: l, n' :: l', h1, h2, h => by
    have key : ∀ (n n' r r' : Text), '.' ∉ n → '.' ∉ n' → (r = [] ∨ r.head? = some '.') → (r' = [] ∨ r'.head? = some '.') →
        n ++ r = n' ++ r' → n = n' ∧ r = r' := by
      intro n
      induction n with
      | nil =>
        intro n' r r' _ hn' hr hr' h
        cases n' with
        | nil => exact ⟨rfl, h⟩
        | cons c n' =>
          rcases hr with hr | hr
          · simp [hr] at h
          · simp only [List.nil_append] at h
            rw [h] at hr
            simp at hr
            simp [hr] at hn'
      | cons c n ih =>
        intro n' r r' hn hn' hr hr' h
        cases n' with
        | nil =>
          rcases hr' with hr' | hr'
          · simp [hr'] at h
          · simp only [List.nil_append] at h
            rw [← h] at hr'
            simp at hr'
            simp [hr'] at hn
        | cons c' n' =>
          simp only [List.cons_append, List.cons.injEq] at h
          simp only [List.mem_cons, not_or] at hn hn'
          have := ih n' r r' hn.2 hn'.2 hr hr' h.2
          exact ⟨by rw [h.1, this.1], this.2⟩
    have hk : ∀ l : List Text, keyOf l = [] ∨ (keyOf l).head? = some '.' := by
      intro l
      cases l <;> simp [keyOf]
    have h' : n ++ keyOf l = n' ++ keyOf l' := by simpa [keyOf] using h
    have := key n n' _ _ (h1 n (by simp)) (h2 n' (by simp)) (hk l) (hk l') h'
    rw [this.1, keyOf_inj (fun m hm => h1 m (by simp [hm])) (fun m hm => h2 m (by simp [hm])) this.2]

theorem def_names {ps a l p} (h : Def lower ps a l p) : (∀ a q, At ps a q → '.' ∉ lower q.name) → ∀ n ∈ l, '.' ∉ n := by
  induction h with
  | here h =>
    intro hd n hn
    simp only [List.mem_singleton] at hn
    subst hn
    exact hd _ _ (.here h)
  | deep h _ ih =>
    intro hd n hn
    rcases List.mem_cons.1 hn with rfl | hn
    · exact hd _ _ (.here h)
    · exact ih (fun a q hq => hd _ _ (.deep h hq)) n hn

/-! ### Classes -/

/-- The classes of a body. -/
def clss (lower : Text → Text) (a : Addr) (i : Nat) : List Prp → List (Text × Addr × Text)
  | [] => []
  | .loc n _ _ _ :: ps => (lower n, spot a i, n) :: clss lower a (i + 1) ps
  | .ext n :: ps => (lower n, spot a i, n) :: clss lower a (i + 1) ps
  | _ :: ps => clss lower a (i + 1) ps

theorem mem_clss (a : Addr) : ∀ (i : Nat) (ps : List Prp) (k : Text) (x : Addr) (n : Text),
    (k, x, n) ∈ clss lower a i ps ↔ ∃ j p, ps[j]? = some p ∧ IsClass p ∧ k = lower p.name ∧ x = a ++ [i + j] ∧ n = p.name
  | i, [], k, x, n => by simp [clss]
  | i, p :: ps, k, x, n => by
    have ih := mem_clss a (i + 1) ps k x n
    have hs : (∃ j q, (p :: ps)[j]? = some q ∧ IsClass q ∧ k = lower q.name ∧ x = a ++ [i + j] ∧ n = q.name) ↔
        (IsClass p ∧ k = lower p.name ∧ x = a ++ [i] ∧ n = p.name) ∨
        ∃ j q, ps[j]? = some q ∧ IsClass q ∧ k = lower q.name ∧ x = a ++ [i + 1 + j] ∧ n = q.name := by
      constructor
      · rintro ⟨j, q, h, h'⟩
        cases j with
        | zero =>
          simp at h
          subst h
          exact .inl (by simpa using h')
        | succ j => exact .inr ⟨j, q, by simpa using h, by rw [show i + 1 + j = i + (j + 1) by omega]; exact h'⟩
      · rintro (h | ⟨j, q, h, h'⟩)
        · exact ⟨0, p, by simp, by simpa using h⟩
        · exact ⟨j + 1, q, by simpa using h, by rw [show i + 1 + j = i + (j + 1) by omega] at h'; exact h'⟩
    rw [hs, ← ih]
    cases p <;> simp [clss, IsClass, spot, Prp.name]

theorem nodup_clss (a : Addr) : ∀ (i : Nat) (ps : List Prp), ((clss lower a i ps).map (·.2.1)).Nodup
  | i, [] => by simp [clss]
  | i, p :: ps => by
    have ih := nodup_clss a (i + 1) ps
    have hn : spot a i ∉ (clss lower a (i + 1) ps).map (·.2.1) := by
      intro h
      obtain ⟨⟨k, x, n⟩, hm, he⟩ := List.mem_map.1 h
      obtain ⟨j, q, _, _, _, h', _⟩ := (mem_clss _ _ _ _ _ _).1 hm
      simp only at he
      rw [h', spot] at he
      simp at he
      omega
    cases p <;> simp only [clss, List.map_cons, List.nodup_cons] <;> first | exact ⟨hn, ih⟩ | exact ih

/-- The body at a place: the whole config, or that of the class there. -/
inductive BodyAt : List Prp → Addr → List Prp → Prop
  | here {ps} : BodyAt ps [] ps
  | deep {ps i n par qs b a rs} : ps[i]? = some (.loc n par qs b) → BodyAt qs a rs → BodyAt ps (i :: a) rs

theorem dupClss_snd (a : Addr) : ∀ (i : Nat) (ps : List Prp) (s),
    (dupClss lower a i ps s).2 = pushes s.2 (clss lower a i ps)
  | _, [], s => by simp [dupClss, clss, pushes]
  | i, p :: ps, (cs, m) => by
    rw [dupClss, dupClss_snd a (i + 1) ps]
    cases p <;> simp [dupCls, clss, pushes]

theorem dupClss_fst {c : Code} (a : Addr) : ∀ (i : Nat) (ps : List Prp) (s),
    (c ∈ (dupClss lower a i ps s).1 ↔ c ∈ s.1 ∨ ∃ j n par qs b, ps[j]? = some (.loc n par qs b) ∧
      c ∈ dupReport (dupClss lower (spot a (i + j)) 0 qs ([], [])))
  | _, [], s => by simp [dupClss]
  | i, p :: ps, (cs, m) => by
    rw [dupClss, dupClss_fst a (i + 1) ps]
    have hs : (∃ j n par qs b, (p :: ps)[j]? = some (.loc n par qs b) ∧
          c ∈ dupReport (dupClss lower (spot a (i + j)) 0 qs ([], []))) ↔
        (∃ n par qs b, p = .loc n par qs b ∧ c ∈ dupReport (dupClss lower (spot a i) 0 qs ([], []))) ∨
        ∃ j n par qs b, ps[j]? = some (.loc n par qs b) ∧
          c ∈ dupReport (dupClss lower (spot a (i + 1 + j)) 0 qs ([], [])) := by
      constructor
      · rintro ⟨j, n, par, qs, b, h, h'⟩
        cases j with
        | zero =>
          simp at h
          exact .inl ⟨n, par, qs, b, h, by simpa using h'⟩
        | succ j =>
          exact .inr ⟨j, n, par, qs, b, by simpa using h, by rw [show i + 1 + j = i + (j + 1) by omega]; exact h'⟩
      · rintro (⟨n, par, qs, b, h, h'⟩ | ⟨j, n, par, qs, b, h, h'⟩)
        · exact ⟨0, n, par, qs, b, by simp [h], by simpa using h'⟩
        · exact ⟨j + 1, n, par, qs, b, by simpa using h, by rw [show i + 1 + j = i + (j + 1) by omega] at h'; exact h'⟩
    rw [hs, ← or_assoc]
    cases p with
    | loc n par qs b =>
      simp only [dupCls, List.mem_append]
      constructor
      · rintro ((h | h) | h)
        · exact .inl (.inl h)
        · exact .inl (.inr ⟨_, _, _, _, rfl, h⟩)
        · exact .inr h
      · rintro ((h | ⟨_, _, _, _, h, h'⟩) | h)
        · exact .inl (.inl h)
        · cases h
          exact .inl (.inr h')
        · exact .inr h
    | _ => simp [dupCls]

/-- The reports about one body. -/
def bodyCodes (lower : Text → Text) (a : Addr) (ps : List Prp) : List Code :=
  (pushes [] (clss lower a 0 ps)).filterMap fun e => if e.2.length > 1 then some (.dupClass e.2) else none

theorem mem_dupReport0 {c : Code} (a : Addr) (ps : List Prp) : c ∈ dupReport (dupClss lower a 0 ps ([], [])) ↔
    c ∈ bodyCodes lower a ps ∨ ∃ j n par qs b, ps[j]? = some (.loc n par qs b) ∧
      c ∈ dupReport (dupClss lower (spot a j) 0 qs ([], [])) := by
  rw [dupReport, List.mem_append, dupClss_fst, dupClss_snd]
  simp only [List.not_mem_nil, false_or, Nat.zero_add, bodyCodes]
  exact or_comm

theorem dupReport_of {c : Code} {ps b qs} (h : BodyAt ps b qs) : ∀ a, c ∈ bodyCodes lower (a ++ b) qs →
    c ∈ dupReport (dupClss lower a 0 ps ([], [])) := by
  induction h with
  | here =>
    intro a hc
    rw [mem_dupReport0]
    exact .inl (by simpa using hc)
  | deep h _ ih =>
    intro a hc
    rw [mem_dupReport0]
    exact .inr ⟨_, _, _, _, _, h, ih _ (by simpa [spot] using hc)⟩

mutual
theorem of_dupProp {c : Code} : ∀ (p : Prp) (n par qs b), p = .loc n par qs b → ∀ a,
    c ∈ dupReport (dupClss lower a 0 qs ([], [])) → ∃ x rs, BodyAt qs x rs ∧ c ∈ bodyCodes lower (a ++ x) rs
  | .loc n par qs b, _, _, _, _, h, a, hc => by
    cases h
    rw [mem_dupReport0] at hc
    rcases hc with hc | ⟨j, n, par, qs', b, h, hc⟩
    · exact ⟨[], qs, .here, by simpa using hc⟩
    · obtain ⟨x, rs, hb, hc⟩ := of_dupProps qs j n par qs' b h _ hc
      exact ⟨j :: x, rs, .deep h hb, by simpa [spot] using hc⟩
theorem of_dupProps {c : Code} : ∀ (ps : List Prp) (j : Nat) (n par qs b), ps[j]? = some (.loc n par qs b) → ∀ a,
    c ∈ dupReport (dupClss lower a 0 qs ([], [])) → ∃ x rs, BodyAt qs x rs ∧ c ∈ bodyCodes lower (a ++ x) rs
  | [], j, n, par, qs, b, h, a, hc => by simp at h
  | p :: ps, 0, n, par, qs, b, h, a, hc => of_dupProp p n par qs b (by simpa using h) a hc
  | p :: ps, j + 1, n, par, qs, b, h, a, hc => of_dupProps ps j n par qs b (by simpa using h) a hc
end

theorem mem_dupReport {c : Code} {ps : List Prp} : c ∈ dupReport (dupClss lower [] 0 ps ([], [])) ↔
    ∃ b qs, BodyAt ps b qs ∧ c ∈ bodyCodes lower b qs := by
  constructor
  · intro h
    obtain ⟨x, rs, hb, hc⟩ := of_dupProp (.loc [] none ps false) _ _ _ _ rfl [] h
    exact ⟨x, rs, hb, by simpa using hc⟩
  · rintro ⟨b, qs, hb, hc⟩
    exact dupReport_of hb [] (by simpa using hc)

theorem body_at {ps b qs i p} (h : BodyAt ps b qs) (hp : qs[i]? = some p) : At ps (b ++ [i]) p := by
  induction h with
  | here => exact .here hp
  | deep h _ ih => exact .deep h (ih hp)

theorem at_body {i : Nat} {p : Prp} : ∀ {b : Addr} {ps : List Prp}, At ps (b ++ [i]) p →
    ∃ qs, BodyAt ps b qs ∧ qs[i]? = some p
  | [], ps, h => by
    cases h with
    | here h => exact ⟨ps, .here, h⟩
    | deep _ h => exact absurd h at_ne_nil
  | j :: b, ps, h => by
    generalize hx : j :: b ++ [i] = x at h
    cases h with
    | here h => simp at hx
    | deep h h' =>
      simp only [List.cons_append, List.cons.injEq] at hx
      obtain ⟨rfl, rfl⟩ := hx
      obtain ⟨qs, hb, hi⟩ := at_body h'
      exact ⟨qs, .deep h hb, hi⟩

theorem body_unique {ps b qs rs} (h : BodyAt ps b qs) (h' : BodyAt ps b rs) : qs = rs := by
  induction h with
  | here => cases h'; rfl
  | deep h _ ih =>
    cases h' with
    | deep h' h2 =>
      rw [h] at h'
      cases h'
      exact ih h2

end Verif.ConfigLint
