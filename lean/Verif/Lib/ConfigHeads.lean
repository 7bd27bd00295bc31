import Verif.Lib.ConfigDup
import Mathlib.Data.List.Induction
/-! Lemmas: the classes of a config in the order of the text. -/
namespace Verif.ConfigLint
open Verif.ConfigParse

mutual
/-- The classes of a property with their places, in the order of the text. -/
def heads (a : Addr) : Prp → List (Addr × Prp)
  | .loc n par qs b => (a, .loc n par qs b) :: headss a 0 qs
  | .ext n => [(a, .ext n)]
  | .entry .. => []
  | .del _ => []
  | .missing _ => []
def headss (a : Addr) (i : Nat) : List Prp → List (Addr × Prp)
  | [] => []
  | p :: ps => heads (spot a i) p ++ headss a (i + 1) ps
end

mutual
theorem mem_heads (a : Addr) : ∀ (p : Prp) (x : Addr) (q : Prp), (x, q) ∈ heads a p ↔
    IsClass q ∧ ((x = a ∧ q = p) ∨ ∃ m par qs c, p = .loc m par qs c ∧ ∃ a', At qs a' q ∧ x = a ++ a')
  | .entry .., x, q => by
    simp only [heads, List.not_mem_nil, false_iff, not_and]
    rintro h (⟨_, rfl⟩ | ⟨_, _, _, _, e, _⟩)
    · exact h
    · cases e
  | .missing _, x, q => by
    simp only [heads, List.not_mem_nil, false_iff, not_and]
    rintro h (⟨_, rfl⟩ | ⟨_, _, _, _, e, _⟩)
    · exact h
    · cases e
  | .del _, x, q => by
    simp only [heads, List.not_mem_nil, false_iff, not_and]
    rintro h (⟨_, rfl⟩ | ⟨_, _, _, _, e, _⟩)
    · exact h
    · cases e
  | .ext n, x, q => by
    simp only [heads, List.mem_singleton, Prod.mk.injEq]
    constructor
    · rintro ⟨rfl, rfl⟩
      exact ⟨trivial, .inl ⟨rfl, rfl⟩⟩
    · rintro ⟨h, ⟨rfl, rfl⟩ | ⟨_, _, _, _, e, _⟩⟩
      · exact ⟨rfl, rfl⟩
      · cases e
  | .loc m par qs c, x, q => by
    have ih := mem_headss a 0 qs x q
    rw [heads, List.mem_cons, ih]
    constructor
    · rintro (h | ⟨a', ha, hc, rfl⟩)
      · cases h
        exact ⟨trivial, .inl ⟨rfl, rfl⟩⟩
      · refine ⟨hc, .inr ⟨m, par, qs, c, rfl, a', ha, ?_⟩⟩
        cases a' <;> simp [shift]
    · rintro ⟨hc, ⟨rfl, rfl⟩ | ⟨_, _, _, _, e, a', ha, rfl⟩⟩
      · exact .inl rfl
      · cases e
        refine .inr ⟨a', ha, hc, ?_⟩
        cases a' <;> simp [shift]
theorem mem_headss (a : Addr) : ∀ (i : Nat) (ps : List Prp) (x : Addr) (q : Prp), (x, q) ∈ headss a i ps ↔
    ∃ a', At ps a' q ∧ IsClass q ∧ x = a ++ shift i a'
  | i, [], x, q => by simp [headss, not_at_nil]
  | i, p :: ps, x, q => by
    have h1 := mem_heads (spot a i) p x q
    have h2 := mem_headss a (i + 1) ps x q
    rw [headss, List.mem_append, h1, h2]
    constructor
    · rintro (⟨hc, ⟨rfl, rfl⟩ | ⟨m, par, qs, c, rfl, a', h, rfl⟩⟩ | ⟨a', h, hc, rfl⟩)
      · exact ⟨[0], at_cons.2 (.inl ⟨rfl, rfl⟩), hc, by simp [shift, spot]⟩
      · exact ⟨0 :: a', at_cons.2 (.inr (.inl ⟨m, par, qs, c, a', rfl, rfl, h⟩)), hc, by simp [shift, spot]⟩
      · cases a' with
        | nil => exact absurd h at_ne_nil
        | cons j a' => exact ⟨(j + 1) :: a', at_cons.2 (.inr (.inr ⟨j, a', rfl, h⟩)), hc, by rw [shift_succ]⟩
    · rintro ⟨a', h, hc, rfl⟩
      rcases at_cons.1 h with ⟨rfl, rfl⟩ | ⟨m, par, qs, c, a', rfl, rfl, h'⟩ | ⟨j, a', rfl, h'⟩
      · exact .inl ⟨hc, .inl ⟨by simp [shift, spot], rfl⟩⟩
      · exact .inl ⟨hc, .inr ⟨m, par, qs, c, rfl, a', h', by simp [shift, spot]⟩⟩
      · exact .inr ⟨j :: a', h', hc, by rw [shift_succ]⟩
end

theorem lt_append {a : Addr} : ∀ {b : Addr}, b ≠ [] → a < a ++ b := by
  induction a with
  | nil =>
    intro b hb
    cases b with
    | nil => exact absurd rfl hb
    | cons => exact List.Lex.nil
  | cons x a ih =>
    intro b hb
    exact List.Lex.cons (ih hb)

theorem append_lt {a b c : Addr} (h : b < c) : a ++ b < a ++ c := by
  induction a with
  | nil => exact h
  | cons x a ih => exact List.Lex.cons ih

mutual
theorem sorted_heads (a : Addr) : ∀ p, (heads a p).Pairwise fun x y => x.1 < y.1
  | .entry .. => by simp [heads]
  | .missing _ => by simp [heads]
  | .del _ => by simp [heads]
  | .ext _ => by simp [heads]
  | .loc m par qs c => by
    rw [heads, List.pairwise_cons]
    refine ⟨?_, sorted_headss a 0 qs⟩
    rintro ⟨x, q⟩ hx
    obtain ⟨a', ha, -, rfl⟩ := (mem_headss _ _ _ _ _).1 hx
    apply lt_append
    cases a' with
    | nil => exact absurd ha at_ne_nil
    | cons => simp [shift]
theorem sorted_headss (a : Addr) : ∀ i ps, (headss a i ps).Pairwise fun x y => x.1 < y.1
  | i, [] => by simp [headss]
  | i, p :: ps => by
    rw [headss, List.pairwise_append]
    refine ⟨sorted_heads _ p, sorted_headss a (i + 1) ps, ?_⟩
    rintro ⟨x, q⟩ hx ⟨y, q'⟩ hy
    obtain ⟨a', ha, -, rfl⟩ := (mem_headss _ _ _ _ _).1 hy
    have hx' : ∃ b, x = a ++ i :: b := by
      rcases ((mem_heads _ _ _ _).1 hx).2 with ⟨rfl, -⟩ | ⟨_, _, _, _, _, b, _, rfl⟩
      · exact ⟨[], rfl⟩
      · exact ⟨b, by simp [spot]⟩
    obtain ⟨b, rfl⟩ := hx'
    cases a' with
    | nil => exact absurd ha at_ne_nil
    | cons j a' =>
      apply append_lt
      exact List.Lex.rel (by omega)
end

theorem mem_heads0 {ps : List Prp} {x q} : (x, q) ∈ headss [] 0 ps ↔ At ps x q ∧ IsClass q := by
  rw [mem_headss]
  constructor
  · rintro ⟨a', h, hc, rfl⟩
    refine ⟨?_, hc⟩
    cases a' <;> simpa [shift] using h
  · rintro ⟨h, hc⟩
    exact ⟨x, h, hc, by cases x <;> simp [shift]⟩

/-- What stands before an element of a sorted list. -/
theorem sorted_split {L L1 L2 : List (Addr × Prp)} {x : Addr × Prp} (hs : L.Pairwise fun x y => x.1 < y.1)
    (h : L = L1 ++ x :: L2) (y : Addr × Prp) : y ∈ L1 ↔ y ∈ L ∧ y.1 < x.1 := by
  subst h
  rw [List.pairwise_append] at hs
  obtain ⟨-, h2, h3⟩ := hs
  rw [List.pairwise_cons] at h2
  constructor
  · intro hy
    exact ⟨by simp [hy], h3 y hy x (by simp)⟩
  · rintro ⟨hy, hlt⟩
    rcases List.mem_append.1 hy with hy | hy
    · exact hy
    · rcases List.mem_cons.1 hy with rfl | hy
      · exact absurd hlt (List.lt_irrefl _)
      · exact absurd hlt (List.lt_asymm (h2.1 y hy))

/-- A loop that collects codes and keeps a state. -/
theorem mem_loop {β σ : Type} (f : σ → β → List Code) (g : σ → β → σ) {c : Code} : ∀ (L : List β) (cs : List Code) (d : σ),
    c ∈ (L.foldl (fun s x => (s.1 ++ f s.2 x, g s.2 x)) (cs, d)).1 ↔
      c ∈ cs ∨ ∃ L1 x L2, L = L1 ++ x :: L2 ∧ c ∈ f (L1.foldl g d) x
  | [], cs, d => by simp
  | y :: L, cs, d => by
    rw [List.foldl_cons, mem_loop f g L, List.mem_append, or_assoc]
    apply or_congr_right
    constructor
    · rintro (h | ⟨L1, x, L2, rfl, h⟩)
      · exact ⟨[], y, L, rfl, h⟩
      · exact ⟨y :: L1, x, L2, rfl, h⟩
    · rintro ⟨L1, x, L2, e, h⟩
      cases L1 with
      | nil =>
        simp only [List.nil_append, List.cons.injEq] at e
        obtain ⟨rfl, rfl⟩ := e
        exact .inl h
      | cons z L1 =>
        simp only [List.cons_append, List.cons.injEq] at e
        obtain ⟨rfl, rfl⟩ := e
        exact .inr ⟨L1, x, L2, rfl, h⟩

/-! ### Missing parents -/

variable {lower : Text → Text}

def missF (lower : Text → Text) (d : List Text) (x : Addr × Prp) : List Code :=
  match x.2 with
  | .loc n (some p) _ _ => if lower p ≠ lower n ∧ lower p ∉ d then [.parentMissing x.1 p] else []
  | _ => []

def missG (lower : Text → Text) (d : List Text) (x : Addr × Prp) : List Text := lower x.2.name :: d

mutual
theorem missing_eq (a : Addr) : ∀ (p : Prp) (s : List Code × List Text), missing lower a p s =
    (heads a p).foldl (fun s x => (s.1 ++ missF lower s.2 x, missG lower s.2 x)) s
  | .entry .., s => rfl
  | .missing _, s => rfl
  | .del _, s => rfl
  | .ext n, (cs, d) => by simp [missing, heads, missF, missG, Prp.name]
  | .loc n par qs b, (cs, d) => by
    cases par with
    | none =>
      rw [missing.eq_def]
      simp only [heads, List.foldl_cons, missings_eq a 0 qs]
      simp [missF, missG, Prp.name]
    | some p =>
      rw [missing.eq_def]
      simp only [heads, List.foldl_cons, missings_eq a 0 qs]
      congr 1
      simp only [missF, missG, Prp.name]
      split <;> simp
theorem missings_eq (a : Addr) : ∀ (i : Nat) (ps : List Prp) (s : List Code × List Text), missings lower a i ps s =
    (headss a i ps).foldl (fun s x => (s.1 ++ missF lower s.2 x, missG lower s.2 x)) s
  | i, [], s => rfl
  | i, p :: ps, s => by
    rw [missings, headss, List.foldl_append, missing_eq _ p, missings_eq a (i + 1) ps]
end

theorem mem_missG {k : Text} : ∀ (L : List (Addr × Prp)) (d : List Text),
    k ∈ L.foldl (missG lower) d ↔ k ∈ d ∨ ∃ y ∈ L, lower y.2.name = k
  | [], d => by simp
  | y :: L, d => by
    rw [List.foldl_cons, mem_missG L]
    simp only [missG, List.mem_cons, exists_eq_or_imp]
    constructor
    · rintro ((rfl | h) | h)
      · exact .inr (.inl rfl)
      · exact .inl h
      · exact .inr (.inr h)
    · rintro (h | rfl | h)
      · exact .inl (.inr h)
      · exact .inl (.inl rfl)
      · exact .inr h

theorem mem_missing {ps : List Prp} {c : Code} : c ∈ runMissing lower (.config ps) ↔
    ∃ a n p qs b, c = .parentMissing a p ∧ At ps a (.loc n (some p) qs b) ∧ lower p ≠ lower n ∧
      ¬ Earlier lower ps a (lower p) := by
  rw [runMissing, missings_eq, mem_loop]
  simp only [List.not_mem_nil, false_or]
  constructor
  · rintro ⟨L1, ⟨a, q⟩, L2, e, h⟩
    unfold missF at h
    split at h
    · rename_i n p qs b hq
      simp only at hq
      subst hq
      split at h
      · rename_i hc
        simp only [List.mem_singleton] at h
        have hm := (mem_heads0 (ps := ps)).1 (e ▸ (by simp : (a, Prp.loc n (some p) qs b) ∈ L1 ++ (a, _) :: L2))
        refine ⟨a, n, p, qs, b, h, hm.1, hc.1, ?_⟩
        rintro ⟨a', q, h1, h2, h3, h4⟩
        apply hc.2
        rw [mem_missG]
        exact .inr ⟨(a', q), (sorted_split (sorted_headss [] 0 ps) e _).2 ⟨mem_heads0.2 ⟨h1, h2⟩, h3⟩, h4⟩
      · simp at h
    · simp at h
  · rintro ⟨a, n, p, qs, b, rfl, hat, hne, hn⟩
    obtain ⟨L1, L2, e⟩ := List.append_of_mem (mem_heads0.2 ⟨hat, trivial⟩ : (a, Prp.loc n (some p) qs b) ∈ headss [] 0 ps)
    refine ⟨L1, _, L2, e, ?_⟩
    unfold missF
    simp only
    rw [if_pos]
    · simp
    · refine ⟨hne, ?_⟩
      rw [mem_missG]
      rintro (h | ⟨⟨a', q⟩, hy, hk⟩)
      · simp at h
      · have := (sorted_split (sorted_headss [] 0 ps) e _).1 hy
        have hq := mem_heads0.1 this.1
        exact hn ⟨a', q, hq.1, hq.2, this.2, hk⟩

/-! ### Case of parents -/

def caseF (lower : Text → Text) (d : Text → Option Text) (x : Addr × Prp) : List Code :=
  match x.2 with
  | .loc n (some p) _ _ =>
    if lower p ≠ lower n then
      match d (lower p) with
      | some q => if q ≠ p then [.parentCase n p q] else []
      | none => []
    else if p ≠ n then [.parentCase n p n] else []
  | _ => []

def caseG (lower : Text → Text) (d : Text → Option Text) (x : Addr × Prp) : Text → Option Text :=
  match x.2 with
  | .loc n _ _ _ => fun k => if k = lower n then some n else d k
  | .ext n => fun k => if k = lower n then some ((d k).getD n) else d k
  | _ => d

mutual
theorem parentCase_eq (a : Addr) : ∀ (p : Prp) (s : List Code × (Text → Option Text)), parentCase lower p s =
    (heads a p).foldl (fun s x => (s.1 ++ caseF lower s.2 x, caseG lower s.2 x)) s
  | .entry .., s => rfl
  | .missing _, s => rfl
  | .del _, s => rfl
  | .ext n, (cs, d) => by simp [parentCase, heads, caseF, caseG]
  | .loc n par qs b, (cs, d) => by
    cases par with
    | none =>
      rw [parentCase.eq_def]
      simp only [heads, List.foldl_cons, parentCases_eq a 0 qs]
      simp [caseF, caseG]
    | some p =>
      rw [parentCase.eq_def]
      simp only [heads, List.foldl_cons, parentCases_eq a 0 qs]
      congr 1
      simp only [caseF, caseG]
      split
      · cases d (lower p) with
        | none => simp
        | some q =>
          simp only
          split <;> simp
      · split <;> simp
theorem parentCases_eq (a : Addr) : ∀ (i : Nat) (ps : List Prp) (s : List Code × (Text → Option Text)),
    parentCases lower ps s = (headss a i ps).foldl (fun s x => (s.1 ++ caseF lower s.2 x, caseG lower s.2 x)) s
  | i, [], s => rfl
  | i, p :: ps, s => by
    rw [parentCases, headss, List.foldl_append, parentCase_eq (spot a i) p, parentCases_eq a (i + 1) ps]
end

/-- `KnownAs`, for a list of classes. -/
def Known (lower : Text → Text) (L : List (Addr × Prp)) (k n : Text) : Prop :=
  ∃ y ∈ L, lower y.2.name = k ∧ y.2.name = n ∧
    (IsLocal y.2 → ∀ z ∈ L, IsLocal z.2 → lower z.2.name = k → z.1 ≤ y.1) ∧
    (¬ IsLocal y.2 → ∀ z ∈ L, lower z.2.name = k → ¬ IsLocal z.2 ∧ y.1 ≤ z.1)

theorem known_step {L : List (Addr × Prp)} {x : Addr × Prp} {k : Text} (hs : ∀ y ∈ L, y.1 < x.1) (hc : IsClass x.2)
    (d : Text → Option Text)
    (ih : (∀ n, d k = some n → Known lower L k n) ∧ (d k = none → ∀ y ∈ L, lower y.2.name ≠ k)) :
    (∀ n, caseG lower d x k = some n → Known lower (L ++ [x]) k n) ∧
    (caseG lower d x k = none → ∀ y ∈ L ++ [x], lower y.2.name ≠ k) := by
  have hle : ∀ z ∈ L ++ [x], z.1 ≤ x.1 := by
    intro z hz
    rcases List.mem_append.1 hz with h | h
    · exact List.le_of_lt (hs z h)
    · rw [List.mem_singleton.1 h]
      exact List.le_refl _
  by_cases hk : lower x.2.name = k
  · obtain ⟨a, q⟩ := x
    cases q with
    | loc n par qs b =>
      simp only [Prp.name] at hk
      simp only [caseG, hk.symm, if_true]
      refine ⟨?_, by simp⟩
      intro m hm
      cases hm
      refine ⟨(a, .loc n par qs b), by simp, rfl, rfl, fun _ z hz _ _ => hle z hz, fun h => absurd trivial h⟩
    | ext n =>
      simp only [Prp.name] at hk
      simp only [caseG, hk.symm, if_true]
      refine ⟨?_, by simp⟩
      intro m hm
      subst hk
      cases hd : d (lower n) with
      | some m' =>
        rw [hd] at hm
        simp only [Option.getD_some, Option.some.injEq] at hm
        subst hm
        obtain ⟨y, hy, h1, h2, h3⟩ := ih.1 _ hd
        refine ⟨y, by simp [hy], h1, h2, ?_⟩
        refine ⟨fun hyl z hz hl hz' => ?_, fun hyl z hz hz' => ?_⟩
        · replace h3 := h3.1 hyl
          rcases List.mem_append.1 hz with h | h
          · exact h3 z h hl hz'
          · rw [List.mem_singleton.1 h] at hl
            exact absurd hl (by simp [IsLocal])
        · replace h3 := h3.2 hyl
          rcases List.mem_append.1 hz with h | h
          · exact h3 z h hz'
          · rw [List.mem_singleton.1 h]
            exact ⟨by simp [IsLocal], List.le_of_lt (hs y hy)⟩
      | none =>
        rw [hd] at hm
        simp only [Option.getD_none, Option.some.injEq] at hm
        subst hm
        refine ⟨(a, .ext n), by simp, rfl, rfl, ?_⟩
        refine ⟨fun h => absurd h (by simp [IsLocal]), fun _ z hz hz' => ?_⟩
        rcases List.mem_append.1 hz with h | h
        · exact absurd hz' (ih.2 hd z h)
        · rw [List.mem_singleton.1 h]
          exact ⟨by simp [IsLocal], List.le_refl _⟩
    | _ => simp [IsClass] at hc
  · have hg : caseG lower d x k = d k := by
      obtain ⟨a, q⟩ := x
      cases q <;> simp only [caseG, Prp.name] at hk ⊢ <;> rw [if_neg (fun h => hk h.symm)]
    rw [hg]
    constructor
    · intro n hn
      obtain ⟨y, hy, h1, h2, h3⟩ := ih.1 n hn
      refine ⟨y, by simp [hy], h1, h2, ?_⟩
      refine ⟨fun hyl z hz hl hz' => ?_, fun hyl z hz hz' => ?_⟩
      · replace h3 := h3.1 hyl
        rcases List.mem_append.1 hz with h | h
        · exact h3 z h hl hz'
        · rw [List.mem_singleton.1 h] at hz'
          exact absurd hz' hk
      · replace h3 := h3.2 hyl
        rcases List.mem_append.1 hz with h | h
        · exact h3 z h hz'
        · rw [List.mem_singleton.1 h] at hz'
          exact absurd hz' hk
    · intro hn y hy
      rcases List.mem_append.1 hy with h | h
      · exact ih.2 hn y h
      · rw [List.mem_singleton.1 h]
        exact hk

theorem known_fold (k : Text) (L : List (Addr × Prp)) : L.Pairwise (fun x y => x.1 < y.1) →
    (∀ y ∈ L, IsClass y.2) →
    (∀ n, L.foldl (caseG lower) (fun _ => none) k = some n → Known lower L k n) ∧
    (L.foldl (caseG lower) (fun _ => none) k = none → ∀ y ∈ L, lower y.2.name ≠ k) := by
  induction L using List.reverseRecOn with
  | nil => simp
  | append_singleton L x ih =>
    intro hs hc
    rw [List.pairwise_append] at hs
    rw [List.foldl_append, List.foldl_cons, List.foldl_nil]
    exact known_step (fun y hy => hs.2.2 y hy x (by simp)) (hc x (by simp)) _
      (ih hs.1 fun y hy => hc y (by simp [hy]))

theorem known_unique {L : List (Addr × Prp)} (hn : ∀ x ∈ L, ∀ y ∈ L, x.1 = y.1 → x = y) {k m n : Text}
    (h : Known lower L k m) (h' : Known lower L k n) : m = n := by
  obtain ⟨y, hy, h1, h2, h3⟩ := h
  obtain ⟨z, hz, h1', h2', h3'⟩ := h'
  have : y = z := by
    by_cases hl : IsLocal y.2 <;> by_cases hl' : IsLocal z.2
    · exact hn y hy z hz (List.le_antisymm (h3'.1 hl' y hy hl h1) (h3.1 hl z hz hl' h1'))
    · exact absurd hl (h3'.2 hl' y hy h1).1
    · exact absurd hl' (h3.2 hl z hz h1').1
    · exact hn y hy z hz (List.le_antisymm (h3.2 hl z hz h1').2 (h3'.2 hl' y hy h1).2)
  rw [← h2, ← h2', this]

theorem known_iff {ps : List Prp} {L1 L2 : List (Addr × Prp)} {a : Addr} {q : Prp}
    (e : headss [] 0 ps = L1 ++ (a, q) :: L2) {k n : Text} :
    L1.foldl (caseG lower) (fun _ => none) k = some n ↔ KnownAs lower ps a k n := by
  have hs := sorted_headss [] 0 ps
  have hsub : ∀ y, y ∈ L1 ↔ (At ps y.1 y.2 ∧ IsClass y.2) ∧ y.1 < a := by
    rintro ⟨x, p⟩
    rw [sorted_split hs e, mem_heads0]
  have hs1 : L1.Pairwise fun x y => x.1 < y.1 := by
    rw [e, List.pairwise_append] at hs
    exact hs.1
  have hk : Known lower L1 k n ↔ KnownAs lower ps a k n := by
    constructor
    · rintro ⟨⟨x, p⟩, hy, h1, h2, h3⟩
      have hy' := (hsub _).1 hy
      refine ⟨x, p, hy'.1.1, hy'.1.2, hy'.2, h1, h2, ?_⟩
      refine ⟨fun hl b r hb hr hlt hbk => ?_, fun hl b r hb hr hlt hbk => ?_⟩
      · exact h3.1 hl (b, r) ((hsub (b, r)).2 ⟨⟨hb, by cases r <;> simp_all [IsLocal, IsClass]⟩, hlt⟩) hr hbk
      · exact h3.2 hl (b, r) ((hsub (b, r)).2 ⟨⟨hb, hr⟩, hlt⟩) hbk
    · rintro ⟨x, p, h0, hc, hlt, h1, h2, h3⟩
      refine ⟨(x, p), (hsub (x, p)).2 ⟨⟨h0, hc⟩, hlt⟩, h1, h2, ?_⟩
      constructor
      · rintro hl ⟨b, r⟩ hz hzl hzk
        have := (hsub (b, r)).1 hz
        exact h3.1 hl b r this.1.1 hzl this.2 hzk
      · rintro hl ⟨b, r⟩ hz hzk
        have := (hsub (b, r)).1 hz
        exact h3.2 hl b r this.1.1 this.1.2 this.2 hzk
  rw [← hk]
  have hf := known_fold (lower := lower) k L1 hs1 fun y hy => ((hsub y).1 hy).1.2
  refine ⟨hf.1 n, fun h => ?_⟩
  cases hd : L1.foldl (caseG lower) (fun _ => none) k with
  | none =>
    obtain ⟨y, hy, h1, -⟩ := h
    exact absurd h1 (hf.2 hd y hy)
  | some m =>
    have hu : ∀ x ∈ L1, ∀ y ∈ L1, x.1 = y.1 → x = y := by
      rintro ⟨x, p⟩ hx ⟨y, p'⟩ hy e
      simp only at e
      subst e
      have h1 := ((hsub _).1 hx).1.1
      have h2 := ((hsub _).1 hy).1.1
      simp only at h1 h2
      rw [at_unique h1 h2]
    rw [known_unique hu (hf.1 m hd) h]

theorem mem_parentCases {ps : List Prp} {c : Code} : c ∈ (parentCases lower ps ([], fun _ => none)).1 ↔
    ∃ a n p qs b q, c = .parentCase n p q ∧ At ps a (.loc n (some p) qs b) ∧ q ≠ p ∧
      ((lower p ≠ lower n ∧ KnownAs lower ps a (lower p) q) ∨ (lower p = lower n ∧ q = n)) := by
  rw [parentCases_eq [] 0, mem_loop]
  simp only [List.not_mem_nil, false_or]
  constructor
  · rintro ⟨L1, ⟨a, r⟩, L2, e, h⟩
    unfold caseF at h
    split at h
    · rename_i n p qs b hq
      simp only at hq
      subst hq
      have hm := (mem_heads0 (ps := ps)).1 (e ▸ (by simp : (a, Prp.loc n (some p) qs b) ∈ L1 ++ (a, _) :: L2))
      split at h
      · rename_i hne
        split at h
        · rename_i q hd
          split at h
          · rename_i hqp
            exact ⟨a, n, p, qs, b, q, List.mem_singleton.1 h, hm.1, hqp, .inl ⟨hne, (known_iff e).1 hd⟩⟩
          · simp at h
        · simp at h
      · rename_i hne
        split at h
        · rename_i hpn
          exact ⟨a, n, p, qs, b, n, List.mem_singleton.1 h, hm.1, fun h => hpn h.symm, .inr ⟨by simpa using hne, rfl⟩⟩
        · simp at h
    · simp at h
  · rintro ⟨a, n, p, qs, b, q, rfl, hat, hqp, h⟩
    obtain ⟨L1, L2, e⟩ := List.append_of_mem (mem_heads0.2 ⟨hat, trivial⟩ : (a, Prp.loc n (some p) qs b) ∈ headss [] 0 ps)
    refine ⟨L1, _, L2, e, ?_⟩
    unfold caseF
    simp only
    rcases h with ⟨hne, hk⟩ | ⟨he, rfl⟩
    · rw [if_pos hne, (known_iff e).2 hk]
      simp [hqp]
    · rw [if_neg (by simp [he]), if_pos (fun h => hqp h.symm)]
      simp

end Verif.ConfigLint
