import Verif.Model.SqfLint
import Verif.Spec.SqfFormat
/-! Lemmas about the check of format strings. -/
namespace Verif.SqfLint
open Verif.SqfLex (isDigit value)

theorem digit_iff {c : Char} : isDigit c = true ↔ Digit c := by simp [isDigit, Digit]

theorem number_eq {d : Text} (h : ∀ c ∈ d, Digit c) : value 10 d = number d := by
  unfold value number
  generalize 0 = n
  induction d generalizing n with
  | nil => rfl
  | cons c d ih =>
    simp only [List.foldl_cons]
    rw [ih (fun c hc => h c (by simp [hc])), if_pos (digit_iff.2 (h c (by simp))), Nat.mul_comm]

theorem usize_eq {d : Text} (h : ∀ c ∈ d, Digit c) (hn : number d < 2 ^ 64) : usize d = number d := by
  rw [usize, number_eq h, if_pos hn]

theorem step_plain {f : Text} {k i : Nat} {ts : List Nat} {c : Char} (h : c ≠ '%') :
    scanStep f ⟨false, k, ts⟩ i c = .ok ⟨false, k, ts⟩ := by simp [scanStep, h]

theorem step_start {f : Text} {k i : Nat} {ts : List Nat} :
    scanStep f ⟨false, k, ts⟩ i '%' = .ok ⟨true, i + 1, ts⟩ := by simp [scanStep]

theorem step_digit {f : Text} {k i : Nat} {ts : List Nat} {c : Char} (h : Digit c) :
    scanStep f ⟨true, k, ts⟩ i c = .ok ⟨true, k, ts⟩ := by
  simp [scanStep, digit_iff.2 h]

theorem step_escape {f : Text} {i : Nat} {ts : List Nat} :
    scanStep f ⟨true, i, ts⟩ i '%' = .ok ⟨false, i, ts⟩ := by
  simp [scanStep, isDigit]

theorem step_lone {f : Text} {i : Nat} {ts : List Nat} {c : Char} (h : ¬ Digit c) (hc : c ≠ '%') :
    scanStep f ⟨true, i, ts⟩ i c = .error (.unescaped i) := by
  rw [← digit_iff] at h
  simp [scanStep, h, hc]

theorem step_end {f : Text} {k i : Nat} {ts : List Nat} {c : Char} (h : ¬ Digit c) (hk : k < i) :
    scanStep f ⟨true, k, ts⟩ i c = scanStep f ⟨false, k, ts ++ [usize ((f.take i).drop k)]⟩ i c := by
  rw [← digit_iff] at h
  simp [scanStep, h, hk]

theorem scan_digits {f : Text} {k : Nat} {ts : List Nat} {d : Text} (h : ∀ c ∈ d, Digit c) (r : Text) (i : Nat) :
    scan f ⟨true, k, ts⟩ i (d ++ r) = scan f ⟨true, k, ts⟩ (i + d.length) r := by
  induction d generalizing i with
  | nil => simp
  | cons c d ih =>
    rw [List.cons_append, scan, step_digit (h c (by simp))]
    simp only
    rw [ih (fun c hc => h c (by simp [hc])), List.length_cons]
    congr 1
    omega

/-- A format string is passed over and leaves its numbers. -/
theorem scan_format {u : Text} {us : List Text} (h : Format u us) : ∀ (pre w : Text) (k : Nat) (ts : List Nat),
    w ≠ [] → ¬ StartsDigit w → ∃ k', scan (pre ++ u ++ w) ⟨false, k, ts⟩ pre.length (u ++ w) =
      scan (pre ++ u ++ w) ⟨false, k', ts ++ us.map usize⟩ (pre ++ u).length w := by
  induction h with
  | nil => intro pre w k ts _ _; exact ⟨k, by simp⟩
  | @char c s us hc _ ih =>
    intro pre w k ts hw hd
    obtain ⟨k', h⟩ := ih (pre ++ [c]) w k ts hw hd
    refine ⟨k', ?_⟩
    simp only [List.append_assoc, List.nil_append, List.cons_append, List.length_append, List.length_cons, List.length_nil] at h ⊢
    rw [scan, step_plain hc]
    simp only
    rw [show pre.length + 1 = pre.length + (0 + 1) from rfl, h]
  | @percent s us _ ih =>
    intro pre w k ts hw hd
    obtain ⟨k', h⟩ := ih (pre ++ ['%', '%']) w (pre.length + 1) ts hw hd
    refine ⟨k', ?_⟩
    simp only [List.append_assoc, List.nil_append, List.cons_append, List.length_append, List.length_cons, List.length_nil] at h ⊢
    rw [scan, step_start]
    simp only
    rw [scan, step_escape]
    simp only
    rw [show pre.length + 1 + 1 = pre.length + (0 + 1 + 1) from rfl, h]
  | @token d s us hd0 hdig hs _ ih =>
    intro pre w k ts hw hd
    obtain ⟨k', h⟩ := ih (pre ++ '%' :: d) w (pre.length + 1) (ts ++ [usize d]) hw hd
    refine ⟨k', ?_⟩
    have hlen : 0 < d.length := List.length_pos_iff.2 hd0
    have hsw : ¬ StartsDigit (s ++ w) := by
      cases s with
      | nil => exact hd
      | cons c s => rintro ⟨c', t, e, hc'⟩; cases e; exact hs ⟨c, s, rfl, hc'⟩
    have hsw0 : s ++ w ≠ [] := by simp [hw]
    simp only [List.append_assoc, List.nil_append, List.cons_append, List.length_append, List.length_cons, 
      List.map_cons] at h ⊢
    rw [scan, step_start]
    simp only
    rw [scan_digits hdig]
    generalize hf : pre ++ '%' :: (d ++ (s ++ w)) = f at h ⊢
    have hv : (f.take (pre.length + 1 + d.length)).drop (pre.length + 1) = d := by
      have e : f = (pre ++ ['%']) ++ (d ++ (s ++ w)) := by rw [← hf]; simp
      rw [e, List.take_append, List.drop_append]
      simp
    cases hr : s ++ w with
    | nil => exact absurd hr hsw0
    | cons c r =>
      rw [scan, step_end (fun hc => hsw ⟨c, r, hr, hc⟩) (by omega), hv, ← scan, ← hr,
        show pre.length + 1 + d.length = pre.length + (d.length + 1) by omega, h]

/-- Every text is a format string or has a lone `%`. -/
theorem format_or (n : Nat) : ∀ s : Text, s.length ≤ n → (∃ us, Format s us) ∨ ∃ i, LoneAt s i := by
  induction n with
  | zero =>
    intro s hs
    rw [Nat.le_zero, List.length_eq_zero_iff] at hs
    subst hs
    exact .inl ⟨[], .nil⟩
  | succ n ih =>
    intro s hs
    cases s with
    | nil => exact .inl ⟨[], .nil⟩
    | cons c s =>
      rw [List.length_cons] at hs
      by_cases hc : c = '%'
      · subst hc
        by_cases hd : StartsDigit s
        · obtain ⟨c, t, rfl, hc⟩ := hd
          let d := (c :: t).takeWhile isDigit
          let r := (c :: t).dropWhile isDigit
          have e : c :: t = d ++ r := (List.takeWhile_append_dropWhile ..).symm
          have hd0 : d ≠ [] := by simp [d, digit_iff.2 hc]
          have hdig : ∀ x ∈ d, Digit x := fun x hx => digit_iff.1 (List.all_eq_true.1 (List.all_takeWhile (p := isDigit) (l := c :: t)) x hx)
          have hr : ¬ StartsDigit r := by
            rintro ⟨x, y, hx, hxd⟩
            have := List.head?_dropWhile_not isDigit (c :: t)
            rw [show List.dropWhile isDigit (c :: t) = x :: y from hx] at this
            simp [digit_iff.2 hxd] at this
          have hl : r.length ≤ n := by
            have := congrArg List.length e
            rw [List.length_append] at this
            simp only [List.length_cons] at this hs
            omega
          rw [e, ← List.cons_append]
          rcases ih r hl with ⟨us, h⟩ | ⟨i, u, us, r', h1, h2, h3, h4, h5⟩
          · exact .inl ⟨_, .token hd0 hdig hr h⟩
          · refine .inr ⟨_, '%' :: d ++ u, d :: us, r', by rw [h1]; simp, .token hd0 hdig ?_ h2, h3, h4, rfl⟩
            rintro ⟨x, y, rfl, hxd⟩
            exact hr ⟨x, y ++ '%' :: r', by rw [h1]; rfl, hxd⟩
        · by_cases hp : ∃ t, s = '%' :: t
          · obtain ⟨t, rfl⟩ := hp
            rcases ih t (by simp only [List.length_cons] at hs; omega) with ⟨us, h⟩ | ⟨i, u, us, r', h1, h2, h3, h4, h5⟩
            · exact .inl ⟨us, .percent h⟩
            · exact .inr ⟨_, '%' :: '%' :: u, us, r', by rw [h1]; rfl, .percent h2, h3, h4, rfl⟩
          · exact .inr ⟨0, [], [], s, rfl, .nil, hd, fun t ht => hp ⟨t, ht⟩, rfl⟩
      · rcases ih s (by omega) with ⟨us, h⟩ | ⟨i, u, us, r', h1, h2, h3, h4, h5⟩
        · exact .inl ⟨us, .char hc h⟩
        · exact .inr ⟨_, c :: u, us, r', by rw [h1]; rfl, .char hc h2, h3, h4, rfl⟩

theorem not_digit_blank : ¬ Digit ' ' := by unfold Digit; decide
theorem not_digit_percent : ¬ Digit '%' := by unfold Digit; decide

theorem starts_blank {r : Text} : ¬ StartsDigit (' ' :: r) := by
  rintro ⟨c, t, h, hc⟩
  cases h
  exact not_digit_blank hc

theorem starts_percent {r : Text} : ¬ StartsDigit ('%' :: r) := by
  rintro ⟨c, t, h, hc⟩
  cases h
  exact not_digit_percent hc

theorem scan_ok {s : Text} {us : List Text} (h : Format s us) :
    ∃ k, scan (s ++ [' ']) {} 0 (s ++ [' ']) = .ok ⟨false, k, us.map usize⟩ := by
  obtain ⟨k, h⟩ := scan_format h [] [' '] 0 [] (by simp) starts_blank
  simp only [List.nil_append, List.length_nil] at h
  refine ⟨k, h.trans ?_⟩
  rw [scan, step_plain (by decide)]
  rfl

theorem scan_lone {s : Text} {i : Nat} (h : LoneAt s i) :
    scan (s ++ [' ']) {} 0 (s ++ [' ']) = .error (.unescaped (i + 1)) := by
  obtain ⟨u, us, r, rfl, h1, h2, h3, rfl⟩ := h
  obtain ⟨k, h⟩ := scan_format h1 [] ('%' :: r ++ [' ']) 0 [] (by simp) starts_percent
  simp only [List.nil_append, List.length_nil, List.append_assoc, List.cons_append] at h ⊢
  rw [h, scan, step_start]
  simp only
  cases r with
  | nil =>
    rw [List.nil_append, scan, step_lone not_digit_blank (by decide)]
  | cons c r =>
    rw [List.cons_append, scan, step_lone (fun hc => h2 ⟨c, r, rfl, hc⟩) (fun hc => h3 r (by rw [hc]))]

theorem Format.digits {s : Text} {us : List Text} (h : Format s us) : ∀ u ∈ us, ∀ c ∈ u, Digit c := by
  induction h with
  | nil => simp
  | char _ _ ih => exact ih
  | percent _ ih => exact ih
  | token _ hd _ _ ih =>
    intro u hu
    rcases List.mem_cons.1 hu with rfl | hu
    · exact hd
    · exact ih u hu

theorem Format.usize {s : Text} {us : List Text} (h : Format s us) (hc : Countable us) :
    us.map SqfLint.usize = us.map number :=
  List.map_congr_left fun u hu => usize_eq (h.digits u hu) (hc u hu)

theorem maxTok_spec (ts : List Nat) : (ts = [] ∧ maxTok ts = 0) ∨ (maxTok ts ∈ ts ∧ ∀ t ∈ ts, t ≤ maxTok ts) := by
  unfold maxTok
  have key : ∀ n : Nat, n ≤ ts.foldl max n ∧ (∀ t ∈ ts, t ≤ ts.foldl max n) ∧ (ts.foldl max n = n ∨ ts.foldl max n ∈ ts) := by
    induction ts with
    | nil => intro n; simp
    | cons t ts ih =>
      intro n
      obtain ⟨h1, h2, h3⟩ := ih (max n t)
      simp only [List.foldl_cons, List.mem_cons]
      refine ⟨by omega, ?_, ?_⟩
      · rintro x (rfl | hx)
        · omega
        · exact h2 x hx
      · rcases h3 with h3 | h3
        · rw [h3]; omega
        · exact .inr (.inr h3)
  obtain ⟨-, h2, h3⟩ := key 0
  cases ts with
  | nil => exact .inl ⟨rfl, rfl⟩
  | cons t ts =>
    refine .inr ⟨?_, h2⟩
    rcases h3 with h3 | h3
    · have := h2 t (by simp)
      rw [h3] at this ⊢
      simp; omega
    · exact h3

theorem highest_iff {us : List Text} {n : Nat} : Highest us n ↔ maxTok (us.map number) = n := by
  unfold Highest
  rcases maxTok_spec (us.map number) with ⟨h1, h2⟩ | ⟨h1, h2⟩
  · rw [List.map_eq_nil_iff] at h1
    subst h1
    simp [maxTok, eq_comm]
  · obtain ⟨u, hu, hn⟩ := List.mem_map.1 h1
    constructor
    · rintro (⟨rfl, -⟩ | ⟨⟨u', hu', hn'⟩, h⟩)
      · cases hu
      · have a := h u hu
        have b := h2 _ (List.mem_map_of_mem (f := number) hu')
        omega
    · rintro rfl
      exact .inr ⟨⟨u, hu, hn⟩, fun u hu => h2 _ (List.mem_map_of_mem hu)⟩

end Verif.SqfLint
