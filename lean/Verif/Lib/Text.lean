import Mathlib.Tactic.Ring
import Mathlib.Tactic.Linarith
/-!
Shared vocabulary for text-level models. Text is `List Char`.
`split`, `decimal` and `parseU32` model the Rust standard library functions `str::split(char)`,
`Display for u32` and `str::parse::<u32>`.
-/
namespace Verif

abbrev Text := List Char

/-- `str::split(c)`: always at least one piece. -/
def split (c : Char) : Text → List Text
  | [] => [[]]
  | a :: s =>
    if a = c then [] :: split c s
    else match split c s with
      | [] => [[a]]
      | p :: ps => (a :: p) :: ps

theorem split_ne_nil (c : Char) (s : Text) : split c s ≠ [] := by
  cases s with
  | nil => simp [split]
  | cons a s =>
    simp only [split]
    split
    · simp
    · split <;> simp

/-- Concatenation with a separator, the inverse of `split`. -/
def joinWith (c : Char) : List Text → Text
  | [] => []
  | [p] => p
  | p :: q :: ps => p ++ c :: joinWith c (q :: ps)

theorem split_of_not_mem {c : Char} {p : Text} (h : c ∉ p) : split c p = [p] := by
  induction p with
  | nil => rfl
  | cons a p ih =>
    simp only [List.mem_cons, not_or] at h
    have ha : a ≠ c := fun e => h.1 e.symm
    simp [split, ha, ih h.2]

theorem split_append {c : Char} {p : Text} (h : c ∉ p) (s : Text) :
    split c (p ++ c :: s) = p :: split c s := by
  induction p with
  | nil => simp [split]
  | cons a p ih =>
    simp only [List.mem_cons, not_or] at h
    have ha : a ≠ c := fun e => h.1 e.symm
    simp [split, ha, ih h.2]

theorem split_joinWith {c : Char} {ps : List Text} (hne : ps ≠ []) (h : ∀ p ∈ ps, c ∉ p) :
    split c (joinWith c ps) = ps := by
  induction ps with
  | nil => exact absurd rfl hne
  | cons p ps ih =>
    cases ps with
    | nil => exact split_of_not_mem (h p (by simp))
    | cons q ps =>
      rw [joinWith, split_append (h p (by simp)), ih (by simp) (fun x hx => h x (by simp [hx]))]

theorem split_pieces {c : Char} {s : Text} : ∀ p ∈ split c s, c ∉ p := by
  induction s with
  | nil => simp [split]
  | cons a s ih =>
    intro p hp
    simp only [split] at hp
    split at hp
    · rcases List.mem_cons.1 hp with rfl | hp
      · simp
      · exact ih p hp
    · rename_i ha
      have hac : c ≠ a := fun e => ha e.symm
      split at hp
      · rw [List.mem_singleton.1 hp]
        simpa using hac
      · rename_i q qs heq
        rw [heq] at ih
        rcases List.mem_cons.1 hp with rfl | hp
        · simp [hac, ih q (by simp)]
        · exact ih p (by simp [hp])

theorem joinWith_split (c : Char) (s : Text) : joinWith c (split c s) = s := by
  induction s with
  | nil => rfl
  | cons a s ih =>
    simp only [split]
    have hne := split_ne_nil c s
    split
    · rename_i h
      subst h
      cases hs : split a s with
      | nil => exact absurd hs hne
      | cons p ps => rw [hs] at ih; simp [joinWith, ih]
    · cases hs : split c s with
      | nil => exact absurd hs hne
      | cons p ps =>
        rw [hs] at ih
        cases ps with
        | nil => simp [joinWith] at ih ⊢; exact ih
        | cons q qs => simp [joinWith] at ih ⊢; exact ih

/-- The character of a decimal digit. -/
def digitChar (d : Nat) : Char := Char.ofNat (48 + d)

/-- `Display for u32`: shortest decimal text. -/
def decimal (n : Nat) : Text :=
  if n < 10 then [digitChar n] else decimal (n / 10) ++ [digitChar (n % 10)]
termination_by n

/-- Value of an ASCII digit. -/
def digitVal? (c : Char) : Option Nat :=
  if '0' ≤ c ∧ c ≤ '9' then some (c.toNat - 48) else none

/-- Accumulating digit loop of `u32::from_str`, unbounded. -/
def parseDigits : Nat → Text → Option Nat
  | acc, [] => some acc
  | acc, c :: s => match digitVal? c with
    | some d => parseDigits (acc * 10 + d) s
    | none => none

/-- The optional leading `+` accepted by `u32::from_str`. -/
def stripPlus (s : Text) : Text :=
  match s with
  | '+' :: r => r
  | _ => s

/-- `str::parse::<u32>()`: optional `+`, at least one digit, value below 2^32. -/
def parseU32 (s : Text) : Option Nat :=
  if stripPlus s = [] then none
  else match parseDigits 0 (stripPlus s) with
    | some v => if v < 2 ^ 32 then some v else none
    | none => none

theorem digitChar_val : ∀ d, d < 10 → digitVal? (digitChar d) = some d := by decide

theorem digitChar_ne : ∀ d, d < 10 → digitChar d ≠ '-' ∧ digitChar d ≠ '.' ∧ digitChar d ≠ '+' := by
  decide

theorem decimal_ne_nil (n : Nat) : decimal n ≠ [] := by
  rw [decimal]; split <;> simp

theorem decimal_mem {n : Nat} {c : Char} (h : c ∈ decimal n) : ∃ d < 10, c = digitChar d := by
  induction n using Nat.strongRecOn with
  | ind n ih =>
    rw [decimal] at h
    split at h
    · exact ⟨n, by assumption, by simpa using h⟩
    · rcases List.mem_append.1 h with h | h
      · exact ih (n/10) (by omega) h
      · exact ⟨n % 10, by omega, by simpa using h⟩

theorem parseDigits_append (a : Nat) (s t : Text) (v : Nat) (h : parseDigits a s = some v) :
    parseDigits a (s ++ t) = parseDigits v t := by
  induction s generalizing a with
  | nil => simp [parseDigits] at h; simp [h]
  | cons c s ih =>
    simp only [parseDigits, List.cons_append] at h ⊢
    split at h
    · exact ih _ h
    · exact absurd h (by simp)

theorem parseDigits_decimal (n : Nat) : parseDigits 0 (decimal n) = some n := by
  induction n using Nat.strongRecOn with
  | ind n ih =>
    rw [decimal]
    split
    · simp [parseDigits, digitChar_val n (by assumption)]
    · rw [parseDigits_append 0 _ _ _ (ih (n/10) (by omega))]
      simp only [parseDigits, digitChar_val (n % 10) (by omega)]
      congr 1; omega

theorem parseU32_decimal {n : Nat} (h : n < 2 ^ 32) : parseU32 (decimal n) = some n := by
  have h1 : decimal n ≠ [] := decimal_ne_nil n
  have h2 : ∀ r, decimal n ≠ '+' :: r := by
    intro r hr
    obtain ⟨d, hd, he⟩ := decimal_mem (n := n) (c := '+') (by rw [hr]; simp)
    exact (digitChar_ne d hd).2.2 he.symm
  have h3 : stripPlus (decimal n) = decimal n := by
    unfold stripPlus
    split
    · rename_i r hr; exact absurd hr (h2 r)
    · rfl
  simp only [parseU32, h3, if_neg h1, parseDigits_decimal, if_pos h]

theorem decimal_not_mem {n : Nat} : '-' ∉ decimal n ∧ '.' ∉ decimal n ∧ '+' ∉ decimal n := by
  refine ⟨fun h => ?_, fun h => ?_, fun h => ?_⟩ <;>
    obtain ⟨d, hd, he⟩ := decimal_mem h
  · exact (digitChar_ne d hd).1 he.symm
  · exact (digitChar_ne d hd).2.1 he.symm
  · exact (digitChar_ne d hd).2.2 he.symm

theorem parseU32_lt {s : Text} {v : Nat} (h : parseU32 s = some v) : v < 2 ^ 32 := by
  unfold parseU32 at h
  split at h
  · simp at h
  · split at h
    · split at h
      · simp at h; omega
      · simp at h
    · simp at h

end Verif
