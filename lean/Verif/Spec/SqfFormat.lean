import Verif.Lib.Text
/-!
Specification of format strings: what they are made of, and which arguments they use. Nothing here uses the model of the lint.
-/
namespace Verif.SqfLint

def Digit (c : Char) : Prop := '0' ≤ c ∧ c ≤ '9'

/-- The text starts with a digit. -/
def StartsDigit (s : Text) : Prop := ∃ c t, s = c :: t ∧ Digit c

/-- A format string and the numbers behind its tokens: a text of ordinary characters, of `%%`, and of tokens, which are `%`
and all the digits that follow. -/
inductive Format : Text → List Text → Prop where
  | nil : Format [] []
  | char {c s us} : c ≠ '%' → Format s us → Format (c :: s) us
  | percent {s us} : Format s us → Format ('%' :: '%' :: s) us
  | token {d s us} : d ≠ [] → (∀ c ∈ d, Digit c) → ¬ StartsDigit s → Format s us → Format ('%' :: d ++ s) (d :: us)

/-- The number written by digits. -/
def number (d : Text) : Nat := d.foldl (fun n c => 10 * n + (c.toNat - 48)) 0

/-- A `%` at position `i` (counted from 0) which is neither a token nor part of `%%`. -/
def LoneAt (s : Text) (i : Nat) : Prop :=
  ∃ u us r, s = u ++ '%' :: r ∧ Format u us ∧ ¬ StartsDigit r ∧ (∀ t, r ≠ '%' :: t) ∧ i = u.length

/-- The highest of the numbers, 0 if there are none. -/
def Highest (us : List Text) (n : Nat) : Prop :=
  (us = [] ∧ n = 0) ∨ ((∃ u ∈ us, number u = n) ∧ ∀ u ∈ us, number u ≤ n)

/-- Numbers of a size the computer can count. -/
def Countable (us : List Text) : Prop := ∀ u ∈ us, number u < 2 ^ 64

end Verif.SqfLint
