import Verif.Model.ConfigParse
import Verif.Lib.SqfText
/-!
Configs as text: how the parts of a config are written. The specification the config parser is compared with.

In `X a s r` the text `s` is `a` as written, followed by the text `r`.
-/
namespace Verif.ConfigParse
open Verif.Prefix (isWs trim)
open Verif.Rap (Num)
open Verif.SqfLex (Digits isDigit isHex isAlpha escape)

/-- White space, or nothing. -/
def Blank (w : Text) : Prop := ∀ c ∈ w, isWs c = true

/-- Names are made of letters, digits and underscores. -/
def Name (n : Text) : Prop := n ≠ [] ∧ ∀ c ∈ n, isDigit c = true ∨ isAlpha c = true ∨ c = '_'

/-- An integer is stored in 32 bits if it fits. -/
inductive IntNum : Int → Num → Prop
  | small {v} : v ≤ 2 ^ 31 - 1 → IntNum v (.i32 v)
  | large {v} : 2 ^ 31 ≤ v → IntNum v (.i64 v)

/-- How numbers are written, without sign: whole numbers, hexadecimal numbers, fractions, and with an exponent. -/
inductive Unsigned {α : Type} (F : Fl α) : Num → Text → Prop
  | int {d n} : Digits d → SqfLex.value 10 d < 2 ^ 63 → IntNum (SqfLex.value 10 d) n → Unsigned F n d
  | hex {d n} : d ≠ [] → (∀ c ∈ d, isHex c = true) → SqfLex.value 16 d < 2 ^ 63 → IntNum (SqfLex.value 16 d) n →
      Unsigned F n (['0', 'x'] ++ d)
  | frac {w d} : w = [] ∨ Digits w → Digits d →
      Unsigned F (.f32 (F.f32.parse (w ++ ['.'] ++ d)).toNat) (w ++ ['.'] ++ d)
  | exp {w d c g x} : w = [] ∨ (∃ w', Digits w' ∧ w = w' ++ ['.']) → Digits d → c = 'e' ∨ c = 'E' →
      g = [] ∨ g = ['-'] ∨ g = ['+'] → Digits x →
      Unsigned F (.f32 (F.f32.parse (w ++ d ++ [c] ++ g ++ x)).toNat) (w ++ d ++ [c] ++ g ++ x)

/-- The number with the other sign. -/
inductive Minus {α : Type} (F : Fl α) : Num → Num → Prop
  | i32 {v} : Minus F (.i32 v) (.i32 (-v))
  | i64 {v} : Minus F (.i64 v) (.i64 (-v))
  | f32 {b} : Minus F (.f32 b) (.f32 (F.neg (.ofNat b)).toNat)

/-- How numbers are written. -/
inductive Lit {α : Type} (F : Fl α) : Num → Text → Prop
  | pos {n t} : Unsigned F n t → Lit F n t
  | neg {n m t} : Unsigned F n t → Minus F n m → Lit F m ('-' :: t)

/-- A string with the breaks, each a backslash and a line feed, taken out. -/
def Unbroken (u v : Text) : Prop :=
  ∃ vs : List Text, u = (vs.intersperse ['\\', '\n']).flatten ∧ v = vs.flatten ∧ ∀ x ∈ vs, ¬ ['\\', '\n'] <:+: x

/-- A string in quotes. -/
def quoted (t : Text) : Text := ['"'] ++ escape '"' t ++ ['"']

/-- Strings, with `\n` between them outside of the quotes. -/
inductive Segs : List Text → Text → Prop
  | one {t} : Segs [t] (quoted t)
  | cons {t w w' ts s} : Blank w → Blank w' → Segs ts s → Segs (t :: ts) (quoted t ++ w ++ ['\\', 'n'] ++ w' ++ s)

/-- How a string value is written. -/
def Str (v s : Text) : Prop := ∃ ts, Segs ts s ∧ Unbroken (joinWith '\n' ts) v

/-- Text with balanced brackets, none of them empty. -/
inductive Bal : Text → Prop
  | text {t} : t ≠ [] → (∀ c ∈ t, c ≠ '(' ∧ c ≠ ')') → Bal t
  | group {t} : Bal t → Bal (['('] ++ t ++ [')'])
  | append {a b} : Bal a → Bal b → Bal (a ++ b)

section
variable (Nm : Num → Text → Text → Prop)

mutual
/-- An array. -/
inductive Arr : List Item → Text → Text → Prop
  | mk {is s r} : Items is s ('}' :: r) → Arr is ('{' :: s) r
/-- What stands between the braces of an array; a comma may follow the last item. -/
inductive Items : List Item → Text → Text → Prop
  | nil {w r} : Blank w → Items [] (w ++ r) r
  | last {i s w w' r} : Blank w → Blank w' → Itm i s (w' ++ r) → Items [i] (w ++ s) r
  | cons {i s s' is w w' r} : Blank w → Blank w' → Itm i s (w' ++ ',' :: s') → Items is s' r → Items (i :: is) (w ++ s) r
/-- An item of an array. -/
inductive Itm : Item → Text → Text → Prop
  | str {v t r} : Str v t → Itm (.str v) (t ++ r) r
  | num {n s r} : Nm n s r → Itm (.num n) s r
  | arr {is s r} : Arr is s r → Itm (.arr is) s r
end

/-- A value other than an array. -/
inductive Scalar : Val → Text → Text → Prop
  | str {v t r} : Str v t → Scalar (.str v) (t ++ r) r
  | num {n s r} : Nm n s r → Scalar (.num n) s r
  | expr {e r} : Bal e → Scalar (.expr e) (['_', '_', 'E', 'V', 'A', 'L'] ++ ['('] ++ e ++ [')'] ++ r) r

/-- What stands behind the name of a property. An array behind a name without `[]`, a value that is no array behind a name
with it, and a missing `=` are let through. -/
inductive Rhs : Val → Bool → Text → Text → Prop
  | arr {w1 w2 w3 is s r} : Blank w1 → Blank w2 → Blank w3 → Arr Nm is s r →
      Rhs (.arr false is) true (w1 ++ ['[', ']'] ++ w2 ++ ['='] ++ w3 ++ s) r
  | app {w1 w2 w3 is s r} : Blank w1 → Blank w2 → Blank w3 → Arr Nm is s r →
      Rhs (.arr true is) true (w1 ++ ['[', ']'] ++ w2 ++ ['+', '='] ++ w3 ++ s) r
  | val {w1 w2 v s r} : Blank w1 → Blank w2 → Scalar Nm v s r → Rhs v false (w1 ++ ['='] ++ w2 ++ s) r
  | oddVal {w1 w2 w3 v s r} : Blank w1 → Blank w2 → Blank w3 → Scalar Nm v s r →
      Rhs v true (w1 ++ ['[', ']'] ++ w2 ++ ['='] ++ w3 ++ s) r
  | oddArr {w1 w2 is s r} : Blank w1 → Blank w2 → Arr Nm is s r → Rhs (.uarr is) false (w1 ++ ['='] ++ w2 ++ s) r
  | noEqVal {w1 w2 v s r} : Blank w1 → Blank w2 → Scalar Nm v s r → Rhs v true (w1 ++ ['[', ']'] ++ w2 ++ s) r
  | noEqArr {w1 w2 is s r} : Blank w1 → Blank w2 → Arr Nm is s r → Rhs (.uarr is) true (w1 ++ ['[', ']'] ++ w2 ++ s) r

/-- `class` and the name; a blank is needed between them. -/
inductive Cls : Text → Text → Text → Prop
  | mk {n w r} : Name n → Blank w → Cls n (['c', 'l', 'a', 's', 's', ' '] ++ w ++ n ++ r) r

mutual
/-- A property without its semicolon. -/
inductive Body : Prp → Text → Text → Prop
  | entry {n v b s r} : Name n → Rhs Nm v b s r → Body (.entry n v b) (n ++ s) r
  | del {n w r} : Name n → Blank w → Body (.del n) (['d', 'e', 'l', 'e', 't', 'e', ' '] ++ w ++ n ++ r) r
  | ext {n s r} : Cls n s r → Body (.ext n) s r
  | noBraces {n p s w w' r} : Cls n s (w ++ [':'] ++ w' ++ p ++ r) → Blank w → Blank w' → Name p →
      Body (.loc n (some p) [] true) s r
  | root {n s w ps s' r} : Cls n s (w ++ ['{'] ++ s') → Blank w → Props ps s' ('}' :: r) → Body (.loc n none ps false) s r
  | child {n s w w' w'' p ps s' r} : Cls n s (w ++ [':'] ++ w' ++ p ++ w'' ++ ['{'] ++ s') → Blank w → Blank w' → Name p →
      Blank w'' → Props ps s' ('}' :: r) → Body (.loc n (some p) ps false) s r
/-- Properties, each with its semicolon; where it is missing only the name is kept. -/
inductive Props : List Prp → Text → Text → Prop
  | nil {w r} : Blank w → Props [] (w ++ r) r
  | cons {w p s w' s' ps r} : Blank w → Body p s (w' ++ ';' :: s') → Blank w' → Props ps s' r → Props (p :: ps) (w ++ s) r
  | miss {w p s s' ps r} : Blank w → Body p s s' → Props ps s' r → Props (.missing p.name :: ps) (w ++ s) r
end
end

/-- The text of a config. -/
def Written (Nm : Num → Text → Text → Prop) (ps : List Prp) (s : Text) : Prop := Props Nm ps s []

mutual
/-- No semicolon is missing in the property. -/
def Ended : Prp → Prop
  | .loc _ _ ps _ => AllEnded ps
  | .missing _ => False
  | _ => True
/-- No semicolon is missing. -/
def AllEnded : List Prp → Prop
  | [] => True
  | p :: ps => Ended p ∧ AllEnded ps
end

/-- The number a value of an expression becomes. -/
inductive Becomes {α : Type} (F : Fl α) : α → Num → Prop
  | i32 {v z} : F.whole v = some z → -2 ^ 31 ≤ z → z ≤ 2 ^ 31 - 1 → Becomes F v (.i32 z)
  | i64 {v z z'} : F.whole v = some z → z < -2 ^ 31 ∨ 2 ^ 31 - 1 < z → z' = max (-2 ^ 63) (min z (2 ^ 63 - 1)) →
      Becomes F v (.i64 z')
  | f32 {v} : F.whole v = none → Becomes F v (.f32 (F.toF32 v).toNat)

/-- `Formula F k u t`: the text `t` of `k` numbers, operators, brackets and blanks, which reads `u` with the numbers
printed anew. -/
inductive Formula {α : Type} (F : Fl α) : Nat → Text → Text → Prop
  | nil : Formula F 0 [] []
  | num {n l k u t} : Lit F n l → Formula F k u t → Formula F (k + 1) (numText F n ++ u) (l ++ t)
  | op {c k u t} : c ∈ ['-', '+', '*', '/', '%', '^', '(', ')', ' '] → Formula F k u t → Formula F (k + 1) (c :: u) (c :: t)

/-- The numbers as the parser reads them: a number as written, or the value of a formula. -/
def Reading {α : Type} (F : Fl α) (n : Num) (s r : Text) : Prop :=
  (∃ l, Lit F n l ∧ s = l ++ r) ∨
  ∃ k u t v, Formula F k u t ∧ 2 ≤ k ∧ s = t ++ r ∧ Math.eval F.f64 (trim u) = some v ∧ Becomes F v n

/-- A number as written. A blank behind it is allowed if the number, printed anew and evaluated, is the same number (or no
formula). -/
def Writing {α : Type} (F : Fl α) (n : Num) (s r : Text) : Prop :=
  ∃ l, Lit F n l ∧ s = l ++ r ∧
    (r.head? = some ' ' → ∀ v m, Math.eval F.f64 (trim (numText F n)) = some v → Becomes F v m → m = n)

end Verif.ConfigParse
