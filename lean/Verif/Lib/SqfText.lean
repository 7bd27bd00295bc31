import Verif.Model.SqfLex
/-!
SQF as text: how tokens are written and how a text is made of them. The specification the lexer is compared with.
-/
namespace Verif.SqfLex
open Verif.Sqf Verif.SqfParse
open Verif.Prefix (isWs)

/-- Decimal digits, at least one. -/
def Digits (s : Text) : Prop := s ≠ [] ∧ ∀ c ∈ s, isDigit c = true

/-- How numbers are written: whole numbers, hexadecimal numbers, fractions, and with an exponent. -/
inductive NumText (F : F32) : UInt32 → Text → Prop
  | int {d} : Digits d → value 10 d < 2 ^ 32 → NumText F (F.ofNat (value 10 d)) d
  | hex {p d} : p = ['$'] ∨ p = ['0', 'x'] → d ≠ [] → (∀ c ∈ d, isHex c = true) → value 16 d < 2 ^ 32 →
      NumText F (F.ofNat (value 16 d)) (p ++ d)
  | frac {w d} : w = [] ∨ Digits w → Digits d → NumText F (F.parse (w ++ ['.'] ++ d)) (w ++ ['.'] ++ d)
  | exp {w d c g x} : w = [] ∨ (∃ w', Digits w' ∧ w = w' ++ ['.']) → Digits d → c = 'e' ∨ c = 'E' →
      g = [] ∨ g = ['-'] ∨ g = ['+'] → Digits x → NumText F (F.parse (w ++ d ++ [c] ++ g ++ x)) (w ++ d ++ [c] ++ g ++ x)

/-- A letter or the underscore. -/
def isFirst (c : Char) : Bool := isAlpha c || c = '_'
/-- What names are made of. -/
def isName (c : Char) : Bool := isAlpha c || isDigit c || c = '_'

/-- A string as it stands between quotes: the quote is doubled. -/
def escape (q : Char) (s : Text) : Text := s.flatMap fun c => if c = q then [q, q] else [c]

/-- How a token is written. -/
inductive Spells (F : F32) : Token → Text → Prop
  | op {o} : Spells F (.op o) (opText o)
  | ctl {c} : Spells F (.ctl c) (ctlText c)
  | block {s} : ¬ ['*', '/'] <:+: s → Spells F (.comment (enc (['/', '*'] ++ s ++ ['*', '/']))) (['/', '*'] ++ s ++ ['*', '/'])
  | line {s} : '\n' ∉ s → Spells F (.comment (enc (['/', '/'] ++ s))) (['/', '/'] ++ s)
  | num {x s} : NumText F x s → Spells F (.num x) s
  | name {c s} : isFirst c = true → (∀ x ∈ s, isName x = true) → Spells F (.ident (enc (c :: s))) (c :: s)
  | str {s w} : Spells F (.str (enc s) w) ([quote w] ++ escape (quote w) s ++ [quote w])

/-- A name, a number or a string cannot start here. -/
def NoConst : Text → Prop
  | [] => True
  | c :: s => isName c = false ∧ c ≠ '\'' ∧ c ≠ '"' ∧
      (c = '.' → ∀ d ∈ s.head?, isDigit d = false) ∧ (c = '$' → ∀ d ∈ s.head?, isHex d = false)

/-- The token may end before this text: it does not go on there, and the text is not an unseparated constant. -/
def Ends : Token → Text → Text → Prop
  | .op .greater, _, r => ∀ c ∈ r.head?, c ≠ '>' ∧ c ≠ '='
  | .op .less, _, r | .op .not, _, r | .op .assign, _, r => ∀ c ∈ r.head?, c ≠ '='
  | .op .div, _, r => (∀ c ∈ r.head?, c ≠ '/') ∧ ∀ r', r = '*' :: r' → ¬ ['*', '/'] <:+: r'
  | .op _, _, _ | .ctl _, _, _ => True
  | .comment _, s, r => ['/', '*'] <+: s ∨ r = [] ∨ (s.getLast? ≠ some '\r' ∧ ['\n'] <+: r) ∨ ['\r', '\n'] <+: r
  | _, _, r => NoConst r

/-- `Layout F n ts s`: the text `s`, which begins at position `n`, is the tokens with their positions, and white space
between them. -/
inductive Layout (F : F32) : Nat → List Tok → Text → Prop
  | done {n w} : (∀ c ∈ w, isWs c = true) → Layout F n [] w
  | tok {n w t s ts r} : (∀ c ∈ w, isWs c = true) → Spells F t s → Ends t s r → Layout F (n + w.length + s.length) ts r →
      Layout F n ((t, (n + w.length, n + w.length + s.length)) :: ts) (w ++ s ++ r)

end Verif.SqfLex
