import Verif.Lib.Text
import Mathlib.Data.List.Infix
/-!
What comments, strings and lines of a source are, read character by character and without tokens.
-/
namespace Verif.Preproc.Spec

/-- Where a character stands: in code, in a string of double or single quotes, in a comment that
ends with the line, in a comment that ends with `*/`. -/
inductive Mode
  | code | dq | sq | line | block
  deriving DecidableEq, Repr

/-- A block comment is a comment only if it is closed somewhere. -/
abbrev Closes (s : Text) : Prop := ['*', '/'] <:+: s

/-- The source without its comments, with every line end as `\n`. -/
def strip : Mode → Text → Text
  | _, [] => []
  | .block, '*' :: '/' :: s => strip .code s
  | .block, _ :: s => strip .block s
  | .code, '/' :: '/' :: s => strip .line s
  | .code, '/' :: '*' :: s => if Closes s then strip .block s else '/' :: strip .code ('*' :: s)
  | .code, '"' :: s => '"' :: strip .dq s
  | .code, '\'' :: s => '\'' :: strip .sq s
  | .dq, '"' :: s => '"' :: strip .code s
  | .sq, '\'' :: s => '\'' :: strip .code s
  | .line, '\r' :: '\n' :: s => '\n' :: strip .code s
  | .line, '\r' :: s => '\n' :: strip .code s
  | .line, '\n' :: s => '\n' :: strip .code s
  | .line, _ :: s => strip .line s
  | m, '\r' :: '\n' :: s => '\n' :: strip m s
  | m, '\r' :: s => '\n' :: strip m s
  | m, c :: s => c :: strip m s

/-- No `/* … */` begins in a string or in a `//` comment. -/
def NoTrap : Mode → Text → Prop
  | _, [] => True
  | .block, '*' :: '/' :: s => NoTrap .code s
  | .block, _ :: s => NoTrap .block s
  | .code, '/' :: '/' :: s => NoTrap .line s
  | .code, '/' :: '*' :: s =>
    (Closes s → NoTrap .block s) ∧ (¬ Closes s → NoTrap .code ('*' :: s))
  | .code, '"' :: s => NoTrap .dq s
  | .code, '\'' :: s => NoTrap .sq s
  | .dq, '"' :: s => NoTrap .code s
  | .sq, '\'' :: s => NoTrap .code s
  | .line, '\r' :: '\n' :: s => NoTrap .code s
  | .line, '\r' :: s => NoTrap .code s
  | .line, '\n' :: s => NoTrap .code s
  | m, '/' :: '*' :: s => ¬ Closes s ∧ NoTrap m ('*' :: s)
  | m, _ :: s => NoTrap m s

/-- The source without the block comments, wherever they begin. The flag says that the text begins
inside of one. -/
def outside : Bool → Text → Text
  | _, [] => []
  | true, '*' :: '/' :: s => outside false s
  | true, _ :: s => outside true s
  | false, '/' :: '/' :: s => '/' :: '/' :: outside false s
  | false, '/' :: '*' :: s => if Closes s then outside true s else '/' :: outside false ('*' :: s)
  | false, c :: s => c :: outside false s

end Verif.Preproc.Spec
