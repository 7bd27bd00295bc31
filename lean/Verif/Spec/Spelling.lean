import Verif.Model.Tokenize
import Verif.Spec.Comments
/-!
How a list of symbols is written down so that it is read back as it is.
-/
namespace Verif.Preproc.Spec
open Verif.Preproc

/-- The text of a symbol in a source. -/
def spell : Sym → Text
  | .comment c => c
  | y => y.text

/-- The text of a list of symbols. -/
def spellAll (l : List Sym) : Text := l.flatMap spell

/-- A character that has no meaning of its own to the preprocessor. -/
def otherSign (cl : Classes) (c : Char) : Prop :=
  cl.sign c = true ∧ cl.letter c = false ∧ asciiDigit c = false ∧
    c ∉ ['_', '(', ')', '#', '\\', ',', '"', '\'', '<', '>', '=']

/-- Is `l` written apart enough, if it stands in a string of double (`dq`) or single (`sq`) quotes?
A word is a name and no name goes on behind it, `#` is not followed by `#`, `/` not by `/` or `*`,
comments are block comments outside of strings. -/
def Apart (cl : Classes) (dq sq : Bool) : List Sym → Prop
  | [] => True
  | .word w :: l =>
    (∃ c t, w = c :: t ∧ (c = '_' ∨ cl.letter c = true) ∧ ∀ d ∈ t, cl.wordChar d = true) ∧
      (∀ d, (spellAll l).head? = some d → cl.wordChar d = false) ∧ Apart cl dq sq l
  | .digit n :: l => n < 10 ∧ Apart cl dq sq l
  | .directive :: l => (spellAll l).head? ≠ some '#' ∧ Apart cl dq sq l
  | .unicode u :: l =>
    (∃ c, u = [c] ∧ otherSign cl c ∧
      (c = '/' → (spellAll l).head? ≠ some '/' ∧ (spellAll l).head? ≠ some '*')) ∧ Apart cl dq sq l
  | .comment c :: l =>
    (dq = false ∧ sq = false) ∧ (∃ a, c = '/' :: '*' :: a ++ ['*', '/'] ∧ ¬ Closes (a ++ ['*'])) ∧
      Apart cl dq sq l
  | .dquote :: l => Apart cl (if sq then dq else !dq) sq l
  | .squote :: l => Apart cl dq (if dq then sq else !sq) l
  | .alpha _ :: _ | .underscore :: _ | .eoi :: _ => False
  | _ :: l => Apart cl dq sq l

end Verif.Preproc.Spec
