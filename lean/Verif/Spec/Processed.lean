import Verif.Model.Preproc
/-!
What the preprocessed text consists of, character by character, and where each character comes from.
-/
namespace Verif.Processed.Spec
open Verif.Preproc

/-- A character of the preprocessed text, the token it was written by, and the macro uses it comes from, the innermost
first. -/
structure Ch where
  c : Char
  tok : Tok
  uses : List Tok

/-- The quotes that are open after a token, the innermost first. A single quote that takes up no room in its file (one
made up by the preprocessor) always opens. -/
def openQuotes (open_ : List Char) (t : Tok) : List Char :=
  match t.sym, open_ with
  | .dquote, '"' :: rest => rest
  | .dquote, l => '"' :: l
  | .squote, '\'' :: rest => if t.pos.start.offset = t.pos.stop.offset then '\'' :: '\'' :: rest else rest
  | .squote, l => '\'' :: l
  | _, l => l

/-- What a token writes: its text, but nothing for `##` outside of quotes. -/
def written (open_ : List Char) (t : Tok) : Text :=
  if t.sym.text = ['#', '#'] ∧ open_ = [] then [] else t.sym.text

mutual
/-- The characters written by an element, and the quotes open after it. -/
def label (q : List Char) : Out → List Char × List Ch
  | .direct t => (openQuotes q t, (written (openQuotes q t) t).map (⟨·, t, []⟩))
  | .mac r o => ((labels q o).1, (labels q o).2.map fun ch => { ch with uses := ch.uses ++ [r] })
/-- The characters written by a list of elements, and the quotes open after it. -/
def labels (q : List Char) : List Out → List Char × List Ch
  | [] => (q, [])
  | o :: l => ((labels (label q o).1 l).1, (label q o).2 ++ (labels (label q o).1 l).2)
end

/-- The text with the origin of every character. -/
def origin (output : List Out) : List Ch := (labels [] output).2

/-- The line (from 0) a text ends in. -/
def lineOf (s : Text) : Nat := s.count '\n'

/-- The number of characters on the last line of a text. -/
def colOf (s : Text) : Nat := (s.reverse.takeWhile (· ≠ '\n')).length

mutual
/-- Only newline tokens have a newline in their text. -/
def Clean : Out → Prop
  | .direct t => t.sym ≠ .newline → '\n' ∉ t.sym.text
  | .mac _ o => CleanL o
/-- `Clean` for all elements. -/
def CleanL : List Out → Prop
  | [] => True
  | o :: l => Clean o ∧ CleanL l
end

end Verif.Processed.Spec
