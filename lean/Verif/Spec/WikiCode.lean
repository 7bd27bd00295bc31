import Verif.Spec.WikiLinks
/-!
Code in a description of the wiki, how it is written there, and how it is to be shown. Nothing here refers to the
functions of the model.
-/
namespace Verif.WikiCodeSpec

/-- A piece of a description. -/
inductive Piece where
  /-- text without marks -/
  | plain (t : Text)
  /-- code in a line -/
  | inline (code : Text)
  /-- code of its own -/
  | block (code : Text)
  /-- highlighted text -/
  | hl (code : Text)

/-- How a piece is written in the wiki. -/
def Piece.source : Piece → Text
  | .plain t => t
  | .inline c => ['<', 's', 'q', 'f', ' ', 'i', 'n', 'l', 'i', 'n', 'e', '>'] ++ c ++ ['<', '/', 's', 'q', 'f', '>']
  | .block c => ['<', 's', 'q', 'f', '>'] ++ c ++ ['<', '/', 's', 'q', 'f', '>']
  | .hl c => ['{', '{', 'h', 'l', '|'] ++ c ++ ['}', '}']

/-- How a piece is to be shown: the code itself, between the marks that Markdown has for code. -/
def Piece.shown : Piece → Text
  | .plain t => t
  | .inline c => ['`'] ++ c ++ ['`']
  | .block c => ['`', '`', '`', 's', 'q', 'f', '\n'] ++ c ++ ['\n', '`', '`', '`']
  | .hl c => ['`'] ++ c ++ ['`']

/-- Nowhere is the character doubled. -/
def NoDouble (o : Char) (t : Text) : Prop := ∀ a b, t ≠ a ++ o :: o :: b

/-- The character `<` is not followed by `s` or `/`: there is no tag for code. -/
def TagFree (t : Text) : Prop := ∀ a d b, t = a ++ '<' :: d :: b → d ≠ 's' ∧ d ≠ '/'

/-- Pieces whose code has no marks of the wiki for code or templates in it. -/
def Piece.Ok : Piece → Prop
  | .plain t => '<' ∉ t ∧ '{' ∉ t ∧ '[' ∉ t
  | .inline c => c ≠ [] ∧ TagFree c ∧ NoDouble '{' c
  | .block c => c ≠ [] ∧ TagFree c ∧ NoDouble '{' c
  | .hl c => c ≠ [] ∧ '<' ∉ c ∧ '{' ∉ c ∧ '}' ∉ c ∧ '\n' ∉ c

/-- The code has no array that begins with an array. -/
def Piece.Flat : Piece → Prop
  | .plain _ => True
  | .inline c => NoDouble '[' c
  | .block c => NoDouble '[' c
  | .hl c => NoDouble '[' c

end Verif.WikiCodeSpec
