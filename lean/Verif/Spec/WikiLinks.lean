import Verif.Lib.Text
/-!
What a description in the wiki says, how that is written in the wiki, and how it is to be shown. Nothing here refers to
the functions of the model.
-/
namespace Verif.WikiLinksSpec

/-- A piece of a description. -/
inductive Piece where
  /-- text without marks -/
  | plain (t : Text)
  /-- a link to a page, shown by its title -/
  | page (title : Text)
  /-- a link to a page, shown as a text -/
  | named (title text : Text)
  /-- a link to a section of the page that the description is on -/
  | section (heading : Text)
  /-- a link to a page by the template -/
  | template (title : Text)

/-- How a piece is written in the wiki. -/
def Piece.source : Piece → Text
  | .plain t => t
  | .page p => ['[', '['] ++ p ++ [']', ']']
  | .named p t => ['[', '['] ++ p ++ ['|'] ++ t ++ [']', ']']
  | .section h => ['{', '{', 'L', 'i', 'n', 'k', '|', '#'] ++ h ++ ['}', '}']
  | .template p => ['{', '{', 'L', 'i', 'n', 'k', '|'] ++ p ++ ['}', '}']

/-- What addresses of pages begin with. -/
def base : Text := "https://community.bistudio.com/wiki/".toList

/-- The address of a page of the wiki: its title, with underscores for spaces. -/
def address (title : Text) : Text :=
  base ++ title.map (fun c => if c = ' ' then '_' else c)

/-- How a piece of the description of `name` is to be shown. -/
def Piece.shown (name : Text) : Piece → Text
  | .plain t => t
  | .page p => ['['] ++ p ++ [']', '('] ++ address p ++ [')']
  | .named p t => ['['] ++ t ++ [']', '('] ++ address p ++ [')']
  | .section h => ['['] ++ h ++ [']', '('] ++ address (name ++ ['#'] ++ h) ++ [')']
  | .template p => ['['] ++ p ++ [']', '('] ++ address p ++ [')']

/-- The characters that marks are made of, and the end of a line. -/
def Simple (t : Text) : Prop := ∀ c ∈ t, c ∉ (['[', ']', '{', '}', '|', '\n'] : Text)

/-- Pieces that are made of text without marks. -/
def Piece.Ok : Piece → Prop
  | .plain t => '[' ∉ t ∧ '{' ∉ t
  | .page p => p ≠ [] ∧ Simple p
  | .named p t => Simple p ∧ Simple t
  | .section h => Simple h ∧ h.head? ≠ some '#'
  | .template p => p ≠ [] ∧ Simple p ∧ p.head? ≠ some '#'

/-- Titles that are shown as they are have no spaces. -/
def Piece.Spaceless : Piece → Prop
  | .page p => ' ' ∉ p
  | .template p => ' ' ∉ p
  | _ => True

/-- How a piece is shown if spaces are only replaced where a title is not what is shown. -/
def Piece.asIs (name : Text) : Piece → Text
  | .page p => ['['] ++ p ++ [']', '('] ++ base ++ p ++ [')']
  | .template p => ['['] ++ p ++ [']', '('] ++ base ++ p ++ [')']
  | q => q.shown name

end Verif.WikiLinksSpec
