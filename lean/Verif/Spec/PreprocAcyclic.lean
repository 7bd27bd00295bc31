import Verif.Spec.Preproc
/-!
When preprocessing has to terminate: no macro reaches itself through the names in its body, no file reaches itself
through `#include`. Both are expressed by a rank that goes down.
-/
namespace Verif.Preproc.Spec
open Verif.Preproc

/-- The rest of a line after a macro name: up to a line end that no backslash precedes (`esc` says whether the last
token was one). The end of the file does not count. -/
def logical : Bool → List Tok → List Tok
  | _, [] => []
  | esc, t :: l =>
    if t.sym = .newline ∧ esc = false then []
    else if t.sym = .eoi then logical esc l
    else t :: logical (decide (t.sym = .escape)) l

/-- `a b` is not the start of a directive. -/
def NotDir (a b : Tok) : Prop := a.sym = .directive → b.sym.text ∉ directiveWords

/-- No `#` of these tokens starts a directive once `##` has been dropped. -/
def NoDir (l : List Tok) : Prop := List.IsChain NotDir (l.filter fun t => t.sym ≠ .join)

/-- A file that can be read. -/
def Real (env : Env) (p : Text) : Prop := ∃ all, env.load p = .ok all

/-- The files and macros of a world are not circular: `rank` and `frank` go down along macro bodies and includes.
Macro bodies hold no directives. Only what is written in some file counts, wherever in the file. -/
structure Acyclic (env : Env) (rank frank : Text → Nat) : Prop where
  defs : ∀ {p all pre h d ws nm l name}, env.load p = .ok all → all = pre ++ h :: d :: (ws ++ nm :: l) →
    h.sym = .directive → d.sym = .word (kw "define") → blank (ws.map Tok.sym) = true → nm.sym = .word name →
    (∀ t ∈ logical false l, ∀ w, t.sym = .word w → rank w < rank name) ∧ NoDir (logical false l)
  incs : ∀ {p all pre h d ws o path tail close q b}, env.load p = .ok all →
    all = pre ++ h :: d :: (ws ++ o :: (path ++ tail)) →
    h.sym = .directive → d.sym = .word (kw "include") → blank (ws.map Tok.sym) = true →
    (o.sym = .dquote ∧ close = .dquote ∨ o.sym = .langle ∧ close = .rangle) →
    (∀ t ∈ path, t.sym ≠ close ∧ t.sym ≠ .newline) → (tail = [] ∨ ∃ c r, tail = c :: r ∧ c.sym = close) →
    env.locate p (text (path.map Tok.sym)) = some (q, b) → frank q < frank p
  /-- The name of a file is no macro that could reach the built-in macro that stands for it. -/
  names : ∀ p, Real env p → rank (env.fileMacro p) < rank (kw "__FILE__") ∧ rank (env.fileName p) < rank (kw "__FILE_NAME__") ∧
    rank (Defines.shortName (env.fileName p)) < rank (kw "__FILE_SHORT__")
  /-- Tokens point into files. -/
  paths : ∀ {p all}, env.load p = .ok all → ∀ t ∈ all, Real env t.pos.path
  /-- Reading a file always ends. -/
  loads : ∀ p, env.load p ≠ .error .fuel

end Verif.Preproc.Spec
