import Verif.Model.Sources
import Verif.Model.Tokenize
/-! The preprocessor at work on the files of the project: `Processor::run` (`libs/preprocessor/src/processor/mod.rs:69-106`) with the reading
of the files it needs (`parse/mod.rs:26-29`) and the making of the processed text (`libs/workspace/src/reporting/processed.rs:181-199`). -/
namespace Verif.Sources
open Verif.Rapifier
open Verif.Commands (Pre)
open Verif.Preproc (Env PErr Tok More St Out Classes tokenise)

/-- What the preprocessor needs to know about the project: how the files are called, how bytes become text (`String::from_utf8` in
`vfs::VfsPath::read_to_string`), the Unicode classes, which file a name in a file means (`libs/workspace/src/path.rs`, Model/Workspace), the
names for `__FILE__` and `__FILE_NAME__` and the comparison of numbers in `#if`. -/
structure Project where
  name : Path → Text
  place : Text → Path
  decode : Bytes → Option Text
  cl : Classes
  locate : Text → Text → Option (Text × Bool)
  fileMacro : Text → Text
  fileName : Text → Text
  compare : Text → Text → Text → Option Bool

namespace Project
variable (D : Project)

/-- A file as text. -/
def source (w : Files) (f : Text) : Option Text := (w (D.place f)).bind D.decode

/-- A token for a file as a whole. -/
def mark (f : Text) : Tok := ⟨.eoi, ⟨⟨0, 0, 0⟩, ⟨0, 0, 0⟩, f⟩⟩

/-- `parse/mod.rs:26-29`: the tokens of a file with this text. A file that cannot be read is no error with a code (`Error::Workspace`); where
in a file the grammar fails (code 24) is left out. -/
def tokens (f : Text) : Option Text → Except PErr (List Tok)
  | none => .error .panic
  | some s => match tokenise D.cl f s with
    | none => .error (.code 24 (mark f))
    | some ts => .ok ts

/-- The project with these files. -/
def env (load : Text → Except PErr (List Tok)) : Env := ⟨load, D.locate, D.fileMacro, D.fileName, D.compare⟩

/-- The project with all its files. -/
def whole (w : Files) : Env := D.env fun f => D.tokens f (D.source w f)

/-- The files that have been read so far; for the others there is a sign. -/
def known (l : List (Text × Option Text)) (sign : Text → PErr) (f : Text) : Except PErr (List Tok) :=
  match l.lookup f with
  | some s => D.tokens f s
  | none => .error (sign f)

/-- The signs for a file that has not been read. -/
def ask (i : Nat) (f : Text) : PErr := .code i (mark f)

/-- `processor/mod.rs:85-105`: what becomes of the output. `code` makes the report of an error with a code, `other` is any other error. -/
def finish {K E : Type} (code : Nat → Tok → More → K) (other : E) (read : Text → Option Text) :
    Except PErr (St × List Out) → Pre (St × Processed.P) K E
  | .error (.code n t m) => .code (code n t m)
  | .error _ => .other other
  | .ok (st, buf) => match Processed.new read buf with
    | .error _ => .other other
    | .ok p => .ok (st, p)

/-- `processor/mod.rs:69-106`, `Processor::run`, as a program that reads one file after the other. The preprocessor of Model/Preproc runs on the
files read so far; when it comes to one that has not been read, which is seen from the sign it ends with, that file is read. The code reads a
file again each time it is included and once more for the processed text; here it is read once. `n` bounds the depth of the preprocessor and
`m` the number of files. -/
def reading {K E : Type} (code : Nat → Tok → More → K) (other : E) (n : Nat) (root : Text) :
    Nat → List (Text × Option Text) → Reading (Pre (St × Processed.P) K E)
  | 0, _ => .done (.other other)
  | m + 1, l =>
    match Preproc.run n (D.env (D.known l (ask 0))) root, Preproc.run n (D.env (D.known l (ask 1))) root with
    | .error (.code 0 t _), .error (.code 1 _ _) =>
      .read (D.place t.pos.path) fun b => reading code other n root m ((t.pos.path, b.bind D.decode) :: l)
    | r, _ => .done (finish code other (fun f => (l.lookup f).join) r)

/-- The preprocessor as one of the tools of the build. -/
def pre {K E : Type} (code : Nat → Tok → More → K) (other : E) (n m : Nat) (p : Path) : Reading (Pre (St × Processed.P) K E) :=
  D.reading code other n (D.name p) m []

end Project

end Verif.Sources
