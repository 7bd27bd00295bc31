import Verif.Lib.Text
/-!
Model of the check for a newer version that every command begins with, `bin/src/update.rs`, and of what is said about
it, `bin/src/lib.rs:109-127`.

The disk is reduced to the file `hemtt/latest` in the folder for temporary files: the time it was written and its
text. The text is kept in characters; a file that is not UTF-8 (an error when it is read) does not occur. Parsing a
version and comparing versions are parameters. Other errors of the disk are not modelled.
-/
namespace Verif.Update

/-- The parts of the crate `semver` that are used. -/
structure Semver (V : Type) where
  parse : Text → Option V
  newer : V → V → Bool

/-- The file `latest`: the time it was written, in milliseconds, and its text. -/
abbrev Cache := Option (Nat × Text)

/-- What the check ends with, `update.rs:10`, and a crash. -/
inductive Out (V : Type)
  | nothing
  | newer (v : V)
  | failed
  | crash
  deriving DecidableEq, Repr

/-- `str::contains`. -/
def contains (s pat : Text) : Bool := s.tails.any (fun t => pat.isPrefixOf t)

/-- `update.rs:20-29`; a time in the future counts as no time ago. -/
def needCheck (now : Nat) : Cache → Bool
  | none => true
  | some (modified, _) => decide ((now - modified) / 1000 > 12 * 60 * 60)

/-- Indexing a string with `1..`, `update.rs:62`; `none` is a panic: there is no first byte, or the first character is
longer than a byte. -/
def dropByte : Text → Option Text
  | [] => none
  | c :: s => if c.utf8Size = 1 then some s else none

/-- A command: the time, the answer to a request for the name of the newest release, if there is a proper one, and how
much of it is written in case that the command is stopped during the writing. -/
structure Cmd where
  now : Nat
  answer : Option Text
  stopped : Option Nat := none
  deriving DecidableEq, Repr

/-- The end of the check, `update.rs:53-71`. -/
def compare {V : Type} (S : Semver V) (version : Text) (cache : Cache) : Out V :=
  match S.parse version with
  | none => .failed
  | some current => match cache with
    | none => .failed
    | some (_, text) => match dropByte text with
      | none => .crash
      | some rest => match S.parse rest with
        | none => .failed
        | some latest => if S.newer latest current then .newer latest else .nothing

/-- `update.rs:10-72` (`check`): the outcome, the file afterwards and whether there was a request. A command that is
stopped has no outcome to speak of. -/
def check {V : Type} (S : Semver V) (version : Text) (cache : Cache) (c : Cmd) : Out V × Cache × Bool :=
  if contains version "-local".toList || contains version "-debug".toList then (.nothing, cache, false)
  else if needCheck c.now cache then
    match c.answer with
    | none => (.failed, cache, true)
    | some tag => match c.stopped with
      | some k => (.nothing, some (c.now, tag.take k), true)
      | none => (compare S version (some (c.now, tag)), some (c.now, tag), true)
  else (compare S version cache, cache, false)

/-- One command after the other. -/
def run {V : Type} (S : Semver V) (version : Text) : Cache → List Cmd → List (Cmd × Out V × Bool)
  | _, [] => []
  | cache, c :: cs =>
    let r := check S version cache c
    (c, r.1, r.2.2) :: run S version r.2.1 cs

end Verif.Update
