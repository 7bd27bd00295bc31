import Verif.Model.Rapify
/-!
Model of the command that photographs what has no picture yet: `/repo/bin/src/commands/photoshoot/mod.rs:129-420`.

* Making and converting the pictures is left out, as is that a picture may be there already when it was taken.
* Whether the file of a picture is there is a parameter. That the path may not be one that the workspace can join is left out:
  the program stops then.
* The maps are lists here, in the order in which they give their keys.
-/
namespace Verif.Photoshoot
open Verif.Rap

/-- `str::trim_start_matches(&str)`; an empty pattern is not needed. -/
def trimStart (p : Bytes) (s : Bytes) : Bytes :=
  if _h : p ≠ [] ∧ p.isPrefixOf s then trimStart p (s.drop p.length) else s
termination_by s.length
decreasing_by
  obtain ⟨t, rfl⟩ := List.isPrefixOf_iff_prefix.1 _h.2
  have := List.length_pos_iff.2 _h.1
  simp; omega

/-- One property, repo: bin/src/commands/photoshoot/mod.rs:306-319, 381-394. -/
def textOf (key : Bytes) : Prp → Option Bytes
  | .entry n (.str v) => if n = key then some v else none
  | _ => none

/-- The file in the project that a picture is, repo: bin/src/commands/photoshoot/mod.rs:286-289, 323-328 and 361-364, 398-403. -/
def target (main : Option Bytes) (pfx picture : Bytes) : Option Bytes :=
  match main with
  | none => none
  | some m =>
    let root := ascii "\\" ++ m ++ ascii "\\"
    if root.isPrefixOf picture then
      let rest := trimStart root picture
      if pfx.isPrefixOf rest then some (trimStart (ascii "\\") (trimStart pfx rest)) else none
    else none

/-- One class in `CfgWeapons` or `CfgVehicles`, repo: bin/src/commands/photoshoot/mod.rs:300-340, 375-415. -/
def shotOf (main : Option Bytes) (pfx key : Bytes) (there : Bytes → Bool) : Prp → Option (Bytes × Bytes)
  | .loc n _ ps => match ps.findSome? (textOf key) with
    | none => none
    | some picture => match target main pfx picture with
      | none => none
      | some t => if there t then none else some (n, t)
  | _ => none

/-- One class of a config, repo: bin/src/commands/photoshoot/mod.rs:291-343, 366-418. -/
def shotsIn (main : Option Bytes) (pfx group key : Bytes) (there : Bytes → Bool) : Prp → List (Bytes × Bytes)
  | .loc n _ ps => if n = group then ps.filterMap (shotOf main pfx key there) else []
  | _ => []

/-- All that is to be photographed, in the order in which it is put into the map,
repo: bin/src/commands/photoshoot/mod.rs:272-283, 347-358. -/
def shots (main : Option Bytes) (pfx group key : Bytes) (there : Bytes → Bool) (configs : List (List Prp)) :
    List (Bytes × Bytes) :=
  configs.flatMap fun c => c.flatMap (shotsIn main pfx group key there)

/-- Messages to the game, repo: libs/common/src/arma/control.rs:17-23. -/
inductive To
  | weapon (n : Bytes) | preview (n : Bytes) | previewRun | done
  deriving DecidableEq, Repr

/-- Messages of the game, repo: libs/common/src/arma/control.rs:49-54. With `previews`, the names of the files that are there then. -/
inductive From
  | ready | weapon (n : Bytes) | previews (files : List Bytes)
  deriving DecidableEq, Repr

/-- `next_message`, repo: bin/src/commands/photoshoot/mod.rs:172-178: the message, and what is still to be asked for. -/
def next (pending : List Bytes) : To × List Bytes :=
  match pending.getLast? with
  | some n => (.weapon n, pending.dropLast)
  | none => (.done, [])

/-- `prepare`, repo: bin/src/commands/photoshoot/mod.rs:157-170: what is to be asked for, if there is anything. -/
def prepare (weapons previews : List Bytes) : Option (List Bytes) :=
  if weapons = [] ∧ previews = [] then none else some weapons

/-- `incoming`, repo: bin/src/commands/photoshoot/mod.rs:186-269: what is sent, and what is still to be asked for; nothing if the
program stops. -/
def incoming (weapons previews pending : List Bytes) : From → Option (List To × List Bytes)
  | .ready =>
    if previews = [] then some ([(next pending).1], (next pending).2)
    else some (previews.map .preview ++ [.previewRun], pending)
  | .weapon n => if n ∈ weapons then some ([(next pending).1], (next pending).2) else none
  | .previews files => if files.all (· ∈ previews) then some ([(next pending).1], (next pending).2) else none

end Verif.Photoshoot
