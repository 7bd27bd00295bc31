import Verif.Model.Prefix
import Verif.Model.Pbo
/-!
Model of the P drive, `/repo/libs/workspace/src/pdrive.rs`: which one is used, and how files of the game are taken out of its
archives. Paths are texts; what a machine has is an argument.
-/
namespace Verif.Pdrive
open Verif.Pbo (RPbo)
open Verif.Prefix (lines)

/-! ### Which drive is used -/

/-- What is asked of the machine: folders that exist, the documents folder, where the Arma 3 Tools and Arma 3 are installed,
reading a file, and `Path::join`. -/
structure Machine where
  isDir : Text → Bool
  documents : Option Text
  tools : Option Text
  arma : Option Text
  read : Text → Option Text
  join : Text → Text → Text

/-- repo: libs/workspace/src/pdrive.rs:33-38; the folder of the drive and the folder `a3` in it, or the game. -/
inductive Drive where
  | tools (root a3 : Text)
  | onDemand (arma : Text)
deriving DecidableEq

/-- One line of `settings.ini`, repo: libs/workspace/src/pdrive.rs:177-184. `split('=').nth(1)` is what is between the first
two equal signs. -/
def settingsLine (st : Bool × Text) (line : Text) : Bool × Text :=
  if line = "P_DriveUser=1".toList then (true, st.2)
  else if "P_DrivePath=".toList.isPrefixOf line ∧ st.1 then (st.1, (split '=' line).getD 1 [])
  else st

/-- repo: libs/workspace/src/pdrive.rs:148-207 (`search`) -/
def search (m : Machine) : Option Drive :=
  if m.isDir "P:\\a3".toList then some (.tools "P:/".toList "P:\\a3".toList)
  else match m.documents with
    | none => none
    | some docs =>
      let path := m.join docs "Arma 3 Projects".toList
      let a3 := m.join path "a3".toList
      if m.isDir a3 then some (.tools path a3)
      else
        let demand := m.arma.map .onDemand
        match m.tools with
        | none => demand
        | some tools =>
          match m.read (m.join tools "settings.ini".toList) with
          | none => none
          | some settings =>
            let path := m.join tools ((lines settings).foldl settingsLine (false, m.join docs "Arma 3 Projects".toList)).2
            let a3 := m.join path "a3".toList
            if m.isDir a3 then some (.tools path a3) else demand

/-! ### The archives of the game -/

/-- An entry of a folder of the game: its name before and after the last dot, and the content, if it is a file. -/
structure Entry where
  stem : Text
  ext : Text
  content : Option Bytes

/-- `HashMap::insert` and `get`: the last one counts. -/
def addFolder (cache : Text → Option Bytes) (entries : List Entry) : Text → Option Bytes :=
  entries.foldl (fun cache e => match e.content with
    | some b => if e.ext = "pbo".toList then fun s => if s = e.stem then some b else cache s else cache
    | none => cache) cache

/-- One of the folders, `none` for one that cannot be listed, repo: libs/workspace/src/pdrive.rs:87-104. -/
def nextFolder (acc : Option (Text → Option Bytes)) (f : Option (List Entry)) : Option (Text → Option Bytes) :=
  match acc, f with
  | some cache, some entries => some (addFolder cache entries)
  | _, _ => none

/-- repo: libs/workspace/src/pdrive.rs:80-108 (`PDriveOnDemand::new`) for the folders of line 15-30 in their order; `none` for
a folder that cannot be listed, and for the abort that is the result (line 202). The cache has the path of an archive, here
its content. -/
def archives (folders : List (Option (List Entry))) : Option (Text → Option Bytes) :=
  folders.foldl nextFolder (some fun _ => none)

/-! ### Taking out files -/

/-- `VfsPath::join` of the library `vfs`, for the root: a path must not end with a slash; empty parts and `.` are left out, and
`..` goes up. -/
def normParts : List Text → List Text → List Text
  | acc, [] => acc
  | acc, p :: ps =>
    if p = [] ∨ p = ['.'] then normParts acc ps
    else if p = ['.', '.'] then normParts acc.dropLast ps
    else normParts (acc ++ [p]) ps

/-- The parts of the joined path. -/
def rootJoin (path : Text) : Option (List Text) :=
  if path.length > 1 ∧ path.getLast? = some '/' then none else some (normParts [] (split '/' path))

/-- The files in the temporary folder, by the parts of their paths; folders are there as far as files need them. -/
abbrev Store := List (List Text × Bytes)

/-- `exists`: a file, or a folder with something in it. -/
def Store.has (s : Store) (p : List Text) : Bool := s.any fun f => p.isPrefixOf f.1

/-- `create_file` fails if a folder on the way is a file. -/
def Store.blocked (s : Store) (p : List Text) : Bool := s.any fun f => f.1.isPrefixOf p && f.1 != p

/-- UTF-8 -/
def bytesOf (s : Text) : Bytes := s.flatMap String.utf8EncodeChar

/-- The file of an archive, as far as it can be read, repo: libs/workspace/src/pdrive.rs:131-132. -/
def fileOf (lower : Bytes → Bytes) (cache : Text → Option Bytes) (addon : Text) (source : Text) : Option Bytes :=
  match cache addon with
  | none => none
  | some b => match RPbo.from b with
    | .error _ => none
    | .ok r => r.file lower (bytesOf source)

/-- repo: libs/workspace/src/pdrive.rs:110-147 (`path_to`). `fail` is after how many bytes writing the file fails, if it does.
The result is `none` if the program aborts, and else the temporary folder afterwards and the path that was found. Lines
128-130 look for the same path as lines 111-119 again and are left out. -/
def pathTo (lower : Bytes → Bytes) (cache : Text → Option Bytes) (fail : Option Nat) (s : Store) (path : Text) :
    Option (Store × Option (List Text)) :=
  match rootJoin path with
  | none => none
  | some p =>
    if s.has p then some (s, some p)
    else match (split '/' path)[2]? with
      | none => none
      | some addon =>
        match fileOf lower cache addon (joinWith '/' ((split '/' path).drop 3)) with
        | none => some (s, none)
        | some b =>
          if s.blocked p then none
          else match fail with
            | none => some ((p, b) :: s, some p)
            | some k => some ((p, b.take k) :: s, none)

end Verif.Pdrive
