import Verif.Lib.Bytes
import Verif.Model.Version
import Verif.Model.Prefix
/-!
Model of the version of a project, `/repo/libs/common/src/version.rs:47-57,86-112` and
`/repo/libs/common/src/config/project/version.rs`, and of the temporary folder of a project, `/repo/bin/src/context.rs:64-83`.

* The settings are those read from `project.toml`; the parser of TOML is left out.
* The cache of the version is left out: a process works on one project.
* A file is known by its path as written in the settings, with its content if it exists and is UTF-8.
-/
namespace Verif.Project

/-- The part of a version that is looked for: `extract_version` takes one of four texts. -/
inductive Comp
  | major | minor | patch | build
  deriving DecidableEq, Repr

/-- The text that stands for a part. -/
def Comp.text : Comp → Text
  | .major => "MAJOR".toList
  | .minor => "MINOR".toList
  | .patch => "PATCH".toList
  | .build => "BUILD".toList

/-- `version.rs:87-93`. -/
def Comp.error : Comp → Ver.Error
  | .major => .expectedMajor
  | .minor => .expectedMinor
  | .patch => .expectedPatch
  | .build => .expectedBuild

/-- `split_once("//").unwrap_or((line, "")).0`. -/
def beforeSlashes : Text → Text
  | '/' :: '/' :: _ => []
  | c :: s => c :: beforeSlashes s
  | [] => []

/-- `rsplit_once(' ')`, the second part. -/
def lastWord : Text → Option Text
  | [] => none
  | c :: s => match lastWord s with
    | some w => some w
    | none => if c = ' ' then some s else none

/-- `version.rs:86-112`, `extract_version`. -/
def extract (lines : List Text) (c : Comp) : Except Ver.Error Nat :=
  match lines.find? fun l => ("#define ".toList ++ c.text).isPrefixOf l with
  | none => .error c.error
  | some l => match lastWord (Prefix.trim (beforeSlashes l)) with
    | none => .error c.error
    | some w => match parseU32 w with
      | some n => .ok n
      | none => .error (.invalidComponent w)

/-- `version.rs:47-57`, `try_from_script_version`. -/
def fromScript (s : Text) : Except Ver.Error Ver.Version :=
  let lines := (Prefix.lines s).map Prefix.trim
  match extract lines .major with
  | .error e => .error e
  | .ok major => match extract lines .minor with
    | .error e => .error e
    | .ok minor => match extract lines .patch with
      | .error e => .error e
      | .ok patch => .ok ⟨major, minor, patch, (extract lines .build).toOption, none⟩

/-- `config/project/version.rs:104-119`, `VersionSectionFile`. -/
structure Section where
  path : Option Text
  major : Option Nat
  minor : Option Nat
  patch : Option Nat
  build : Option Nat
  gitHash : Option Nat
  deriving DecidableEq, Repr

/-- `config/project/version.rs:11-15`, `VersionConfig`. -/
structure Config where
  path : Text
  defined : Option (Nat × Nat × Nat × Option Nat)
  gitHash : Nat
  deriving DecidableEq, Repr

/-- What ends it. -/
inductive Stop
  | conflict
  | version (e : Ver.Error)
  | git
  | panic
  deriving DecidableEq, Repr

/-- `config/project/version.rs:121-152`, `TryFrom<VersionSectionFile>`. -/
def config (f : Section) : Except Stop Config :=
  if (f.major.isSome || f.minor.isSome || f.patch.isSome) && f.path.isSome then .error .conflict
  else if f.major.isNone && (f.minor.isSome || f.patch.isSome) then .error (.version .expectedMajor)
  else
    let path := (f.path.getD "addons/main/script_version.hpp".toList).map fun c => if c = '\\' then '/' else c
    let hash := f.gitHash.getD 8
    match f.major with
    | none => .ok ⟨path, none, hash⟩
    | some major => match f.minor with
      | none => .error (.version .expectedMinor)
      | some minor => match f.patch with
        | none => .error (.version .expectedPatch)
        | some patch => .ok ⟨path, some (major, minor, patch, f.build), hash⟩

/-- `config/project/version.rs:68-84`, `internal_get`. -/
def internalGet (files : Text → Option Text) (c : Config) : Except Stop Ver.Version :=
  match c.defined with
  | some (major, minor, patch, build) => .ok ⟨major, minor, patch, build, none⟩
  | none => match files c.path with
    | some content => match fromScript content with
      | .ok v => .ok v
      | .error e => .error (.version e)
    | none => .error (.version .unknownVersion)

/-- `config/project/version.rs:27-58`, `get`. `head` is the text of the identifier of the commit that is checked out.
Taking more characters than it has aborts the program. -/
def get (files : Text → Option Text) (head : Option Text) (c : Config) : Except Stop Ver.Version :=
  match internalGet files c with
  | .error e => .error e
  | .ok v =>
    if c.gitHash = 0 then .ok v
    else match head with
      | none => .error .git
      | some id => if c.gitHash ≤ id.length then .ok { v with hash := some (id.take c.gitHash) } else .error .panic

/-! ### The temporary folder -/

/-- `context.rs:74-79`: the name of the temporary folder; a path is the list of its components as
the library splits it (on Windows the drive and the root come first, elsewhere the root). -/
def tmpName (root : List Text) : Text :=
  (joinWith '/' (root.drop 2)).map fun c => if c = '\\' ∨ c = '/' then '_' else c

/-- `context.rs:64-80`: the temporary folder. `base` is the folder of the program, for the user, among temporary files.
Joining with nothing is the same folder. -/
def tmp (base root : List Text) : List Text := if tmpName root = [] then base else base ++ [tmpName root]

/-- `context.rs:72`: the folder of the profile. -/
def profile (base : List Text) : List Text := base ++ ["profile".toList]

/-- `context.rs:81-83`: opening a project removes its temporary folder. -/
def opened (base root : List Text) (w : List Text → Option Bytes) : List Text → Option Bytes :=
  fun p => if tmp base root <+: p then none else w p

end Verif.Project
