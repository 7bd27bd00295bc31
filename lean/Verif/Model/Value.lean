import Verif.Model.Project
import Verif.Model.Release
/-!
Model of printing a value of a project, `/repo/bin/src/commands/value.rs`, with what of opening a project is done for it,
`/repo/bin/src/context.rs:53-138,231-293`, and of the parts of the settings that are printed,
`/repo/libs/common/src/config/project/{mod,files,signing}.rs`.

* What is printed is the text on the standard output of a run that succeeds. What a failing run writes is left out, except that
  a name that is not known prints nothing.
* The settings are those read from `project.toml`; the parser of TOML is left out, as are the parts that are not printed.
* A file is known by its path from the root of a layer of the workspace, with its content if it exists and is UTF-8. The P drive
  is left out: the version is looked for in the layers only (`version.rs:76`).
* Scanning the addons (C36) is left out: a project whose addons clash cannot be opened by any command.
-/
namespace Verif.Value
open Verif.Release (Settings includes)
open Verif.Sign (SigVersion)

/-- `libs/common/src/config/project/mod.rs:110-147`, `ProjectFile`; what other commands use too is in `settings`. -/
structure Toml where
  name : Text
  mainprefix : Option Text
  version : Project.Section
  settings : Settings

/-- What opening a project reads: the texts below the project's folder and below its folder `include`, and the commit that is
checked out. -/
structure Disk where
  source : Text → Option Text
  include_ : Text → Option Text
  head : Option Text

/-- What ends the run: with the code 1 or with the report of a crash. -/
inductive Fail
  | exit | panic
  deriving DecidableEq, Repr

/-- `context.rs:95-124`: the layers that are asked for the version. Only a command that builds has the folder `include`; the
layer of the tool that makes files binary is in the temporary folder, which has just been removed, and that in memory is new. The
last layer is asked first (`libs/workspace/src/lib.rs:186-196`). -/
def Disk.read (d : Disk) (build : Bool) (p : Text) : Option Text :=
  if build then (d.include_ p).or (d.source p) else d.source p

/-- `context.rs:53-138` with `mod.rs:183-199` and `version_check`, `context.rs:231-293`: the settings of the version and the
version, which is kept for the rest of the run (`version.rs:27-58`). -/
def open_ (build : Bool) (d : Disk) (t : Toml) : Except Fail (Project.Config × Ver.Version) :=
  if t.settings.pfx = [] then .error .exit
  else match Project.config t.version with
    | .error _ => .error .exit
    | .ok c => match Project.get (d.read build) d.head c with
      | .error .panic => .error .panic
      | .error _ => .error .exit
      | .ok v => .ok (c, v)

/-- `Vec::dedup`: of equal neighbours the first is kept. -/
def dedup : List Text → List Text
  | [] => []
  | [a] => [a]
  | a :: b :: l => if a = b then dedup (b :: l) else a :: dedup (b :: l)

/-- `files.rs:36-70`: the patterns of the files to copy. -/
def patterns (s : Settings) : List Text := dedup ((includes s).mergeSort fun a b => decide (a ≤ b))

/-- `libs/common/src/sign_version.rs:128-135`. -/
def sigVersion : SigVersion → Text
  | .v2 => "V2".toList
  | .v3 => "V3".toList

/-- `value.rs:90-108`. -/
def names : List Text :=
  ["project.name".toList, "project.prefix".toList, "project.mainprefix".toList, "project.properties".toList,
    "project.version".toList, "project.version.short".toList, "project.version.major".toList, "project.version.minor".toList,
    "project.version.patch".toList, "project.version.build".toList, "project.version.path".toList,
    "project.version.git_hash".toList, "project.signing.authority".toList, "project.signing.version".toList,
    "project.files.include".toList, "project.files.exclude".toList]

/-- `value.rs:25-112`: what is printed for a name, without the end of the line that `println!` adds. -/
def text (t : Toml) (c : Project.Config) (v : Ver.Version) (name : Text) : Option Text :=
  if name = "project.name".toList then some t.name
  else if name = "project.prefix".toList then some t.settings.pfx
  else if name = "project.mainprefix".toList then some (t.mainprefix.getD [])
  else if name = "project.properties".toList then
    some (t.settings.properties.flatMap fun p => p.1 ++ ':' :: ' ' :: p.2 ++ ['\n'])
  else if name = "project.version".toList then some (Ver.display v)
  else if name = "project.version.short".toList then
    some (decimal v.major ++ '.' :: decimal v.minor ++ '.' :: decimal v.patch)
  else if name = "project.version.major".toList then some (decimal v.major)
  else if name = "project.version.minor".toList then some (decimal v.minor)
  else if name = "project.version.patch".toList then some (decimal v.patch)
  else if name = "project.version.build".toList then some ((v.build.map decimal).getD [])
  else if name = "project.version.path".toList then some c.path
  else if name = "project.version.git_hash".toList then some (decimal c.gitHash)
  else if name = "project.signing.authority".toList then
    some (t.settings.authority.getD t.settings.pfx ++ '_' :: Ver.display v)
  else if name = "project.signing.version".toList then some (sigVersion t.settings.sigVersion)
  else if name = "project.files.include".toList then some (joinWith '\n' (patterns t.settings))
  else if name = "project.files.exclude".toList then some (joinWith '\n' t.settings.exclude)
  else if name = "list".toList then some (joinWith '\n' names)
  else none

/-- `value.rs:22-116`: what is printed. -/
def value (d : Disk) (t : Toml) (name : Text) : Except Fail Text :=
  match open_ false d t with
  | .error e => .error e
  | .ok (c, v) => match text t c v name with
    | some x => .ok (x ++ ['\n'])
    | none => .error .exit

/-- `context.rs:53-138` without a folder: what happens to the files. `base` is the folder of the program among the temporary
files, `root` the folder of the project. -/
def files (base root : List Text) (w : List Text → Option Bytes) : List Text → Option Bytes :=
  let w := Project.opened base root w
  fun p => if p = root ++ [".hemttout".toList, "ci_annotations.txt".toList] then some [] else w p

end Verif.Value
