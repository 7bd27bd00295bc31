import Verif.Model.Commands
/-!
Model of reading a project's settings: `/repo/libs/common/src/config/project/mod.rs:106-220` with
`/repo/libs/common/src/config/project/hemtt/mod.rs:75-96` (`launch.toml`) and
`/repo/libs/common/src/config/project/lint.rs:10-36, 145-180`.

* The TOML reader (the crates `toml` and `serde`) is a parameter: a function from the text that it is given.
* The parts of `project.toml` that are only passed on are one value of a type `R`. What is made of the version is a
  parameter (see `Verif.Project.config` for it), as is the inheritance of launch configurations (see `Verif.Launch`).
* A file beside `project.toml` is `none` if it does not exist, `some none` if it can not be read as text.
-/
namespace Verif.ProjectFile
open Verif.Commands (hasPart)

/-- `str::replace`: occurrences are looked for from the left, behind the one before. The number counts the characters
of an occurrence that are still to be left out. -/
def replaceFrom (pat rep : Text) : Nat → Text → Text
  | _, [] => []
  | k + 1, _ :: s => replaceFrom pat rep k s
  | 0, c :: s =>
    if pat.isPrefixOf (c :: s) then rep ++ replaceFrom pat rep (pat.length - 1) s
    else c :: replaceFrom pat rep 0 s

/-- `str::replace` -/
def replaceAll (pat rep s : Text) : Text := replaceFrom pat rep 0 s

/-- The heading of the time when there was one launch configuration. -/
def oldHeading : Text := "[hemtt.launch]".toList
/-- Its replacement. -/
def newHeading : Text := "[hemtt.launch.default]".toList

/-- What the TOML reader is given for `project.toml`, repo: libs/common/src/config/project/mod.rs:167-168. -/
def modern (s : Text) : Text := replaceAll oldHeading newHeading s

/-- repo: libs/common/src/config/project/lint.rs:10-14 (and 145-150 for the file: a section that is not there is empty,
154-177). -/
structure Lints (O : Type) where
  config : List (Text × O)
  sqf : List (Text × O)
  stringtables : List (Text × O)
  deriving DecidableEq, Repr

/-- repo: libs/common/src/config/project/lint.rs:34-36 -/
def Lints.isEmpty {O : Type} (l : Lints O) : Bool := l.config.isEmpty && l.sqf.isEmpty

/-- `ProjectFile`, repo: libs/common/src/config/project/mod.rs:113-147. -/
structure File (O L R : Type) where
  pfx : Text
  lints : Lints O
  launch : List (Text × L)
  rest : R

/-- repo: libs/common/src/error.rs:7-33 -/
inductive Err
  | emptyPrefix | launchConflict | lintsConflict | launchHeading | lintsHeading | io | toml
  /-- errors of the version and of launch configurations that extend others -/
  | other
  deriving DecidableEq, Repr

/-- The readers and what happens to parts that are not modelled here. -/
structure Env (O L R : Type) where
  project : Text → Option (File O L R)
  launchToml : Text → Option (List (Text × L))
  lintsToml : Text → Option (Lints O)
  inherit : List (Text × L) → Option (List (Text × L))
  version : R → Bool

/-- A file that may stand beside `project.toml`. -/
abbrev Beside := Option (Option Text)

/-- Where the launch configurations come from, repo: libs/common/src/config/project/hemtt/mod.rs:76-93. -/
def launchSource {O L R : Type} (env : Env O L R) (own : List (Text × L)) : Beside → Except Err (List (Text × L))
  | none => .ok own
  | some t =>
    if own.isEmpty then match t with
      | none => .error .io
      | some t =>
        if hasPart "[hemtt.launch".toList t then .error .launchHeading
        else match env.launchToml t with
          | none => .error .toml
          | some l => .ok l
    else .error .launchConflict

/-- Where the lints come from, repo: libs/common/src/config/project/mod.rs:197-213. -/
def lintsSource {O L R : Type} (env : Env O L R) (own : Lints O) : Beside → Except Err (Lints O)
  | none => .ok own
  | some t =>
    if own.isEmpty then match t with
      | none => .error .io
      | some t =>
        if hasPart "[lints.".toList t then .error .lintsHeading
        else match env.lintsToml t with
          | none => .error .toml
          | some l => .ok l
    else .error .lintsConflict

/-- `ProjectConfig::from_file`, repo: libs/common/src/config/project/mod.rs:106-110, 151-220. -/
def fromFile {O L R : Type} (env : Env O L R) (project launch lints : Beside) : Except Err (File O L R) :=
  match project with
  | none => .error .io
  | some none => .error .io
  | some (some t) => match env.project (modern t) with
    | none => .error .toml
    | some f =>
      if f.pfx = [] then .error .emptyPrefix
      else match launchSource env f.launch launch with
        | .error e => .error e
        | .ok src => match env.inherit src with
          | none => .error .other
          | some la =>
            if env.version f.rest then match lintsSource env f.lints lints with
              | .error e => .error e
              | .ok li => .ok ⟨f.pfx, li, la, f.rest⟩
            else .error .other

end Verif.ProjectFile
