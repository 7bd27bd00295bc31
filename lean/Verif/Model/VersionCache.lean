import Verif.Model.Hooks
/-!
Model of the version that is kept between its uses, `/repo/libs/common/src/config/project/version.rs:17-66`, and of the
parts of a release that use it: hooks and scripts (`/repo/bin/src/modules/hook`), PBOs (`/repo/bin/src/modules/pbo.rs:35`),
the key (`/repo/bin/src/modules/sign.rs:142-157`) and the archive (`/repo/bin/src/modules/archive.rs:92-96`).

`D` is everything that can be read and changed: the disk, the files of the workspace, the commit that is checked out.
`V` is the type of versions. What reads the version from it without the kept one is a parameter, `Source.read`; see
`Verif.Project.get` for that part. Scripts are arbitrary programs. All uses of the version are made by one thread, the
main one, so the two variables of the program (`VERSION`, `INIT`) are one optional value here: `VERSION` is only looked at
if `INIT` is set, and it is written before `INIT` is.
-/
namespace Verif.VersionCache
open Verif.Hooks (Prog Node Files Stop Code Ran)

/-- What a script does; `version` is `HEMTT.project().version()`. The other constructors are those of `Hooks.Prog`. -/
inductive Script (D V : Type) where
  | done
  | throw
  | fatal (next : Script D V)
  | step (f : D → D) (next : D → Script D V)
  /-- repo: bin/src/modules/hook/libraries/project.rs:58-61 -/
  | version (next : V → Script D V)
  | script (name : Text) (next : Bool → Script D V)

/-- A path of the workspace. -/
inductive Place (D V : Type) where
  | missing | folder | unreadable
  | file (p : Script D V)

/-- What HEMTT reads. -/
structure Source (D V : Type) where
  hook : D → Text → Text → Place D V
  script : D → Text → Place D V
  list : D → Text → Option (List Text)
  /-- `version.rs:39-46`: the version as it is read, `none` for an error -/
  read : D → Option V

/-- The state: everything on the disk, and the version that is kept. -/
structure St (D V : Type) where
  disk : D
  kept : Option V

/-- `version.rs:27-58`, `get`: the version that is kept, or else the one that is read, which is kept from then on. -/
def get {D V : Type} (src : Source D V) (s : St D V) : Option (V × St D V) :=
  match s.kept with
  | some v => some (v, s)
  | none => match src.read s.disk with
    | some v => some (v, ⟨s.disk, some v⟩)
    | none => none

/-- `version.rs:60-65`, `invalidate`. -/
def invalidate {D V : Type} (s : St D V) : St D V := ⟨s.disk, none⟩

/-- What a script does with the version `v` in its scope. The version is taken when the scope is made and stays the same as
long as the script runs, repo: bin/src/modules/hook/libraries/project.rs:20-38, bin/src/modules/hook/libraries/hemtt.rs:21-31. -/
def withVersion {D V : Type} (v : V) : Script D V → Prog (St D V)
  | .done => .done
  | .throw => .throw
  | .fatal k => .fatal (withVersion v k)
  | .step f k => .step (fun s => ⟨f s.disk, s.kept⟩) fun s => withVersion v (k s.disk)
  | .version k => withVersion v (k v)
  | .script n k => .script n fun b => withVersion v (k b)

/-- A file that is run: its scope is made first (`hook/mod.rs:139-140`), so a version that is not kept is read. Without a
version the program aborts before anything is run (`versionKnown` below), so that case does not matter here. -/
def node {D V : Type} (src : Source D V) (s : St D V) : Place D V → Node (St D V)
  | .missing => .missing
  | .folder => .folder
  | .unreadable => .unreadable
  | .file p => match get src s with
    | some (v, s') => .file (.step (fun _ => s') fun _ => withVersion v p)
    | none => .file .throw

/-- What hooks and scripts ask of the state. -/
def files {D V : Type} (src : Source D V) : Files (St D V) where
  hook s phase name := node src s (src.hook s.disk phase name)
  script s name := node src s (src.script s.disk name)
  list s phase := src.list s.disk phase
  versionKnown s := (get src s).isSome
  invalidate := invalidate

/-- The stages of a release after `init` and `check`, repo: bin/src/executor.rs:55-75. -/
inductive Stage
  | preBuild | build | postBuild | preRelease | archive | postRelease
  deriving DecidableEq, Repr

/-- What uses the version besides hooks. -/
inductive Use
  | pbos | key | archive
  deriving DecidableEq, Repr

def Stage.phase : Stage → Option Text
  | .preBuild => some "pre_build".toList
  | .postBuild => some "post_build".toList
  | .preRelease => some "pre_release".toList
  | .postRelease => some "post_release".toList
  | .build => none
  | .archive => none

/-- The use of the version in a stage; the one of the key is made by the last module of the stage. -/
def Stage.use (sign : Bool) : Stage → Option Use
  | .build => some .pbos
  | .preRelease => if sign then some .key else none
  | .archive => some .archive
  | _ => none

/-- What a run has come to: the state, the codes of its report, whether anything else was wrong, and the uses of the version,
each with what was on the disk at that moment. -/
structure Run (D V : Type) where
  state : St D V
  codes : List Code
  failed : Bool
  uses : List (Use × D × V)

/-- The hooks of a stage, repo: bin/src/modules/hook/mod.rs:222-238. -/
def stageHooks {D V : Type} (src : Source D V) (n : Nat) (st : Stage) (s : St D V) : Except Stop (Ran (St D V)) :=
  match st.phase with
  | some phase => Hooks.runFolder (files src) n true phase s
  | none => .ok ⟨s, [], []⟩

/-- One stage, repo: bin/src/executor.rs:77-131. Hooks are the first module that does anything in
each of these stages (repo: bin/src/commands/mod.rs:22-27). `others` are the other modules of the stage, or building, or making the archive: what they change and whether
they report an error. Errors of the stage end the run. -/
def stage {D V : Type} (src : Source D V) (n : Nat) (sign : Bool) (others : Stage → D → Except Stop (D × Bool)) (st : Stage)
    (s : St D V) : Except Stop (Run D V) :=
  match stageHooks src n st s with
  | .error e => .error e
  | .ok r =>
    if r.codes ≠ [] then .ok ⟨r.world, r.codes, true, []⟩
    else match others st r.world.disk with
      | .error e => .error e
      | .ok (_, true) => .ok ⟨r.world, [], true, []⟩
      | .ok (d, false) =>
        let s' : St D V := ⟨d, r.world.kept⟩
        match st.use sign with
        | none => .ok ⟨s', [], false, []⟩
        | some u => match get src s' with
          | none => .error .error
          | some (v, s'') => .ok ⟨s'', [], false, [(u, d, v)]⟩

/-- The stages one after the other, repo: bin/src/executor.rs:77-106: the first that fails ends the run. -/
def stages {D V : Type} (src : Source D V) (n : Nat) (sign : Bool) (others : Stage → D → Except Stop (D × Bool)) :
    List Stage → St D V → Except Stop (Run D V)
  | [], s => .ok ⟨s, [], false, []⟩
  | st :: l, s => match stage src n sign others st s with
    | .error e => .error e
    | .ok r =>
      if r.failed then .ok r
      else match stages src n sign others l r.state with
        | .error e => .error e
        | .ok r' => .ok ⟨r'.state, r.codes ++ r'.codes, r'.failed, r.uses ++ r'.uses⟩

/-- `hemtt release`, repo: bin/src/commands/release.rs:77-101, bin/src/executor.rs:56-72. -/
def plan (archive : Bool) : List Stage :=
  [.preBuild, .build, .postBuild, .preRelease] ++ (if archive then [.archive] else []) ++ [.postRelease]

/-- The run begins with the version read (`version_check`, repo: bin/src/context.rs:231-236), without one it ends there. -/
def release {D V : Type} (src : Source D V) (n : Nat) (sign archive : Bool) (others : Stage → D → Except Stop (D × Bool)) (d : D) :
    Except Stop (Run D V) :=
  match get src ⟨d, none⟩ with
  | none => .error .error
  | some (_, s) => stages src n sign others (plan archive) s

end Verif.VersionCache
