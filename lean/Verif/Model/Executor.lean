import Verif.Model.Lint
/-!
Model of the build pipeline: `/repo/bin/src/executor.rs`, `/repo/bin/src/report.rs`, and which stages the commands ask
for (`/repo/bin/src/commands/*.rs`).

* `W` is the state of the world: the modules' own state, the context and the file system. A module is what it does to
  the world in each phase. `E` is the type of errors (`crate::Error`), `K` that of codes; `sev` gives their severity.
* Logging is left out.
-/
namespace Verif.Executor

open Verif.Lints (Severity)

/-- The phases of a module, `modules/mod.rs:27-76`. -/
inductive Phase
  | init | check | preBuild | postBuild | preRelease | postRelease
  deriving DecidableEq, Repr

/-- The stages, the strings of `executor.rs:47-70`. -/
inductive Stage
  | phase (p : Phase) | build | archive
  deriving DecidableEq, Repr

/-- What running a piece of the pipeline does: `Result<Report, Error>` and the world after it. -/
abbrev Res (W E K : Type) := Except E (List K) × W

/-- `executor.rs:9-14`. -/
structure Executor (W E K : Type) where
  modules : List (Phase → W → Res W E K)
  /-- `modules::pbo::build` -/
  build : W → Res W E K
  /-- `modules::archive::release` -/
  archive : W → Res W E K
  stages : List Stage

/-- `report.rs:79-81, 96-100, 109-130`: does a report hold an error? -/
def failed {K : Type} (sev : K → Severity) (r : List K) : Bool := !(r.filter fun c => sev c == .error).isEmpty

/-- `executor.rs:108-130`, the loop of `run_modules`; `acc` is the report so far. -/
def runModules {W E K : Type} (sev : K → Severity) (p : Phase) :
    List (Phase → W → Res W E K) → List K → W → Res W E K
  | [], acc, w => (.ok acc, w)
  | m :: ms, acc, w => match m p w with
    | (.error e, w) => (.error e, w)
    | (.ok r, w) => if failed sev (acc ++ r) then (.ok (acc ++ r), w) else runModules sev p ms (acc ++ r) w

/-- One stage, `executor.rs:77-99`. -/
def Executor.stage {W E K : Type} (sev : K → Severity) (x : Executor W E K) (w : W) : Stage → Res W E K
  | .phase p => runModules sev p x.modules [] w
  | .build => x.build w
  | .archive => x.archive w

/-- `executor.rs:74-106`, the loop of `run`; `acc` is the report so far. -/
def Executor.runStages {W E K : Type} (sev : K → Severity) (x : Executor W E K) : List Stage → List K → W → Res W E K
  | [], acc, w => (.ok acc, w)
  | s :: ss, acc, w => match x.stage sev w s with
    | (.error e, w) => (.error e, w)
    | (.ok r, w) => if failed sev (acc ++ r) then (.ok (acc ++ r), w) else x.runStages sev ss (acc ++ r) w

/-- `executor.rs:74-106`, `run`. -/
def Executor.run {W E K : Type} (sev : K → Severity) (x : Executor W E K) (w : W) : Res W E K :=
  x.runStages sev x.stages [] w

/-- `executor.rs:54-60`, `build`. -/
def buildStages (write : Bool) : List Stage :=
  .phase .preBuild :: if write then [.build, .phase .postBuild] else []

/-- `executor.rs:63-69`, `release`. -/
def releaseStages (archive : Bool) : List Stage :=
  .phase .preRelease :: ((if archive then [.archive] else []) ++ [.phase .postRelease])

/-- `commands/check.rs:39-41`. -/
def checkCommand : List Stage := [.phase .init, .phase .check] ++ buildStages false
/-- `commands/build.rs:101-103`, also `commands/dev.rs`. -/
def buildCommand : List Stage := [.phase .init, .phase .check] ++ buildStages true
/-- `commands/release.rs:70-88`; `noArchive` is the flag and `archive` the project's setting. -/
def releaseCommand (noArchive archive : Bool) : List Stage :=
  buildCommand ++ releaseStages (if noArchive then false else archive)

/-- `lib.rs:162-181`: the exit code. Writing the report itself is left out. -/
def exitCode {W E K : Type} (sev : K → Severity) : Res W E K → Nat
  | (.ok r, _) => if failed sev r then 1 else 0
  | (.error _, _) => 1

end Verif.Executor
