import Verif.Model.Reporting
/-!
Model of a whole run of the program, from the command line that has been read to the exit status:
`/repo/bin/src/lib.rs:69-181` (`execute`), `/repo/bin/src/main.rs:5-48`, `/repo/bin/src/logging.rs:20-65` and, of the
commands, where they open the project and where they end before that. What a command does in between is a parameter.
Not modelled: `--threads`, the check for updates (C128), the log, options that exist only in debug builds, what a hook does
to `ci_annotations.txt` itself.
-/
namespace Verif.Run
open Verif.Reporting

/-- repo: bin/src/lib.rs:50-68 -/
inductive Cmd where
  | book | new | check | dev | launch | build | release | localization | script | utils | value | wiki | photoshoot
deriving DecidableEq

/-- What the run looks at in the folder it is started in: whether `.hemtt` exists, and what
`.hemttout/ci_annotations.txt` holds, if it exists. -/
structure Folder where
  hemtt : Bool
  annotations : Option Text

/-- `Result<Report, Error>`, or an end without a result: an abort (repo: bin/src/main.rs:6-24, exit status 1) or
`exit(1)` (repo: bin/src/context.rs:233-291). -/
inductive Result where
  | report (codes : List Code)
  | error
  | stop

/-- How opening the project goes: it fails before the annotations are emptied (repo: bin/src/context.rs:54-92), after that
(repo: bin/src/context.rs:94-128), or not at all. -/
inductive Opening where
  | failsBefore | failsAfter | opens

/-- What a command comes to, apart from what is modelled here: `early` if it ends before it opens the project (only
`launch` and `photoshoot` do: repo: bin/src/commands/launch/mod.rs:243-284, bin/src/commands/photoshoot/mod.rs:60-93),
`opening` how opening the project goes, `body` how it ends after that. For commands without a project `body` is all. -/
structure Course where
  early : Option Result
  opening : Opening
  body : Result

/-- `Context::new`, then the rest of the command, repo: bin/src/context.rs:49-142. -/
def openThen (w : Course) (f : Folder) : Result × Folder :=
  if !f.hemtt then (.error, f)
  else match w.opening with
    | .failsBefore => (.error, f)
    | .failsAfter => (.stop, { f with annotations := some [] })
    | .opens => (w.body, { f with annotations := some [] })

/-- repo: bin/src/lib.rs:144-159; bin/src/commands/book.rs:11-16, new/mod.rs:50-130, check.rs:25-30, dev.rs:108-118,
launch/mod.rs:243-315, build.rs:72-81, release.rs:74-78, localization/coverage.rs:96, localization/sort.rs:29,
script.rs:31-36, utils.rs:28-49, value.rs:22, wiki.rs:29-33, photoshoot/mod.rs:50-130 -/
def command (w : Course) (f : Folder) : Cmd → Result × Folder
  | .book => (.report [], f)
  | .wiki => (.report [], f)
  | .new => (w.body, f)
  | .utils => (match w.body with | .report _ => .report [] | r => r, f)
  | .launch => match w.early with | some r => (r, f) | none => openThen w f
  | .photoshoot => match w.early with | some r => (r, f) | none => openThen w f
  | _ => openThen w f

/-- How a run ends: the exit status, what is shown, and the folder. -/
structure End where
  status : Nat
  shown : List Diagnostic
  folder : Folder

/-- Whether `logging::init` lets the command start, repo: bin/src/lib.rs:94-102, bin/src/logging.rs:41-46. -/
def starts (f : Folder) : Cmd → Bool
  | .value => true
  | .utils | .wiki | .new | .book => true
  | _ => f.hemtt

/-- Whether annotations are written, repo: bin/src/lib.rs:164-168. -/
def annotates : Cmd → Bool
  | .new | .utils | .wiki => false
  | _ => true

/-- repo: bin/src/lib.rs:161-180 and bin/src/report.rs:27-52. The file is opened to append to it, and not created. If it
cannot be opened the run fails, with what has been shown. -/
def finish (withIncludes : Bool) (c : Cmd) : Result × Folder → End
  | (.report codes, f) =>
    let status := if failed codes then 1 else 0
    if annotates c then
      match f.annotations with
      | none => ⟨1, shown codes withIncludes, f⟩
      | some old => match ciAnnotations codes with
        | none => ⟨1, shown codes withIncludes, f⟩
        | some new => ⟨status, shown codes withIncludes, { f with annotations := some (old ++ new) }⟩
    else ⟨status, shown codes withIncludes, f⟩
  | (_, f) => ⟨1, [], f⟩

/-- repo: bin/src/lib.rs:76-181. `withIncludes`: whether `HEMTT_REPORT_WITH_INCLUDES` is `true`. -/
def execute (withIncludes : Bool) (w : Course) (f : Folder) (c : Cmd) : End :=
  if starts f c then finish withIncludes c (command w f c) else ⟨1, [], f⟩

end Verif.Run
