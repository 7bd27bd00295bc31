import Verif.Model.Commands
/-! Rapifying the configs of the addons: `bin/src/modules/rapifier.rs`. The files are handled by several threads at once, each of
which reads files and writes the one it makes; what one thread writes is seen by those that read it later. -/
namespace Verif.Rapifier
open Verif.Commands (extension withExtension Pre)
open Verif.Workspace (Addon)

/-- A path from the root of the project. -/
abbrev Path := List Text

/-- What is found at the paths: the layers of the workspace put on top of each other (`libs/workspace/src/lib.rs`, the memory layer
first), so that a file that is written replaces what was there. -/
abbrev Files := Path → Option Bytes

/-- Replacing a file. -/
def Files.put (w : Files) (p : Path) (b : Bytes) : Files := fun q => if q = p then some b else w q

/-- A computation that reads files one after the other and then gives a result: what `Processor::run` is for the files. -/
inductive Reading (α : Type)
  | done (a : α)
  | read (p : Path) (k : Option Bytes → Reading α)

/-- The work of one thread: it reads and writes files and gives a result. -/
inductive Job (α : Type)
  | done (a : α)
  | read (p : Path) (k : Option Bytes → Job α)
  | write (p : Path) (b : Bytes) (k : Job α)

/-- Reading and then going on. -/
def Reading.bind {α β : Type} : Reading α → (α → Job β) → Job β
  | .done a, f => f a
  | .read p k, f => .read p fun b => (k b).bind f

/-- One step of one of the threads. -/
inductive Step {α : Type} : Files × List (Job α) → Files × List (Job α) → Prop
  | read {w jobs i p k} : jobs[i]? = some (.read p k) → Step (w, jobs) (w, jobs.set i (k (w p)))
  | write {w jobs i p b k} : jobs[i]? = some (.write p b k) → Step (w, jobs) (w.put p b, jobs.set i k)

/-- Any number of steps of the threads, in any order. -/
inductive Steps {α : Type} : Files × List (Job α) → Files × List (Job α) → Prop
  | refl {s} : Steps s s
  | tail {s t u} : Steps s t → Step t u → Steps s u

/-- `libs/common/src/config/addon/rapify.rs`: the part `[rapify]` of an `addon.toml`. -/
structure Toml where
  enabled : Bool
  exclude : List Text

/-- `rapifier.rs:193-207`, `can_rapify`: the extensions are compared with case. The warning about other `.cpp` files is left
out. -/
def canRapify (name : Text) : Bool := [some "cpp".toList, some "rvmat".toList, some "ext".toList].contains (extension name)

/-- `vfs::VfsPath::as_str`: the path with a slash in front of each part. -/
def asStr (p : Path) : Text := p.flatMap fun c => '/' :: c

/-- `rapifier.rs:66-68`: the patterns; the first that is none ends the build. -/
def globs (glob : Text → Option (Text → Bool)) : List Text → Option (List (Text → Bool))
  | [] => some []
  | p :: ps => match glob p with
    | none => none
    | some m => (globs glob ps).map (m :: ·)

/-- `rapifier.rs:59-85`: the files of one addon. `glob` compiles a pattern to what it matches with
`require_literal_separator`, `walk` gives the paths of the files below the addon's folder. -/
def entriesOf (glob : Text → Option (Text → Bool)) (toml : Addon → Option Toml) (walk : Addon → List Path) (a : Addon) :
    Option (List (Addon × Path)) :=
  match toml a with
  | some t =>
    if t.enabled then
      (globs glob t.exclude).map fun gs =>
        ((walk a).filter fun p => canRapify (p.getLastD []) && !gs.any fun m => m (asStr p)).map (a, ·)
    else some []
  | none => some (((walk a).filter fun p => canRapify (p.getLastD [])).map (a, ·))

/-- `rapifier.rs:56-86`: the files of all the addons. -/
def entries (glob : Text → Option (Text → Bool)) (toml : Addon → Option Toml) (walk : Addon → List Path) :
    List Addon → Option (List (Addon × Path))
  | [] => some []
  | a :: as => match entriesOf glob toml walk a with
    | none => none
    | some l => (entries glob toml walk as).map (l ++ ·)

/-- The parts of the work that are modelled elsewhere: the preprocessor with its warnings and whether the text asks not to be
rapified, the parser of configs with the lints, and the binary form. -/
structure Tools (P C K E : Type) where
  pre : Path → Reading (Pre P K E)
  warnings : P → List K
  noRapify : P → Bool
  parse : P → Except (List K) C
  lintWarnings : C → List K
  lintErrors : C → List K
  rapify : C → Except E Bytes

/-- `rapifier.rs:143-173`: where the result goes. -/
def outPath (p : Path) : Path :=
  match extension (p.getLastD []) with
  | some e =>
    if e.map Char.toLower = "cpp".toList then p.dropLast ++ [withExtension (p.getLastD []) "bin".toList] else p
  | none => p

/-- `rapifier.rs:109-191`, `rapify`: creating a file makes an empty one, which gets its content when it is closed. What is kept for
later modules (147-169) is left out. -/
def rapify {P C K E : Type} (T : Tools P C K E) (p : Path) : Job (Except E (List K)) :=
  (T.pre p).bind fun
    | .code k => .done (.ok [k])
    | .other e => .done (.error e)
    | .ok q => match T.parse q with
      | .error ks => .done (.ok (T.warnings q ++ ks))
      | .ok c =>
        let report := T.warnings q ++ T.lintWarnings c ++ T.lintErrors c
        if !(T.lintErrors c).isEmpty then .done (.ok report)
        else if T.noRapify q then .done (.ok report)
        else match T.rapify c with
          | .ok b => .write (outPath p) [] (.write (outPath p) b (.done (.ok report)))
          | .error e => .write (outPath p) [] (.done (.error e))

/-- `rapifier.rs:88-97`: the threads, one piece of work for each file. -/
def jobs {P C K E : Type} (T : Tools P C K E) (l : List (Addon × Path)) : List (Job (Except E (List K))) :=
  l.map fun e => rapify T e.2

/-- `rapifier.rs:97-101`: the report when all have finished; the first error otherwise. -/
def report {K E : Type} : List (Job (Except E (List K))) → Option (Except E (List K))
  | [] => some (.ok [])
  | .done r :: l => match r with
    | .error e => some (.error e)
    | .ok ks => (report l).map fun r' => r'.map (ks ++ ·)
  | _ :: _ => none

end Verif.Rapifier
