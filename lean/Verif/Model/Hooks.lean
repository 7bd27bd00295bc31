import Verif.Model.StringtableXml
import Verif.Lib.Text
/-!
Model of hooks and scripts, `/repo/bin/src/modules/hook/mod.rs` and `/repo/bin/src/modules/hook/libraries/hemtt.rs`.

The script engine is external. What a script does is an arbitrary program `Prog` over an arbitrary state `W` (the disk and
the files of the workspace, the cached version included): any steps that read and change the state, calls of `fatal`,
calls of `HEMTT.script`, an end, or an error that stops it. The text a script prints and its result are left out.
-/
namespace Verif.Hooks
open Verif.StringtableXml (textLe)


/-- What a script does. `W` is the state it runs in. -/
inductive Prog (W : Type) where
  /-- it ends -/
  | done
  /-- an error that is not caught stops it (`throw`, a syntax error, ...) -/
  | throw
  /-- `fatal("...")`, repo: bin/src/modules/hook/mod.rs:161-168 -/
  | fatal (next : Prog W)
  /-- anything that reads or changes the state -/
  | step (f : W → W) (next : W → Prog W)
  /-- `HEMTT.script(name)`; whether it raises an error is seen by the caller, which may catch it -/
  | script (name : Text) (next : Bool → Prog W)

/-- A path of the workspace when it is used. -/
inductive Node (W : Type) where
  | missing | folder
  /-- a file that is not UTF-8 or cannot be read -/
  | unreadable
  | file (p : Prog W)

/-- What HEMTT asks of the state. -/
structure Files (W : Type) where
  /-- an entry of a folder of hooks, by the name of the phase and its own name -/
  hook : W → Text → Text → Node W
  /-- the file `.hemtt/scripts/<name>` -/
  script : W → Text → Node W
  /-- the names in a folder of hooks in the order of the file system, `none` if there is no folder -/
  list : W → Text → Option (List Text)
  /-- whether the version of the project is known -/
  versionKnown : W → Bool
  /-- forget the version that was read, repo: libs/common/src/config/project/version.rs:60-64 -/
  invalidate : W → W

/-- Codes of the report: `BHE1`, `BHE2`, `BHE4`. -/
inductive Code
  | notFound (name : Text) | fatal (name : Text) | runtime (name : Text)
  deriving DecidableEq, Repr

/-- How it ends early: an error that is passed on, an abort, or too many scripts that call each other. -/
inductive Stop
  | error | panic | depth
  deriving DecidableEq, Repr

/-- The path a name stands for below `.hemtt/scripts`: everything from the last dot of its last part is replaced.
repo: libs/workspace/src/path.rs:165-189 (`with_extension`). Names that
`join` of the workspace changes (`..`, a leading `/`) are left out. -/
def withExtension (name ext : Text) : Text :=
  let r := name.reverse
  match r.dropWhile (fun c => c ≠ '.' ∧ c ≠ '/') with
  | '.' :: s => s.reverse ++ '.' :: ext
  | _ => name ++ '.' :: ext

/-- What a script comes to: the state, whether `fatal` was called, and whether an error stopped it. -/
structure Outcome (W : Type) where
  world : W
  fatal : Bool
  failed : Bool

/-- The run of a script. `call` is `HEMTT.script`: the state after it and whether it raised no error.
repo: bin/src/modules/hook/mod.rs:137-169 -/
def eval {W : Type} (call : W → Text → Except Stop (W × Bool)) : Prog W → Bool → W → Except Stop (Outcome W)
  | .done, fatal, w => .ok ⟨w, fatal, false⟩
  | .throw, fatal, w => .ok ⟨w, fatal, true⟩
  | .fatal k, _, w => eval call k true w
  | .step f k, fatal, w => eval call (k w) fatal (f w)
  | .script n k, fatal, w =>
    match call w n with
    | .error e => .error e
    | .ok (w, ok) => eval call (k ok) fatal w

/-- The codes a run pushes, repo: bin/src/modules/hook/mod.rs:169-181. -/
def codesOf {W : Type} (name : Text) (o : Outcome W) : List Code :=
  if o.failed then [.runtime name] else if o.fatal then [.fatal name] else []

/-- repo: bin/src/modules/hook/mod.rs:137-183 (`run`). The scope is made first and needs the version
(repo: bin/src/modules/hook/libraries/project.rs:31-35). -/
def runWith {W : Type} (fs : Files W) (call : W → Text → Except Stop (W × Bool)) (name : Text) (node : Node W) (w : W) :
    Except Stop (W × List Code) :=
  if fs.versionKnown w = false then .error .panic
  else match node with
    | .file p =>
      match eval call p false w with
      | .error e => .error e
      | .ok o => .ok (o.world, codesOf name o)
    | _ => .error .error

/-- `HEMTT.script`, repo: bin/src/modules/hook/libraries/hemtt.rs:80-100. The report of the script is dropped; an error
that would be passed on is raised in the caller. `n` bounds how many scripts are inside of each other. -/
def callScript {W : Type} (fs : Files W) : Nat → W → Text → Except Stop (W × Bool)
  | 0, _, _ => .error .depth
  | n + 1, w, name =>
    let file := withExtension name "rhai".toList
    match fs.script w file with
    | .missing => .ok (w, true)
    | node =>
      match runWith fs (callScript fs n) file node w with
      | .ok (w, _) => .ok (w, true)
      | .error .error => .ok (w, false)
      | .error e => .error e

/-- `run` with scripts that may call others, `n` deep. -/
def run {W : Type} (fs : Files W) (n : Nat) (name : Text) (node : Node W) (w : W) : Except Stop (W × List Code) :=
  runWith fs (callScript fs n) name node w

/-- What a folder of hooks comes to: the state, the report, and the hooks that were started (`Running hook: ...`). -/
structure Ran (W : Type) where
  world : W
  codes : List Code
  started : List Text

/-- The loop over the entries, repo: bin/src/modules/hook/mod.rs:98-109. -/
def runEntries {W : Type} (fs : Files W) (n : Nat) (phase : Text) : List Text → W → Except Stop (Ran W)
  | [], w => .ok ⟨w, [], []⟩
  | name :: rest, w =>
    match fs.hook w phase name with
    | .missing | .folder => runEntries fs n phase rest w
    | node =>
      match run fs n (phase ++ '/' :: name) node w with
      | .error e => .error e
      | .ok (w', codes) =>
        match runEntries fs n phase rest (fs.invalidate w') with
        | .error e => .error e
        | .ok r => .ok ⟨r.world, codes ++ r.codes, name :: r.started⟩

/-- repo: bin/src/modules/hook/mod.rs:81-111 (`run_folder`); `enabled` is what `init` found. -/
def runFolder {W : Type} (fs : Files W) (n : Nat) (enabled : Bool) (phase : Text) (w : W) : Except Stop (Ran W) :=
  if enabled = false then .ok ⟨w, [], []⟩
  else match fs.list w phase with
    | none => .ok ⟨w, [], []⟩
    | some l => runEntries fs n phase (l.insertionSort (fun a b => textLe a b = true)) w

/-- The name of a script in messages: the last two parts of its path, repo: bin/src/modules/hook/mod.rs:142-147. -/
def lastTwo (path : Text) : Text :=
  let parts := split '/' path
  joinWith '/' (parts.drop (parts.length - 2))

/-- `hemtt script NAME`, repo: bin/src/modules/hook/mod.rs:122-135 (`run_file`). -/
def runFile {W : Type} (fs : Files W) (n : Nat) (name : Text) (w : W) : Except Stop (W × List Code) :=
  let file := withExtension name "rhai".toList
  match fs.script w file with
  | .missing => .ok (w, [.notFound name])
  | node => match run fs n (lastTwo ("/.hemtt/scripts/".toList ++ file)) node w with
    | .ok (w, c) => .ok (fs.invalidate w, c)
    | .error e => .error e

/-! ### Before anything is built -/

/-- An entry of a folder of hooks on the disk: `none` if it cannot be read as text (a folder, for one). -/
structure Entry where
  name : Text
  text : Option Text

/-- The phases, repo: bin/src/modules/hook/mod.rs:196. -/
def phases : List Text := ["pre_build".toList, "post_build".toList, "pre_release".toList, "post_release".toList]

/-- One folder, repo: bin/src/modules/hook/mod.rs:202-213. `parses` is the script engine. -/
def initEntries (parses : Text → Bool) (phase : Text) : List Entry → Option (List (Text × Text))
  | [] => some []
  | e :: l => match e.text with
    | none => none
    | some s => match initEntries parses phase l with
      | none => none
      | some r => some (if parses s then r else (phase, e.name) :: r)

/-- All folders; `none` stands for an error that is passed on. -/
def initPhases (parses : Text → Bool) (dirs : Text → Option (List Entry)) : List Text → Option (List (Text × Text))
  | [] => some []
  | p :: l => match dirs p with
    | none => initPhases parses dirs l
    | some es => match initEntries parses p es with
      | none => none
      | some r => match initPhases parses dirs l with
        | none => none
        | some r' => some (r ++ r')

/-- repo: bin/src/modules/hook/mod.rs:191-219: whether hooks are on, and the hooks that do not parse (`BHE3`). -/
def init (parses : Text → Bool) (hooksFolder : Bool) (dirs : Text → Option (List Entry)) :
    Option (Bool × List (Text × Text)) :=
  if hooksFolder then (initPhases parses dirs phases).map ((true, ·)) else some (false, [])

end Verif.Hooks
