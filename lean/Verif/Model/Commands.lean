import Verif.Model.Executor
import Verif.Model.Release
import Verif.Model.Version
import Verif.Model.SqfBlockLint
/-!
Model of what the commands `check`, `dev`, `build` and `release` (and `launch`, which runs `dev`) set up:
`/repo/bin/src/commands/{check,dev,build,release,mod}.rs`, `/repo/bin/src/context.rs`; of which scripts are compiled and what
is said about the required version: `/repo/bin/src/modules/sqf.rs`; and of the search for byte order marks:
`/repo/bin/src/modules/bom.rs`.

* `lower` is `str::to_lowercase`. Options that exclude each other (crate `clap`) are not modelled.
* Reading the project (`Context::new`) is left out but for the flag whether the previous output is kept: the addons `all`
  are those of `Addon::scan`, see `Workspace.scan`.
* Preprocessing, parsing, linting and compiling a script are parameters of the module; they are modelled elsewhere.
* Scripts are compiled in parallel (crate `rayon`); each writes one file of its own. The model goes through them one by one.
-/
namespace Verif.Commands

open Verif.Workspace (Location Addon)
open Verif.Release (folder)
open Verif.Executor (Stage Phase Executor Res checkCommand buildCommand releaseStages)

/-! ### Commands -/

/-- The modules, `bin/src/modules/mod.rs:3-25`. -/
inductive Module
  | bom | hooks | stringtables | sqf | rapifier | binarize (checkOnly : Bool) | files | filePatching | sign
  deriving DecidableEq, Repr

/-- What a command sets up: `Executor` of `bin/src/executor.rs:9-14` and the parts of the `Context` that differ. -/
structure Plan where
  addons : List Addon
  modules : List Module
  stages : List Stage
  /-- `Collapse::Yes` -/
  collapse : Bool
  /-- `PreservePrevious::Keep` -/
  keep : Bool
  deriving DecidableEq, Repr

/-- `commands/mod.rs:22-27`, `global_modules`. -/
def globalModules : List Module := [.bom, .hooks, .stringtables, .sqf]

/-- `commands/check.rs:25-47`, `execute`. -/
def check (all : List Addon) : Plan :=
  { addons := all, modules := globalModules ++ [.rapifier, .binarize true], stages := checkCommand, collapse := true,
    keep := false }

/-- `commands/dev.rs:49-73`, `DevArgs`. -/
structure DevArgs where
  binarize : Bool
  optional : List Text
  allOptionals : Bool
  noRap : Bool

/-- `str::starts_with` -/
def startsWith (p s : Text) : Bool := p.isPrefixOf s

/-- `commands/dev.rs:118-136`, the filter; `just` is in lower case already. -/
def devFilter (lower : Text → Text) (args : DevArgs) (just launch exclude : List Text) (a : Addon) : Bool :=
  if !just.isEmpty && !just.contains (lower a.name) then false
  else if launch.any (· == a.name) then true
  else if a.location == .optionals && !args.allOptionals && !args.optional.contains a.name then false
  else !exclude.any fun e => startsWith (e ++ ['/']) (folder a ++ ['/'])

/-- `commands/dev.rs:88-171`, `context`; `exclude` is `hemtt.dev.exclude` of the project. An error is
`OptionalNotFound`. -/
def dev (lower : Text → Text) (all : List Addon) (args : DevArgs) (just launch exclude : List Text)
    (forceBinarize rapify : Bool) : Except Text Plan :=
  let just := just.map lower
  let addons := all.filter (devFilter lower args just launch exclude)
  match args.optional.find? fun o => !addons.any fun a => a.name == o with
  | some o => .error o
  | none => .ok
    { addons := addons
      modules := globalModules ++ (if rapify && !args.noRap then [.rapifier] else []) ++ [.files, .filePatching] ++
        (if forceBinarize || args.binarize then [.binarize false] else [])
      stages := buildCommand, collapse := true, keep := !just.isEmpty }

/-- `commands/build.rs:96-116`, `executor`: the modules. -/
def buildModules (noBin noRap : Bool) : List Module :=
  globalModules ++ (if noRap then [] else [.rapifier]) ++ (if noBin then [] else [.binarize false]) ++ [.files]

/-- `commands/build.rs:65-94`, `execute`. -/
def build (lower : Text → Text) (all : List Addon) (just : List Text) (noBin noRap : Bool) : Plan :=
  let just := just.map lower
  { addons := if just.isEmpty then all else all.filter fun a => just.contains (lower a.name)
    modules := buildModules noBin noRap, stages := buildCommand, collapse := false, keep := !just.isEmpty }

/-- `commands/release.rs:73-97`, `execute`; `signs` and `archives` are the settings of the project. -/
def release (all : List Addon) (noBin noRap noSign noArchive signs archives : Bool) : Plan :=
  { addons := all
    modules := buildModules noBin noRap ++ (if !noSign && signs then [.sign] else [])
    stages := buildCommand ++ releaseStages (if noArchive then false else archives), collapse := false, keep := false }

/-! ### Running them -/

/-- The world: the required versions of the addons, `BuildData` of `libs/workspace/src/addons.rs:236-276`, which all copies of
an addon share, and the rest. -/
structure World (R : Type) where
  required : Text → Option (Nat × Nat)
  rest : R

/-- What the modules do in each phase.
* `sqf` is `pre_build` of `modules/sqf.rs:51-138`, which reads the required versions (`libs/sqf/src/analyze/lints/s01…:73` and
  `s02…:269`). `sqfPost` is its `post_build`, `sqf.rs:140-171`, which does so, too.
* `rapifier` is `pre_build` of `modules/rapifier.rs:48-106`, which sets them (line 160), also if it stops with an error.
* `other` is everything else. It has no access to required versions. -/
structure Acts (R E K : Type) where
  sqf : (Text → Option (Nat × Nat)) → R → Res R E K
  sqfPost : (Text → Option (Nat × Nat)) → R → Res R E K
  rapifier : R → Except E (List K) × (Text → Option (Nat × Nat)) × R
  other : Module → Phase → R → Res R E K

/-- What a module does in a phase. -/
def Acts.act {R E K : Type} (acts : Acts R E K) (m : Module) (p : Phase) (w : World R) : Res (World R) E K :=
  match m, p with
  | .sqf, .preBuild => let r := acts.sqf w.required w.rest; (r.1, { w with rest := r.2 })
  | .sqf, .postBuild => let r := acts.sqfPost w.required w.rest; (r.1, { w with rest := r.2 })
  | .rapifier, .preBuild =>
    let r := acts.rapifier w.rest
    (r.1, { required := fun n => (r.2.1 n).or (w.required n), rest := r.2.2 })
  | m, p => let r := acts.other m p w.rest; (r.1, { w with rest := r.2 })

/-- The executor of a plan; `pbos` makes the PBOs and `archive` the archive. -/
def Plan.executor {R E K : Type} (pl : Plan) (acts : Acts R E K) (pbos archive : R → Res R E K) :
    Executor (World R) E K :=
  { modules := pl.modules.map acts.act
    build := fun w => let r := pbos w.rest; (r.1, { w with rest := r.2 })
    archive := fun w => let r := archive w.rest; (r.1, { w with rest := r.2 })
    stages := pl.stages }

/-! ### The required version -/

/-- `a < b` and `a == b` of `libs/common/src/version.rs:176-200`; the second is derived. -/
def newer (a b : Ver.Version) : Bool := Ver.partialCmp a b == some .gt

/-- `modules/sqf.rs:142-155`: the loop, with the highest version so far and the addons that need it. -/
def highest : List (Text × Option Ver.Version) → Ver.Version × List Text → Ver.Version × List Text
  | [], acc => acc
  | (_, none) :: l, acc => highest l acc
  | (n, some v) :: l, acc =>
    highest l (if newer v acc.1 then (v, [n]) else if v = acc.1 then (acc.1, acc.2 ++ [n]) else acc)

/-- `modules/sqf.rs:140-171`, `post_build`: the version and the addons named in a report `BSW1`, if there is one. `stable` is the
version of the wiki (256 times its major and its minor part). -/
def futureVersion (stable : Nat) (addons : List (Text × Option Ver.Version)) : Option (Nat × List Text) :=
  let (v, by_) := highest addons (⟨0, 0, 0, none, none⟩, [])
  let w := SqfLint.wikiVersion v.major v.minor
  if stable < w then some (w, by_) else none

/-! ### Compiling scripts -/

/-- `vfs::VfsPath::extension`: what follows the last dot, unless there is none or nothing before it. -/
def extension (name : Text) : Option Text :=
  match name.reverse.dropWhile (· ≠ '.') with
  | [] => none
  | [_] => none
  | _ => some (name.reverse.takeWhile (· ≠ '.')).reverse

/-- `libs/workspace/src/path.rs:165-189`, `with_extension`, for the last component. -/
def withExtension (name ext : Text) : Text :=
  match name.reverse.dropWhile (· ≠ '.') with
  | [] => name ++ '.' :: ext
  | _ :: r => r.reverse ++ '.' :: ext

/-- `str::contains` -/
def hasPart (p : Text) : Text → Bool
  | [] => p.isEmpty
  | c :: s => p.isPrefixOf (c :: s) || hasPart p s

/-- `modules/sqf.rs:60`: is a file compiled? -/
def isScript (name : Text) : Bool := extension name == some "sqf".toList && !".inc.sqf".toList.isSuffixOf name

/-- What preprocessing a file gives. -/
inductive Pre (P K E : Type)
  | ok (p : P) | code (k : K) | other (e : E)

/-- What parsing gives, `ParserError` of `libs/sqf/src/parser/mod.rs`. -/
inductive Parsed (S K : Type)
  | ok (s : S) | parsing (ks : List K) | lexing (ks : List K)

/-- The parts of the work that are modelled elsewhere: the preprocessor, its warnings and its text, the parser, the lints and the
compiler, for a file given by its path. -/
structure Tools (P S K E B : Type) where
  pre : List Text → Pre P K E
  warnings : P → List K
  text : P → Text
  parse : P → Parsed S K
  lint : Addon → P → S → List K
  compile : P → S → B

/-- The path of the compiled script, `sqf.rs:101`. -/
def compiled (path : List Text) : List Text := path.dropLast ++ [withExtension (path.getLastD []) "sqfc".toList]

/-- `sqf.rs:112-113`: is this taken for a file of settings? -/
def settings (t : Text) : Bool := startsWith "force ".toList t || hasPart "\nforce ".toList t

/-- `sqf.rs:74-129`: the work for one file, giving the report and the file that is written. `failed` is
`libs/workspace/src/reporting/mod.rs`, `CodesExt::failed`. -/
def compileFile {P S K E B : Type} (T : Tools P S K E B) (err : K → Bool) (a : Addon) (path : List Text) :
    Except E (List K × Option (List Text × B)) :=
  match T.pre path with
  | .code k => .ok ([k], none)
  | .other e => .error e
  | .ok p => match T.parse p with
    | .ok s =>
      let codes := T.lint a p s
      .ok (T.warnings p ++ codes, if codes.any err then none else some (compiled path, T.compile p s))
    | .parsing ks => .ok (T.warnings p ++ if settings (T.text p) then [] else ks, none)
    | .lexing ks => .ok (T.warnings p ++ ks, none)

/-- `sqf.rs:55-65`: the files to compile; `walk` gives the paths of the files below a folder. -/
def scripts (walk : Addon → List (List Text)) (addons : List Addon) : List (Addon × List Text) :=
  addons.flatMap fun a => ((walk a).filter fun f => isScript (f.getLastD [])).map (a, ·)

/-- `sqf.rs:73-134`: all the files. -/
def compileFiles {P S K E B : Type} (T : Tools P S K E B) (err : K → Bool) :
    List (Addon × List Text) → Except E (List K × List (List Text × B))
  | [] => .ok ([], [])
  | (a, f) :: l => match compileFile T err a f with
    | .error e => .error e
    | .ok (r, o) => match compileFiles T err l with
      | .error e => .error e
      | .ok (r', o') => .ok (r ++ r', o.toList ++ o')

/-- `sqf.rs:51-138`, `pre_build`. -/
def compileScripts {P S K E B : Type} (T : Tools P S K E B) (err : K → Bool) (walk : Addon → List (List Text))
    (addons : List Addon) : Except E (List K × List (List Text × B)) :=
  compileFiles T err (scripts walk addons)

/-! ### Byte order marks -/

/-- `modules/bom.rs:19`. -/
def ignoredExtensions : List Text := ["p3d".toList, "rtm".toList, "bin".toList, "paa".toList]

/-- `modules/bom.rs:20-31`: is a file looked at? `full` is its whole path as shown and `name` its last component. For a name that is
not text the extension counts as empty; such names are left out. -/
def looksForBom (full name : Text) : Bool :=
  !hasPart ".hemttout".toList full && (extension name).any fun e => !ignoredExtensions.contains e

/-- `modules/bom.rs:33-59`, `check`: the files that are reported. `walk` gives the files below `addons` and `optionals`, each with
its path below the project folder and its content. -/
def bomCheck (project : Text) (walk : List (List Text × Bytes)) : List (List Text) :=
  (walk.filter fun f => looksForBom (project ++ '/' :: joinWith '/' f.1) (f.1.getLastD []) &&
    (3 ≤ f.2.length && f.2.take 3 == [0xEF, 0xBB, 0xBF])).map (·.1)

end Verif.Commands
