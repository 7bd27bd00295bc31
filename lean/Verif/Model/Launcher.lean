import Verif.Model.Launch
/-!
Model of starting the game: `/repo/bin/src/commands/launch/{mod,launcher,platforms,preset}.rs`.

* Strings and paths are bytes. What the operating system answers (does a path exist, what is its parent, where is the
  game) is an argument (`Host`); that the current directory can be asked for is assumed.
* Starting a process succeeds, except that asking for `flatpak` can fail.
* A report is the list of its codes. All codes of this command are errors, so the report has failed if it is not empty.
* `hemtt dev`, which is run first, is an argument: the errors it reports. Links in the folder of the game are left out.
* `\d` in the regular expressions stands for the digits 0 to 9; digits of other scripts are left out.
-/
namespace Verif.Launcher
open Verif.Launch

/-- The system the program was compiled for. -/
inductive Target
  | windows | linux | other
  deriving DecidableEq, Repr

/-- What the system answers. -/
structure Host where
  target : Target
  /-- `Path::is_absolute` -/
  absolute : Bytes → Bool
  /-- the separator of paths -/
  sep : UInt8
  /-- `Path::parent` -/
  parent : Bytes → Option Bytes
  /-- `Path::exists` -/
  present : Bytes → Bool
  /-- `Path::is_file` -/
  isFile : Bytes → Bool
  /-- `read_to_string` -/
  read : Bytes → Option Bytes
  /-- `current_dir` -/
  cwd : Bytes
  /-- `steam::find_app(107_410)` -/
  arma3 : Option Bytes
  /-- Does `flatpak list --app` name Steam? `none` if that command cannot be run. -/
  flatpak : Option Bool

/-- `Path::join`: an absolute path replaces the first one. On Windows a path can begin at the root of the current drive,
which is left out. -/
def Host.join (h : Host) (p q : Bytes) : Bytes :=
  if h.absolute q then q
  else if p = [] ∨ p.getLast? = some h.sep then p ++ q else p ++ h.sep :: q

/-- The text behind the last separator. -/
def Host.fileName (h : Host) (p : Bytes) : Bytes := (p.reverse.takeWhile fun c => c ≠ h.sep).reverse

/-- `Path::file_stem`: the name up to its last dot, if that is not its first sign. -/
def stem (name : Bytes) : Bytes :=
  let before := (name.reverse.dropWhile fun c => c ≠ 46).drop 1
  if before = [] then name else before.reverse

/-- `Path::extension`. -/
def extension (name : Bytes) : Option Bytes :=
  let before := (name.reverse.dropWhile fun c => c ≠ 46).drop 1
  if before = [] then none else some (name.reverse.takeWhile fun c => c ≠ 46).reverse

/-- `Path::with_extension` for a path that ends in a name. -/
def Host.withExtension (h : Host) (p ext : Bytes) : Bytes :=
  let name := h.fileName p
  p.take (p.length - name.length) ++ stem name ++ 46 :: ext

/-- Small ASCII letters. -/
def lowerB (b : Bytes) : Bytes := b.map fun c => if 65 ≤ c ∧ c ≤ 90 then c + 32 else c

/-- `libs/common/src/config/project/hemtt/launch.rs:83-96`, `executable`. -/
def executable (h : Host) (o : Options) : Bytes :=
  let e := o.executable.getD (ascii "arma3_x64")
  if (extension (h.fileName e)).map lowerB = some (ascii "exe") then e else e ++ ascii ".exe"

/-- The codes of `launch/error`; `build` is an error of `hemtt dev`. -/
inductive Code
  | missingMainPrefix | configNotFound (c : Bytes) | armaNotFound | presetNotFound (p : Bytes)
  | workshopNotFound | modNotFound (id : Bytes) | missionAbsolute (m : Bytes) | missionNotFound (m : Bytes)
  | canNotQuickLaunch (noBuild : Bool) | build (n : Nat)
  deriving DecidableEq, Repr

/-- How the command can end without a report. -/
inductive Stop
  | io | panic
  deriving DecidableEq, Repr

/-! ### Presets, `preset.rs` -/

/-- The text behind a fixed beginning. -/
def strip : Bytes → Bytes → Option Bytes
  | [], s => some s
  | c :: p, d :: s => if c = d then strip p s else none
  | _ :: _, [] => none

/-- `0` to `9`. -/
def isDigit (c : UInt8) : Bool := 48 ≤ c && c ≤ 57

/-- A match of `href="https?://` `tail` `(\d+)"` at the start of the text: the digits and the text behind. -/
def linkAt (tail : Bytes) (s : Bytes) : Option (Bytes × Bytes) :=
  match strip (ascii "href=\"http") s with
  | none => none
  | some s =>
    let s := match strip (ascii "s") s with
      | some s => s
      | none => s
    match strip (ascii "://" ++ tail) s with
    | none => none
    | some s =>
      let ds := s.takeWhile isDigit
      match ds, s.dropWhile isDigit with
      | _ :: _, 34 :: rest => some (ds, rest)
      | _, _ => none

/-- `captures_iter`: the matches from left to right, each behind the end of the one before. `n` bounds the number of
steps. -/
def captures (tail : Bytes) : Nat → Bytes → List Bytes
  | 0, _ => []
  | _ + 1, [] => []
  | n + 1, c :: s => match linkAt tail (c :: s) with
    | some (ds, rest) => ds :: captures tail n rest
    | none => captures tail n s

/-- `if !v.contains(&x) { v.push(x) }`, `preset.rs:16-21,33-38` and `launcher.rs:112-121`. -/
def pushNew {α : Type} [DecidableEq α] (v : List α) (x : α) : List α := if x ∈ v then v else v ++ [x]

/-- `libs/common/src/arma/dlc.rs:96-118`, `try_from` for a number of an application. -/
def dlcOfId (s : Bytes) : Option Nat :=
  if s = ascii "1021790" then some 0
  else if s = ascii "1042220" then some 1
  else if s = ascii "1227700" then some 2
  else if s = ascii "1294440" then some 3
  else if s = ascii "1681170" then some 4
  else if s = ascii "1175380" then some 5
  else if s = ascii "2647760" then some 6
  else if s = ascii "2647830" then some 7
  else none

/-- `dlc.rs:48-59`, `to_mod`. -/
def dlcMod : Nat → Bytes
  | 0 => ascii "contact"
  | 1 => ascii "gm"
  | 2 => ascii "vn"
  | 3 => ascii "csla"
  | 4 => ascii "ws"
  | 5 => ascii "spe"
  | 6 => ascii "rf"
  | _ => ascii "ef"

/-- The part of a link to a mod between `://` and the number. -/
def modTail : Bytes := ascii "steamcommunity.com/sharedfiles/filedetails/?id="
/-- The part of a link to a DLC between `://` and the number. -/
def dlcTail : Bytes := ascii "store.steampowered.com/app/"

/-- `preset.rs:8-41`, `read`. -/
def readPreset (html : Bytes) : List Bytes × List Nat :=
  ((captures modTail html.length html).foldl pushNew [],
    ((captures dlcTail html.length html).filterMap dlcOfId).foldl pushNew [])

/-! ### The launcher, `launcher.rs` -/

/-- `mod.rs:190-233`, `LaunchArgs`. -/
structure Args where
  config : List Bytes := []
  executable : Option Bytes := none
  passthrough : List Bytes := []
  instances : Option Nat := none
  quick : Bool := false
  noFilePatching : Bool := false

/-- `launcher.rs:27-36`, `Launcher`. -/
structure Plan where
  executable : Bytes
  dlc : List Nat
  workshop : List Bytes
  options : List Bytes
  arma3 : Bytes
  mission : Option Bytes
  instances : Nat
  filePatching : Bool
  deriving DecidableEq, Repr

/-- `launcher.rs:61`: the parameters that are always given. -/
def defaults : List Bytes := [ascii "-skipIntro", ascii "-noSplash", ascii "-showScriptErrors", ascii "-debug"]

/-- `launcher.rs:102-123`, `add_preset`. -/
def addPreset (h : Host) (l : Plan) (report : List Code) (preset : Bytes) : Except Stop (Plan × List Code) :=
  let html := h.withExtension (h.join (h.join h.cwd (ascii ".hemtt/presets")) preset) (ascii "html")
  if ¬ h.present html then .ok (l, report ++ [.presetNotFound preset])
  else match h.read html with
    | none => .error .io
    | some html =>
      let (mods, dlc) := readPreset html
      .ok ({ l with workshop := mods.foldl pushNew l.workshop, dlc := dlc.foldl pushNew l.dlc }, report)

/-- `launcher.rs:71-73`: all presets in turn. -/
def addPresets (h : Host) : List Bytes → Plan → List Code → Except Stop (Plan × List Code)
  | [], l, report => .ok (l, report)
  | p :: ps, l, report => match addPreset h l report p with
    | .error e => .error e
    | .ok (l, report) => addPresets h ps l report

/-- `launcher.rs:43-78`, `new`. -/
def new (h : Host) (a : Args) (o : Options) : Except Stop (List Code × Option Plan) :=
  match h.arma3 with
  | none => .ok ([.armaNotFound], none)
  | some arma3 =>
    let l : Plan := {
      instances := a.instances.getD (o.instances.getD 1)
      filePatching := o.filePatching.getD true && !a.noFilePatching
      executable := executable h o
      dlc := o.dlc
      workshop := o.workshop
      mission := o.mission
      options := defaults ++ o.parameters ++ a.passthrough
      arma3 := arma3 }
    match addPresets h o.presets l [] with
    | .error e => .error e
    | .ok (l, report) => if report ≠ [] then .ok (report, none) else .ok (report, some l)

/-- `launcher.rs:84-95`, `add_self_mod`. -/
def addSelf (h : Host) (l : Plan) : Plan :=
  let path := h.join h.cwd (ascii ".hemttout/dev")
  { l with workshop := l.workshop ++ [if h.target = .linux then ascii "Z:" ++ path else path] }

/-- White space in the regular expression of `meta.cpp`. -/
def isSpace (c : UInt8) : Bool := c = 32 || (9 ≤ c && c ≤ 13)

/-- A match of `publishedid\s*=\s*(\d+);` at the start of the text. -/
def publishedAt (s : Bytes) : Option Bytes :=
  match strip (ascii "publishedid") s with
  | none => none
  | some s => match strip (ascii "=") (s.dropWhile isSpace) with
    | none => none
    | some s =>
      let s := s.dropWhile isSpace
      match s.takeWhile isDigit, s.dropWhile isDigit with
      | d :: ds, 59 :: _ => some (d :: ds)
      | _, _ => none

/-- The first match in the text. -/
def published : Bytes → Option Bytes
  | [] => none
  | c :: s => match publishedAt (c :: s) with
    | some id => some id
    | none => published s

/-- A process that is started. -/
structure Started where
  program : Bytes
  args : List Bytes
  deriving DecidableEq, Repr

/-- `platforms.rs:8-23`, `windows`. -/
def startWindows (h : Host) (arma3 exe : Bytes) (args : List Bytes) : Started :=
  let path := if h.absolute exe then exe else h.join arma3 exe
  ⟨h.withExtension path (ascii "exe"), args⟩

/-- `platforms.rs:25-70`, `linux`. -/
def startLinux (h : Host) (args : List Bytes) : Except Stop Started :=
  match h.flatpak with
  | none => .error .io
  | some true => .ok ⟨ascii "flatpak", [ascii "run", ascii "com.valvesoftware.Steam", ascii "-applaunch",
      ascii "107410", ascii "-nolauncher"] ++ args⟩
  | some false => .ok ⟨ascii "steam", [ascii "-applaunch", ascii "107410", ascii "-nolauncher"] ++ args⟩

/-- `launcher.rs:164-181`: the mods and the codes for those that are missing. -/
def loadMods (h : Host) (folder : Bytes) (own : Option Bytes) : List Bytes → List Bytes × List Code
  | [] => ([], [])
  | m :: ms =>
    let (mods, codes) := loadMods h folder own ms
    if some m = own then (mods, codes)
    else
      let path := h.join folder m
      ((if h.target = .windows then path else ascii "Z:" ++ path) :: mods,
        (if h.present path then [] else [.modNotFound m]) ++ codes)

/-- `launcher.rs:138-182`: the folder of the workshop and the mods in it. -/
def mods (h : Host) (l : Plan) : Except Stop (List Bytes × List Code) :=
  if l.workshop = [] then .ok ([], [])
  else match (h.parent l.arma3).bind h.parent with
    | none => .ok ([], [.workshopNotFound])
    | some root =>
      let folder := h.join (h.join (h.join root (ascii "workshop")) (ascii "content")) (ascii "107410")
      if ¬ h.present folder then .ok ([], [.workshopNotFound])
      else
        let metaPath := h.join h.cwd (ascii "meta.cpp")
        if h.present metaPath then
          match h.read metaPath with
          | none => .error .io
          | some content => .ok (loadMods h folder (published content) l.workshop)
        else .ok (loadMods h folder none l.workshop)

/-- `-mod="…"` -/
def modArg (m : Bytes) : Bytes := ascii "-mod=\"" ++ m ++ ascii "\""

/-- `launcher.rs:200-230`: the file of the mission. -/
def missionFile (h : Host) (m : Bytes) : Except Code Bytes :=
  if h.absolute m then .error (.missionAbsolute m)
  else
    let path := h.join h.cwd m
    let path := if h.fileName path = ascii "mission.sqm" then path else h.join path (ascii "mission.sqm")
    let path := if h.isFile path then path else
      h.join (h.join (h.join (h.join h.cwd (ascii ".hemtt")) (ascii "missions")) m) (ascii "mission.sqm")
    if h.isFile path then .ok path else .error (.missionNotFound m)

/-- `launcher.rs:232-262`: one process for each instance. With one instance and another system than Windows the
parameters are those without `-filePatching`. -/
def startAll (h : Host) (l : Plan) (args : List Bytes) : Except Stop (List Started) :=
  let one := if l.filePatching then args ++ [ascii "-filePatching"] else args
  let start (args : List Bytes) : Except Stop Started :=
    if h.target = .windows then .ok (startWindows h l.arma3 l.executable one) else startLinux h args
  if l.instances = 1 then match start args with
    | .error e => .error e
    | .ok s => .ok [s]
  else if l.instances = 0 then .error .panic
  else match start one with
    | .error e => .error e
    | .ok s => .ok (List.replicate l.instances s)

/-- `launcher.rs:133-263`, `launch`. -/
def launch (h : Host) (l : Plan) (args : List Bytes) (report : List Code) :
    Except Stop (List Code × List Started) :=
  match mods h l with
  | .error e => .error e
  | .ok (ms, codes) =>
    let report := report ++ codes
    if report ≠ [] then .ok (report, [])
    else
      let args := args ++ ((dedup (l.dlc.mergeSort fun a b => a ≤ b)).map fun d => modArg (dlcMod d)) ++
        ((sortDedup ms).map modArg) ++ l.options
      match l.mission with
      | none => match startAll h l args with
        | .error e => .error e
        | .ok st => .ok (report, st)
      | some m => match missionFile h m with
        | .error c => .ok (report ++ [c], [])
        | .ok path => match startAll h l (args ++ [34 :: path ++ [34]]) with
          | .error e => .error e
          | .ok st => .ok (report, st)

/-! ### The command, `mod.rs` -/

/-- What the command reads of the project. -/
structure Project where
  mainprefix : Option Bytes
  name : Bytes
  launch : Bytes → Option Options

/-- `mod.rs:334-348`, the configurations that are named. -/
def findConfigs (p : Project) : List Bytes → List Options × List Code
  | [] => ([], [])
  | c :: cs =>
    let (os, codes) := findConfigs p cs
    match p.launch c with
    | some o => (o :: os, codes)
    | none => (os, .configNotFound c :: codes)

/-- `mod.rs:322-358`, `read_config`. `collect` stops at the first missing one, so that only one is reported. -/
def readConfig (p : Project) (configs : List Bytes) : Except (List Code) Options :=
  if configs = [] then .ok ((p.launch (ascii "default")).getD {})
  else match findConfigs p configs with
    | (os, []) => .ok (os.foldl Options.overlay {})
    | (_, c :: _) => .error [c]

/-- `mod.rs:243-319`, `execute`. `dev` is the report of `hemtt dev` with the optional addons and the settings for
binarize and rapify. -/
def execute (h : Host) (p : Project) (a : Args) (dev : List Bytes → Bool → Bool → Except Stop (List Nat)) :
    Except Stop (List Code × List Started) :=
  match p.mainprefix with
  | none => .ok ([.missingMainPrefix], [])
  | some mainprefix => match readConfig p a.config with
    | .error codes => .ok (codes, [])
    | .ok o => match new h a o with
      | .error e => .error e
      | .ok (report, none) => .ok (report, [])
      | .ok (report, some l) =>
        let l := addSelf h l
        if a.quick then
          let folder := h.join l.arma3 mainprefix
          if ¬ h.present (h.join h.cwd (ascii ".hemttout/dev")) then .ok (report ++ [.canNotQuickLaunch true], [])
          else if ¬ h.present folder ∨ ¬ h.present (h.join folder p.name) then
            .ok (report ++ [.canNotQuickLaunch false], [])
          else launch h l [] report
        else match dev o.optionals (o.binarize.getD false) (o.rapify.getD true) with
          | .error e => .error e
          | .ok errs =>
            let report := report ++ errs.map Code.build
            if report ≠ [] then .ok (report, []) else launch h l [] report

end Verif.Launcher
