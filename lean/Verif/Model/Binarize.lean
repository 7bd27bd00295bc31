import Verif.Model.P3d
import Verif.Model.Release
/-!
Model of checking and binarizing models, animations and terrains: `/repo/bin/src/modules/binarize/mod.rs`,
`/repo/libs/p3d/src/functions/missing.rs`, and of the layers the files of a build are read from,
`/repo/bin/src/context.rs:95-115` and `/repo/libs/workspace/src/lib.rs:150-196`.

* Looking for a file (`WorkspacePath::locate`, see `Model/Workspace`) is a parameter: found, not found, or an error.
* The order in which a hash set is walked is a parameter.
* Finding the tool, and the links by which it finds its input, are left out. The tool is a parameter: what it writes for a
  folder to read from, a folder to write to and a name.
* Threads are left out: the results are collected in order, and each run of the tool writes its own file.
-/
namespace Verif.Binarize
open Verif.Release (Entry folder trimStart Entry.asStr BErr)
open Verif.Workspace (Addon trimSlashes)

/-! ### Missing textures and materials, `missing.rs` -/

/-- How a check can end without a report: an error, or an abort. -/
inductive Stop
  | io | glob | panic
  deriving DecidableEq, Repr

/-- `SearchCache`, `missing.rs:10-41`. -/
abbrev Cache := Bytes → Option Bool

/-- `missing.rs:37-40`, `insert`. -/
def Cache.insert (c : Cache) (k : Bytes) (b : Bool) : Cache := fun x => if x = k then some b else c x

/-- `str::replace` for the four signs of an extension; their first sign, a dot, is not among the others. -/
def replace (p q : Bytes) : Bytes → Bytes
  | a :: b :: c :: d :: s => if [a, b, c, d] = p then q ++ replace p q s else a :: replace p q (b :: c :: d :: s)
  | s => s

/-- `str::ends_with`. -/
def endsWith (p s : Bytes) : Bool := p.isSuffixOf s

/-- `missing.rs:66-70,103-107`: names begin with a backslash. -/
def slashed (s : Bytes) : Bytes := if s.head? = some 92 then s else 92 :: s

/-- `missing.rs:79-87`: the other name under which a texture may be there. -/
def other (t : Bytes) : Option Bytes :=
  if endsWith (ascii ".paa") t then some (replace (ascii ".paa") (ascii ".tga") t)
  else if endsWith (ascii ".tga") t then some (replace (ascii ".tga") (ascii ".paa") t)
  else if endsWith (ascii ".png") t then some (replace (ascii ".png") (ascii ".paa") t)
  else none

/-- `missing.rs:72-96`: is the texture there? -/
def lookTexture (locate : Bytes → Option Bool) (c : Cache) (t : Bytes) : Except Stop (Bool × Cache) :=
  match c t with
  | some b => .ok (b, c)
  | none => match locate t with
    | none => .error .io
    | some true => .ok (true, c.insert t true)
    | some false => match other t with
      | none => .ok (false, c.insert t false)
      | some o => match locate o with
        | none => .error .io
        | some b => .ok (b, c.insert t b)

/-- `missing.rs:108-117`: is the material there? -/
def lookMaterial (locate : Bytes → Option Bool) (c : Cache) (t : Bytes) : Except Stop (Bool × Cache) :=
  match c t with
  | some b => .ok (b, c)
  | none => match locate t with
    | none => .error .io
    | some b => .ok (b, c.insert t b)

/-- `missing.rs:62-97,99-118`: one of the two loops. `skip` are the names that are not looked for. -/
def lookAll (look : Cache → Bytes → Except Stop (Bool × Cache)) (skip : Bytes → Bool) :
    List Bytes → Cache → Except Stop (List Bytes × Cache)
  | [], c => .ok ([], c)
  | n :: ns, c =>
    if skip n then lookAll look skip ns c
    else match look c (slashed n) with
      | .error e => .error e
      | .ok (b, c) => match lookAll look skip ns c with
        | .error e => .error e
        | .ok (ms, c) => .ok (if b then ms else slashed n :: ms, c)

/-- A set: each element once. -/
def asSet : List Bytes → List Bytes
  | [] => []
  | n :: ns => if n ∈ ns then asSet ns else n :: asSet ns

/-- `missing.rs:48-120`, `missing`. `order` is the order in which a hash set is walked. -/
def missing (locate : Bytes → Option Bool) (order : List Bytes → List Bytes) (m : P3d.Model) (c : Cache) :
    Except Stop ((List Bytes × List Bytes) × Cache) :=
  let faces := m.lods.flatMap P3d.Lod.faces
  match lookAll (lookTexture locate) (fun t => t = [] || t.head? = some 35)
      (order (asSet (faces.map P3d.Face.texture))) c with
  | .error e => .error e
  | .ok (ts, c) => match lookAll (lookMaterial locate) (fun t => t = [])
        (order (asSet (faces.map P3d.Face.material))) c with
    | .error e => .error e
    | .ok (ms, c) => .ok ((ts, ms), c)

/-! ### What is binarized, `binarize/mod.rs` -/

/-- `libs/common/src/config/addon/binarize.rs:7-12` as `libs/common/src/config/addon/mod.rs:111-129` makes it of the
file; `exclude` is followed by `no_bin`. -/
structure Settings where
  enabled : Bool := true
  exclude : List Text := []
  deriving DecidableEq, Repr

/-- An addon with what `addon.toml` says, if there is one, and the entries of its folder. -/
structure Source where
  addon : Addon
  toml : Option Settings
  tree : List Entry

/-- `VfsPath::extension`: the text behind the last dot, if there is something in front of it. -/
def extension (name : Text) : Option Text :=
  match name.reverse.dropWhile (· ≠ '.') with
  | _ :: _ :: _ => some (name.reverse.takeWhile (· ≠ '.')).reverse
  | _ => none

/-- `mod.rs:175-176`. -/
def kinds : List Text := ["rtm".toList, "p3d".toList, "wrp".toList]

/-- `mod.rs:379-386`, `check_signature`. -/
def alreadyDone (buf : Bytes) : Bool :=
  buf = [0x4F, 0x44, 0x4F, 0x4C] || buf = [0x42, 0x4D, 0x54, 0x52] || buf = [0x4F, 0x50, 0x52, 0x57]

/-- `mod.rs:372-376`, `BinarizeTarget`. -/
structure Target where
  source : Text
  output : Text
  entry : Text
  deriving DecidableEq, Repr

/-- What is reported: a missing P drive, missing textures and materials of a file, files the tool made nothing of. -/
inductive Code
  | pdrive
  | textures (p3d : Text) (names : List Bytes) (warning : Bool)
  | materials (p3d : Text) (names : List Bytes) (warning : Bool)
  | failed (entry : Text)
  deriving DecidableEq, Repr

/-- What the check takes from outside. -/
structure Env where
  glob : Text → Option (Text → Bool)
  locate : Bytes → Option Bool
  order : List Bytes → List Bytes
  /-- the separator of paths -/
  sep : Char
  /-- the temporary folder of the project -/
  tmp : Text
  /-- `pdrive_option == Ignore` -/
  ignorePdrive : Bool
  /-- `pdrive_option == Require`, and there is none -/
  noPdrive : Bool

/-- `Path::join` with a path that does not begin at the root; the first does not end in a separator. -/
def Env.join (env : Env) (a b : Text) : Text := a ++ env.sep :: b

/-- `str::trim_end_matches(&str)`. -/
def trimEnd (p s : Text) : Text := (trimStart p.reverse s.reverse).reverse

/-- `mod.rs:179-186`: all patterns are read before one of them is tried. -/
def patterns (glob : Text → Option (Text → Bool)) : List Text → Option (List (Text → Bool))
  | [] => some []
  | p :: ps => match glob p with
    | none => none
    | some m => match patterns glob ps with
      | none => none
      | some ms => some (m :: ms)

/-- `as_str` of the parent of an entry. -/
def parentStr (a : Addon) (e : Entry) : Text := '/' :: joinWith '/' (folder a :: e.dir)

/-- `mod.rs:241-248`: where the tool reads from. `pfx` are the parts of the prefix. -/
def sourceOf (env : Env) (a : Addon) (e : Entry) : Text :=
  env.join (env.join env.tmp (joinWith env.sep a.pfx))
    (trimEnd e.filename (trimSlashes (trimStart (folder a) (trimSlashes (e.asStr (folder a))))))

/-- `mod.rs:149,249`: where the tool writes to. -/
def outputOf (env : Env) (a : Addon) (e : Entry) : Text :=
  env.join (env.join env.tmp "hemtt_binarize_output".toList) (trimSlashes (parentStr a e))

/-- The state of the loop: the cache, the report and the targets. -/
structure State where
  cache : Cache
  report : List Code
  targets : List Target

/-- `mod.rs:214-239`: the textures and materials of an editable model. -/
def checkModel (env : Env) (a : Addon) (e : Entry) (st : State) : Except Stop State :=
  if e.content.take 4 = [0x4D, 0x4C, 0x4F, 0x44] then
    match P3d.Model.read e.content with
    | .error _ => .error .panic
    | .ok (m, _) => match missing env.locate env.order m st.cache with
      | .error x => .error x
      | .ok ((ts, ms), c) => .ok { st with
          cache := c
          report := st.report ++ (if ts = [] then [] else [.textures (e.asStr (folder a)) ts env.ignorePdrive]) ++
            (if ms = [] then [] else [.materials (e.asStr (folder a)) ms env.ignorePdrive]) }
  else .ok st

/-- `mod.rs:178-197`: does a pattern of the addon match? -/
def excluded (env : Env) (x : Source) (e : Entry) : Except Stop Bool :=
  match x.toml with
  | none => .ok false
  | some t => match patterns env.glob t.exclude with
    | none => .error .glob
    | some ms => .ok (ms.any fun m => m (trimStart ('/' :: folder x.addon ++ ['/']) (e.asStr (folder x.addon))))

/-- `mod.rs:163-266`: one file. -/
def checkEntry (env : Env) (x : Source) (st : State) (e : Entry) : Except Stop State :=
  if e.file = false ∨ (extension e.filename).getD [] ∉ kinds then .ok st
  else match excluded env x e with
    | .error s => .error s
    | .ok true => .ok st
    | .ok false =>
      if e.content.length < 4 then .error .panic
      else if alreadyDone (e.content.take 4) then .ok st
      else match checkModel env x.addon e st with
        | .error s => .error s
        | .ok st => .ok { st with targets := st.targets ++
            [⟨sourceOf env x.addon e, outputOf env x.addon e, e.filename⟩] }

/-- The loop over the entries of an addon. -/
def checkEntries (env : Env) (x : Source) : List Entry → State → Except Stop State
  | [], st => .ok st
  | e :: es, st => match checkEntry env x st e with
    | .error s => .error s
    | .ok st => checkEntries env x es st

/-- The loop over the addons. -/
def checkAddons (env : Env) : List Source → State → Except Stop State
  | [], st => .ok st
  | x :: xs, st =>
    if (x.toml.map (·.enabled)).getD true then match checkEntries env x x.tree st with
      | .error s => .error s
      | .ok st => checkAddons env xs st
    else checkAddons env xs st

/-- `mod.rs:141-276`, `check`. -/
def check (env : Env) (xs : List Source) : Except Stop State :=
  checkAddons env xs ⟨fun _ => none, if env.noPdrive then [.pdrive] else [], []⟩

/-- `str::trim_start_matches(char)`. -/
def trimChar (c : Char) (s : Text) : Text := s.dropWhile (· == c)

/-- `mod.rs:331-342`: an argument of the tool, relative to the temporary folder. -/
def argument (env : Env) (path : Text) : Text :=
  (trimChar '\\' (trimChar '/' (trimStart env.tmp path))).map fun c => if c = '/' then '\\' else c

/-- `mod.rs:325-344`: the arguments the tool is run with for a target, behind those that are always the same. -/
def command (env : Env) (t : Target) : Text × Text × Text :=
  (argument env t.source, argument env t.output, t.entry.map fun c => if c = '/' then '\\' else c)

/-- What the tool does, given its three arguments: `none` if it fails, and otherwise the file it has written, if it has. -/
abbrev Tool := Text → Text → Text → Option (Option Bytes)

/-- The parts of a path; where the separator is another sign, `/` separates as well. -/
def Env.parts (env : Env) (p : Text) : List Text := split '/' (p.map fun c => if c = env.sep then '/' else c)

/-- Files that have been written, by the parts of their paths. -/
abbrev Files := List Text → Option Bytes

/-- `mod.rs:289-359`, one target; the tool writes into the folder it is told to. A tool that fails aborts the program. -/
def runTarget (env : Env) (tool : Tool) (w : Files) (t : Target) : Except Stop (Files × List Code) :=
  match tool (command env t).1 (command env t).2.1 (command env t).2.2 with
  | none => .error .panic
  | some none => .ok (w, if (w (env.parts (env.join t.output t.entry))).isSome then [] else [.failed t.entry])
  | some (some b) => .ok (fun p => if p = env.parts (env.join t.output t.entry) then some b else w p, [])

/-- `mod.rs:285-366`: all targets. -/
def runTargets (env : Env) (tool : Tool) : List Target → Files → Except Stop (Files × List Code)
  | [], w => .ok (w, [])
  | t :: ts, w => match runTarget env tool w t with
    | .error s => .error s
    | .ok (w, r) => match runTargets env tool ts w with
      | .error s => .error s
      | .ok (w, r') => .ok (w, r ++ r')

/-- `mod.rs:279-369`, `pre_build`: `tool` is nothing if it was not found or only a check is made. -/
def preBuild (env : Env) (tool : Option Tool) (ts : List Target) (w : Files) : Except Stop (Files × List Code) :=
  match tool with
  | none => .ok (w, [])
  | some tool => runTargets env tool ts w

/-! ### The layers -/

/-- `context.rs:95-115`: the layers of a build; each gives the content of a path that begins with a slash. -/
structure Layers where
  source : Text → Option Bytes
  /-- the folder the tool writes to -/
  binarized : Files
  include_ : Text → Option Bytes
  memory : Text → Option Bytes

/-- `libs/workspace/src/lib.rs:186-196`: the last layer is asked first (`OverlayFS` of the crate `vfs`). -/
def Layers.read (env : Env) (l : Layers) (p : Text) : Option Bytes :=
  match l.memory p with
  | some b => some b
  | none => match l.include_ p with
    | some b => some b
    | none => match l.binarized (env.parts (env.join (env.join env.tmp "hemtt_binarize_output".toList) (p.drop 1))) with
      | some b => some b
      | none => l.source p

end Verif.Binarize
