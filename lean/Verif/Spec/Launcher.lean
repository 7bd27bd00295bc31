import Verif.Model.Launcher
import Mathlib.Data.List.Forall2
/-!
Specification of starting the game (C83) and of presets (C84).

Links in presets and the number in `meta.cpp` are described by how the text splits into parts, not by a search. The
process to be started is described by what its arguments consist of.
-/
namespace Verif.Launcher
open Verif.Launch

/-- A non-empty run of digits. -/
def Number (id : Bytes) : Prop := id ≠ [] ∧ ∀ c ∈ id, 48 ≤ c ∧ c ≤ 57

/-- At position `n` of the text stands `href="http://<tail><id>"` or the same with `https`. -/
def LinkAt (tail html : Bytes) (n : Nat) (id : Bytes) : Prop :=
  ∃ a s b, a.length = n ∧ (s = [] ∨ s = ascii "s") ∧ Number id ∧
    html = a ++ (ascii "href=\"http" ++ s ++ ascii "://" ++ tail ++ id ++ ascii "\"") ++ b

/-- The page of a mod in the workshop. -/
def modPage : Bytes := ascii "steamcommunity.com/sharedfiles/filedetails/?id="
/-- The page of a DLC in the store. -/
def dlcPage : Bytes := ascii "store.steampowered.com/app/"

/-- The numbers of the DLCs, `dlc.rs:63-74`, in the order of the enumeration. -/
def appIds : List Bytes :=
  [ascii "1021790", ascii "1042220", ascii "1227700", ascii "1294440", ascii "1681170", ascii "1175380",
    ascii "2647760", ascii "2647830"]

/-- `publishedid = <id>;` stands in the text behind `a`, with any white space around the `=`. -/
def PublishedAt (t a id : Bytes) : Prop :=
  ∃ u v b, (∀ c ∈ u ++ v, c = 32 ∨ (9 ≤ c ∧ c ≤ 13)) ∧ Number id ∧
    t = a ++ ascii "publishedid" ++ u ++ ascii "=" ++ v ++ id ++ ascii ";" ++ b

/-- The first number in the text. -/
def Published (t id : Bytes) : Prop :=
  ∃ a, PublishedAt t a id ∧ ∀ a' id', PublishedAt t a' id' → a.length ≤ a'.length

/-- The file of a preset. -/
def presetFile (h : Host) (p : Bytes) : Bytes :=
  h.withExtension (h.join (h.join h.cwd (ascii ".hemtt/presets")) p) (ascii "html")

/-- A mod is asked for by the configuration or by one of its presets. -/
def Asked (h : Host) (o : Options) (id : Bytes) : Prop :=
  id ∈ o.workshop ∨ ∃ p ∈ o.presets, ∃ t n, h.read (presetFile h p) = some t ∧ LinkAt modPage t n id

/-- A DLC is asked for by the configuration or by one of its presets. -/
def AskedDlc (h : Host) (o : Options) (d : Nat) : Prop :=
  d ∈ o.dlc ∨ ∃ p ∈ o.presets, ∃ t n id, h.read (presetFile h p) = some t ∧ LinkAt dlcPage t n id ∧
    appIds[d]? = some id

/-- The project has the number `id` in the workshop. -/
def OwnId (h : Host) (id : Bytes) : Prop :=
  h.present (h.join h.cwd (ascii "meta.cpp")) = true ∧
    ∃ t, h.read (h.join h.cwd (ascii "meta.cpp")) = some t ∧ Published t id

/-- Where the project is built. -/
def ownPath (h : Host) : Bytes := h.join h.cwd (ascii ".hemttout/dev")

/-- The folder of the workshop for the game in `arma3`. -/
def Workshop (h : Host) (arma3 folder : Bytes) : Prop :=
  ∃ c r, h.parent arma3 = some c ∧ h.parent c = some r ∧
    folder = h.join (h.join (h.join r (ascii "workshop")) (ascii "content")) (ascii "107410")

/-- Where a mission may be. -/
def missionPlaces (h : Host) (m : Bytes) : List Bytes :=
  [if h.fileName (h.join h.cwd m) = ascii "mission.sqm" then h.join h.cwd m
    else h.join (h.join h.cwd m) (ascii "mission.sqm"),
   h.join (h.join (h.join (h.join h.cwd (ascii ".hemtt")) (ascii "missions")) m) (ascii "mission.sqm")]

/-- The argument for a mission: the first place that has a file. -/
def MissionArg (h : Host) : Option Bytes → List Bytes → Prop
  | none, l => l = []
  | some m, l => h.absolute m = false ∧ ∃ f, (missionPlaces h m).find? h.isFile = some f ∧
      l = [ascii "\"" ++ f ++ ascii "\""]

/-- The mods to be loaded for the game in `arma3`. -/
def LoadedMod (h : Host) (o : Options) (arma3 m : Bytes) : Prop :=
  ∃ folder id, Workshop h arma3 folder ∧ (Asked h o id ∨ id = ownPath h) ∧ ¬ OwnId h id ∧ m = h.join folder id

/-- Is `-filePatching` to be given? -/
def Patching (o : Options) (a : Args) : Prop := o.filePatching ≠ some false ∧ a.noFilePatching = false

/-- The arguments of the game: the DLCs and the mods, each in ascending order and once, the parameters that are always
given, those of the configuration, those behind `--`, the mission and `-filePatching`. -/
def GameArgs (h : Host) (o : Options) (a : Args) (arma3 : Bytes) (args : List Bytes) : Prop :=
  ∃ (dlcs : List Nat) (ms mission fp : List Bytes),
    args = dlcs.map (fun d => ascii "-mod=\"" ++ dlcMod d ++ ascii "\"") ++
      ms.map (fun m => ascii "-mod=\"" ++ m ++ ascii "\"") ++
      [ascii "-skipIntro", ascii "-noSplash", ascii "-showScriptErrors", ascii "-debug"] ++
      o.parameters ++ a.passthrough ++ mission ++ fp ∧
    (∀ d, d ∈ dlcs ↔ AskedDlc h o d) ∧ dlcs.Pairwise (· < ·) ∧
    (∀ m, m ∈ ms ↔ LoadedMod h o arma3 m) ∧ ms.Pairwise (fun x y => lexLe x y = true ∧ x ≠ y) ∧
    MissionArg h o.mission mission ∧
    (Patching o a → fp = [ascii "-filePatching"]) ∧ (¬ Patching o a → fp = [])

/-- The number of games to be started. -/
def count (o : Options) (a : Args) : Nat :=
  match a.instances, o.instances with
  | some n, _ => n
  | none, some n => n
  | none, none => 1

/-- The options in force. -/
def Chosen (p : Project) (a : Args) (o : Options) : Prop :=
  (a.config = [] ∧ (p.launch (ascii "default") = some o ∨ (p.launch (ascii "default") = none ∧ o = {}))) ∨
  (a.config ≠ [] ∧ ∃ os, List.Forall₂ (fun c o => p.launch c = some o) a.config os ∧ o = os.foldl Options.overlay {})

/-- The name of the program without `.exe`. -/
def ProgramName (o : Options) (q : Bytes) : Prop :=
  let e := o.executable.getD (ascii "arma3_x64")
  (∃ x, e = q ++ 46 :: x ∧ lowerB x = ascii "exe") ∨ (q = e ∧ ¬ ∃ q' x, e = q' ++ 46 :: x ∧ lowerB x = ascii "exe")

/-- Everything that has to be there for the game to be started. -/
structure Ready (h : Host) (p : Project) (a : Args) (dev : List Bytes → Bool → Bool → Except Stop (List Nat))
    (o : Options) (arma3 : Bytes) : Prop where
  mainprefix : p.mainprefix ≠ none
  chosen : Chosen p a o
  game : h.arma3 = some arma3
  presets : ∀ f ∈ o.presets, h.present (presetFile h f) = true ∧ h.read (presetFile h f) ≠ none
  built : a.quick = false → dev o.optionals (o.binarize.getD false) (o.rapify.getD true) = .ok []
  quick : a.quick = true → h.present (ownPath h) = true ∧ ∃ m, p.mainprefix = some m ∧
    h.present (h.join arma3 m) = true ∧ h.present (h.join (h.join arma3 m) p.name) = true
  workshop : ∃ folder, Workshop h arma3 folder ∧ h.present folder = true
  mods : ∀ m, LoadedMod h o arma3 m → h.present m = true
  own : h.present (h.join h.cwd (ascii "meta.cpp")) = true → h.read (h.join h.cwd (ascii "meta.cpp")) ≠ none
  mission : ∃ l, MissionArg h o.mission l
  some : count o a ≠ 0

end Verif.Launcher
