import Verif.Model.Preproc
import Verif.Model.Launcher
import Mathlib.Data.List.Sort
/-!
Model of what the reports suggest instead of a name that is not known: `/repo/libs/common/src/lib.rs:18-33`,
`/repo/libs/preprocessor/src/defines.rs:280-314` and the reports that use them.

* The crate `strsim` is not in the sources; its distance is a parameter. So is the lower case of Unicode.
* The lists that names are taken from have the order of a hash map or of a folder, hence any.
-/
namespace Verif.Similar

/-- What both functions have in common: the names are sorted by distance (the sort is stable), those farther than 3 are left out,
and three are kept, `lib.rs:28-31`, `defines.rs:292-295,310-313`. -/
def nearest {α : Type} (far : α → Nat) (hay : List α) : List α :=
  ((((hay.map fun v => (v, far v)).insertionSort fun a b => a.2 ≤ b.2).filter fun s => decide (s.2 ≤ 3)).take 3).map (·.1)

/-- `lib.rs:20-33`, `similar_values`. -/
def similarValues (dist : Text → Text → Nat) (lower : Text → Text) (search : Text) (hay : List Text) : List Text :=
  nearest (fun v => dist (lower v) (lower search)) hay

/-- A macro of the table and its name. -/
abbrev Entry := Text × Preproc.Entry

/-- `defines.rs:298-314`, `Defines::similar_values`; `table` is the global table in the order of the hash map. -/
def similarMacros (dist : Text → Text → Nat) (search : Text) (table : List Entry) : List Text :=
  nearest (fun v => dist v search) ((table.filter fun e => match e.2.defn with | .value _ => true | _ => false).map (·.1))

/-- `str::trim_end_matches` with a text: as often as it is at the end. -/
def trimEnd (suffix : Bytes) (s : Bytes) : Bytes := go s.length s
where
  /-- At most so often. -/
  go : Nat → Bytes → Bytes
    | 0, s => s
    | n + 1, s => if suffix <:+ s then go n (s.take (s.length - suffix.length)) else s

/-- `bcle1_preset_not_found.rs:39-56`, `bcle8_mission_not_found.rs:39-56`, `bhe1_script_not_found.rs:44-54`: the names that are
looked through are those of the files of a folder without their ending. `entries` are what is in the folder, with whether it is a
file. -/
def fileNames (ending : Bytes) (entries : List (Bytes × Bool)) : List Bytes :=
  entries.filterMap fun e => if e.2 then some (trimEnd ending e.1) else none

/-- `bcle1_preset_not_found.rs:38-71`: what is suggested instead of a preset, the entries being those of `.hemtt/presets`. -/
def presets (far : Bytes → Nat) (entries : List (Bytes × Bool)) : List Bytes := nearest far (fileNames (ascii ".html") entries)

/-- `bcle8_mission_not_found.rs:38-71` with `launcher.rs:224-227`: what is suggested instead of a mission, the entries being
those of the folder of the project. -/
def missions (far : Bytes → Nat) (entries : List (Bytes × Bool)) : List Bytes := nearest far (fileNames (ascii ".html") entries)

/-- `bcle6_launch_config_not_found.rs:38-52` with `launch/mod.rs:339-342`: the names of all configurations. -/
def configs (far : Bytes → Nat) (names : List Bytes) : List Bytes := nearest far names

/-- `pe19_pragma_unknown.rs:36-59`. -/
def pragmaCommands (dist : Text → Text → Nat) (lower : Text → Text) (token : Text) : List Text :=
  similarValues dist lower token ["suppress".toList]

/-- `pe20_pragma_invalid_scope.rs:22-62`; `root` says whether it is the file that is preprocessed itself. -/
def pragmaScopes (dist : Text → Text → Nat) (lower : Text → Text) (root : Bool) (token : Text) : List Text :=
  similarValues dist lower token (if root then ["line".toList, "file".toList, "config".toList] else ["line".toList, "file".toList])

/-- `pe21_pragma_invalid_suppress.rs:36-50` with `pragma.rs:143-147`. -/
def pragmaSuppress (dist : Text → Text → Nat) (lower : Text → Text) (token : Text) : List Text :=
  similarValues dist lower token ["pw3_padded_arg".toList]

/-- `pe22_pragma_invalid_flag.rs:36-50` with `pragma.rs:120-124`. -/
def pragmaFlags (dist : Text → Text → Nat) (lower : Text → Text) (token : Text) : List Text :=
  similarValues dist lower token ["pw3_ignore_format".toList, "pe23_ignore_has_include".toList]

end Verif.Similar
