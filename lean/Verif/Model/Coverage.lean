import Verif.Model.Stringtable
import Verif.Lib.Text
/-!
Model of the coverage report, `/repo/bin/src/commands/localization/coverage.rs`. Reading a stringtable is a parameter
(its outcome is part of the input), the percentage is given by its two numbers. Printing the table (`tabled`,
`serde_json`) is not modelled.
-/
namespace Verif.Coverage
open Verif.Stringtable

/-- An addon: its folder and what stands in its `stringtable.xml`: `none` if there is no such file, `some none` if it
cannot be read, repo: bin/src/commands/localization/coverage.rs:103-117. -/
structure Addon where
  folder : Text
  stringtable : Option (Option (List Package))

/-- repo: bin/src/commands/localization/coverage.rs:98-99; the map by its look-up function. -/
structure State where
  global : Totals
  missing : Lang → List Text

/-- repo: bin/src/commands/localization/coverage.rs:98-99 -/
def start : State := ⟨Totals.zero, fun _ => []⟩

/-- The body of the loop over the packages, with the macro `missing` for each language,
repo: bin/src/commands/localization/coverage.rs:23-31 and 118-145. -/
def package (folder : Text) (s : State) (p : Package) : State :=
  let t := totals p
  ⟨s.global.merge t, fun l => if t.lang l ≠ t.total then s.missing l ++ [folder] else s.missing l⟩

/-- The loop over the addons; `none` if a stringtable cannot be read, repo: bin/src/commands/localization/coverage.rs:103-147. -/
def addons : State → List Addon → Option State
  | s, [] => some s
  | s, a :: as =>
    match a.stringtable with
    | none => addons s as
    | some none => none
    | some (some ps) => addons (ps.foldl (package a.folder) s) as

/-- repo: bin/src/commands/localization/coverage.rs:76-84; `percent` is `have / total`. -/
structure Row where
  lang : Lang
  have_ : Nat
  total : Nat
  missing : List Text
deriving DecidableEq

/-- repo: bin/src/commands/localization/coverage.rs:149-172 -/
def order : List Lang :=
  [.original, .english, .czech, .french, .spanish, .italian, .polish, .portuguese, .russian, .german, .korean,
   .japanese, .chinese, .chinesesimp, .turkish, .swedish, .slovak, .serbocroatian, .norwegian, .icelandic,
   .hungarian, .greek, .finnish, .dutch]

/-- The macro `row`, repo: bin/src/commands/localization/coverage.rs:33-45. -/
def row (s : State) (l : Lang) : Option Row :=
  if s.global.lang l ≠ 0 then some ⟨l, s.global.lang l, s.global.total, s.missing l⟩ else none

/-- The table that is printed; `none` if nothing is, repo: bin/src/commands/localization/coverage.rs:95-199. -/
def coverage (as : List Addon) : Option (List Row) :=
  (addons start as).map fun s => order.filterMap (row s)

/-- `Display for MissingAddons`, repo: bin/src/commands/localization/coverage.rs:57-67. -/
def display (missing : List Text) : Text :=
  if missing = [] then "None".toList
  else if missing.length ≤ 3 then List.intercalate ", ".toList missing
  else missing.headD [] ++ " and ".toList ++ decimal (missing.length - 1) ++ " more".toList

end Verif.Coverage
