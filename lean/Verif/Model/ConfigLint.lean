import Verif.Model.ConfigParse
import Verif.Model.Lint
import Verif.Model.Version
/-!
Model of the checks of a config and of the decision to write it: `/repo/libs/config/src/analyze`,
`/repo/libs/config/src/model/config.rs`, `/repo/libs/config/src/lib.rs` and `rapify` of
`/repo/bin/src/modules/rapifier.rs`.

* The tree is the one of Model/ConfigParse, which has no spans. Where a report needs to say which place it is about, the
  place is the list of positions that leads to it from the root.
* `lower` stands for `str::to_lowercase`.
* A `HashMap` that is iterated is a list of its entries; the order in which the code walks it is arbitrary, so statements
  are about membership and number of reports.
* `Class::Root` only occurs as the root. A report is made without asking the source map for positions
  (`mapping(…).expect(…)`).
* `.panic` is a report that is never made: the code panics instead (`expect` on a missing parent).
-/
namespace Verif.ConfigLint
open Verif.ConfigParse
open Verif.Rap (Num)

/-- The positions that lead to a property. -/
abbrev Addr := List Nat

/-- What the lints of configs report: the codes of repo: libs/config/src/analyze/lints. -/
inductive Code where
  /-- C01 -/
  | invalid
  /-- C02, the places that define the property, with the names there -/
  | dupProperty (at_ : List (Addr × Text))
  /-- C03, the classes of one name in one body -/
  | dupClass (at_ : List (Addr × Text))
  /-- C04, the class -/
  | parentMissing (at_ : Addr) (parent : Text)
  /-- C05, name and parent of the class, name the parent was defined with -/
  | parentCase (name parent defined : Text)
  /-- C06 -/
  | unexpectedArray (name : Text)
  /-- C07 -/
  | expectedArray (name : Text)
  /-- C08 -/
  | missingSemicolon (name : Text)
  /-- C09, name of the array and the magazine -/
  | missingMagazine (array mag : Text)
  /-- C10, the parent -/
  | missingBraces (parent : Text)
  | panic
deriving DecidableEq

/-- repo: libs/workspace/src/reporting/mod.rs:56 (`severity` of a code). No code of the config lints has its own. -/
def Code.severity : Code → Lints.Severity := fun _ => .error

/-- What `analyze` hands to the lints: repo: libs/config/src/analyze/mod.rs:38-40 and the implementations below. -/
inductive Target where
  | config (ps : List Prp)
  | root (ps : List Prp)
  | cls (p : Prp)
  | prop (p : Prp)
  | value (v : Val)
  | array (is : List Item)
  | item (i : Item)
  | str (s : Text)
  | num (n : Num)
  | expr (s : Text)

/-! ### Walking the tree -/

mutual
/-- repo: libs/config/src/analyze/mod.rs:146-170 (`Item`) -/
def analyzeItem (run : Target → List Code) : Item → List Code
  | .str s => run (.item (.str s)) ++ run (.str s)
  | .num n => run (.item (.num n)) ++ run (.num n)
  | .arr is => run (.item (.arr is)) ++ analyzeItems run is
  | .invalid => run (.item .invalid)
/-- the `flat_map` over items, repo: libs/config/src/analyze/mod.rs:137-141, 160-163 -/
def analyzeItems (run : Target → List Code) : List Item → List Code
  | [] => []
  | i :: is => analyzeItem run i ++ analyzeItems run is
end

/-- repo: libs/config/src/analyze/mod.rs:102-125 (`Value`), 127-144 (`Array`) -/
def analyzeValue (run : Target → List Code) : Val → List Code
  | .str s => run (.value (.str s)) ++ run (.str s)
  | .num n => run (.value (.num n)) ++ run (.num n)
  | .expr s => run (.value (.expr s)) ++ run (.expr s)
  | .arr e is => run (.value (.arr e is)) ++ (run (.array is) ++ analyzeItems run is)
  | .uarr is => run (.value (.uarr is)) ++ (run (.array is) ++ analyzeItems run is)
  | .invalid => run (.value .invalid)

mutual
/-- repo: libs/config/src/analyze/mod.rs:84-100 (`Property`), 62-82 (`Class`) -/
def analyzeProp (run : Target → List Code) : Prp → List Code
  | .entry n v e => run (.prop (.entry n v e)) ++ analyzeValue run v
  | .loc n p qs b => run (.prop (.loc n p qs b)) ++ (run (.cls (.loc n p qs b)) ++ analyzeProps run qs)
  | .ext n => run (.prop (.ext n)) ++ run (.cls (.ext n))
  | .del n => run (.prop (.del n))
  | .missing n => run (.prop (.missing n))
/-- the `flat_map` over properties, repo: libs/config/src/analyze/mod.rs:54-58, 75-79 -/
def analyzeProps (run : Target → List Code) : List Prp → List Code
  | [] => []
  | p :: ps => analyzeProp run p ++ analyzeProps run ps
end

/-- repo: libs/config/src/analyze/mod.rs:43-60 (`Config`) -/
def analyze (run : Target → List Code) (ps : List Prp) : List Code :=
  run (.config ps) ++ (run (.root ps) ++ analyzeProps run ps)

/-! ### The lints -/

/-- repo: libs/config/src/analyze/lints/c01_invalid_value.rs:57-85 (`RunnerValue`); the two codes it chooses from differ
in their wording -/
def runValue : Target → List Code
  | .value .invalid => [.invalid]
  | _ => []

/-- repo: libs/config/src/analyze/lints/c01_invalid_value.rs:87-114 (`RunnerItem`) -/
def runItem : Target → List Code
  | .item .invalid => [.invalid]
  | _ => []

/-- `seen.entry(k).or_default().push(v)` -/
def push {β : Type} (k : Text) (v : β) : List (Text × List β) → List (Text × List β)
  | [] => [(k, [v])]
  | (k', vs) :: m => if k' = k then (k', vs ++ [v]) :: m else (k', vs) :: push k v m

/-- The place of the `i`-th property of a body. -/
def spot (a : Addr) (i : Nat) : Addr := a ++ [i]

/-- the map `seen` of repo: libs/config/src/analyze/lints/c02_duplicate_property.rs:77 -/
abbrev Seen := List (Text × List (Bool × Addr × Text))

mutual
/-- one turn of the loop of repo: libs/config/src/analyze/lints/c02_duplicate_property.rs:96-119 -/
def dupProp (lower : Text → Text) (scope : Text) (a : Addr) : Prp → Seen → Seen
  | .loc n _ qs _, seen =>
    push (scope ++ '.' :: lower n) (true, a, n) (dupProps lower (scope ++ '.' :: lower n) a 0 qs seen)
  | .entry n _ _, seen => push (scope ++ '.' :: lower n) (false, a, n) seen
  | .missing n, seen => push (scope ++ '.' :: lower n) (false, a, n) seen
  | .ext _, seen => seen
  | .del _, seen => seen
/-- repo: libs/config/src/analyze/lints/c02_duplicate_property.rs:91-120 (`duplicate_properties_inner`) -/
def dupProps (lower : Text → Text) (scope : Text) (a : Addr) (i : Nat) : List Prp → Seen → Seen
  | [], seen => seen
  | p :: ps, seen => dupProps lower scope a (i + 1) ps (dupProp lower scope (spot a i) p seen)
end

/-- repo: libs/config/src/analyze/lints/c02_duplicate_property.rs:63-89 (`run`) -/
def runDupProperty (lower : Text → Text) : Target → List Code
  | .config ps => (dupProps lower [] [] 0 ps []).filterMap fun e =>
      if e.2.length > 1 ∧ ¬ e.2.all (fun x => x.1) then some (.dupProperty (e.2.map fun x => x.2)) else none
  | _ => []

/-- the end of repo: libs/config/src/analyze/lints/c03_duplicate_classes.rs:115-122 -/
def dupReport (s : List Code × List (Text × List (Addr × Text))) : List Code :=
  s.1 ++ s.2.filterMap fun e => if e.2.length > 1 then some (.dupClass e.2) else none

mutual
/-- the codes of the bodies inside, and the map `defined`, after one turn of the loop of
repo: libs/config/src/analyze/lints/c03_duplicate_classes.rs:88-114 -/
def dupCls (lower : Text → Text) (a : Addr) : Prp → List Code × List (Text × List (Addr × Text)) →
    List Code × List (Text × List (Addr × Text))
  | .ext n, (cs, m) => (cs, push (lower n) (a, n) m)
  | .loc n _ qs _, (cs, m) => (cs ++ dupReport (dupClss lower a 0 qs ([], [])), push (lower n) (a, n) m)
  | .entry _ _ _, s => s
  | .del _, s => s
  | .missing _, s => s
/-- the loop of repo: libs/config/src/analyze/lints/c03_duplicate_classes.rs:85-123 (`check`) -/
def dupClss (lower : Text → Text) (a : Addr) (i : Nat) : List Prp → List Code × List (Text × List (Addr × Text)) →
    List Code × List (Text × List (Addr × Text))
  | [], s => s
  | p :: ps, s => dupClss lower a (i + 1) ps (dupCls lower (spot a i) p s)
end

/-- repo: libs/config/src/analyze/lints/c03_duplicate_classes.rs:67-82 (`run`) -/
def runDupClass (lower : Text → Text) : Target → List Code
  | .config ps => dupReport (dupClss lower [] 0 ps ([], []))
  | _ => []

mutual
/-- one turn of the loop of repo: libs/config/src/analyze/lints/c04_external_missing.rs:81-109; the codes so far and the
set `defined` -/
def missing (lower : Text → Text) (a : Addr) : Prp → List Code × List Text → List Code × List Text
  | .ext n, (cs, d) => (cs, lower n :: d)
  | .loc n parent qs _, (cs, d) =>
    missings lower a 0 qs
      ((match parent with
        | some p => if lower p ≠ lower n ∧ lower p ∉ d then cs ++ [.parentMissing a p] else cs
        | none => cs), lower n :: d)
  | .entry _ _ _, s => s
  | .del _, s => s
  | .missing _, s => s
/-- repo: libs/config/src/analyze/lints/c04_external_missing.rs:79-111 (`check`) -/
def missings (lower : Text → Text) (a : Addr) (i : Nat) : List Prp → List Code × List Text → List Code × List Text
  | [], s => s
  | p :: ps, s => missings lower a (i + 1) ps (missing lower (spot a i) p s)
end

/-- repo: libs/config/src/analyze/lints/c04_external_missing.rs:62-77 (`run`) -/
def runMissing (lower : Text → Text) : Target → List Code
  | .config ps => (missings lower [] 0 ps ([], [])).1
  | _ => []

mutual
/-- one turn of the loop of repo: libs/config/src/analyze/lints/c05_external_parent_case.rs:85-127. The map `defined` goes
from lower case names to the names the classes were written with. -/
def parentCase (lower : Text → Text) : Prp → List Code × (Text → Option Text) → List Code × (Text → Option Text)
  | .ext n, (cs, d) => (cs, fun k => if k = lower n then some ((d k).getD n) else d k)
  | .loc n parent qs _, (cs, d) =>
    parentCases lower qs
      ((match parent with
        | some p =>
          if lower p ≠ lower n then
            match d (lower p) with
            | some q => if q ≠ p then cs ++ [.parentCase n p q] else cs
            | none => cs
          else if p ≠ n then cs ++ [.parentCase n p n] else cs
        | none => cs), fun k => if k = lower n then some n else d k)
  | .entry _ _ _, s => s
  | .del _, s => s
  | .missing _, s => s
/-- repo: libs/config/src/analyze/lints/c05_external_parent_case.rs:79-129 (`check`) -/
def parentCases (lower : Text → Text) : List Prp → List Code × (Text → Option Text) → List Code × (Text → Option Text)
  | [], s => s
  | p :: ps, s => parentCases lower ps (parentCase lower p s)
end

/-- repo: libs/config/src/analyze/lints/c05_external_parent_case.rs:62-77 (`run`), with `properties` of
repo: libs/config/src/model/class.rs (none for an external class) -/
def runParentCase (lower : Text → Text) : Target → List Code
  | .root ps => (parentCases lower ps ([], fun _ => none)).1
  | .cls (.loc _ _ qs _) => (parentCases lower qs ([], fun _ => none)).1
  | _ => []

/-- repo: libs/config/src/analyze/lints/c06_unexpected_array.rs:59-84 (`run`) -/
def runUnexpected : Target → List Code
  | .prop (.entry n (.uarr _) _) => [.unexpectedArray n]
  | _ => []

/-- repo: libs/config/src/analyze/lints/c07_expected_array.rs:59-95 (`run`) -/
def runExpected : Target → List Code
  | .prop (.entry n v expected) =>
    if expected = false then [] else
    match v with
    | .arr _ _ => []
    | .invalid => []
    | _ => [.expectedArray n]
  | _ => []

/-- repo: libs/config/src/analyze/lints/c08_missing_semicolon.rs:74-96 (`run`) -/
def runSemicolon : Target → List Code
  | .prop (.missing n) => [.missingSemicolon n]
  | _ => []

/-- A magazine of the project, repo: libs/config/src/analyze/lints/c09_magwell_missing_magazine.rs:143-150; `pre` is the
prefix of the project -/
def ours (lower : Text → Text) (pre : Option Text) (v : Text) : Bool :=
  match pre with
  | some p => (lower p).isPrefixOf (lower v)
  | none => true

/-- The items of one array of a magazine well, repo: libs/config/src/analyze/lints/c09_magwell_missing_magazine.rs:139-158 -/
def magItems (lower : Text → Text) (pre : Option Text) (classes : List Text) (array : Text) (is : List Item) : List Code :=
  is.flatMap fun i =>
    match i with
    | .str v =>
      if ours lower pre v = false then []
      else if v ∈ classes then [] else [.missingMagazine array v]
    | _ => []

/-- repo: libs/config/src/analyze/lints/c09_magwell_missing_magazine.rs:83-163 (`run`) -/
def runMagwell (lower : Text → Text) (pre : Option Text) : Target → List Code
  | .config ps =>
    match ps.find? (fun p => lower p.name = "cfgmagazinewells".toList) with
    | some (.loc _ _ wells _) =>
      match ps.find? (fun p => lower p.name = "cfgmagazines".toList) with
      | some (.loc _ _ mags _) =>
        let classes := mags.filterMap fun p =>
          match p with
          | .loc n _ _ _ => some n
          | _ => none
        wells.flatMap fun w =>
          match w with
          | .loc _ _ addons _ => addons.flatMap fun p =>
            match p with
            | .entry n (.arr _ is) _ => magItems lower pre classes n is
            | _ => []
          | _ => []
      | _ => []
    | _ => []
  | _ => []

/-- repo: libs/config/src/analyze/lints/c10_class_missing_braces.rs:64-87 (`run`) -/
def runBraces : Target → List Code
  | .prop (.loc _ parent _ true) =>
    match parent with
    | some p => [.missingBraces p]
    | none => [.panic]
  | _ => []

/-- `LintConfig::error()`, `LintConfig::warning()`: repo: libs/common/src/config/project/lint.rs:53-105 -/
def conf (s : Lints.Severity) : Lints.Config := ⟨true, s, fun _ => none⟩

/-- A lint with runners that do not look at their configuration; none of these does. -/
def lint (ident : String) (default minimum : Lints.Severity) (rs : List (Target → List Code)) : Lints.Lint Target Code :=
  ⟨ident.toList, conf default, minimum, rs.map fun r _ t => r t⟩

/-- The lints of configs: `ident`, `default_config`, `minimum_severity` (repo: libs/workspace/src/lint/mod.rs:19-21: the
default severity unless given) and `runners` of repo: libs/config/src/analyze/lints. The order of the list `CONFIG_LINTS`
is up to the linker. -/
def configLints (lower : Text → Text) (pre : Option Text) : List (Lints.Lint Target Code) :=
  [ lint "invalid_value" .error .error [runValue, runItem],
    lint "duplicate_property" .error .error [runDupProperty lower],
    lint "duplicate_classes" .error .error [runDupClass lower],
    lint "external_missing" .error .error [runMissing lower],
    lint "external_parent_case" .warning .help [runParentCase lower],
    lint "unexpected_array" .error .error [runUnexpected],
    lint "expected_array" .error .error [runExpected],
    lint "missing_semicolon" .error .error [runSemicolon],
    lint "magwell_missing_magazine" .error .warning [runMagwell lower pre],
    lint "class_missing_braces" .error .error [runBraces] ]

/-! ### The report -/

/-- repo: libs/config/src/model/config.rs:22-57 (`get_patches`): name and required version of each patch. `ofF32` is
`Version::from(f32)`, repo: libs/common/src/version.rs:167-174. -/
def patches (lower : Text → Text) (ofF32 : Nat → Ver.Version) (ps : List Prp) : List (Text × Ver.Version) :=
  ps.flatMap fun p =>
    match p with
    | .loc n _ qs _ =>
      if lower n = "cfgpatches".toList then
        qs.filterMap fun q =>
          match q with
          | .loc m _ es _ => some (m, es.foldl (fun v e =>
              match e with
              | .entry k (.num (.f32 b)) _ => if lower k = "requiredversion".toList then ofF32 b else v
              | _ => v) ⟨0, 0, 0, none, none⟩)
          | _ => none
      else []
    | _ => []

/-- `a > b` on versions -/
def gt (a b : Ver.Version) : Bool := Ver.partialCmp a b = some .gt

/-- repo: libs/config/src/lib.rs:115-126 (`required_version`) -/
def requiredVersion (patches : List (Text × Ver.Version)) : Ver.Version × Option Text :=
  patches.foldl (fun s e => if gt e.2 s.1 then (e.2, some e.1) else s) (⟨0, 0, 0, none, none⟩, none)

/-- repo: libs/config/src/lib.rs:68-73 (`ConfigReport`) -/
structure Report where
  codes : List Code
  patches : List (Text × Ver.Version)
  config : List Prp

/-- The second half of repo: libs/config/src/lib.rs:44-64 (`parse`), for the tree the parser gave; `lints` is
`CONFIG_LINTS`. -/
def report (lower : Text → Text) (ofF32 : Nat → Ver.Version) (configs : Text → Option Lints.Override)
    (lints : List (Lints.Lint Target Code)) (ps : List Prp) : Except (List Lints.LErr) Report :=
  match (Lints.Manager.new configs).extend lints with
  | .error es => .error es
  | .ok m => .ok ⟨analyze m.run ps, patches lower ofF32 ps, ps⟩

/-- repo: libs/config/src/lib.rs:99-105 (`errors`) -/
def Report.errors (r : Report) : List Code := r.codes.filter fun c => c.severity = .error

mutual
/-- The tree as `rapify` sees it (Model/Rapify): texts as UTF-8; an unexpected array is as bad as an invalid value there,
repo: libs/config/src/rapify/value.rs:13, 28, 38 -/
def itemRap : Item → Rap.Item
  | .str s => .str (SqfLex.enc s)
  | .num n => .num n
  | .arr is => .arr (itemsRap is)
  | .invalid => .invalid
def itemsRap : List Item → List Rap.Item
  | [] => []
  | i :: is => itemRap i :: itemsRap is
end

def valRap : Val → Rap.Value
  | .str s => .str (SqfLex.enc s)
  | .num n => .num n
  | .expr s => .expr (SqfLex.enc s)
  | .arr e is => .arr e (itemsRap is)
  | .uarr _ => .invalid
  | .invalid => .invalid

mutual
def propRap : Prp → Rap.Prp
  | .entry n v _ => .entry (SqfLex.enc n) (valRap v)
  | .loc n p ps _ => .loc (SqfLex.enc n) (p.map SqfLex.enc) (propsRap ps)
  | .ext n => .ext (SqfLex.enc n)
  | .del n => .del (SqfLex.enc n)
  | .missing n => .missing (SqfLex.enc n)
def propsRap : List Prp → List Rap.Prp
  | [] => []
  | p :: ps => propRap p :: propsRap ps
end

/-- What becomes of a config. -/
inductive Outcome where
  /-- the codes are reported, no file is written -/
  | refused (codes : List Code)
  /-- the lint configuration is refused -/
  | badLints (es : List Lints.LErr)
  | written (file : List UInt8)
  | panicked

/-- repo: bin/src/modules/rapifier.rs:124-196 (`rapify`), from the tree to the file; files with `no_rapify` and failures to
create the file are left out -/
def build (lower : Text → Text) (ofF32 : Nat → Ver.Version) (configs : Text → Option Lints.Override)
    (lints : List (Lints.Lint Target Code)) (ps : List Prp) : Outcome :=
  match report lower ofF32 configs lints ps with
  | .error es => .badLints es
  | .ok r =>
    if .panic ∈ r.codes then .panicked
    else if r.errors ≠ [] then .refused r.codes
    else match Rap.rapify (propsRap r.config) with
      | .ok file => .written file
      | .error _ => .panicked

end Verif.ConfigLint
