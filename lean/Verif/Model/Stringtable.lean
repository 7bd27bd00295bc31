import Verif.Lib.Lex
/-!
Model of the data side of `/repo/libs/stringtable/src/{lib,package,key,totals}.rs`. The XML reader and writer
(`quick_xml`) are not modelled.
-/
namespace Verif.Stringtable

/-- The languages of a key, repo: libs/stringtable/src/key.rs:15-90 (struct fields). -/
inductive Lang where
  | original | english | czech | french | spanish | italian | polish | portuguese | russian | german | korean
  | japanese | chinese | chinesesimp | turkish | swedish | slovak | serbocroatian | norwegian | icelandic
  | hungarian | greek | finnish | dutch
deriving DecidableEq, Repr

/-- repo: libs/stringtable/src/key.rs:15-90 -/
structure Key where
  id : Bytes
  text : Lang → Option Bytes

/-- repo: libs/stringtable/src/package.rs:6-15 -/
inductive Package where
  | mk (name : Bytes) (keys : List Key) (containers : List Package)

namespace Package

def name : Package → Bytes | mk n _ _ => n
def keys : Package → List Key | mk _ ks _ => ks
def containers : Package → List Package | mk _ _ cs => cs

end Package

/-- `sort_by(|a, b| a.id().cmp(b.id()))` is a stable sort by byte order. -/
def keyLe (a b : Key) : Bool := lexLe a.id b.id

mutual
/-- repo: libs/stringtable/src/package.rs:33-38 (`Package::sort`) -/
def sortPackage : Package → Package
  | .mk n ks cs => .mk n (ks.mergeSort keyLe) (sortContainers cs)
/-- the loop over the containers, repo: libs/stringtable/src/package.rs:35-37 -/
def sortContainers : List Package → List Package
  | [] => []
  | c :: cs => sortPackage c :: sortContainers cs
end

/-- repo: libs/stringtable/src/lib.rs:15-24 -/
structure Project where
  name : Bytes
  packages : List Package
  comments : List (Bytes × Bytes × Option Bytes)

/-- The order of packages, repo: libs/stringtable/src/lib.rs:38. -/
def packageLe (a b : Package) : Bool := lexLe a.name b.name

/-- repo: libs/stringtable/src/lib.rs:37-42 (`Project::sort`) -/
def Project.sort (p : Project) : Project :=
  { p with packages := (p.packages.mergeSort packageLe).map sortPackage }

/-- repo: libs/stringtable/src/totals.rs:1-27. The counters are `u32`; the model counts without bound (overflow
needs 2^32 keys). -/
structure Totals where
  total : Nat
  lang : Lang → Nat

/-- `Totals::default()` -/
def Totals.zero : Totals := ⟨0, fun _ => 0⟩

/-- The body of the key loop, repo: libs/stringtable/src/package.rs:43-116, with `inc` and `inc_*`,
repo: libs/stringtable/src/totals.rs:31-49. -/
def Totals.count (t : Totals) (k : Key) : Totals :=
  ⟨t.total + 1, fun l => if (k.text l).isSome then t.lang l + 1 else t.lang l⟩

/-- repo: libs/stringtable/src/totals.rs:56-82 (`Totals::merge`) -/
def Totals.merge (t o : Totals) : Totals := ⟨t.total + o.total, fun l => t.lang l + o.lang l⟩

mutual
/-- repo: libs/stringtable/src/package.rs:41-122 (`Package::totals`) -/
def totals : Package → Totals
  | .mk _ ks cs => mergeTotals (ks.foldl Totals.count Totals.zero) cs
/-- the loop over the containers, repo: libs/stringtable/src/package.rs:118-120 -/
def mergeTotals : Totals → List Package → Totals
  | t, [] => t
  | t, c :: cs => mergeTotals (t.merge (totals c)) cs
end

end Verif.Stringtable
