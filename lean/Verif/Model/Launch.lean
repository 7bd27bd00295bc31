import Verif.Lib.Lex
/-!
Model of launch configurations: `/repo/libs/common/src/config/project/hemtt/launch.rs` and their inheritance,
`/repo/libs/common/src/config/project/hemtt/mod.rs:68-125`.

* Strings are bytes. A `DLC` is its position in the enumeration (`arma/dlc.rs:10-46`), which is also its order.
* The table of configurations is a partial function (`get`) and, where the code iterates over it, a list in the order
  the iteration takes. Reading the configurations from a file is left out.
* The `while` loop takes fuel; `none` is a loop that has not ended yet.
-/
namespace Verif.Launch

/-- `launch.rs:165-205`, `LaunchOptionsFile`. `LaunchOptions` (8-43) has the same fields without `parent`. -/
structure Options where
  parent : Option Bytes := none
  workshop : List Bytes := []
  dlc : List Nat := []
  presets : List Bytes := []
  optionals : List Bytes := []
  mission : Option Bytes := none
  parameters : List Bytes := []
  executable : Option Bytes := none
  binarize : Option Bool := none
  filePatching : Option Bool := none
  instances : Option Nat := none
  rapify : Option Bool := none
  deriving DecidableEq, Repr

/-- `if let Some(x) = new { old = Some(x) }` -/
def over {α : Type} (new old : Option α) : Option α :=
  match new with
  | some x => some x
  | none => old

/-- `launch.rs:208-235`, `extend`. -/
def Options.extend (self other : Options) : Options where
  parent := other.parent
  workshop := other.workshop ++ self.workshop
  dlc := other.dlc ++ self.dlc
  presets := other.presets ++ self.presets
  optionals := other.optionals ++ self.optionals
  mission := over self.mission other.mission
  parameters := other.parameters ++ self.parameters
  executable := over self.executable other.executable
  binarize := over self.binarize other.binarize
  filePatching := over self.filePatching other.filePatching
  instances := over self.instances other.instances
  rapify := over self.rapify other.rapify

/-- `Vec::dedup` behind an element that stays. -/
def dedupFrom {α : Type} [DecidableEq α] (a : α) : List α → List α
  | [] => []
  | b :: l => if a = b then dedupFrom a l else b :: dedupFrom b l

/-- `Vec::dedup`: of equal neighbours the first stays. -/
def dedup {α : Type} [DecidableEq α] : List α → List α
  | [] => []
  | a :: l => a :: dedupFrom a l

/-- `sort` and `dedup` for strings. -/
def sortDedup (l : List Bytes) : List Bytes := dedup (l.mergeSort lexLe)

/-- `launch.rs:237-248`, `dedup`. -/
def Options.dedup (o : Options) : Options :=
  { o with
    workshop := sortDedup o.workshop
    dlc := Launch.dedup (o.dlc.mergeSort fun a b => a ≤ b)
    presets := sortDedup o.presets
    optionals := sortDedup o.optionals
    parameters := sortDedup o.parameters }

/-- `Error::LaunchConfigExtendsSelf`, `Error::LaunchConfigExtendsMissing`. -/
inductive LErr
  | extendsSelf (k : Bytes) | extendsMissing (k e : Bytes)
  deriving DecidableEq, Repr

/-- The loop `hemtt/mod.rs:103-116` and what follows it for one configuration. -/
def resolve : Nat → (Bytes → Option Options) → Bytes → Options → Option (Except LErr Options)
  | 0, _, _, _ => none
  | n + 1, get, k, base => match base.parent with
    | none => some (.ok base.dedup)
    | some e =>
      if e = k then some (.error (.extendsSelf k))
      else match get e with
        | some o => resolve n get k (base.extend o)
        | none => some (.error (.extendsMissing k e))

/-- `hemtt/mod.rs:97-121`: all configurations, `l` in the order the iteration takes them. Collecting into a `Result`
stops at the first error. -/
def resolveAll (n : Nat) (get : Bytes → Option Options) : List (Bytes × Options) →
    Option (Except LErr (List (Bytes × Options)))
  | [] => some (.ok [])
  | (k, v) :: l => match resolve n get k v with
    | none => none
    | some (.error e) => some (.error e)
    | some (.ok o) => match resolveAll n get l with
      | none => none
      | some (.error e) => some (.error e)
      | some (.ok os) => some (.ok ((k, o) :: os))

/-- The table of the iterated list. -/
def table (l : List (Bytes × Options)) (k : Bytes) : Option Options := (l.find? fun p => p.1 = k).map (·.2)

/-- `launch.rs:127-160`, `overlay`; used from left to right over the configurations named on the command line
(`bin/src/commands/launch/mod.rs:349-353`). -/
def Options.overlay (self other : Options) : Options where
  parent := none
  workshop := self.workshop ++ other.workshop
  dlc := self.dlc ++ other.dlc
  presets := self.presets ++ other.presets
  optionals := self.optionals ++ other.optionals
  mission := over other.mission self.mission
  parameters := self.parameters ++ other.parameters
  executable := over other.executable self.executable
  binarize := over other.binarize self.binarize
  filePatching := over other.filePatching self.filePatching
  instances := over other.instances self.instances
  rapify := over other.rapify self.rapify

end Verif.Launch
