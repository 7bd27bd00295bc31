import Verif.Model.ConfigLint
/-!
What the checks of configs are about, said without the functions that do the checking: places in a tree, what is wrong at
a place, which definitions clash, which class a parent is.
-/
namespace Verif.ConfigLint
open Verif.ConfigParse

/-- The property at a place: the `i`-th of the body, or a property inside the class there. -/
inductive At : List Prp → Addr → Prp → Prop
  | here {ps i p} : ps[i]? = some p → At ps [i] p
  | deep {ps i n par qs b a p} : ps[i]? = some (.loc n par qs b) → At qs a p → At ps (i :: a) p

/-- An item of an array, at any depth. -/
inductive ItemIn : Item → List Item → Prop
  | here {i is} : i ∈ is → ItemIn i is
  | deep {i is js} : .arr js ∈ is → ItemIn i js → ItemIn i is

/-- A value the parser could not make sense of. -/
def BadValue : Val → Prop
  | .invalid => True
  | .arr _ is => ItemIn .invalid is
  | .uarr is => ItemIn .invalid is
  | _ => False

/-- An array. -/
def IsArray : Val → Prop
  | .arr _ _ => True
  | _ => False

/-- The property at a place, with the lower case names that lead to it. -/
inductive Def (lower : Text → Text) : List Prp → Addr → List Text → Prp → Prop
  | here {ps i p} : ps[i]? = some p → Def lower ps [i] [lower p.name] p
  | deep {ps i n par qs b a l p} : ps[i]? = some (.loc n par qs b) → Def lower qs a l p →
      Def lower ps (i :: a) (lower n :: l) p

/-- A class with a body. -/
def IsLocal : Prp → Prop
  | .loc .. => True
  | _ => False

/-- A class, with a body or external. -/
def IsClass : Prp → Prop
  | .loc .. => True
  | .ext _ => True
  | _ => False

/-- What counts as a definition of a property: a value or a class with a body (and what is left of a property whose
semicolon is missing). -/
def Defines : Prp → Prop
  | .entry .. => True
  | .loc .. => True
  | .missing _ => True
  | _ => False

/-- Some class is declared under the name `k` (up to case) before the place `a`: further up in the text, inside of other
classes or not, or around the place. Places in the order of the text are in lexicographic order. -/
def Earlier (lower : Text → Text) (ps : List Prp) (a : Addr) (k : Text) : Prop :=
  ∃ a' q, At ps a' q ∧ IsClass q ∧ a' < a ∧ lower q.name = k

/-- How the class that is called `k` up to case is written before the place `a`: as in the last class with a body, or if
there is none, as in the first external class. -/
def KnownAs (lower : Text → Text) (ps : List Prp) (a : Addr) (k n : Text) : Prop :=
  ∃ a' q, At ps a' q ∧ IsClass q ∧ a' < a ∧ lower q.name = k ∧ q.name = n ∧
    (IsLocal q → ∀ b p, At ps b p → IsLocal p → b < a → lower p.name = k → b ≤ a') ∧
    (¬ IsLocal q → ∀ b p, At ps b p → IsClass p → b < a → lower p.name = k → ¬ IsLocal p ∧ a' ≤ b)

end Verif.ConfigLint
