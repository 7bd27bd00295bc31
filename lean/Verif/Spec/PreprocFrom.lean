import Verif.Model.Preproc
/-!
Which places a report of the preprocessor may point to (C125).
-/
namespace Verif.Preproc.Spec

/-- The files that can be read from `root`: itself and what a read file finds. -/
inductive Read (env : Env) (root : Text) : Text → Prop
  | root : Read env root root
  | incl {f s g : Text} {b : Bool} : Read env root f → env.locate f s = some (g, b) → Read env root g

/-- A file is read as tokens of that file. What cannot be read is reported in that file. -/
structure OwnPlaces (env : Env) : Prop where
  path : ∀ f all, env.load f = .ok all → ∀ t ∈ all, t.pos.path = f
  fails : ∀ f e, env.load f = .error e → e = .panic ∨ ∃ t, e = .code 24 t ∧ t.pos.path = f

/-- The range from `a` to `b` of `file` begins with one token of a read file and ends with the same or a later one. -/
def Covers (env : Env) (root file : Text) (a b : Nat) : Prop :=
  ∃ all x y z t u, Read env root file ∧ env.load file = .ok all ∧ all = x ++ y ++ z ∧ y.head? = some t ∧ y.getLast? = some u ∧
    t.pos.start.offset = a ∧ u.pos.stop.offset = b

/-- The range from `a` to `b` of `file` goes from the end of one token of a read file to the beginning of a later one. -/
def Gap (env : Env) (root file : Text) (a b : Nat) : Prop :=
  ∃ all x t y u z, Read env root file ∧ env.load file = .ok all ∧ all = x ++ t :: y ++ u :: z ∧
    t.pos.stop.offset = a ∧ u.pos.start.offset = b

end Verif.Preproc.Spec
