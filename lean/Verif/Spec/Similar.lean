import Verif.Lib.Text
/-!
How far a name is from another one.
-/
namespace Verif.Similar.Spec

/-- One character is put in, left out or replaced. -/
inductive Step : Text → Text → Prop
  | put (u v : Text) (c : Char) : Step (u ++ v) (u ++ c :: v)
  | leave (u v : Text) (c : Char) : Step (u ++ c :: v) (u ++ v)
  | replace (u v : Text) (c d : Char) : Step (u ++ c :: v) (u ++ d :: v)

/-- So many mistakes lead from one text to another. -/
inductive Chain : Nat → Text → Text → Prop
  | same (a : Text) : Chain 0 a a
  | step {n : Nat} {a b c : Text} : Chain n a b → Step b c → Chain (n + 1) a c

/-- At most so many mistakes. -/
def Within (n : Nat) (a b : Text) : Prop := ∃ k ≤ n, Chain k a b

/-- A function that gives the smallest number of mistakes, as `strsim::levenshtein` is documented to. -/
def Distance (dist : Text → Text → Nat) : Prop := ∀ a b n, dist a b ≤ n ↔ Within n a b

end Verif.Similar.Spec
