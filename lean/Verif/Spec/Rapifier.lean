import Verif.Model.Rapifier
/-! What rapifying a file is meant to do, when nothing else happens at the same time. -/
namespace Verif.Rapifier

/-- The result of reading when the files stay as they are. -/
def Reading.run {α : Type} : Reading α → Files → α
  | .done a, _ => a
  | .read p k, w => (k (w p)).run w

/-- The paths that are read when the files stay as they are. -/
def Reading.reads {α : Type} : Reading α → Files → List Path
  | .done _, _ => []
  | .read p k, w => p :: (k (w p)).reads w

/-- Some work done alone: its result, and the files afterwards. -/
def Job.run {α : Type} : Job α → Files → α × Files
  | .done a, w => (a, w)
  | .read p k, w => (k (w p)).run w
  | .write p b k, w => k.run (w.put p b)

/-- The paths some work reads when it is done alone. -/
def Job.reads {α : Type} : Job α → Files → List Path
  | .done _, _ => []
  | .read p k, w => p :: (k (w p)).reads w
  | .write p b k, w => k.reads (w.put p b)

/-- The paths some work writes when it is done alone. -/
def Job.writes {α : Type} : Job α → Files → List Path
  | .done _, _ => []
  | .read p k, w => (k (w p)).writes w
  | .write p b k, w => p :: k.writes (w.put p b)

/-- The text at the path is a config without errors, does not ask to be left as it is, and this is the attempt to give its binary
form. -/
def Made {P C K E : Type} (T : Tools P C K E) (w : Files) (p : Path) (r : Except E Bytes) : Prop :=
  ∃ q c, (T.pre p).run w = .ok q ∧ T.parse q = .ok c ∧ T.lintErrors c = [] ∧ T.noRapify q = false ∧ T.rapify c = r

/-- What is said about the file at the path. -/
inductive Said {P C K E : Type} (T : Tools P C K E) (w : Files) (p : Path) : Except E (List K) → Prop
  | pre {k} : (T.pre p).run w = .code k → Said T w p (.ok [k])
  | other {e} : (T.pre p).run w = .other e → Said T w p (.error e)
  | parse {q ks} : (T.pre p).run w = .ok q → T.parse q = .error ks → Said T w p (.ok (T.warnings q ++ ks))
  | lint {q c} : (T.pre p).run w = .ok q → T.parse q = .ok c → (∀ e, T.rapify c = .error e → T.lintErrors c ≠ [] ∨ T.noRapify q) →
      Said T w p (.ok (T.warnings q ++ T.lintWarnings c ++ T.lintErrors c))
  | rapify {e} : Made T w p (.error e) → Said T w p (.error e)

end Verif.Rapifier
