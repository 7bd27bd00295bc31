import Verif.Model.Sources
import Verif.Spec.Rapifier
import Verif.Spec.Release
/-! What belongs into the PBOs, said of the sources. -/
namespace Verif.Sources
open Verif.Rapifier
open Verif.Commands (Pre)
open Verif.Workspace (Addon FILES)
open Verif.Release (Entry Source Env Settings LeftOut Location.show)

/-- The text at the path is a script without errors, and this is the attempt to compile it. -/
def Made {P S K E : Type} (T : Tools P S K E) (err : K → Bool) (w : Files) (a : Addon) (f : Path) (r : Except E Bytes) : Prop :=
  ∃ p s, (T.pre f).run w = .ok p ∧ T.parse p = .ok s ∧ (∀ k ∈ T.lint a p s, err k = false) ∧ T.compile p s = r

/-- What is said about a script: what the preprocessor, the parser and the lints report. Syntax errors are kept back if the text looks like
a file of settings, in which a line begins with `force`. -/
inductive Said {P S K E : Type} (T : Tools P S K E) (err : K → Bool) (w : Files) (a : Addon) (f : Path) : Except E (List K) → Prop
  | pre {k} : (T.pre f).run w = .code k → Said T err w a f (.ok [k])
  | other {e} : (T.pre f).run w = .other e → Said T err w a f (.error e)
  | lexing {p ks} : (T.pre f).run w = .ok p → T.parse p = .lexing ks → Said T err w a f (.ok (T.warnings p ++ ks))
  | parsing {p ks} : (T.pre f).run w = .ok p → T.parse p = .parsing ks → (∀ l ∈ split '\n' (T.text p), ¬ "force ".toList <+: l) →
      Said T err w a f (.ok (T.warnings p ++ ks))
  | settings {p ks l} : (T.pre f).run w = .ok p → T.parse p = .parsing ks → l ∈ split '\n' (T.text p) → "force ".toList <+: l →
      Said T err w a f (.ok (T.warnings p))
  | lint {p s} : (T.pre f).run w = .ok p → T.parse p = .ok s → ((∃ k ∈ T.lint a p s, err k = true) ∨ ∃ b, T.compile p s = .ok b) →
      Said T err w a f (.ok (T.warnings p ++ T.lint a p s))
  | compile {e} : Made T err w a f (.error e) → Said T err w a f (.error e)

/-- The folder of an addon. -/
def home (a : Addon) : Path := [Location.show a.location, a.name]

/-- The folder that is packed shows the files. -/
def Shows (w : Files) (x : Source) : Prop :=
  ∀ d n c, ⟨d, n, true, c⟩ ∈ x.tree ↔ w (home x.addon ++ d ++ [n]) = some c

/-- The user wants the file in the PBO: it is not left out, and it is not one that says what the prefix is. -/
def Wanted (env : Env) (s : Settings) (x : Source) (e : Entry) : Prop :=
  ¬ LeftOut env s x e ∧ env.lower e.filename ∉ FILES ∧ e.filename ≠ "addon.toml".toList

end Verif.Sources
