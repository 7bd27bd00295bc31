import Verif.Spec.PreprocAcyclic
/-!
What sources are asked for so that preprocessing cannot crash.
-/
namespace Verif.Preproc.Spec

/-- The sources of a world are tidy: `calls` are names of macros, at least those that are defined with parameters or as nothing.
Only what is written in some file counts, wherever in the file. -/
structure Tidy (env : Env) (calls : Text → Prop) : Prop where
  /-- Every file ends with a line break. -/
  ends : ∀ {p all}, env.load p = .ok all → ∃ l nl e, all = l ++ [nl, e] ∧ nl.sym = .newline ∧ e.sym = .eoi
  /-- The line of a macro holds no further directive, its last token is none of `calls`, and `calls` has the macros with
  parameters and those that are nothing. -/
  defs : ∀ {p all pre h d ws nm l name}, env.load p = .ok all → all = pre ++ h :: d :: (ws ++ nm :: l) →
    h.sym = .directive → d.sym = .word (kw "define") → blank (ws.map Tok.sym) = true → nm.sym = .word name →
    NoDir (logical false l) ∧
    (∀ t w, ((logical false l).filter fun t => t.sym ≠ .join).getLast? = some t → t.sym = .word w → ¬ calls w) ∧
    (∀ t r, l = t :: r → t.sym = .lparen ∨ t.sym = .newline ∨ t.sym = .eoi → calls name)
  /-- No `#if` asks for `__COUNTER_RESET__`. -/
  ifs : ∀ {p all pre h d l}, env.load p = .ok all → all = pre ++ h :: d :: l → h.sym = .directive →
    d.sym = .word (kw "if") → ∀ t ∈ l.takeWhile fun t => t.sym ≠ .newline, t.sym.text ≠ kw "__COUNTER_RESET__"
  /-- No macro of `calls` is named like a file. -/
  names : ∀ {p all}, env.load p = .ok all → ∀ t ∈ all,
    ¬ calls (env.fileName t.pos.path) ∧ ¬ calls (Defines.shortName (env.fileName t.pos.path))
  /-- Reading a file gives its tokens or a report. -/
  loads : ∀ p, env.load p ≠ .error .panic

end Verif.Preproc.Spec
