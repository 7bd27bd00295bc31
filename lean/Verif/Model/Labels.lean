import Verif.Model.Processed
/-!
Model of how a code with a span of the preprocessed text is placed in the sources, `Diagnostic::from_code_processed` of
`/repo/libs/workspace/src/reporting/diagnostic/mod.rs`. Message, code, link, notes, help and suggestions are copied from
the code and left out.
-/
namespace Verif.Labels
open Verif.Preproc Verif.Processed

/-- The label of the diagnostic: a file and a range of its bytes, repo: libs/workspace/src/reporting/diagnostic/label.rs:7-13. -/
structure Label where
  file : Text
  start : Nat
  stop : Nat
  deriving DecidableEq, Repr

/-- `str::len`. -/
def strLen (s : Text) : Nat := (bytesOf s).length

/-- repo: libs/workspace/src/reporting/diagnostic/mod.rs:60-83. `a..b` is the span, `none` means that there is no
diagnostic. Where the text is empty, `len() - 1` aborts or wraps, depending on how the program was built; here it is 0
and there is no diagnostic, as when it wraps. -/
def fromCodeProcessed (p : P) (a b : Nat) : Option Label :=
  let (a, b) := if a = strLen p.output then (strLen p.output - 1, strLen p.output - 1) else (a, b)
  match p.mappingAt a, p.mappingAt b with
  | some s, some e =>
    match p.sources[s.source]? with
    | some file => some ⟨file, s.token.pos.start.offset, e.token.pos.start.offset⟩
    | none => none
  | _, _ => none

end Verif.Labels
