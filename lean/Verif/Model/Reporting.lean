import Verif.Model.Prefix
import Verif.Model.Lint
/-!
Model of how reports are shown: `/repo/libs/workspace/src/reporting/files.rs` (lines and columns),
`to_annotations` of `/repo/libs/workspace/src/reporting/diagnostic/mod.rs` with
`/repo/libs/workspace/src/reporting/diagnostic/annotation.rs`, and `/repo/bin/src/report.rs`. Offsets are in bytes, as in
the code. `line_number`, `column_number` and `column_index` are those of the library `codespan_reporting`, which also
draws the text of a report; the drawing is not modelled.
-/
namespace Verif.Reporting
open Verif.Prefix (lines)
open Verif.Lints (Severity)

/-- `str::len` -/
def byteLen : Text → Nat
  | [] => 0
  | c :: t => c.utf8Size + byteLen t

/-- The text of a file as it is read, repo: libs/workspace/src/path.rs:112-118. -/
def read (t : Text) : Text := t.filter (· ≠ '\r')

/-- `scan`, repo: libs/workspace/src/reporting/files.rs:62-66 -/
def scan : Nat → List Text → List Nat
  | _, [] => []
  | pos, l :: ls => pos :: scan (pos + byteLen l + 1) ls

/-- repo: libs/workspace/src/reporting/files.rs:60-67 -/
def lineStarts (s : Text) : List Nat := scan 0 (lines s)

/-- `line_starts.binary_search(&byte_index).or_else(|next_line| Ok(next_line - 1))`; the list is in order and without
repetition, so the search finds the place of the index, or how many entries are smaller. `none` if the subtraction
underflows, repo: libs/workspace/src/reporting/files.rs:91-96. -/
def lineIndex (s : Text) (b : Nat) : Option Nat :=
  if b ∈ lineStarts s then some ((lineStarts s).idxOf b)
  else
    let next := (lineStarts s).countP (· < b)
    if next = 0 then none else some (next - 1)

/-- repo: libs/workspace/src/reporting/files.rs:16-31 -/
def lineStart (s : Text) (i : Nat) : Option Nat :=
  if h : i < (lineStarts s).length then some (lineStarts s)[i]
  else if i = (lineStarts s).length then some (byteLen s) else none

/-- repo: libs/workspace/src/reporting/files.rs:98-108 -/
def lineRange (s : Text) (i : Nat) : Option (Nat × Nat) := do
  let a ← lineStart s i
  let b ← lineStart s (i + 1)
  return (a, b)

/-- Where the characters of a text end that begins at `p`. -/
def ends : Nat → Text → List Nat
  | _, [] => []
  | p, c :: t => (p + c.utf8Size) :: ends (p + c.utf8Size) t

/-- `str::is_char_boundary` -/
def boundary (s : Text) (i : Nat) : Bool := i == 0 || (ends 0 s).contains i

/-- `codespan_reporting::files::column_index` -/
def columnIndex (s : Text) (r : Nat × Nat) (b : Nat) : Nat :=
  let stop := min b (min r.2 (byteLen s))
  (List.range' r.1 (stop - r.1)).countP fun i => boundary s (i + 1)

/-- `codespan_reporting::files::Files::line_number` -/
def lineNumber (i : Nat) : Nat := i + 1

/-- `codespan_reporting::files::Files::column_number` -/
def columnNumber (s : Text) (i b : Nat) : Option Nat := (lineRange s i).map fun r => columnIndex s r b + 1

/-! ### Diagnostics -/

/-- repo: libs/workspace/src/reporting/diagnostic/label.rs:7-13; the file with its path, its text and whether it is from
an include folder. -/
structure File where
  path : Text
  text : Text
  isInclude : Bool

structure Label where
  primary : Bool
  message : Option Text
  file : File
  start : Nat
  stop : Nat

/-- repo: libs/workspace/src/reporting/diagnostic/mod.rs:20-30, without code, link, notes, help and suggestions. -/
structure Diagnostic where
  severity : Severity
  message : Text
  labels : List Label

/-- repo: libs/workspace/src/reporting/diagnostic/annotation.rs:7-26, 49-58 -/
inductive Level where
  | notice | warning | error
deriving DecidableEq

structure Annotation where
  path : Text
  startLine : Nat
  endLine : Nat
  startColumn : Nat
  endColumn : Nat
  level : Level
  message : Text
  title : Text
deriving DecidableEq

/-- repo: libs/workspace/src/reporting/diagnostic/annotation.rs:60-68 -/
def level : Severity → Level
  | .warning => .warning
  | .help | .note => .notice
  | .bug | .error => .error

/-- repo: libs/workspace/src/reporting/diagnostic/annotation.rs:70-78 -/
def Level.text : Level → Text
  | .notice => "notice".toList
  | .warning => "warning".toList
  | .error => "error".toList

/-- The annotation for a label, `none` if the program aborts, repo: libs/workspace/src/reporting/diagnostic/mod.rs:229-252. -/
def annotate (d : Diagnostic) (l : Label) (message : Text) : Option Annotation := do
  let s := read l.file.text
  let i ← lineIndex s l.start
  let j ← lineIndex s l.stop
  let a ← columnNumber s i l.start
  let b ← columnNumber s j l.stop
  return ⟨l.file.path, lineNumber i, lineNumber j, a, b, level d.severity, message, d.message⟩

/-- Only primary labels with a message, repo: libs/workspace/src/reporting/diagnostic/mod.rs:219-255. -/
def annotations (d : Diagnostic) : Option (List Annotation) :=
  (d.labels.filterMap fun l => if l.primary then l.message.map (annotate d l) else none).mapM id

/-- repo: libs/workspace/src/reporting/diagnostic/annotation.rs:28-46 -/
def Annotation.line (a : Annotation) : Text :=
  List.intercalate "||".toList [decimal a.startLine, decimal a.endLine, decimal a.startColumn, decimal a.endColumn,
    a.level.text, a.title, a.message, a.path] ++ ['\n']

/-! ### Reports -/

/-- What is used of a code, repo: libs/workspace/src/reporting/mod.rs:35-98. -/
structure Code where
  severity : Severity
  isInclude : Bool
  diagnostic : Option Diagnostic

/-- repo: bin/src/report.rs:115-136 -/
def filterCodes (codes : List Code) (s : Severity) (withIncludes : Bool) : List Code :=
  (codes.filter fun c => c.severity = s).filter fun c =>
    if withIncludes then true
    else !c.isInclude && (match c.diagnostic with
      | none => true
      | some d => d.labels.isEmpty || !d.labels.all fun l => l.file.isInclude)

/-- repo: bin/src/report.rs:86-89 -/
def errors (codes : List Code) : List Code := filterCodes codes .error true
/-- repo: bin/src/report.rs:91-94 -/
def warnings (codes : List Code) (withIncludes : Bool) : List Code := filterCodes codes .warning withIncludes
/-- repo: bin/src/report.rs:96-101 -/
def helps (codes : List Code) (withIncludes : Bool) : List Code :=
  filterCodes codes .help withIncludes ++ filterCodes codes .note withIncludes

/-- repo: bin/src/report.rs:103-107 -/
def failed (codes : List Code) : Bool := !(errors codes).isEmpty

/-- The diagnostics written to the terminal, in order; `withIncludes`: whether `HEMTT_REPORT_WITH_INCLUDES` is `true`,
repo: bin/src/report.rs:54-73. -/
def shown (codes : List Code) (withIncludes : Bool) : List Diagnostic :=
  (helps codes withIncludes ++ warnings codes withIncludes ++ errors codes).filterMap Code.diagnostic

/-- What is added to `ci_annotations.txt`; `none` if the program aborts, repo: bin/src/report.rs:27-52. -/
def ciAnnotations (codes : List Code) : Option Text := do
  let as ← ((helps codes false ++ warnings codes false ++ errors codes).filterMap Code.diagnostic).mapM annotations
  return as.flatten.flatMap Annotation.line

end Verif.Reporting
