import Verif.Model.Preproc
/-!
The labels of the reports of the preprocessor (C125), repo: libs/preprocessor/src/codes and libs/workspace/src/reporting/mod.rs.

Only which report is shown and which ranges of which files it marks. The messages are not modelled (for the suggestions see C124).
-/
namespace Verif.Preproc

/-- `Label`, repo: libs/workspace/src/reporting/diagnostic/label.rs:8-34: primary or secondary, the file and the range of bytes. -/
structure Lab where
  primary : Bool
  file : Text
  start : Nat
  stop : Nat
  deriving DecidableEq, Repr

/-- What `diagnostic` gives: the labels of a report, `None` (then nothing is printed, repo: bin/src/report.rs:40, 68), or a crash. -/
inductive Shown
  | labels (l : List Lab)
  | nothing
  | panic
  deriving DecidableEq, Repr

/-- A label on one token: `position().path()` and `position().span()`. -/
def Lab.on (primary : Bool) (t : Tok) : Lab := ⟨primary, t.pos.path, t.pos.start.offset, t.pos.stop.offset⟩

/-- A label from a first to a last token, in the file of the first. -/
def Lab.over (primary : Bool) (a b : Tok) : Lab := ⟨primary, a.pos.path, a.pos.start.offset, b.pos.stop.offset⟩

/-- One side of a failed comparison, repo: libs/preprocessor/src/codes/pe16_if_incompatible_types.rs:54-105: labelled if it came from
a macro; `none` where `expect` fails. -/
def sideLabel (s : List Tok × Bool) : Option (List Lab) :=
  if s.2 then
    match s.1.head?, s.1.getLast? with
    | some a, some b => some [.over false a b]
    | _, _ => none
  else some []

/-- `diagnostic` of the code with the number `n`.
* 5: repo: libs/preprocessor/src/codes/pe5_define_multitoken_argument.rs:25-27, 52-60.
* 7: pe7_if_unit_or_function.rs:22-24, 61-72.
* 9: pe9_function_call_argument_count.rs:27-29, 58-70 (the file is that of the call).
* 10: pe10_function_as_value.rs:23-25, 35-41. 11: pe11_expected_function_or_value.rs:23-25, 43-49.
* 12: pe12_include_not_found.rs:26-39. 13: pe13_include_not_encased.rs:57-71.
* 15: pe15_if_invalid_operator.rs:30-44. 16: pe16_if_incompatible_types.rs:44-110.
* 17: pe17_double_else.rs:30-32, 42-57.
* all others: the label on the token, repo: libs/workspace/src/reporting/mod.rs:73-92; pe1_unexpected_token.rs:36-51 and
  pe24_parsing_failed.rs:29-36 do the same. -/
def shown (n : Nat) (t : Tok) (m : More) : Shown :=
  match n, m with
  | 5, .toks (p :: _) => .labels [.on true t, ⟨false, t.pos.path, p.pos.stop.offset, t.pos.start.offset⟩]
  | 7, .toks (d :: _) => .labels [.on true t, .on false d]
  | 9, .toks (d :: _) => .labels [.on true t, ⟨false, t.pos.path, d.pos.start.offset, d.pos.stop.offset⟩]
  | 10, .toks (d :: _) => .labels [.on true t, .on false d]
  | 11, .toks (d :: _) => .labels [.on true t, .on false d]
  | 12, .toks l => match l.head?, l.getLast? with
    | some a, some b => .labels [.over true a b]
    | _, _ => .nothing
  | 13, .toks (s :: _) => .labels [.over true s t]
  | 13, _ => .nothing
  | 15, .toks l => match l.head?, l.getLast? with
    | some a, some b => .labels [.over true a b]
    | _, _ => .nothing
  | 16, .sides l op r => match op.head?, op.getLast? with
    | some a, some b => match sideLabel l, sideLabel r with
      | some x, some y => .labels (.over true a b :: (x ++ y))
      | _, _ => .panic
    | _, _ => .nothing
  | 17, .toks (p :: i :: _) => .labels [.on true t, .on false p, .on false i]
  | _, _ => .labels [.on true t]

/-- The labels of a warning: repo: libs/preprocessor/src/codes/pw1_redefine.rs:23-25, 57-65; pw3_padded_arg.rs:21-23 and
pw4_include_case.rs:33-60. -/
def Warn.shown : Warn → Shown
  | .redefine new old => .labels [.on true new, .on false old]
  | .padded t _ => .labels [.on true t]
  | .includeCase l => match l.head?, l.getLast? with
    | some a, some b => .labels [.over true a b]
    | _, _ => .panic

/-- `ident`, repo: libs/preprocessor/src/codes/*.rs; pe16_if_incompatible_types.rs:19-21 has the number of another code. -/
def codeNumber (n : Nat) : Nat := if n = 16 then 15 else n

end Verif.Preproc
