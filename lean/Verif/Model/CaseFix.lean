import Verif.Lib.Text
/-!
Model of the tool that fixes the letter case of commands, `/repo/bin/src/utils/sqf/case.rs`.

* The table of commands (`arma3_wiki`, another package) is a parameter: the name of the command found for a word.
* Walking over directories and writing the file are left out: the model is the text that comes out.
-/
namespace Verif.CaseFix

/-- A name is looked up, `wiki.commands().get(buffer)`; `command.name()` is what is found. -/
abbrev Table := Text → Option Text

/-- `case.rs:57-62`, `InsideComment`. -/
inductive Comment
  | no | single | multi
  deriving DecidableEq, Repr

/-- The variables of `case.rs:81-85`. -/
structure St where
  out : Text := []
  buffer : Text := []
  quotes : Bool := false
  comment : Comment := .no
  macro_ : Bool := false
  deriving DecidableEq, Repr

/-- `'a'..='z' | 'A'..='Z' | '0'..='9' | '_'` -/
def isWord (c : Char) : Bool :=
  ('a' ≤ c && c ≤ 'z') || ('A' ≤ c && c ≤ 'Z') || ('0' ≤ c && c ≤ '9') || c == '_'

/-- `case.rs:172-183`, `check_buffer`. -/
def checkBuffer (cmd : Table) (s : St) : St :=
  if s.buffer = [] then s
  else match cmd s.buffer with
    | some name => { s with out := s.out ++ name, buffer := [] }
    | none => { s with out := s.out ++ s.buffer, buffer := [] }

/-- `out.push(char)` -/
def St.push (s : St) (c : Char) : St := { s with out := s.out ++ [c] }

/-- `buffer.to_uppercase() == buffer`; the buffer only ever holds the characters of `isWord`. -/
def isUpper (w : Text) : Bool := w.all fun c => !('a' ≤ c && c ≤ 'z')

/-- One turn of the loop, `case.rs:86-160`; the arms of the `match` in their order. -/
def step (cmd : Table) (s : St) (c : Char) : St :=
  if isWord c ∧ s.quotes = false ∧ s.comment = .no ∧ s.macro_ = false then
    { s with buffer := s.buffer ++ [c] }
  else if c = '"' ∧ s.comment = .no then
    if s.quotes = false then { checkBuffer cmd s with quotes := true }.push c
    else { s with quotes := false }.push c
  else if c = '/' ∧ s.quotes = false ∧ s.comment = .no then
    let s := checkBuffer cmd s
    if s.out.getLast? = some '/' then { s with comment := .single }.push c else s.push c
  else if c = '\n' ∧ s.quotes = false then
    let s := checkBuffer cmd s
    if s.comment = .single then { s with comment := .no }.push c else s.push c
  else if c = '*' ∧ s.quotes = false ∧ s.comment = .no then
    let s := checkBuffer cmd s
    if s.out.getLast? = some '/' then { s with comment := .multi }.push c else s.push c
  else if c = '/' ∧ s.quotes = false ∧ s.comment = .multi then
    if s.out.getLast? = some '*' then { s with comment := .no }.push c else s.push c
  else if c = '(' ∧ s.quotes = false ∧ s.comment = .no ∧ s.macro_ = false then
    let s' := if s.buffer ≠ [] ∧ isUpper s.buffer then { s with macro_ := true } else s
    if s.buffer = "LOG".toList then { s' with out := s'.out ++ s'.buffer, buffer := [] }.push c
    else (checkBuffer cmd s').push c
  else if (c = ')' ∨ c = ',') ∧ s.quotes = false ∧ s.comment = .no ∧ s.macro_ = true then
    { s with macro_ := false, out := s.out ++ s.buffer, buffer := [] }.push c
  else if s.quotes = false ∧ s.comment = .no then (checkBuffer cmd s).push c
  else s.push c

/-- `case.rs:70-170`, `file`: what is written (not at all if it is what was read). -/
def fix (cmd : Table) (content : Text) : Text := (checkBuffer cmd (content.foldl (step cmd) {})).out

end Verif.CaseFix
