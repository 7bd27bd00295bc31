import Verif.Model.SqfLint
/-!
Model of hovering over a script in the language server: `/repo/hls/src/sqf/locate.rs` and the choice of what is shown in
`/repo/hls/src/sqf/hover.rs:13-41`. How the documentation of a command is rendered is left out.

* `Processed::mapping` is a parameter: for an offset in the preprocessed text, the file and the offsets in it where the token
  that is there begins and ends; nothing behind the end of the text. See `Verif.Model.Processed` for it.
* `Processed::line_offset` is a parameter as well.
-/
namespace Verif.Hover
open Verif.Sqf Verif.SqfLint

/-- What is used of a `Mapping`. -/
structure Place where
  file : Bytes
  start : Nat
  stop : Nat
  deriving DecidableEq, Repr

abbrev Mapping := Nat → Option Place

/-- The two lookups of repo: hls/src/sqf/locate.rs:46-47, 87-88 and 97-98: where the first token begins in its file, and where the
token at the end of the range ends in its file. -/
def ends (m : Mapping) (sp : Span) : Option (Nat × Nat) :=
  match m sp.1, m sp.2 with
  | some a, some b => some (a.start, b.stop)
  | _, _ => none

/-- repo: hls/src/sqf/locate.rs:46-50 -/
def within (m : Mapping) (off : Nat) (sp : Span) : Bool :=
  match ends m sp with
  | some (a, b) => !(decide (a ≥ off) || decide (b ≤ off))
  | none => false

/-- A string, a number, a variable or a boolean, repo: hls/src/sqf/locate.rs:66-76. -/
def leaf (m : Mapping) (off : Nat) (e : Expr) (sp : Span) : Option Expr :=
  match m sp.1 with
  | some p => if p.start ≤ off ∧ off < p.stop then some e else none
  | none => none

mutual
/-- `locate_expression`, repo: hls/src/sqf/locate.rs:41-106 -/
def locate (m : Mapping) (off : Nat) : Expr → Option Expr
  | .code ss src sp => if within m off (fullSpan (.code ss src sp)) then locateSs m off ss else none
  | .str s sp w => if within m off sp then leaf m off (.str s sp w) sp else none
  | .num x sp => if within m off sp then leaf m off (.num x sp) sp else none
  | .var n sp => if within m off sp then leaf m off (.var n sp) sp else none
  | .bool b sp => if within m off sp then leaf m off (.bool b sp) sp else none
  | .arr es sp => if within m off (fullSpan (.arr es sp)) then locateEs m off es else none
  | .carr es sp => if within m off (fullSpan (.carr es sp)) then locateEs m off es else none
  | .nular n sp => if within m off sp then some (.nular n sp) else none
  | .un c x sp =>
    if within m off (fullSpan (.un c x sp)) then match ends m (fullSpan x) with
      | none => none
      | some (a, b) => if a ≤ off ∧ off < b then locate m off x else some (.un c x sp)
    else none
  | .bin c l r sp =>
    if within m off (fullSpan (.bin c l r sp)) then match ends m (fullSpan l) with
      | none => none
      | some (a, b) =>
        if a ≤ off ∧ off < b then locate m off l
        else match ends m (fullSpan r) with
          | none => none
          | some (a, b) => if a ≤ off ∧ off < b then locate m off r else some (.bin c l r sp)
    else none
/-- The loop over the elements of an array, repo: hls/src/sqf/locate.rs:77-84. -/
def locateEs (m : Mapping) (off : Nat) : List Expr → Option Expr
  | [] => none
  | e :: es => match locate m off e with
    | some x => some x
    | none => locateEs m off es
/-- One statement, repo: hls/src/sqf/locate.rs:26-33, 54-62. -/
def locateS (m : Mapping) (off : Nat) : Stmt → Option Expr
  | .assignGlobal _ e _ => locate m off e
  | .assignLocal _ e _ => locate m off e
  | .expr e _ => locate m off e
/-- The loop over statements, repo: hls/src/sqf/locate.rs:25-36, 53-64. -/
def locateSs (m : Mapping) (off : Nat) : List Stmt → Option Expr
  | [] => none
  | s :: ss => match locateS m off s with
    | some x => some x
    | none => locateSs m off ss
end

/-- `SqfCache::hover`, repo: hls/src/sqf/hover.rs:13-36 for a file that is in the cache, with the offset of hls/src/sqf/locate.rs:20-24:
the name of the command that is looked up in the wiki (hover.rs:39-41). -/
def hover (m : Mapping) (lineOffset : Nat → Option Nat) (ss : List Stmt) (line character : Nat) : Option Bytes :=
  (locateSs m ((lineOffset line).getD 0 + character) ss).bind commandName

end Verif.Hover
