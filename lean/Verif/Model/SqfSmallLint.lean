import Verif.Model.SqfLint
/-!
Model of three small lints of SQF: S03 (`typeName` of a constant), S11 (`if (!…) then … else …`) and S22 (`_this call`). The
conventions are those of Model/SqfLint: `lower` is `str::to_lowercase`.
-/
namespace Verif.SqfLint
open Verif.Sqf Verif.SqfLex

/-- s03_static_typename.rs:87-108: the type of a command without arguments. The names are compared as they are written. -/
def nularType (n : Bytes) : Option Text :=
  if n = ascii "scriptnull" then some "SCRIPT".toList
  else if n = ascii "objnull" then some "OBJECT".toList
  else if n = ascii "grpnull" then some "GROUP".toList
  else if n = ascii "controlnull" then some "CONTROL".toList
  else if n = ascii "teammembernull" then some "TEAM_MEMBER".toList
  else if n = ascii "displaynull" then some "DISPLAY".toList
  else if n = ascii "tasknull" then some "TASK".toList
  else if n = ascii "locationnull" then some "LOCATION".toList
  else if n = ascii "sideunknown" then some "SIDE".toList
  else if n = ascii "configfile" ∨ n = ascii "confignull" then some "CONFIG".toList
  else if n = ascii "missionnamespace" ∨ n = ascii "profilenamespace" ∨ n = ascii "uinamespace" ∨
    n = ascii "parsingnamespace" then some "NAMESPACE".toList
  else if n = ascii "diaryrecordnull" then some "DIARY_RECORD".toList
  else if n = ascii "createhashmap" then some "HASHMAP".toList
  else none

/-- s03_static_typename.rs:77-118: the type of an operand, if it is seen. -/
def staticType : Expr → Option Text
  | .str .. => some "STRING".toList
  | .num .. => some "SCALAR".toList
  | .bool .. => some "BOOL".toList
  | .code [] _ _ => some "CODE".toList
  | .arr [] _ => some "ARRAY".toList
  | .nular n _ => nularType n
  | .un (.named n) _ _ => if n = ascii "text" then some "TEXT".toList else none
  | _ => none

/-- s03_static_typename.rs:58-125 `run` with `suggestion` (155-157) -/
def staticTypename (lower : Bytes → Bytes) : Expr → Option Text
  | .un (.named n) e _ =>
    if lower n ≠ ascii "typename" then none else (staticType e).map fun t => ['"'] ++ t ++ ['"']
  | _ => none

/-- s11_if_not_else.rs:53-83 `run`: the condition that is reported. -/
def ifNotElse (lower : Bytes → Bytes) : Expr → Option Expr
  | .bin (.named n) (.un (.named _) (.un .not c q) _) (.bin .els _ _ _) _ =>
    if lower n = ascii "then" then some (.un .not c q) else none
  | _ => none

/-- s22_this_call.rs:53-82 `run`: where it is reported. -/
def thisCall (lower : Bytes → Bytes) : Expr → Option Span
  | .bin (.named n) (.var v sp) _ _ => if lower n = ascii "call" ∧ v = ascii "_this" then some sp else none
  | _ => none

end Verif.SqfLint
