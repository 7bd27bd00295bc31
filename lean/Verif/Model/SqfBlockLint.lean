import Verif.Model.SqfLint
import Verif.Model.Lint
/-!
Model of the lints of SQF that look at whole blocks: S01 (versions of commands), S02 (event handlers), S23 (reserved
variables), S24 (marker updates), and of S17 (variables in capitals). The conventions are those of Model/SqfLint. What the
wiki knows is an argument; a version is the number `256 * major + minor`, both of them bytes.
-/
namespace Verif.SqfLint
open Verif.Sqf Verif.SqfLex

/-! ### S01: versions of commands -/

mutual
/-- lib.rs:48-88 `extract_expression`; `since` is `Database::command_version`. -/
def versionE (since : Bytes → Option Nat) : Expr → Option (Bytes × Nat × Span)
  | .nular n sp => match since n with
    | some v => some (n, v, sp)
    | none => none
  | .un c e sp => match since c.asStr with
    | none => none
    | some v => match versionE since e with
      | none => none
      | some l => match since l.1 with
        | none => none
        | some lv => if v > lv then some (c.asStr, v, sp) else some l
  | .bin c l r sp => match since c.asStr with
    | none => none
    | some v => match versionE since l with
      | none => none
      | some l => match since l.1 with
        | none => none
        | some lv => match versionE since r with
          | none => none
          | some r => match since r.1 with
            | none => none
            | some rv => if v > lv ∧ v > rv then some (c.asStr, v, sp) else if lv > rv then some l else some r
  | .code ss _ _ => some (versionSs since ([], 0, (0, 0)) ss)
  | .str .. | .num .. | .bool .. | .arr .. | .carr .. | .var .. => none
/-- lib.rs:93-95 -/
def versionS (since : Bytes → Option Nat) : Stmt → Option (Bytes × Nat × Span)
  | .assignGlobal _ e _ | .assignLocal _ e _ | .expr e _ => versionE since e
/-- lib.rs:89-105 `Statements::required_version`: the loop, with what it has found so far. -/
def versionSs (since : Bytes → Option Nat) (acc : Bytes × Nat × Span) : List Stmt → Bytes × Nat × Span
  | [] => acc
  | s :: ss => versionSs since (match versionS since s with
    | some u => if u.2.1 > acc.2.1 then u else acc
    | none => acc) ss
end

/-- lib.rs:46 `Statements::required_version` -/
def requiredVersion (since : Bytes → Option Nat) (ss : List Stmt) : Bytes × Nat × Span := versionSs since ([], 0, (0, 0)) ss

/-- `u8::try_from(_).unwrap_or_default()`, and the version of the two -/
def wikiVersion (major minor : Nat) : Nat :=
  256 * (if major < 256 then major else 0) + (if minor < 256 then minor else 0)

/-- s01_command_required_version.rs:66-95 `run`; `required` is the version of the addon, if one is known. -/
def commandVersions (since : Bytes → Option Nat) (required : Option (Nat × Nat)) (ss : List Stmt) : List (Bytes × Nat × Span) :=
  match required with
  | none => []
  | some (major, minor) =>
    let u := requiredVersion since ss
    if wikiVersion major minor < u.2.1 then [u] else []

/-! ### S02: event handlers -/

/-- What the wiki knows about event handlers: the kinds of event a command is for, and for the name of an event the kinds
that have it, with the version it came with. -/
structure EventWiki (NS : Type) where
  byCommand : Bytes → List NS
  handlers : Bytes → List (NS × Option Nat)

/-- Reports of s02_event_handlers.rs; the severity of unknown events is that of the configuration. -/
inductive EventReport where
  | unknown (command id : Bytes) (sp : Span) (severity : Lints.Severity)
  | incorrect (command id : Bytes) (sp : Span)
  | version (event : Bytes) (sp : Span) (v : Nat)
deriving DecidableEq

/-- s02_event_handlers.rs:320-333 `get_id` -/
def eventId : Expr → Option (Bytes × Span)
  | .str s sp _ => some (s, sp)
  | .arr (e :: _) _ => eventId e
  | _ => none

/-- s02_event_handlers.rs:294-318 `get_namespaces` -/
def eventUse {NS : Type} (W : EventWiki NS) : Expr → Option (List NS × Bytes × Bytes × Span)
  | .bin (.named n) _ id _ => (eventId id).map fun i => (W.byCommand n, n, i)
  | .un (.named n) id _ => (eventId id).map fun i => (W.byCommand n, n, i)
  | _ => none

/-- s02_event_handlers.rs:208-254 `check_unknown`; `ignore` is the list of names in `options.ignore`, if there is one. -/
def checkUnknown {NS : Type} [DecidableEq NS] (ignore : Lints.Config → Option (List Bytes)) (config : Option Lints.Config) (ns : List NS)
    (name id : Bytes) (sp : Span) (eh : List (NS × Option Nat)) : List EventReport :=
  if config.any fun c => !c.enabled then []
  else if config.any fun c => (ignore c).any fun l => l.contains name then []
  else if eh.isEmpty then [.unknown name id sp ((config.map (·.severity)).getD .warning)]
  else if ns.any fun n => eh.any fun h => decide (h.1 = n) then []
  else [.incorrect name id sp]

/-- s02_event_handlers.rs:256-292 `check_version` -/
def checkVersion {NS : Type} [DecidableEq NS] (required : Option (Nat × Nat)) (ns : List NS) (name : Bytes) (sp : Span)
    (eh : List (NS × Option Nat)) : List EventReport :=
  match required with
  | none => []
  | some (major, minor) => match eh.find? fun h => ns.contains h.1 with
    | some (_, some v) => if wikiVersion major minor < v then [.version name sp v] else []
    | _ => []

/-- s02_event_handlers.rs:182-204, one expression; `user` says that the name contains `UserAction`. -/
def checkEvent {NS : Type} [DecidableEq NS] (W : EventWiki NS) (user : Bytes → Bool) (ignore : Lints.Config → Option (List Bytes))
    (required : Option (Nat × Nat)) (config : Option Lints.Config) (e : Expr) : List EventReport :=
  match eventUse W e with
  | none => []
  | some (ns, name, id, sp) =>
    if ns.isEmpty then []
    else if user name then []
    else checkUnknown ignore config ns name id sp (W.handlers id) ++ checkVersion required ns name sp (W.handlers id)

/-- The name of the lint about unknown events, s02_event_handlers.rs:66. -/
def eventUnknown : Text := "event_unknown".toList

/-- s02_event_handlers.rs:164-206 `EventHandlerRunner::run` -/
def eventRunner {NS : Type} [DecidableEq NS] (W : EventWiki NS) (user : Bytes → Bool) (ignore : Lints.Config → Option (List Bytes))
    (required : Option (Nat × Nat)) (configs : Text → Option Lints.Config) (ss : List Stmt) : List EventReport :=
  (walkSs ss).flatMap (checkEvent W user ignore required (configs eventUnknown))

/-- The three lints of the group with their names and defaults, s02_event_handlers.rs:15-156; they have no runners. -/
def eventLints (T C : Type) : List (Lints.Lint T C) :=
  [⟨eventUnknown, ⟨true, .warning, fun _ => none⟩, .warning, []⟩,
   ⟨"event_incorrect_command".toList, ⟨true, .error, fun _ => none⟩, .error, []⟩,
   ⟨"event_insufficient_version".toList, ⟨true, .error, fun _ => none⟩, .error, []⟩]

/-! ### S23: reserved variables -/

/-- s23_reassign_reserved_variable.rs:59-61 `RESERVED` -/
def reservedVars : List Bytes := [ascii "this", ascii "_this", ascii "_forEachIndex", ascii "_exception", ascii "_thisScript",
  ascii "_thisFSM", ascii "thisList", ascii "thisTrigger"]

/-- s23_reassign_reserved_variable.rs:174-178 `Variant`, without the second positions -/
inductive ReservedReport where
  | overwrite (var : Bytes) (sp : Span)
  | neverRestored (holder reserved : Bytes) (sp : Span)
  | savedWhileSaved (holder reserved : Bytes) (sp : Span)
deriving DecidableEq

/-- The variables of the loop, lines 81-83: the reserved variable just saved and where, and what is to be restored from which
variable (a `HashMap`, here the pairs with the last one first). -/
structure Reserved where
  justSaved : Option (Bytes × Bytes) := none
  need : List (Bytes × Bytes × Span) := []

/-- `need_to_restore.get` -/
def Reserved.get (st : Reserved) (h : Bytes) : Option (Bytes × Span) := (st.need.find? fun p => p.1 == h).map (·.2)

/-- The parts of an assignment. -/
def assignment : Stmt → Option (Bytes × Expr × Span)
  | .assignGlobal n e sp | .assignLocal n e sp => some (n, e, sp)
  | .expr .. => none

/-- The variable an expression is, if it is one. -/
def asVar : Expr → Option Bytes
  | .var n _ => some n
  | _ => none

/-- s23_reassign_reserved_variable.rs:85-118, one round of the loop -/
def reservedStep (st : Reserved) (s : Stmt) : List ReservedReport × Reserved :=
  match assignment s with
  | none => ([], { st with justSaved := none })
  | some (var, e, sp) =>
    if st.justSaved.any fun p => p.1 == var then
      ([], ⟨none, match st.justSaved with
        | some (r, h) => (h, r, sp) :: st.need.filter (fun p => p.1 != h)
        | none => st.need⟩)
    else
      let codes := match st.get var with
        | some (r, _) => [ReservedReport.savedWhileSaved var r sp]
        | none => []
      match asVar e with
      | some w =>
        if (st.get w).isSome then (codes, { st with need := st.need.filter fun p => p.1 != w })
        else if reservedVars.contains var then (codes ++ [.overwrite var sp], st)
        else if reservedVars.contains w then (codes, { st with justSaved := some (w, var) })
        else (codes, st)
      | none => if reservedVars.contains var then (codes ++ [.overwrite var sp], st) else (codes, st)

/-- The loop. -/
def reservedLoop : Reserved → List Stmt → List ReservedReport × Reserved
  | st, [] => ([], st)
  | st, s :: ss =>
    let (c, st') := reservedStep st s
    let (cs, st'') := reservedLoop st' ss
    (c ++ cs, st'')

/-- s23_reassign_reserved_variable.rs:68-126 `run`: the map is gone through in some order. -/
def ReservedRun (ss : List Stmt) (reports : List ReservedReport) : Prop :=
  ∃ l : List (Bytes × Bytes × Span), l.Perm (reservedLoop {} ss).2.need ∧
    reports = (reservedLoop {} ss).1 ++ l.map fun p => .neverRestored p.1 p.2.1 p.2.2

/-- The name a parameter is given, lines 151-161. -/
def paramName : Expr → Option (Bytes × Span)
  | .str n sp _ => some (n, sp)
  | .arr (.str n sp _ :: _) _ => some (n, sp)
  | _ => none

/-- s23_reassign_reserved_variable.rs:133-171 `run` of the expressions -/
def reservedParams (lower : Bytes → Bytes) (e : Expr) : Option ReservedReport :=
  let arg := match e with
    | .un (.named n) a _ => if lower n = ascii "params" then some a else none
    | .bin (.named n) _ a _ => if lower n = ascii "params" then some a else none
    | _ => none
  match arg with
  | some (.arr vs _) | some (.carr vs _) =>
    ((vs.filterMap paramName).find? fun p => reservedVars.contains p.1).map fun p => .overwrite p.1 p.2
  | _ => none

/-! ### S24: marker updates -/

/-- s24_marker_spam.rs:113-115 `is_marker_global` -/
def isMarkerGlobal (cmd : Bytes) : Bool := (ascii "setMarker").isPrefixOf cmd && !(ascii "Local").isSuffixOf cmd

/-- s24_marker_spam.rs:117-123 `marker_name` -/
def markerName : Expr → Option Bytes
  | .var n _ => some n
  | .str s _ _ => some s
  | _ => none

/-- The marker a statement sends, with its command. -/
def markerCall : Stmt → Option (Bytes × Bytes × Span)
  | .expr (.bin (.named cmd) name _ sp) _ => if isMarkerGlobal cmd then (markerName name).map fun n => (n, cmd, sp) else none
  | _ => none

/-- `pending`: a `HashMap`. -/
abbrev Pending := List (Bytes × List (Bytes × Span))

/-- `pending.entry(name).or_default().push(call)` -/
def pend (n : Bytes) (c : Bytes × Span) : Pending → Pending
  | [] => [(n, [c])]
  | (m, cs) :: p => if m = n then (m, cs ++ [c]) :: p else (m, cs) :: pend n c p

/-- s24_marker_spam.rs:78-99, the loop -/
def markerLoop : Pending → List Stmt → List (List (Bytes × Span)) × Pending
  | p, [] => ([], p)
  | p, s :: ss => match markerCall s with
    | some (n, c) => markerLoop (pend n c p) ss
    | none => match assignment s with
      | none => markerLoop p ss
      | some (n, _, _) =>
        let (cs, p') := markerLoop (p.filter fun q => q.1 != n) ss
        ((match p.find? fun q => q.1 == n with
          | some (_, c) => if c.length > 1 then [c] else []
          | none => []) ++ cs, p')

/-- s24_marker_spam.rs:61-110 `run`: the calls of each report; the map is gone through in some order. -/
def MarkerRun (ss : List Stmt) (reports : List (List (Bytes × Span))) : Prop :=
  ∃ l : Pending, l.Perm (markerLoop [] ss).2 ∧
    reports = (markerLoop [] ss).1 ++ (l.map (·.2)).filter fun c => decide (c.length > 1)

/-! ### S17: variables in capitals -/

/-- s17_var_all_caps.rs:59-91 `run`, `ignore` the texts of `options.ignore` -/
def allCaps (ignore : List Bytes) : Expr → Option (Bytes × Span)
  | .var n sp =>
    if n.head? = some 95 ∨ asciiUpper n ≠ n ∨ n = ascii "SLX_XEH_COMPILE_NEW" then none
    else if ignore.any fun s => s == n || (s.getLast? == some 42 && s.dropLast.isPrefixOf n) then none
    else some (n, sp)
  | _ => none

/-! ### S04 and S09: lists of commands -/

/-- s04_command_case.rs:60-88 `run`; `ignore` the texts of `options.ignore`, `wiki` the name the wiki has for a command it
knows. -/
def commandCase (lower : Bytes → Bytes) (ignore : List Bytes) (wiki : Bytes → Option Bytes) (e : Expr) : Option (Bytes × Bytes) :=
  match commandName e with
  | none => none
  | some c =>
    if ignore.any fun i => lower i == lower c then none
    else match wiki c with
      | none => none
      | some w => if c ≠ w then some (c, w) else none

/-- s09_banned_command.rs:66-104 `run`; `broken` says of a command the wiki knows whether it is in the group of broken ones;
the truth value reported is `from_wiki`. -/
def bannedCommand (lower : Bytes → Bytes) (ignore banned : List Bytes) (broken : Bytes → Option Bool) (e : Expr) : Option (Bytes × Bool) :=
  match commandName e with
  | none => none
  | some c =>
    if ignore.any fun i => lower i == lower c then none
    else match broken c with
      | none => none
      | some true => some (c, true)
      | some false => if banned.any fun i => lower i == lower c then some (c, false) else none

end Verif.SqfLint
