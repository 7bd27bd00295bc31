import Verif.Model.SqfLex
/-!
Model of the lints of SQF: libs/sqf/src/analyze/mod.rs and libs/sqf/src/analyze/lints.

Reports carry what the message and the suggestion are made of. `str::to_lowercase` is a parameter `lower`, `f32` is `F32` of
Model/SqfLex. What a lint reads from its configuration is an argument. Severities, links and the mapping of positions to
files are not modelled.
-/
namespace Verif.SqfLint
open Verif.Sqf Verif.SqfLex

/-! ### Which parts of a script are checked -/

/-- The types the runners of a lint can ask for (`type Target`). -/
inductive Target where
  | stmts (ss : List Stmt)
  | stmt (s : Stmt)
  | expr (e : Expr)
  | nular (n : Bytes)
  | unary (c : UnCmd)
  | binary (c : BinCmd)

mutual
/-- analyze/mod.rs:121-153 `Expression::analyze`; `run` is `manager.run`. -/
def analyzeE {C : Type} (run : Target → List C) : Expr → List C
  | .arr es sp => run (.expr (.arr es sp)) ++ analyzeEs run es
  | .code ss src sp => run (.expr (.code ss src sp)) ++ (run (.stmts ss) ++ analyzeSs run ss)
  | .nular n sp => run (.expr (.nular n sp)) ++ run (.nular n)
  | .un c e sp => run (.expr (.un c e sp)) ++ run (.unary c) ++ analyzeE run e
  | .bin c l r sp => run (.expr (.bin c l r sp)) ++ run (.binary c) ++ analyzeE run l ++ analyzeE run r
  | .str s sp w => run (.expr (.str s sp w))
  | .num x sp => run (.expr (.num x sp))
  | .bool b sp => run (.expr (.bool b sp))
  | .carr es sp => run (.expr (.carr es sp))
  | .var n sp => run (.expr (.var n sp))
/-- analyze/mod.rs:131-135 the elements of an array -/
def analyzeEs {C : Type} (run : Target → List C) : List Expr → List C
  | [] => []
  | e :: es => analyzeE run e ++ analyzeEs run es
/-- analyze/mod.rs:99-119 `Statement::analyze` -/
def analyzeS {C : Type} (run : Target → List C) : Stmt → List C
  | .assignGlobal n e sp => run (.stmt (.assignGlobal n e sp)) ++ analyzeE run e
  | .assignLocal n e sp => run (.stmt (.assignLocal n e sp)) ++ analyzeE run e
  | .expr e sp => run (.stmt (.expr e sp)) ++ analyzeE run e
/-- analyze/mod.rs:92-94 the statements of a block -/
def analyzeSs {C : Type} (run : Target → List C) : List Stmt → List C
  | [] => []
  | s :: ss => analyzeS run s ++ analyzeSs run ss
end

/-- analyze/mod.rs:36-63 `analyze`, 82-97 `Statements::analyze` -/
def analyze {C : Type} (run : Target → List C) (ss : List Stmt) : List C := run (.stmts ss) ++ analyzeSs run ss

mutual
/-- lib.rs:254-280 `Expression::walk_expressions` -/
def walkE : Expr → List Expr
  | .code ss src sp => .code ss src sp :: walkSs ss
  | .un c e sp => .un c e sp :: walkE e
  | .bin c l r sp => .bin c l r sp :: (walkE l ++ walkE r)
  | .arr es sp => .arr es sp :: walkEs es
  | .str s sp w => [.str s sp w]
  | .num x sp => [.num x sp]
  | .bool b sp => [.bool b sp]
  | .carr es sp => [.carr es sp]
  | .nular n sp => [.nular n sp]
  | .var n sp => [.var n sp]
/-- lib.rs:272-276 -/
def walkEs : List Expr → List Expr
  | [] => []
  | e :: es => walkE e ++ walkEs es
/-- lib.rs:130-136 `Statement::walk_expressions` -/
def walkS : Stmt → List Expr
  | .assignGlobal _ e _ | .assignLocal _ e _ | .expr e _ => walkE e
/-- lib.rs:258-262, and s02_event_handlers.rs:180-181 -/
def walkSs : List Stmt → List Expr
  | [] => []
  | s :: ss => walkS s ++ walkSs ss
end

/-- lib.rs:297-310 `Expression::full_span` with 282-295 `span`; `span.start - 1` stops at 0 here. -/
def fullSpan : Expr → Span
  | .code _ _ sp => sp
  | .carr _ sp | .arr _ sp => (sp.1 - 1, sp.2)
  | .str _ sp _ | .num _ sp | .bool _ sp | .nular _ sp | .var _ sp => sp
  | .un _ e sp => (sp.1, (fullSpan e).2)
  | .bin _ l r _ => ((fullSpan l).1, (fullSpan r).2)

/-- lib.rs:312-320 `Expression::command_name` -/
def commandName : Expr → Option Bytes
  | .nular n _ => some n
  | .un c _ _ => some c.asStr
  | .bin c _ _ _ => some c.asStr
  | _ => none

/-! ### S21: comparisons -/

/-- The six kinds of comparison. -/
inductive Rel where
  | lt | le | eq | ne | ge | gt
deriving DecidableEq, Repr

/-- s21_invalid_comparisons.rs:92-102 `Comparison` -/
inductive Cmp where
  | cmp (r : Rel) (v : Bytes) (x : UInt32) (sp : Span)
  | group (cs : List Cmp)
  | nonGroup (cs : List Cmp)
  | ignored

/-- s21_invalid_comparisons.rs:214-237 `extract_ident_number` -/
def identNumber (l r : Expr) : Option (Bytes × UInt32) :=
  match (match l, r with
    | .var n _, _ => some n
    | _, .var n _ => some n
    | _, _ => none), (match l, r with
    | .num x _, _ => some x
    | _, .num x _ => some x
    | _, _ => none) with
  | some n, some x => some (n, x)
  | _, _ => none

/-- The comparison an operator stands for. -/
def relOf : BinCmd → Option Rel
  | .less => some .lt | .lessEq => some .le | .eq => some .eq | .notEq => some .ne | .greaterEq => some .ge
  | .greater => some .gt
  | _ => none

/-- s21_invalid_comparisons.rs:142-212 `extract_comparisons` -/
def extract : Expr → Cmp
  | .bin .or l r _ => .nonGroup [extract l, extract r]
  | .bin .and l r _ => .group [extract l, extract r]
  | .bin c l r sp => match relOf c, identNumber l r with
    | some k, some (n, x) => .cmp k n x (fullSpan (.bin c l r sp))
    | _, _ => .ignored
  | .code [.expr (.bin c l r sp) _] _ _ => extract (.bin c l r sp)
  | _ => .ignored

mutual
/-- s21_invalid_comparisons.rs:240-273 `flatten_comparisons`. The two panics are for results this function does not have. -/
def flatten : Cmp → Cmp
  | .group cs => .group (flatGroup cs)
  | .nonGroup cs => .nonGroup (flattens cs)
  | c => c
/-- lines 244-264, the loop over the members of a group -/
def flatGroup : List Cmp → List Cmp
  | [] => []
  | .group cs :: r => flatGroup cs ++ flatGroup r
  | .nonGroup cs :: r => .nonGroup (flattens cs) :: flatGroup r
  | .ignored :: r => flatGroup r
  | .cmp k n x sp :: r => .cmp k n x sp :: flatGroup r
/-- line 269, `map(flatten_comparisons)` -/
def flattens : List Cmp → List Cmp
  | [] => []
  | c :: cs => flatten c :: flattens cs
end

/-- s21_invalid_comparisons.rs:136-139 `ComparisonIssueType` -/
inductive Kind where
  | impossible | overlapping
deriving DecidableEq, Repr

/-- s21_invalid_comparisons.rs:129-134 `ComparisonIssue` -/
structure Issue where
  kind : Kind
  a : Span
  b : Span
deriving DecidableEq, Repr

/-- The order of `float_ord::FloatOrd<f32>`: that of the bits, with negative numbers below and the other way round. -/
def ford (x : UInt32) : Nat := if x.toNat < 2 ^ 31 then x.toNat + 2 ^ 31 else 2 ^ 32 - 1 - x.toNat

/-- s21_invalid_comparisons.rs:302-373 `check_issue` -/
def checkIssue : Cmp → Cmp → Option Issue
  | .cmp k n x p, .cmp k' n' x' p' =>
    if n ≠ n' then none
    else match k, k' with
      | .gt, .gt | .gt, .ge | .ge, .gt | .ge, .ge | .lt, .lt | .lt, .le | .le, .lt | .le, .le => some ⟨.overlapping, p, p'⟩
      | .lt, .gt | .lt, .ge | .le, .gt | .le, .ge => if ford x < ford x' then some ⟨.impossible, p, p'⟩ else none
      | .ne, .ne | .eq, .eq => if x = x' then some ⟨.overlapping, p, p'⟩ else none
      | .ne, .eq => if x = x' then some ⟨.impossible, p, p'⟩ else none
      | _, _ => none
  | _, _ => none

/-- s21_invalid_comparisons.rs:279-288, one comparison against the later ones -/
def issuesWith (a : Cmp) (cs : List Cmp) : List Issue :=
  cs.filterMap fun b => (checkIssue a b).or (checkIssue b a)

/-- s21_invalid_comparisons.rs:279-288, each pair once -/
def pairIssues : List Cmp → List Issue
  | [] => []
  | a :: cs => issuesWith a cs ++ pairIssues cs

mutual
/-- s21_invalid_comparisons.rs:275-300 `find_issues` -/
def findIssues : Cmp → List Issue
  | .group cs => pairIssues cs
  | .nonGroup cs => findIssuess cs
  | _ => []
/-- lines 291-293 -/
def findIssuess : List Cmp → List Issue
  | [] => []
  | c :: cs => findIssues c ++ findIssuess cs
end

/-- s21_invalid_comparisons.rs:54-88 `run` -/
def comparisons : Expr → List Issue
  | .un (.named n) arg _ => if n = ascii "if" then findIssues (flatten (extract arg)) else []
  | _ => []

/-! ### S08: format strings -/

/-- The problems of a format string, with the numbers in their message. -/
inductive Problem where
  | unescaped (at_ : Nat)
  | undefined (used passed : Nat)
  | unused (used passed : Nat)
  | skipped (used tokens : Nat)
deriving DecidableEq, Repr

/-- `usize::from_str` of digits, `unwrap_or_default` -/
def usize (d : Text) : Nat := if value 10 d < 2 ^ 64 then value 10 d else 0

/-- The state of the loop of s08_format_args.rs:110-136. -/
structure Scan where
  active : Bool := false
  start : Nat := 0
  tokens : List Nat := []
deriving DecidableEq

/-- One round of the loop, s08_format_args.rs:114-135; `format` is the whole text, `i` the position of `c` in it. -/
def scanStep (format : Text) (st : Scan) (i : Nat) (c : Char) : Except Problem Scan :=
  let outside := !st.active || decide (i > st.start)
  let r : Except Problem Scan :=
    if st.active && !isDigit c then
      if i > st.start then .ok ⟨false, st.start, st.tokens ++ [usize ((format.take i).drop st.start)]⟩
      else if c ≠ '%' then .error (.unescaped st.start)
      else .ok ⟨false, st.start, st.tokens⟩
    else .ok st
  match r with
  | .error p => .error p
  | .ok st' => if !st'.active && c = '%' && outside then .ok ⟨true, i + 1, st'.tokens⟩ else .ok st'

/-- The loop s08_format_args.rs:113-136 over the characters from position `i` on. -/
def scan (format : Text) : Scan → Nat → Text → Except Problem Scan
  | st, _, [] => .ok st
  | st, i, c :: s => match scanStep format st i c with
    | .error p => .error p
    | .ok st' => scan format st' (i + 1) s

/-- `tokens.iter().max().unwrap_or(&0)` -/
def maxTok (ts : List Nat) : Nat := ts.foldl max 0

/-- s08_format_args.rs:106-158 `get_format_problem` -/
def formatProblem (input : Text) (args : Nat) : Option Problem :=
  let format := input ++ [' ']
  match scan format {} 0 format with
  | .error p => some p
  | .ok st =>
    if args < maxTok st.tokens then some (.undefined (maxTok st.tokens) args)
    else if args > maxTok st.tokens then some (.unused (maxTok st.tokens) args)
    else if maxTok st.tokens > st.tokens.length then some (.skipped (maxTok st.tokens) st.tokens.length)
    else none

/-- What is reported: an empty array, or a problem of the format string. -/
inductive FormatReport where
  | empty
  | problem (p : Problem)
deriving DecidableEq, Repr

/-- s08_format_args.rs:64-104 `run` -/
def formatArgs (lower : Bytes → Bytes) : Expr → Option FormatReport
  | .un (.named n) (.arr args _) _ =>
    if lower n = ascii "format" ∨ lower n = ascii "formattext" then
      match args with
      | [] => some .empty
      | .str s _ _ :: rest => (formatProblem (dec s) rest.length).map .problem
      | _ => none
    else none
  | _ => none

/-! ### Suggestions -/

/-- analyze/mod.rs:158-176 `extract_constant` -/
def extractConstant (F : F32) : Expr → Option (Text × Bool)
  | .code [.expr (.bool b _) _] _ _ => some (if b then ['t', 'r', 'u', 'e'] else ['f', 'a', 'l', 's', 'e'], false)
  | .code [.expr (.num x _) _] _ _ => some (F.display x, false)
  | .code [.expr (.str s _ _) _] _ _ => some (dec s, true)
  | .code [.expr (.var n _) _] _ _ => some (dec n, false)
  | _ => none

/-- s05_if_assign.rs:102-110 `CodeS05IfAssign` -/
structure IfAssign where
  cond : Text
  lhs : Text × Bool
  rhs : Text × Bool
deriving DecidableEq

/-- s05_if_assign.rs:79-84 an `isNil` condition -/
def isNilCheck (lower : Bytes → Bytes) : Expr → Bool
  | .un (.named n) _ _ => lower n == ascii "isnil"
  | _ => false

/-- s05_if_assign.rs:56-99 `run` -/
def ifAssign (F : F32) (lower : Bytes → Bytes) : Expr → Option IfAssign
  | .bin (.named n) (.un (.named _) cond _) (.bin .els l r _) _ =>
    if lower n = ascii "then" then
      match extractConstant F l, extractConstant F r with
      | some a, some b => if isNilCheck lower cond then none else some ⟨source F cond, a, b⟩
      | _, _ => none
    else none
  | _ => none

/-- s05_if_assign.rs:150-160 -/
def quoted (c : Text × Bool) : Text := if c.2 then ['"'] ++ c.1 ++ ['"'] else c.1

/-- s05_if_assign.rs:145-166 `suggestion` -/
def IfAssign.suggestion (r : IfAssign) : Text :=
  if r.lhs.1 = ['1'] ∧ r.rhs.1 = ['0'] then "parseNumber ".toList ++ r.cond
  else ['['] ++ quoted r.rhs ++ [',', ' '] ++ quoted r.lhs ++ "] select (".toList ++ r.cond ++ [')']

/-- `f32::EPSILON`: the comparisons with it are those of the bits without the sign. -/
def epsilon : UInt32 := 0x34000000
/-- `x.abs()` -/
def absBits (x : UInt32) : UInt32 := x &&& 0x7fffffff
/-- `1.0` -/
def one : UInt32 := 0x3f800000

/-- s06_find_in_str.rs:62-100 `run` with `suggestion` (131-137) -/
def findInStr (O : FloatOps) (lower : Bytes → Bytes) : Expr → Option Text
  | .bin .greater (.bin (.named n) hay (.str needle _ _) _) (.un .minus (.num x _) _) _ =>
    if absBits (O.sub x one) > epsilon then none
    else if lower n ≠ ascii "find" then none
    else match hay with
      | .str s _ w => some (['"'] ++ dec needle ++ ['"'] ++ " in ".toList ++ ([quote w] ++ dec s ++ [quote w]))
      | .var v _ => some (['"'] ++ dec needle ++ ['"'] ++ " in ".toList ++ dec v)
      | _ => none
  | _ => none

/-- s07_select_parse_number.rs:125-139 `safe_command`; `bools` says that the wiki knows the command and all it returns are
booleans and strings. -/
def safeCommand (bools : Bytes → Bool) (n : Bytes) : Bool :=
  [ascii "==", ascii "!=", ascii "<", ascii "<=", ascii ">", ascii ">=", ascii "&&", ascii "||"].contains n || bools n

/-- s07_select_parse_number.rs:93-104 -/
def safeCond (bools : Bytes → Bool) : Expr → Bool
  | .code .. | .num .. | .arr .. | .carr .. | .var .. => false
  | .str .. | .bool .. => true
  | .nular n _ => safeCommand bools n
  | .un c _ _ => safeCommand bools c.asStr
  | .bin c _ _ _ => safeCommand bools c.asStr

/-- s07_select_parse_number.rs:170-214 `suggestion` -/
def parseNumberText (F : F32) (negate : Bool) (e : Expr) : Text :=
  "parseNumber ".toList ++
    match e with
    | .bin c l r sp =>
      if negate then
        match c with
        | .notEq => ['('] ++ source F (.bin .eq l r sp) ++ [')']
        | .eq => ['('] ++ source F (.bin .notEq l r sp) ++ [')']
        | _ => ['!', '('] ++ source F (.bin c l r sp) ++ [')']
      else ['('] ++ source F (.bin c l r sp) ++ [')']
    | .un c x sp => (if negate then ['!'] else []) ++ ['('] ++ source F (.un c x sp) ++ [')']
    | e => if negate then ['!', '('] ++ source F e ++ [')'] else source F e

/-- s07_select_parse_number.rs:55-122 `run`, the suggestion -/
def selectParseNumber (F : F32) (O : FloatOps) (lower : Bytes → Bytes) (bools : Bytes → Bool) : Expr → Option Text
  | .bin (.named n) (.arr [.num x _, .num y _] _) cond _ =>
    if lower n ≠ ascii "select" then none
    else if !safeCond bools cond then none
    else
      let negate := absBits y < epsilon
      let (x, y) := if negate then (y, x) else (x, y)
      if absBits x > epsilon ∨ absBits (O.sub y one) > epsilon then none
      else some (parseNumberText F negate cond)
  | _ => none

/-- s18_in_vehicle_check.rs:86-105 `is_in_vehicle_check` -/
def inVehicle (lower : Bytes → Bytes) : Expr → Expr → Option Bytes
  | .un (.named n) obj _, rhs =>
    if lower n ≠ ascii "vehicle" then none
    else match obj, rhs with
      | .var v _, .var w _ | .var v _, .nular w _ | .nular v _, .var w _ | .nular v _, .nular w _ =>
        if v = w then some v else none
      | _, _ => none
  | _, _ => none

/-- s18_in_vehicle_check.rs:57-84 `run` with `suggestion` (136-140) -/
def inVehicleCheck (lower : Bytes → Bytes) : Expr → Option Text
  | .bin c l r _ =>
    if c = .eq ∨ c = .notEq then
      ((inVehicle lower l r).or (inVehicle lower r l)).map fun v =>
        (if c = .notEq then "!isNull".toList else "isNull".toList) ++ " objectParent ".toList ++ dec v
    else none
  | _ => none

/-- s20_bool_static_comparison.rs:80-90 `is_static_comparison` -/
def staticBool : Expr → Expr → Option (Bytes × Bool)
  | .var v _, .bool b _ => some (v, b)
  | _, _ => none

/-- s20_bool_static_comparison.rs:52-78 `run` with `suggestion` (121-133) -/
def boolStatic : Expr → Option Text
  | .bin c l r _ =>
    if c = .eq ∨ c = .notEq then
      ((staticBool l r).or (staticBool r l)).map fun (v, against) =>
        if against then (if c = .notEq then ['!'] ++ dec v else dec v)
        else if c = .notEq then dec v else ['!'] ++ dec v
    else none
  | _ => none

end Verif.SqfLint
