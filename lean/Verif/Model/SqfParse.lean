import Verif.Model.Sqf
/-!
Model of the SQF parser: from the tokens to the syntax tree (libs/sqf/src/parser/mod.rs), the removal of comments and
superfluous terminators (libs/sqf/src/parser/lexer.rs:17-32) and the command tables (libs/sqf/src/parser/database/mod.rs).

The parser is written with the combinators of the package `chumsky`, which is not part of the repository. They are taken
to mean this: alternatives are tried in order and the first that succeeds is taken; `repeated` goes on as long as its
parser succeeds and gives back what a failing last turn has read; `separated_by` gives back a separator behind which no
item can be read. Error messages are left out: a parser succeeds or fails.

The number of the first argument is fuel, so that the functions are structurally recursive; `parse` gives enough of it
(`Verif.SqfParse.parse_total`).
-/
namespace Verif.SqfParse
open Verif.Sqf

/-- lexer.rs:76-100 `Operator` -/
inductive Op where
  | not | or | and | eq | notEq | greater | less | greaterEq | lessEq | configPath | add | sub | mul | div | rem | exp
  | assign | associate | select
deriving DecidableEq, Repr

/-- lexer.rs:52-63 `Control` -/
inductive Ctl where
  | terminator | separator | squareOpen | squareClose | roundOpen | roundClose | curlyOpen | curlyClose
deriving DecidableEq, Repr

/-- lexer.rs:34-50 `Token`; `Token::Macro` is never made and left out. A number is its bit pattern. -/
inductive Token where
  | comment (s : Bytes)
  | op (o : Op)
  | ctl (c : Ctl)
  | num (x : UInt32)
  | ident (s : Bytes)
  | str (s : Bytes) (w : Wrapper)
deriving DecidableEq, Repr

/-- lexer.rs:9 the elements of `Tokens` -/
abbrev Tok := Token × Span

/-! ### Command tables -/

/-- database/mod.rs:50-55 `Database`: what the sets of names say. The names in the sets are in lower case. -/
structure Db where
  nularSet : Bytes → Bool
  unarySet : Bytes → Bool
  binarySet : Bytes → Bool

/-- database/mod.rs:34 `NULAR_COMMANDS_SPECIAL` -/
def nularSpecial : List Bytes := [ascii "true", ascii "false"]
/-- database/mod.rs:39 `BINARY_COMMANDS_SPECIAL` -/
def binarySpecial : List Bytes :=
  [ascii "or", ascii "and", ascii "else", ascii "max", ascii "min", ascii "mod", ascii "atan2"]

/-- `eq_ignore_ascii_case` -/
def eqIgnore (a b : Bytes) : Bool := asciiLower a == asciiLower b
/-- database/mod.rs:265-267 `is_in` -/
def isIn (list : List Bytes) (item : Bytes) : Bool := list.any (eqIgnore · item)

namespace Db
/-- database/mod.rs:180-183 `has_nular_command` -/
def hasNular (db : Db) (n : Bytes) : Bool := db.nularSet (asciiLower n)
/-- database/mod.rs:185-188 `has_unary_command` -/
def hasUnary (db : Db) (n : Bytes) : Bool := db.unarySet (asciiLower n)
/-- database/mod.rs:190-193 `has_binary_command` -/
def hasBinary (db : Db) (n : Bytes) : Bool := db.binarySet (asciiLower n)
/-- database/mod.rs:195-201 `has_command` -/
def hasCommand (db : Db) (n : Bytes) : Bool := db.hasNular n || db.hasUnary n || db.hasBinary n

/-- The calls a command of the wiki has, `Call` -/
inductive Call where
  | nular | unary | binary
deriving DecidableEq, Repr

/-- database/mod.rs:77-89, 124-141: a command and its calls are added to the sets. -/
def insert (db : Db) (name : Bytes) : Call → Db
  | .nular => { db with nularSet := fun n => n = asciiLower name || db.nularSet n }
  | .unary => { db with unarySet := fun n => n = asciiLower name || db.unarySet n }
  | .binary => { db with binarySet := fun n => n = asciiLower name || db.binarySet n }

/-- `Database::empty` -/
def empty : Db := ⟨fun _ => false, fun _ => false, fun _ => false⟩

/-- database/mod.rs:68-104 `Database::a3`, for the commands of the wiki in whatever order: the special names are
taken out at the end. -/
def a3 (wiki : List (Bytes × Call)) : Db :=
  let db := wiki.foldl (fun db c => db.insert c.1 c.2) empty
  { db with nularSet := fun n => !nularSpecial.contains n && db.nularSet n,
            binarySet := fun n => !binarySpecial.contains n && db.binarySet n }

/-- database/mod.rs:106-148 `Database::a3_with_workspace`: the commands of the project are added afterwards. -/
def a3WithWorkspace (wiki custom : List (Bytes × Call)) : Db :=
  custom.foldl (fun db c => db.insert c.1 c.2) (a3 wiki)

/-- database/mod.rs:150-154 `add_nular_command` -/
def addNular (db : Db) (n : Bytes) : Db := if isValidName n && !isIn nularSpecial n then db.insert n .nular else db
/-- database/mod.rs:156-160 `add_unary_command` -/
def addUnary (db : Db) (n : Bytes) : Db := if isValidName n then db.insert n .unary else db
/-- database/mod.rs:162-166 `add_binary_command` -/
def addBinary (db : Db) (n : Bytes) : Db := if isValidName n && !isIn binarySpecial n then db.insert n .binary else db
end Db

/-- database/mod.rs:233-235 `is_special_command` -/
def isSpecial (n : Bytes) : Bool := isIn nularSpecial n || isIn binarySpecial n

/-! ### Tokens to be ignored -/

/-- lexer.rs:17-19 `strip_comments` -/
def stripComments (ts : List Tok) : List Tok := ts.filter fun t => match t.1 with
  | .comment _ => false
  | _ => true

/-- lexer.rs:21-32 `strip_noop`; the flag is `last_flag_delete` -/
def strip : Bool → List Tok → List Tok
  | _, [] => []
  | f, t :: ts =>
    let g := t.1 = .ctl .terminator || t.1 = .ctl .curlyOpen
    if t.1 = .ctl .terminator && f then strip g ts else t :: strip g ts

/-- `strip_noop` -/
def stripNoop (ts : List Tok) : List Tok := strip true ts

/-! ### The parser -/

/-- Success with what is left, failure, or not enough fuel. -/
inductive Res (α : Type) where
  | ok (a : α) (rest : List Tok)
  | fail
  | out

/-- What is done after a success, and after a failure. -/
def Res.andThen {α β : Type} (a : Res α) (k : α → List Tok → Res β) (f : Res β) : Res β :=
  match a with
  | .ok x r => k x r
  | .fail => f
  | .out => .out

/-- What is used of `chumsky` and of `Processed` for positions: the span from one place in the tokens to another, and
the text of a span. -/
structure Env where
  db : Db
  spanSince : List Tok → List Tok → Span
  extract : Span → Bytes

/-- mod.rs:251-260 `unary_command` -/
def unTok (db : Db) : Token → Option UnCmd
  | .op .add => some .plus
  | .op .sub => some .minus
  | .op .not => some .not
  | .ident id => if db.hasUnary id then some (.named id) else none
  | _ => none

/-- mod.rs:127-204: the commands of a level of precedence; level 4 is mod.rs:262-270 `binary_command`. -/
def binTok (db : Db) : Nat → Token → Option BinCmd
  | 9, .op .select => some .select
  | 8, .op .exp => some .exp
  | 7, .op .mul => some .mul
  | 7, .op .div => some .div
  | 7, .op .rem => some .rem
  | 7, .ident id => if eqIgnore id (ascii "mod") then some .mod else if eqIgnore id (ascii "atan2") then some .atan2 else none
  | 6, .op .add => some .add
  | 6, .op .sub => some .sub
  | 6, .ident id => if eqIgnore id (ascii "max") then some .max else if eqIgnore id (ascii "min") then some .min else none
  | 5, .ident id => if eqIgnore id (ascii "else") then some .els else none
  | 4, .op .associate => some .associate
  | 4, .ident id => if db.hasBinary id then some (.named id) else none
  | 3, .op .eq => some .eq
  | 3, .op .notEq => some .notEq
  | 3, .op .greater => some .greater
  | 3, .op .less => some .less
  | 3, .op .greaterEq => some .greaterEq
  | 3, .op .lessEq => some .lessEq
  | 3, .op .configPath => some .configPath
  | 2, .op .and => some .and
  | 2, .ident id => if eqIgnore id (ascii "and") then some .and else none
  | 1, .op .or => some .or
  | 1, .ident id => if eqIgnore id (ascii "or") then some .or else none
  | _, _ => none

/-- mod.rs:272-275 `variable` -/
def isVariable (db : Db) (id : Bytes) : Bool := !db.hasCommand id && !isSpecial id

/-- mod.rs:81-93, 114: `value`, then `variable`, for one token -/
def leaf (db : Db) : Tok → Option Expr
  | (.num x, sp) => some (.num x sp)
  | (.str s w, sp) => some (.str s sp w)
  | (.ident id, sp) =>
    if eqIgnore id (ascii "true") then some (.bool true sp)
    else if eqIgnore id (ascii "false") then some (.bool false sp)
    else if db.hasNular id then some (.nular id sp)
    else if isVariable db id then some (.var id sp)
    else none
  | _ => none

/-- mod.rs:212 `keyword("private").or_not()`; mod.rs:277-280 `keyword` -/
def isPrivate : List Tok → Bool
  | (.ident id, _) :: _ => eqIgnore id (ascii "private")
  | _ => false

/-- mod.rs:209-210 `variable(database).then_ignore(just(Token::Operator(Operator::Assign)))` -/
def target (db : Db) : List Tok → Option (Bytes × List Tok)
  | (.ident v, _) :: (.op .assign, _) :: r => if isVariable db v then some (v, r) else none
  | _ => none

mutual
/-- mod.rs:127-204 the levels of precedence from 9 to 1, with mod.rs:237-249 `apply_binary_command` -/
def level (env : Env) : Nat → Nat → List Tok → Res Expr
  | 0, _, _ => .out
  | n + 1, p, ts =>
    if 10 ≤ p then unary env n ts
    else (level env n (p + 1) ts).andThen (fun e r => operands env n p e r) .fail
/-- mod.rs:243-248 `command.then(base).repeated()` and the fold to the left -/
def operands (env : Env) : Nat → Nat → Expr → List Tok → Res Expr
  | 0, _, _, _ => .out
  | _ + 1, _, e, [] => .ok e []
  | n + 1, p, e, t :: ts =>
    match binTok env.db p t.1 with
    | none => .ok e (t :: ts)
    | some c => (level env n (p + 1) ts).andThen (fun e2 r => operands env n p (.bin c e e2 t.2) r) (.ok e (t :: ts))
/-- mod.rs:118-125 unary commands, as many as there are, then an operand -/
def unary (env : Env) : Nat → List Tok → Res Expr
  | 0, _ => .out
  | _ + 1, [] => .fail
  | n + 1, t :: ts =>
    match unTok env.db t.1 with
    | some c => (unary env n ts).andThen (fun e r => .ok (.un c e t.2) r) .fail
    | none => atom env n (t :: ts)
/-- mod.rs:81-115 `base`: the alternatives begin with different tokens, `value` comes before `variable`. -/
def atom (env : Env) : Nat → List Tok → Res Expr
  | 0, _ => .out
  | _ + 1, [] => .fail
  | n + 1, t :: ts =>
    if t.1 = .ctl .squareOpen then (elements env n ts).andThen (fun es r => match r with
      | (.ctl .squareClose, _) :: r' => .ok (.arr es (env.spanSince ts r)) r'
      | _ => .fail) .fail
    else if t.1 = .ctl .roundOpen then (level env n 1 ts).andThen (fun e r => match r with
      | (.ctl .roundClose, _) :: r' => .ok e r'
      | _ => .fail) .fail
    else if t.1 = .ctl .curlyOpen then (statements env n ts).andThen (fun ss r => match r with
      | (.ctl .curlyClose, _) :: r' => .ok (.code ss (env.extract (env.spanSince ts r)) (env.spanSince ts r)) r'
      | _ => .fail) .fail
    else match leaf env.db t with
      | some e => .ok e ts
      | none => .fail
/-- mod.rs:97-101 `expression.separated_by(Separator)` -/
def elements (env : Env) : Nat → List Tok → Res (List Expr)
  | 0, _ => .out
  | n + 1, ts => (level env n 1 ts).andThen (fun e r => moreElements env n [e] r) (.ok [] ts)
/-- The further elements; the list is in reverse. -/
def moreElements (env : Env) : Nat → List Expr → List Tok → Res (List Expr)
  | 0, _, _ => .out
  | _ + 1, acc, [] => .ok acc.reverse []
  | n + 1, acc, t :: ts =>
    if t.1 = .ctl .separator then
      (level env n 1 ts).andThen (fun e r => moreElements env n (e :: acc) r) (.ok acc.reverse (t :: ts))
    else .ok acc.reverse (t :: ts)
/-- mod.rs:209-222 `assignment`, or else `expression` -/
def statement (env : Env) : Nat → List Tok → Res Stmt
  | 0, _ => .out
  | n + 1, ts => (assignment env n ts).andThen (fun s r => .ok s r)
      ((level env n 1 ts).andThen (fun e r => .ok (.expr e (env.spanSince ts r)) r) .fail)
/-- mod.rs:209-222 `assignment` -/
def assignment (env : Env) : Nat → List Tok → Res Stmt
  | 0, _ => .out
  | n + 1, ts =>
    match target env.db (if isPrivate ts then ts.tail else ts) with
    | some (v, r) => (level env n 1 r).andThen (fun e r =>
        .ok (if isPrivate ts then .assignLocal v e (env.spanSince ts r) else .assignGlobal v e (env.spanSince ts r)) r) .fail
    | none => .fail
/-- mod.rs:223-225 `separated_by(Terminator).allow_trailing()` -/
def statements (env : Env) : Nat → List Tok → Res (List Stmt)
  | 0, _ => .out
  | n + 1, ts => (statement env n ts).andThen (fun s r => moreStatements env n [s] r) (.ok [] ts)
/-- The further statements; the list is in reverse. -/
def moreStatements (env : Env) : Nat → List Stmt → List Tok → Res (List Stmt)
  | 0, _, _ => .out
  | _ + 1, acc, [] => .ok acc.reverse []
  | n + 1, acc, t :: ts =>
    if t.1 = .ctl .terminator then
      (statement env n ts).andThen (fun s r => moreStatements env n (s :: acc) r) (.ok acc.reverse ts)
    else .ok acc.reverse (t :: ts)
end

/-- Enough fuel for a list of tokens. -/
def fuel (ts : List Tok) : Nat := 16 * ts.length + 16

/-- mod.rs:67-72 `parser` and mod.rs:53-65 `run_for_tokens`: the statements, up to the end. -/
def parse (env : Env) (ts : List Tok) : Option (List Stmt) :=
  match statements env (fuel ts) ts with
  | .ok ss [] => some ss
  | _ => none

/-- mod.rs:22-46 `run`, from the tokens on. -/
def run (env : Env) (ts : List Tok) : Option (List Stmt) := parse env (stripNoop (stripComments ts))

end Verif.SqfParse
