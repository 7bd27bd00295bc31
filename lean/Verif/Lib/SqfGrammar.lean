import Verif.Model.SqfParse
/-!
The grammar of SQF as a user knows it: the specification the parser is compared with.
-/
namespace Verif.SqfParse
open Verif.Sqf

/-- What a symbol or a word means between two operands. -/
def binOf (db : Db) : Token → Option BinCmd
  | .op .or => some .or | .op .and => some .and
  | .op .eq => some .eq | .op .notEq => some .notEq | .op .greater => some .greater | .op .less => some .less
  | .op .greaterEq => some .greaterEq | .op .lessEq => some .lessEq | .op .configPath => some .configPath
  | .op .associate => some .associate
  | .op .add => some .add | .op .sub => some .sub
  | .op .mul => some .mul | .op .div => some .div | .op .rem => some .rem
  | .op .exp => some .exp
  | .op .select => some .select
  | .ident n =>
    if asciiLower n = ascii "or" then some .or
    else if asciiLower n = ascii "and" then some .and
    else if asciiLower n = ascii "else" then some .els
    else if asciiLower n = ascii "max" then some .max
    else if asciiLower n = ascii "min" then some .min
    else if asciiLower n = ascii "mod" then some .mod
    else if asciiLower n = ascii "atan2" then some .atan2
    else if db.hasBinary n then some (.named n)
    else none
  | _ => none

/-- What a symbol or a word means before an operand. -/
def unOf (db : Db) : Token → Option UnCmd
  | .op .add => some .plus | .op .sub => some .minus | .op .not => some .not
  | .ident n => if db.hasUnary n then some (.named n) else none
  | _ => none

/-- The table of precedence. -/
def prec : BinCmd → Nat
  | .select => 9
  | .exp => 8
  | .mul | .div | .rem | .mod | .atan2 => 7
  | .add | .sub | .max | .min => 6
  | .els => 5
  | .named _ | .associate => 4
  | .eq | .notEq | .greater | .less | .greaterEq | .lessEq | .configPath => 3
  | .and => 2
  | .or => 1

/-- Names with a meaning of their own. -/
def reserved : List Bytes := [ascii "true", ascii "false", ascii "or", ascii "and", ascii "else", ascii "max", ascii "min",
  ascii "mod", ascii "atan2"]

/-- A name that can be a variable. -/
def IsVar (db : Db) (n : Bytes) : Prop :=
  db.hasNular n = false ∧ db.hasUnary n = false ∧ db.hasBinary n = false ∧ asciiLower n ∉ reserved

mutual
/-- Expressions: `Der db flex p e ts` says that the tokens are an expression with the meaning `e`, whose outermost command
binds at least as strongly as `p`; 10 is for operands, with their unary commands. If `flex`, then between statements there
may be more than one terminator. -/
inductive Der (db : Db) (flex : Bool) : Nat → Expr → List Tok → Prop
  | num {x sp} : Der db flex 10 (.num x sp) [(.num x, sp)]
  | str {s w sp} : Der db flex 10 (.str s sp w) [(.str s w, sp)]
  | tru {n sp} : asciiLower n = ascii "true" → Der db flex 10 (.bool true sp) [(.ident n, sp)]
  | fls {n sp} : asciiLower n = ascii "false" → Der db flex 10 (.bool false sp) [(.ident n, sp)]
  | nular {n sp} : db.hasNular n = true → asciiLower n ≠ ascii "true" → asciiLower n ≠ ascii "false" →
      Der db flex 10 (.nular n sp) [(.ident n, sp)]
  | var {n sp} : IsVar db n → Der db flex 10 (.var n sp) [(.ident n, sp)]
  | paren {e ts s1 s2} : Der db flex 1 e ts → Der db flex 10 e ((.ctl .roundOpen, s1) :: ts ++ [(.ctl .roundClose, s2)])
  | arr0 {sp s1 s2} : Der db flex 10 (.arr [] sp) [(.ctl .squareOpen, s1), (.ctl .squareClose, s2)]
  | arr {es ts sp s1 s2} : DerList db flex es ts →
      Der db flex 10 (.arr es sp) ((.ctl .squareOpen, s1) :: ts ++ [(.ctl .squareClose, s2)])
  | code {ss ts src sp s1 s2} : DerBlock db flex ss ts →
      Der db flex 10 (.code ss src sp) ((.ctl .curlyOpen, s1) :: ts ++ [(.ctl .curlyClose, s2)])
  | un {t c e ts sp} : unOf db t = some c → Der db flex 10 e ts → Der db flex 10 (.un c e sp) ((t, sp) :: ts)
  | bin {t c p l r tl tr sp} : binOf db t = some c → prec c = p → Der db flex p l tl → Der db flex (p + 1) r tr →
      Der db flex p (.bin c l r sp) (tl ++ (t, sp) :: tr)
  | weaken {p e ts} : p < 10 → Der db flex (p + 1) e ts → Der db flex p e ts
/-- Expressions with commas between them, at least one. -/
inductive DerList (db : Db) (flex : Bool) : List Expr → List Tok → Prop
  | one {e ts} : Der db flex 1 e ts → DerList db flex [e] ts
  | cons {e es ts us sp} : Der db flex 1 e ts → DerList db flex es us →
      DerList db flex (e :: es) (ts ++ (.ctl .separator, sp) :: us)
/-- Statements. -/
inductive DerStmt (db : Db) (flex : Bool) : Stmt → List Tok → Prop
  | expr {e ts sp} : Der db flex 1 e ts → DerStmt db flex (.expr e sp) ts
  | global {n e ts sp s1 s2} : IsVar db n → Der db flex 1 e ts →
      DerStmt db flex (.assignGlobal n e sp) ((.ident n, s1) :: (.op .assign, s2) :: ts)
  | priv {m n e ts sp s0 s1 s2} : asciiLower m = ascii "private" → IsVar db n → Der db flex 1 e ts →
      DerStmt db flex (.assignLocal n e sp) ((.ident m, s0) :: (.ident n, s1) :: (.op .assign, s2) :: ts)
/-- Statements with terminators between them, and perhaps at the end. -/
inductive DerBlock (db : Db) (flex : Bool) : List Stmt → List Tok → Prop
  | nil : DerBlock db flex [] []
  | last {s ts} : DerStmt db flex s ts → DerBlock db flex [s] ts
  | cons {s ss ts us sp} : DerStmt db flex s ts → DerBlock db flex ss us →
      DerBlock db flex (s :: ss) (ts ++ (.ctl .terminator, sp) :: us)
  | skip {ss ts sp} : flex = true → DerBlock db flex ss ts → DerBlock db flex ss ((.ctl .terminator, sp) :: ts)
end

mutual
/-- A tree without positions and source text. -/
def eraseE : Expr → Expr
  | .code ss _ _ => .code (eraseSs ss) [] (0, 0)
  | .str s _ w => .str s (0, 0) w
  | .num x _ => .num x (0, 0)
  | .bool b _ => .bool b (0, 0)
  | .arr es _ => .arr (eraseEs es) (0, 0)
  | .carr es _ => .carr (eraseEs es) (0, 0)
  | .nular n _ => .nular n (0, 0)
  | .un c e _ => .un c (eraseE e) (0, 0)
  | .bin c l r _ => .bin c (eraseE l) (eraseE r) (0, 0)
  | .var n _ => .var n (0, 0)
def eraseEs : List Expr → List Expr
  | [] => []
  | e :: es => eraseE e :: eraseEs es
def eraseS : Stmt → Stmt
  | .assignGlobal n e _ => .assignGlobal n (eraseE e) (0, 0)
  | .assignLocal n e _ => .assignLocal n (eraseE e) (0, 0)
  | .expr e _ => .expr (eraseE e) (0, 0)
def eraseSs : List Stmt → List Stmt
  | [] => []
  | s :: ss => eraseS s :: eraseSs ss
end

/-- Tables in which every word has one meaning where it stands: no word with a precedence of its own is among the binary
commands, what can stand before an operand is not an operand itself, and `private` is a command. -/
structure Db.Plain (db : Db) : Prop where
  special : ∀ n, asciiLower n ∈ reserved → db.hasBinary n = false
  operand : ∀ n, db.hasUnary n = true → db.hasNular n = false ∧ asciiLower n ≠ ascii "true" ∧ asciiLower n ≠ ascii "false"
  priv : ∀ n, asciiLower n = ascii "private" → db.hasUnary n = true

end Verif.SqfParse
