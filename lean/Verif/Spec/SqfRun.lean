import Verif.Model.Sqf
/-!
Specification side of the compiler theorems: a symbolic stack machine that reads compiled scripts back into
syntax trees, following the instruction descriptions in libs/sqf/src/compiler/serializer/mod.rs:94-121, and the
tree a script is expected to be read back as.
-/
namespace Verif.Sqf

mutual
/-- Trees read back from compiled code: commands carry the source position of their instruction. -/
inductive Tree where
  | code (ptr : CodePtr) (body : List TStmt)
  | str (s : Bytes)
  | num (x : UInt32)
  | bool (b : Bool)
  | arr (es : List Tree)
  | shared (es : List Tree)
  | nular (n : Bytes) (at_ : Option SourceInfo)
  | un (n : Bytes) (e : Tree) (at_ : Option SourceInfo)
  | bin (n : Bytes) (l r : Tree) (at_ : Option SourceInfo)
  | var (n : Bytes) (at_ : Option SourceInfo)
inductive TStmt where
  | assign (loc : Bool) (n : Bytes) (e : Tree) (at_ : Option SourceInfo)
  | expr (e : Tree)
end

/-- Tables of a compiled script. -/
structure Tables where
  consts : List Const
  names : List Bytes

/-- Finished statements (in reverse) and the stack of the statement being executed. -/
abbrev MState := List TStmt × List Tree

/-- End of a statement: whatever is left on the stack must be one value, the value of an expression statement. -/
def flush : MState → Option (List TStmt)
  | (done, []) => some done
  | (done, [e]) => some (.expr e :: done)
  | _ => none

/-- One instruction; `val` gives the tree of a constant. -/
def exec (val : Const → Option Tree) (T : Tables) : Instr → MState → Option MState
  | .endStatement, st => (flush st).map fun d => (d, [])
  | .push i, (d, s) => do
    let c ← T.consts[i.toNat]?
    return (d, (← val c) :: s)
  | .callUnary n a, (d, e :: s) => do return (d, .un (← T.names[n.toNat]?) e (some a) :: s)
  | .callBinary n a, (d, r :: l :: s) => do return (d, .bin (← T.names[n.toNat]?) l r (some a) :: s)
  | .callNular n a, (d, s) => do return (d, .nular (← T.names[n.toNat]?) (some a) :: s)
  | .assignTo n a, (d, [e]) => do return (.assign false (← T.names[n.toNat]?) e (some a) :: d, [])
  | .assignToLocal n a, (d, [e]) => do return (.assign true (← T.names[n.toNat]?) e (some a) :: d, [])
  | .getVariable n a, (d, s) => do return (d, .var (← T.names[n.toNat]?) (some a) :: s)
  | .makeArray n _, (d, s) =>
    if n.toNat ≤ s.length then some (d, .arr (s.take n.toNat).reverse :: s.drop n.toNat) else none
  | _, _ => none

def execs (val : Const → Option Tree) (T : Tables) : List Instr → MState → Option MState
  | [], st => some st
  | i :: is, st => (exec val T i st).bind (execs val T is)

/-- The statements of an instruction list. -/
def body (val : Const → Option Tree) (T : Tables) (is : List Instr) : Option (List TStmt) :=
  ((execs val T is ([], [])).bind flush).map List.reverse

/-- The tree of a constant. The first argument bounds the nesting of constants that is followed. -/
def tree (T : Tables) : Nat → Const → Option Tree
  | 0, _ => none
  | _+1, .str s => some (.str s)
  | _+1, .num x => some (.num x)
  | _+1, .bool b => some (.bool b)
  | _+1, .nular n => some (.nular (asciiLower n) none)
  | f+1, .arr cs => (cs.mapM (tree T f)).map .arr
  | f+1, .carr cs => (cs.mapM (tree T f)).map .shared
  | f+1, .code is => (body (tree T f) T is.contents).map (.code is.ptr)

mutual
/-- The tree a source expression must be read back as: the same shape with names in lower case; commands at the
position of their source span; nular constants such as `objNull` carry no position. -/
def wantE (P : Proc) : Expr → Tree
  | .code c _ sp => .code (.source (P.offset sp.1) (if c.isEmpty then 0 else UInt32.ofNat (P.len sp))) (wantSs P c)
  | .str s _ _ => .str s
  | .num x _ => .num x
  | .bool b _ => .bool b
  | .arr es _ => .arr (wantEs P es)
  | .carr es _ => .shared (wantEs P es)
  | .nular n sp => .nular (asciiLower n) (if isConstantCommand n then none else P.loc sp)
  | .un c e sp => .un (asciiLower c.asStr) (wantE P e) (P.loc sp)
  | .bin c l r sp => .bin (asciiLower c.asStr) (wantE P l) (wantE P r) (P.loc sp)
  | .var n sp => .var (asciiLower n) (P.loc sp)
def wantEs (P : Proc) : List Expr → List Tree
  | [] => []
  | e :: es => wantE P e :: wantEs P es
def wantS (P : Proc) : Stmt → TStmt
  | .assignGlobal n e sp => .assign false (asciiLower n) (wantE P e) (P.loc sp)
  | .assignLocal n e sp => .assign true (asciiLower n) (wantE P e) (P.loc sp)
  | .expr e _ => .expr (wantE P e)
def wantSs (P : Proc) : List Stmt → List TStmt
  | [] => []
  | s :: ss => wantS P s :: wantSs P ss
end

mutual
/-- Forget which arrays are shared constants: the file format does not record it. -/
def unshare : Tree → Tree
  | .code p ss => .code p (unshareSs ss)
  | .arr es => .arr (unshareEs es)
  | .shared es => .arr (unshareEs es)
  | .un n e a => .un n (unshare e) a
  | .bin n l r a => .bin n (unshare l) (unshare r) a
  | e => e
def unshareEs : List Tree → List Tree
  | [] => []
  | e :: es => unshare e :: unshareEs es
def unshareS : TStmt → TStmt
  | .assign l n e a => .assign l n (unshare e) a
  | .expr e => .expr (unshare e)
def unshareSs : List TStmt → List TStmt
  | [] => []
  | s :: ss => unshareS s :: unshareSs ss
end

end Verif.Sqf
