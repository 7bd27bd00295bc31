import Verif.Model.Sqf
/-!
Specification side of the optimiser theorems: what it means for a meaning of SQF scripts to be
compositional, which commands are fixed to their ordinary meaning, and where a constant array that is
shared between executions may appear. Nothing here uses the optimiser's helpers.
-/
namespace Verif.Sqf

/-- A compositional meaning of scripts: `E` are meanings of expressions, `S` of statements, `B` of
statement lists. Everything else (environments, heaps, errors, scheduling) is inside these types. -/
structure Sem (E S B : Type) where
  code : Bytes → B → E
  str : Bytes → E
  num : UInt32 → E
  bool : Bool → E
  arr : List E → E
  /-- an array constant that is pushed without being copied -/
  shared : List E → E
  nular : Bytes → E
  un : Bytes → E → E
  bin : Bytes → E → E → E
  var : Bytes → E
  assign : Bool → Bytes → E → S
  expr : E → S
  block : List S → B

variable {E S B : Type}

mutual
/-- Meaning of an expression. -/
def Sem.e (M : Sem E S B) : Expr → E
  | .code c s _ => M.code s (M.block (M.ss c))
  | .str s _ _ => M.str s
  | .num x _ => M.num x
  | .bool b _ => M.bool b
  | .arr es _ => M.arr (M.es es)
  | .carr es _ => M.shared (M.es es)
  | .nular n _ => M.nular n
  | .un c e _ => M.un c.asStr (M.e e)
  | .bin c l r _ => M.bin c.asStr (M.e l) (M.e r)
  | .var n _ => M.var n
def Sem.es (M : Sem E S B) : List Expr → List E
  | [] => []
  | e :: es => M.e e :: M.es es
def Sem.s (M : Sem E S B) : Stmt → S
  | .assignGlobal n e _ => M.assign false n (M.e e)
  | .assignLocal n e _ => M.assign true n (M.e e)
  | .expr e _ => M.expr (M.e e)
def Sem.ss (M : Sem E S B) : List Stmt → List S
  | [] => []
  | s :: ss => M.s s :: M.ss ss
end

/-- Expressions whose value is known when the script is compiled. -/
inductive Constant : Expr → Prop where
  | code (c s sp) : Constant (.code c s sp)
  | str (s sp w) : Constant (.str s sp w)
  | num (x sp) : Constant (.num x sp)
  | bool (b sp) : Constant (.bool b sp)
  | nular (n sp) : isConstantCommand n = true → Constant (.nular n sp)
  | arr (es sp) : (∀ e ∈ es, Constant e) → Constant (.arr es sp)

/-- `[name, default, …]` with an array as default: the default can be returned to the script. -/
def ArrayDefault (e : Expr) : Prop := ∃ es sp ds sp', e = .arr es sp ∧ es[1]? = some (.arr ds sp')

/-- The ordinary meaning of the commands the optimiser knows about. Names are compared after `lower`. -/
structure Laws (F : FloatOps) (lower : Bytes → Bytes) (M : Sem E S B) : Prop where
  neg : ∀ x, F.finite (F.neg x) → M.un (ascii "-") (M.num x) = M.num (F.neg x)
  sqrt : ∀ n x, lower n = ascii "sqrt" → F.finite (F.sqrt x) → M.un n (M.num x) = M.num (F.sqrt x)
  toLower : ∀ n s, lower n = ascii "tolower" ∨ lower n = ascii "toloweransi" → isAscii s →
    M.un n (M.str s) = M.str (asciiLower s)
  toUpper : ∀ n s, lower n = ascii "toupper" ∨ lower n = ascii "toupperansi" → isAscii s →
    M.un n (M.str s) = M.str (asciiUpper s)
  add : ∀ x y, F.finite (F.add x y) → M.bin (ascii "+") (M.num x) (M.num y) = M.num (F.add x y)
  append : ∀ s t, isAscii s → isAscii t → M.bin (ascii "+") (M.str s) (M.str t) = M.str (s ++ t)
  sub : ∀ x y, F.finite (F.sub x y) → M.bin (ascii "-") (M.num x) (M.num y) = M.num (F.sub x y)
  mul : ∀ x y, F.finite (F.mul x y) → M.bin (ascii "*") (M.num x) (M.num y) = M.num (F.mul x y)
  div : ∀ x y, F.finite (F.div x y) → M.bin (ascii "/") (M.num x) (M.num y) = M.num (F.div x y)
  rem : ∀ x y, F.finite (F.rem x y) → M.bin (ascii "%") (M.num x) (M.num y) = M.num (F.rem x y)
  mod : ∀ x y, F.finite (F.rem x y) → M.bin (ascii "mod") (M.num x) (M.num y) = M.num (F.rem x y)
  /-- `a else b` is the pair of its code operands -/
  els : ∀ s t a b, M.bin (ascii "else") (M.code s a) (M.code t b) = M.shared [M.code s a, M.code t b]
  /-- calling with the current arguments is calling without arguments -/
  call : ∀ n x, lower n = ascii "call" → M.bin n (M.var (ascii "_this")) x = M.un (ascii "call") x
  /-- copying a constant array gives a new array -/
  copy : ∀ es, (∀ e ∈ es, Constant e) → M.un (ascii "+") (M.shared (M.es es)) = M.arr (M.es es)
  /-- commands that read an array argument completely and keep no part of it -/
  consumeUn : ∀ n es, lower n = ascii "positioncameratoworld" ∨ lower n = ascii "random" →
    (∀ e ∈ es, Constant e) → M.un n (M.shared (M.es es)) = M.un n (M.arr (M.es es))
  consumeLeft : ∀ n es r, lower n = ascii "vectoradd" ∨ lower n = ascii "vectordiff" ∨
      lower n = ascii "vectorcrossproduct" ∨ lower n = ascii "vectordotproduct" →
    (∀ e ∈ es, Constant e) → M.bin n (M.shared (M.es es)) r = M.bin n (M.arr (M.es es)) r
  consumeRight : ∀ n es l, lower n = ascii "vectoradd" ∨ lower n = ascii "vectordiff" ∨
      lower n = ascii "vectorcrossproduct" ∨ lower n = ascii "vectordotproduct" →
    (∀ e ∈ es, Constant e) → M.bin n l (M.shared (M.es es)) = M.bin n l (M.arr (M.es es))
  /-- `params` keeps defaults only, so without array defaults it keeps no array -/
  paramsUn : ∀ n es, lower n = ascii "params" → (∀ e ∈ es, Constant e) → (∀ e ∈ es, ¬ ArrayDefault e) →
    M.un n (M.shared (M.es es)) = M.un n (M.arr (M.es es))
  paramsBin : ∀ n es l, lower n = ascii "params" → (∀ e ∈ es, Constant e) → (∀ e ∈ es, ¬ ArrayDefault e) →
    M.bin n l (M.shared (M.es es)) = M.bin n l (M.arr (M.es es))
  /-- `param` and the variable accessors keep the second element only -/
  paramUn : ∀ n es sp, lower n = ascii "param" → (∀ e ∈ es, Constant e) → ¬ ArrayDefault (.arr es sp) →
    M.un n (M.shared (M.es es)) = M.un n (M.arr (M.es es))
  dfltBin : ∀ n es sp l, lower n = ascii "param" ∨ lower n = ascii "getvariable" ∨ lower n = ascii "setvariable" ∨
      lower n = ascii "getordefault" →
    (∀ e ∈ es, Constant e) → ¬ ArrayDefault (.arr es sp) →
    M.bin n l (M.shared (M.es es)) = M.bin n l (M.arr (M.es es))

/-! ### Where shared arrays may appear -/

/-- Unary commands that may be given a shared constant array with these elements. -/
def TakesUn (lower : Bytes → Bytes) (c : UnCmd) (es : List Expr) : Prop :=
  c = .plus ∨ ∃ n, c = .named n ∧
    (lower n = ascii "positioncameratoworld" ∨ lower n = ascii "random" ∨
     (lower n = ascii "params" ∧ ∀ e ∈ es, ¬ ArrayDefault e) ∨
     (lower n = ascii "param" ∧ ¬ ArrayDefault (.arr es (0, 0))))

/-- Binary commands that may be given a shared constant array on their left. -/
def TakesLeft (lower : Bytes → Bytes) (c : BinCmd) : Prop :=
  ∃ n, c = .named n ∧ (lower n = ascii "vectoradd" ∨ lower n = ascii "vectordiff" ∨
    lower n = ascii "vectorcrossproduct" ∨ lower n = ascii "vectordotproduct")

/-- Binary commands that may be given a shared constant array with these elements on their right. -/
def TakesRight (lower : Bytes → Bytes) (c : BinCmd) (es : List Expr) : Prop :=
  TakesLeft lower c ∨ ∃ n, c = .named n ∧
    ((lower n = ascii "params" ∧ ∀ e ∈ es, ¬ ArrayDefault e) ∨
     ((lower n = ascii "param" ∨ lower n = ascii "getvariable" ∨ lower n = ascii "setvariable" ∨
        lower n = ascii "getordefault") ∧ ¬ ArrayDefault (.arr es (0, 0))))

/-- A pair of code blocks, as made by `else`. -/
def CodePair (es : List Expr) : Prop :=
  ∃ a s p b t q, es = [.code a s p, .code b t q]

mutual
/-- Every shared array in the expression is a code pair or is handed to a command that keeps no part of it.
`here` says which shared arrays the surrounding command takes. -/
def SharedOk (lower : Bytes → Bytes) (here : List Expr → Prop) : Expr → Prop
  | .code c _ _ => SharedOkSs lower c
  | .arr es _ => SharedOks lower es
  | .carr es _ => (CodePair es ∨ (here es ∧ ∀ x ∈ es, Constant x)) ∧ SharedOks lower es
  | .un c e _ => SharedOk lower (TakesUn lower c) e
  | .bin c l r _ => SharedOk lower (fun _ => TakesLeft lower c) l ∧ SharedOk lower (TakesRight lower c) r
  | _ => True
def SharedOks (lower : Bytes → Bytes) : List Expr → Prop
  | [] => True
  | e :: es => SharedOk lower (fun _ => False) e ∧ SharedOks lower es
def SharedOkS (lower : Bytes → Bytes) : Stmt → Prop
  | .assignGlobal _ e _ | .assignLocal _ e _ | .expr e _ => SharedOk lower (fun _ => False) e
def SharedOkSs (lower : Bytes → Bytes) : List Stmt → Prop
  | [] => True
  | s :: ss => SharedOkS lower s ∧ SharedOkSs lower ss
end

mutual
/-- No shared arrays at all: what the parser produces. -/
def Plain : Expr → Prop
  | .code c _ _ => PlainSs c
  | .arr es _ => Plains es
  | .carr _ _ => False
  | .un _ e _ => Plain e
  | .bin _ l r _ => Plain l ∧ Plain r
  | _ => True
def Plains : List Expr → Prop
  | [] => True
  | e :: es => Plain e ∧ Plains es
def PlainS : Stmt → Prop
  | .assignGlobal _ e _ | .assignLocal _ e _ | .expr e _ => Plain e
def PlainSs : List Stmt → Prop
  | [] => True
  | s :: ss => PlainS s ∧ PlainSs ss
end

/-- `{ … } else { … }` -/
def ElsePair (c : BinCmd) (l r : Expr) : Prop := c = .els ∧ (∃ a s p, l = .code a s p) ∧ ∃ b t q, r = .code b t q

mutual
/-- A parsed expression in which `{ … } else { … }` is never an element of an array literal, however deep
(`inArr` says whether the expression stands inside an array literal). -/
def NoElseInArray (inArr : Bool) : Expr → Prop
  | .code c _ _ => NoElseInArraySs c
  | .arr es _ => NoElseInArrays es
  | .carr _ _ => False
  | .un _ e _ => NoElseInArray false e
  | .bin c l r _ => NoElseInArray false l ∧ NoElseInArray false r ∧ (inArr = true → ¬ ElsePair c l r)
  | _ => True
def NoElseInArrays : List Expr → Prop
  | [] => True
  | e :: es => NoElseInArray true e ∧ NoElseInArrays es
def NoElseInArrayS : Stmt → Prop
  | .assignGlobal _ e _ | .assignLocal _ e _ | .expr e _ => NoElseInArray false e
def NoElseInArraySs : List Stmt → Prop
  | [] => True
  | s :: ss => NoElseInArrayS s ∧ NoElseInArraySs ss
end

end Verif.Sqf
