import Verif.Lib.Bytes
/-!
Model of the SQF syntax tree, its optimiser, its required-version report and its compiler
(libs/sqf/src/lib.rs, libs/sqf/src/compiler/mod.rs, libs/sqf/src/compiler/optimizer/mod.rs).

Simplifications. Strings and names are byte strings. `f32` is a bit pattern and the arithmetic operations
used by the optimiser are a parameter (`FloatOps`). `str::to_lowercase` is a parameter `lower`.
What the compiler asks of `Processed` is a parameter (`Proc`). Trace and warning output is not modelled.
-/
namespace Verif.Sqf

/-- `Range<usize>` -/
abbrev Span := Nat × Nat

/-- libs/sqf/src/lib.rs:148-152 `StringWrapper` -/
inductive Wrapper where
  | single | double
deriving DecidableEq, Repr

/-- libs/sqf/src/lib.rs:360-368 `UnaryCommand` -/
inductive UnCmd where
  | named (n : Bytes) | plus | minus | not
deriving DecidableEq, Repr

/-- libs/sqf/src/lib.rs:382-409 `BinaryCommand` -/
inductive BinCmd where
  | named (n : Bytes) | or | and | eq | notEq | greater | less | greaterEq | lessEq | configPath
  | associate | els | add | sub | max | min | mul | div | rem | mod | atan2 | exp | select
deriving DecidableEq, Repr

/-- libs/sqf/src/lib.rs:372-379 `UnaryCommand::as_str` -/
def UnCmd.asStr : UnCmd → Bytes
  | .named n => n | .plus => ascii "+" | .minus => ascii "-" | .not => ascii "!"

/-- libs/sqf/src/lib.rs:413-438 `BinaryCommand::as_str` -/
def BinCmd.asStr : BinCmd → Bytes
  | .named n => n | .or => ascii "||" | .and => ascii "&&" | .eq => ascii "==" | .notEq => ascii "!="
  | .configPath => ascii ">>" | .greaterEq => ascii ">=" | .lessEq => ascii "<=" | .greater => ascii ">"
  | .less => ascii "<" | .els => ascii "else" | .add => ascii "+" | .sub => ascii "-" | .max => ascii "max"
  | .min => ascii "min" | .mul => ascii "*" | .div => ascii "/" | .rem => ascii "%" | .mod => ascii "mod"
  | .atan2 => ascii "atan2" | .exp => ascii "^" | .associate => ascii ":" | .select => ascii "#"

mutual
/-- libs/sqf/src/lib.rs:164-176 `Expression`; the fields of `Statements` (lib.rs:20-26) are inlined in `code`. -/
inductive Expr where
  | code (content : List Stmt) (source : Bytes) (sp : Span)
  | str (s : Bytes) (sp : Span) (w : Wrapper)
  | num (x : UInt32) (sp : Span)
  | bool (b : Bool) (sp : Span)
  | arr (es : List Expr) (sp : Span)
  | carr (es : List Expr) (sp : Span)
  | nular (n : Bytes) (sp : Span)
  | un (c : UnCmd) (e : Expr) (sp : Span)
  | bin (c : BinCmd) (l r : Expr) (sp : Span)
  | var (n : Bytes) (sp : Span)
/-- libs/sqf/src/lib.rs:109-114 `Statement` -/
inductive Stmt where
  | assignGlobal (n : Bytes) (e : Expr) (sp : Span)
  | assignLocal (n : Bytes) (e : Expr) (sp : Span)
  | expr (e : Expr) (sp : Span)
end

instance : Inhabited Expr := ⟨.bool true (0, 0)⟩

/-- libs/sqf/src/lib.rs:20-26 `Statements` -/
structure Block where
  content : List Stmt
  source : Bytes
  sp : Span

/-! ### Names -/

/-- `str::to_ascii_lowercase` on one byte -/
def lowerByte (b : UInt8) : UInt8 := if 65 ≤ b ∧ b ≤ 90 then b + 32 else b
/-- `str::to_ascii_uppercase` on one byte -/
def upperByte (b : UInt8) : UInt8 := if 97 ≤ b ∧ b ≤ 122 then b - 32 else b
/-- `str::to_ascii_lowercase` -/
def asciiLower (s : Bytes) : Bytes := s.map lowerByte
/-- `str::to_ascii_uppercase` -/
def asciiUpper (s : Bytes) : Bytes := s.map upperByte
/-- `str::is_ascii` -/
def isAscii (s : Bytes) : Bool := s.all (fun b => b < 128)

/-- libs/sqf/src/parser/database/mod.rs:15-29 `NULAR_COMMANDS_CONSTANTS` -/
def nularConstants : List Bytes :=
  [ascii "nil", ascii "confignull", ascii "controlnull", ascii "diaryrecordnull", ascii "displaynull",
   ascii "grpnull", ascii "locationnull", ascii "objnull", ascii "scriptnull", ascii "tasknull",
   ascii "teammembernull"]

/-- libs/sqf/src/parser/database/mod.rs:223-228, 265-267 and lib.rs:350-352: `NularCommand::is_constant` -/
def isConstantCommand (n : Bytes) : Bool := nularConstants.any (fun c => asciiLower c == asciiLower n)

/-- libs/sqf/src/parser/database/mod.rs:42-44 `COMMANDS_OPERATORS` -/
def operators : List Bytes :=
  [ascii "!", ascii "||", ascii "&&", ascii "==", ascii "!=", ascii ">>", ascii ">=", ascii "<=", ascii ">",
   ascii "<", ascii "+", ascii "-", ascii "*", ascii "/", ascii "%", ascii "^", ascii ":", ascii "#"]

/-- libs/sqf/src/parser/database/mod.rs:245-252 `is_valid_name` -/
def isValidName (n : Bytes) : Bool :=
  n.all (fun b => (48 ≤ b && b ≤ 57) || (65 ≤ b && b ≤ 90) || (97 ≤ b && b ≤ 122) || b == 95)

/-- libs/sqf/src/parser/database/mod.rs:254-258 `is_valid_command` -/
def isValidCommand (n : Bytes) : Bool := isValidName n || operators.any (fun c => asciiLower c == asciiLower n)

/-! ### Optimiser -/

/-- The `f32` operations the optimiser applies; `finite` is `f32::is_finite`. -/
structure FloatOps where
  neg : UInt32 → UInt32
  sqrt : UInt32 → UInt32
  add : UInt32 → UInt32 → UInt32
  sub : UInt32 → UInt32 → UInt32
  mul : UInt32 → UInt32 → UInt32
  div : UInt32 → UInt32 → UInt32
  rem : UInt32 → UInt32 → UInt32
  finite : UInt32 → Bool

/-- libs/sqf/src/lib.rs:327-330 `is_array` -/
def isArray : Expr → Bool
  | .arr _ _ => true
  | _ => false

/-- libs/sqf/src/compiler/optimizer/mod.rs:241-251 `is_not_array_default_value` -/
def isNotArrayDefault : Expr → Bool
  | .arr es _ => match es[1]? with
    | some d => !isArray d
    | none => true
  | _ => true

mutual
/-- libs/sqf/src/compiler/optimizer/mod.rs:213-223 `Expression::is_constant`; the `unreachable!` arm is a panic. -/
def isConst : Expr → Except Err Bool
  | .code _ _ _ | .str _ _ _ | .num _ _ | .bool _ _ => .ok true
  | .nular n _ => .ok (isConstantCommand n)
  | .arr es _ => isConstAll es
  | .carr _ _ => .error .panic
  | _ => .ok false
/-- `array.iter().all(Self::is_constant)`: stops at the first `false` -/
def isConstAll : List Expr → Except Err Bool
  | [] => .ok true
  | e :: es => do if ← isConst e then isConstAll es else pure false
end

/-- libs/sqf/src/compiler/optimizer/mod.rs:256-286 `get_consumable_array`, with the caller's
"replace the operand if `Some`" folded in. -/
def consume (direct : Bool) : Expr → Except Err Expr
  | .arr es sp => do
    if !(← isConst (.arr es sp)) then return .arr es sp
    if es.isEmpty then return .arr es sp
    if direct then return .carr es sp
    return .un .plus (.carr es sp) sp
  | e => .ok e

/-- libs/sqf/src/compiler/optimizer/mod.rs:328-357 `op_uni_float` -/
def opUniFloat (F : FloatOps) (op : UInt32 → UInt32) (sp : Span) : Expr → Option Expr
  | .num x _ => if F.finite (op x) then some (.num (op x) sp) else none
  | _ => none

/-- libs/sqf/src/compiler/optimizer/mod.rs:289-325 `op_uni_string` -/
def opUniString (op : Bytes → Bytes) (sp : Span) : Expr → Option Expr
  | .str s _ w => if isAscii s then some (.str (op s) sp w) else none
  | _ => none

/-- libs/sqf/src/compiler/optimizer/mod.rs:395-428 `op_bin_float` -/
def opBinFloat (F : FloatOps) (op : UInt32 → UInt32 → UInt32) (sp : Span) : Expr → Expr → Option Expr
  | .num x _, .num y _ => if F.finite (op x y) then some (.num (op x y) sp) else none
  | _, _ => none

/-- libs/sqf/src/compiler/optimizer/mod.rs:360-392 `op_bin_string` -/
def opBinString (op : Bytes → Bytes → Bytes) (sp : Span) : Expr → Expr → Option Expr
  | .str s _ _, .str t _ w => if isAscii t && isAscii s then some (.str (op s t) sp w) else none
  | _, _ => none

/-- The command names matched by the optimiser (lines 55-102, 116-154). -/
inductive Known where
  | toLower | toUpper | sqrt | params | param | consumeUn | consumeBin | dflt | call | other
deriving DecidableEq

/-- libs/sqf/src/compiler/optimizer/mod.rs:55-106: the unary names, already lower-cased -/
def knownUn (n : Bytes) : Known :=
  if n = ascii "tolower" ∨ n = ascii "toloweransi" then .toLower
  else if n = ascii "toupper" ∨ n = ascii "toupperansi" then .toUpper
  else if n = ascii "sqrt" then .sqrt
  else if n = ascii "params" then .params
  else if n = ascii "param" then .param
  else if n = ascii "positioncameratoworld" ∨ n = ascii "random" then .consumeUn
  else .other

/-- libs/sqf/src/compiler/optimizer/mod.rs:116-156: the binary names, already lower-cased -/
def knownBin (n : Bytes) : Known :=
  if n = ascii "params" then .params
  else if n = ascii "param" ∨ n = ascii "getvariable" ∨ n = ascii "setvariable" ∨ n = ascii "getordefault" then .dflt
  else if n = ascii "vectoradd" ∨ n = ascii "vectordiff" ∨ n = ascii "vectorcrossproduct" ∨ n = ascii "vectordotproduct" then .consumeBin
  else if n = ascii "call" then .call
  else .other

/-- The `params` arm (lines 83-92, 118-127). -/
def consumeParams : Expr → Except Err Expr
  | .arr es sp => consume (es.all isNotArrayDefault) (.arr es sp)
  | e => .ok e

/-- libs/sqf/src/compiler/optimizer/mod.rs:45-111: the unary arm, operand already optimised. -/
def optUn (F : FloatOps) (lower : Bytes → Bytes) (c : UnCmd) (r : Expr) (sp : Span) : Except Err Expr :=
  match c with
  | .minus => .ok ((opUniFloat F F.neg sp r).getD (.un c r sp))
  | .named n =>
    match knownUn (lower n) with
    | .toLower => .ok ((opUniString asciiLower sp r).getD (.un c r sp))
    | .toUpper => .ok ((opUniString asciiUpper sp r).getD (.un c r sp))
    | .sqrt => .ok ((opUniFloat F F.sqrt sp r).getD (.un c r sp))
    | .params => do return .un c (← consumeParams r) sp
    | .param => do return .un c (← consume (isNotArrayDefault r) r) sp
    | .consumeUn => do return .un c (← consume true r) sp
    | _ => .ok (.un c r sp)
  | _ => .ok (.un c r sp)

/-- `matches!(&left_o, Self::Variable(name, _) if name == "_this")` (line 147) -/
def isThis : Expr → Bool
  | .var n _ => n == ascii "_this"
  | _ => false

/-- `Self::Code(_)` -/
def isCode : Expr → Bool
  | .code _ _ _ => true
  | _ => false

/-- libs/sqf/src/compiler/optimizer/mod.rs:112-209: the binary arm, operands already optimised. -/
def optBin (F : FloatOps) (lower : Bytes → Bytes) (c : BinCmd) (l r : Expr) (sp : Span) : Except Err Expr :=
  match c with
  | .named n =>
    match knownBin (lower n) with
    | .params => do return .bin c l (← consumeParams r) sp
    | .dflt => do return .bin c l (← consume (isNotArrayDefault r) r) sp
    | .consumeBin => do
      let r ← consume true r
      let l ← consume true l
      return .bin c l r sp
    | .call => .ok (if isThis l then .un (.named (ascii "call")) r sp else .bin c l r sp)
    | _ => .ok (.bin c l r sp)
  | .add =>
    .ok ((opBinFloat F F.add sp l r).getD ((opBinString (· ++ ·) sp l r).getD (.bin c l r sp)))
  | .sub => .ok ((opBinFloat F F.sub sp l r).getD (.bin c l r sp))
  | .mul => .ok ((opBinFloat F F.mul sp l r).getD (.bin c l r sp))
  | .div => .ok ((opBinFloat F F.div sp l r).getD (.bin c l r sp))
  | .rem | .mod => .ok ((opBinFloat F F.rem sp l r).getD (.bin c l r sp))
  | .els => .ok (if isCode l && isCode r then .carr [l, r] sp else .bin c l r sp)
  | _ => .ok (.bin c l r sp)

mutual
/-- libs/sqf/src/compiler/optimizer/mod.rs:38-210 `Expression::optimize` -/
def optE (F : FloatOps) (lower : Bytes → Bytes) : Expr → Except Err Expr
  | .code c s sp => do return .code (← optSs F lower c) s sp
  | .arr es sp => do return .arr (← optEs F lower es) sp
  | .un c r sp => do optUn F lower c (← optE F lower r) sp
  | .bin c l r sp => do
    let l ← optE F lower l
    let r ← optE F lower r
    optBin F lower c l r sp
  | e => .ok e
/-- `array_old.iter().map(|e| e.clone().optimize())` (line 42) -/
def optEs (F : FloatOps) (lower : Bytes → Bytes) : List Expr → Except Err (List Expr)
  | [] => .ok []
  | e :: es => do
    let e ← optE F lower e
    let es ← optEs F lower es
    return e :: es
/-- libs/sqf/src/compiler/optimizer/mod.rs:18-32 `Statement::optimize` -/
def optS (F : FloatOps) (lower : Bytes → Bytes) : Stmt → Except Err Stmt
  | .assignGlobal n e sp => do return .assignGlobal n (← optE F lower e) sp
  | .assignLocal n e sp => do return .assignLocal n (← optE F lower e) sp
  | .expr e sp => do return .expr (← optE F lower e) sp
/-- libs/sqf/src/compiler/optimizer/mod.rs:9-16 `Statements::optimize` -/
def optSs (F : FloatOps) (lower : Bytes → Bytes) : List Stmt → Except Err (List Stmt)
  | [] => .ok []
  | s :: ss => do
    let s ← optS F lower s
    let ss ← optSs F lower ss
    return s :: ss
end

/-- libs/sqf/src/compiler/optimizer/mod.rs:9-16 `Statements::optimize` -/
def Block.optimize (F : FloatOps) (lower : Bytes → Bytes) (b : Block) : Except Err Block := do
  return { b with content := ← optSs F lower b.content }

/-! ### Required version -/

/-- A version report: command name, version, span. Versions are `arma3_wiki::Version` pairs ordered
lexicographically, here any natural number encoding of that order (0 = `Version::new(0, 0)`). -/
abbrev Report := Bytes × Nat × Span

/-- libs/sqf/src/lib.rs:98-102: a later report replaces the running one if its version is higher -/
def keepMax (acc : Report) : Option Report → Report
  | some r => if r.2.1 > acc.2.1 then r else acc
  | none => acc

mutual
/-- libs/sqf/src/lib.rs:48-88 `extract_expression`; `ver` is `Database::command_version`. -/
def extractE (ver : Bytes → Option Nat) : Expr → Option Report
  | .nular n sp => do return (n, ← ver n, sp)
  | .un c e sp => do
    let cv ← ver c.asStr
    let l ← extractE ver e
    let lv ← ver l.1
    if cv > lv then some (c.asStr, cv, sp) else some l
  | .bin c l r sp => do
    let cv ← ver c.asStr
    let l ← extractE ver l
    let lv ← ver l.1
    let r ← extractE ver r
    let rv ← ver r.1
    if cv > lv ∧ cv > rv then some (c.asStr, cv, sp)
    else if lv > rv then some l else some r
  | .code c _ _ => some (requiredSs ver c ([], 0, (0, 0)))
  | _ => none
/-- one round of the loop at libs/sqf/src/lib.rs:92-104 -/
def requiredS (ver : Bytes → Option Nat) : Stmt → Option Report
  | .assignGlobal _ e _ | .assignLocal _ e _ | .expr e _ => extractE ver e
/-- libs/sqf/src/lib.rs:89-105: the loop over the statements with its running report -/
def requiredSs (ver : Bytes → Option Nat) : List Stmt → Report → Report
  | [], acc => acc
  | s :: ss, acc =>
    requiredSs ver ss (keepMax acc (requiredS ver s))
end

/-- libs/sqf/src/lib.rs:46-106 `Statements::required_version` -/
def Block.required (ver : Bytes → Option Nat) (b : Block) : Report := requiredSs ver b.content ([], 0, (0, 0))

/-! ### Compiler -/

/-- libs/sqf/src/compiler/serializer/mod.rs:19-24 `SourceInfo` -/
structure SourceInfo where
  offset : UInt32
  file : UInt8
  line : UInt16
deriving DecidableEq, Repr

/-- libs/sqf/src/compiler/serializer/mod.rs:50-60 `CodePointer` -/
inductive CodePtr where
  | const (i : UInt64)
  | source (offset length : UInt32)
deriving DecidableEq, Repr

/-- libs/sqf/src/compiler/serializer/mod.rs:94-121 `Instruction` -/
inductive Instr where
  | endStatement
  | push (i : UInt16)
  | callUnary (n : UInt16) (s : SourceInfo)
  | callBinary (n : UInt16) (s : SourceInfo)
  | callNular (n : UInt16) (s : SourceInfo)
  | assignTo (n : UInt16) (s : SourceInfo)
  | assignToLocal (n : UInt16) (s : SourceInfo)
  | getVariable (n : UInt16) (s : SourceInfo)
  | makeArray (n : UInt16) (s : SourceInfo)
deriving DecidableEq, Repr

/-- libs/sqf/src/compiler/serializer/mod.rs:211-216 `Instructions` -/
structure Instrs where
  contents : List Instr
  ptr : CodePtr
deriving DecidableEq, Repr

/-- libs/sqf/src/compiler/serializer/mod.rs:259-268 `Constant` -/
inductive Const where
  | code (is : Instrs)
  | str (s : Bytes)
  | num (x : UInt32)
  | bool (b : Bool)
  | arr (cs : List Const)
  | carr (cs : List Const)
  | nular (n : Bytes)
deriving Repr

instance : Inhabited Const := ⟨.bool true⟩

mutual
/-- libs/sqf/src/compiler/serializer/mod.rs:341-357 `PartialEq for Constant`; `f32::total_cmp` calls two
numbers equal exactly when their bit patterns are. -/
def constEq : Const → Const → Bool
  | .code a, .code b => a == b
  | .str a, .str b => a == b
  | .num a, .num b => a == b
  | .bool a, .bool b => a == b
  | .arr as, .arr bs => constEqs as bs
  | .nular a, .nular b => asciiLower a == asciiLower b
  | _, _ => false
/-- `Vec<Constant> == Vec<Constant>` -/
def constEqs : List Const → List Const → Bool
  | [], [] => true
  | a :: as, b :: bs => constEq a b && constEqs as bs
  | _, _ => false
end

/-- What the compiler reads from `Processed`: `loc` is `location_to_source`
(libs/sqf/src/compiler/mod.rs:94-115, `none` where it panics), `offset` is `get_byte_offset`
and `len` is the byte length of `extract`. -/
structure Proc where
  loc : Span → Option SourceInfo
  offset : Nat → UInt32
  len : Span → Nat

/-- libs/sqf/src/compiler/mod.rs:288-294 `CompileError`, plus a panic -/
inductive CErr where
  | listTooLong
  | invalidName (n : Bytes)
  | panic
deriving DecidableEq, Repr

/-- libs/sqf/src/compiler/mod.rs:298-302 `Context` -/
structure Ctx where
  consts : List Const
  names : List Bytes

abbrev R := Except CErr

/-- `usize` to `u16` by `try_into` -/
def toU16 (n : Nat) : R UInt16 := if n < 65536 then .ok (UInt16.ofNat n) else .error .listTooLong

/-- libs/sqf/src/compiler/mod.rs:323-334 `add_or_get_index` -/
def addOrGet {α : Type} (eq : α → α → Bool) (l : List α) (v : α) : R (UInt16 × List α) := do
  match l.findIdx? (fun x => eq x v) with
  | some i => return (← toU16 i, l)
  | none => return (← toU16 l.length, l ++ [v])

/-- libs/sqf/src/compiler/mod.rs:305-307 `add_constant` -/
def addConst (c : Const) (ctx : Ctx) : R (UInt16 × Ctx) := do
  let (i, l) ← addOrGet constEq ctx.consts c
  return (i, { ctx with consts := l })

/-- libs/sqf/src/compiler/mod.rs:314-321 `try_normalize_name` -/
def normName (n : Bytes) : R Bytes :=
  if isValidCommand (asciiLower n) then .ok (asciiLower n) else .error (.invalidName n)

/-- libs/sqf/src/compiler/mod.rs:309-311 `add_name` -/
def addName (n : Bytes) (ctx : Ctx) : R (UInt16 × Ctx) := do
  let n ← normName n
  let (i, l) ← addOrGet (· == ·) ctx.names n
  return (i, { ctx with names := l })

/-- `location_to_source(processed, location)` -/
def locOf (P : Proc) (sp : Span) : R SourceInfo :=
  match P.loc sp with
  | some s => .ok s
  | none => .error .panic

/-- libs/sqf/src/compiler/mod.rs:78-85: the pointer of a nested code block -/
def nestedPtr (P : Proc) (content : List Stmt) (sp : Span) : CodePtr :=
  .source (P.offset sp.1) (if content.isEmpty then 0 else UInt32.ofNat (P.len sp))

mutual
/-- libs/sqf/src/compiler/mod.rs:160-185 `push_constant`; `expect("array too long")` is a panic. -/
def pushConst : Const → Ctx → R (List Instr × Ctx)
  | .arr items, ctx => do
    let (is, ctx) ← pushConsts items ctx
    if items.length < 65536 then
      return (is ++ [.makeArray (UInt16.ofNat items.length) ⟨0, 0, 0⟩], ctx)
    else .error .panic
  | c, ctx => do
    let (i, ctx) ← addConst c ctx
    return ([.push i], ctx)
/-- the loop at libs/sqf/src/compiler/mod.rs:167-169 -/
def pushConsts : List Const → Ctx → R (List Instr × Ctx)
  | [], ctx => .ok ([], ctx)
  | c :: cs, ctx => do
    let (a, ctx) ← pushConst c ctx
    let (b, ctx) ← pushConsts cs ctx
    return (a ++ b, ctx)
end

/-- `instructions.push(Instruction::…(ctx.add_name(name)?, location_to_source(..)))` -/
def emitName (P : Proc) (mk : UInt16 → SourceInfo → Instr) (n : Bytes) (sp : Span) (ctx : Ctx) : R (List Instr × Ctx) := do
  let (i, ctx) ← addName n ctx
  let s ← locOf P sp
  return ([mk i s], ctx)

mutual
/-- libs/sqf/src/compiler/mod.rs:249-285 `Expression::compile_constant` -/
def compConst (P : Proc) : Expr → Ctx → R (Option Const × Ctx)
  | .code c _ sp, ctx => do
    let (is, ctx) ← compSs P c ctx
    return (some (.code ⟨is, nestedPtr P c sp⟩), ctx)
  | .str s _ _, ctx => .ok (some (.str s), ctx)
  | .num x _, ctx => .ok (some (.num x), ctx)
  | .bool b _, ctx => .ok (some (.bool b), ctx)
  | .arr es _, ctx => do
    let (cs, ctx) ← compConsts P es ctx
    return (cs.map .arr, ctx)
  | .carr es _, ctx => do
    let (cs, ctx) ← compConsts P es ctx
    return (cs.map .carr, ctx)
  | .nular n _, ctx =>
    if isConstantCommand n then do
      let n ← normName n
      return (some (.nular n), ctx)
    else .ok (none, ctx)
  | _, ctx => .ok (none, ctx)
/-- `.map(compile_constant).collect::<CompileResult<Option<Vec<Constant>>>>()`: stops at the first `None` -/
def compConsts (P : Proc) : List Expr → Ctx → R (Option (List Const) × Ctx)
  | [], ctx => .ok (some [], ctx)
  | e :: es, ctx => do
    let (c, ctx) ← compConst P e ctx
    match c with
    | none => return (none, ctx)
    | some c =>
      let (cs, ctx) ← compConsts P es ctx
      return (cs.map (c :: ·), ctx)
/-- libs/sqf/src/compiler/mod.rs:152-247 `Expression::compile_instructions`. The leading call of
`compile_constant` is inlined constructor by constructor (`compInstr_eq` in Lib/SqfComp.lean shows that
this is the function of the source). -/
def compInstr (P : Proc) : Expr → Ctx → R (List Instr × Ctx)
  | .code c _ sp, ctx => do
    let (is, ctx) ← compSs P c ctx
    pushConst (.code ⟨is, nestedPtr P c sp⟩) ctx
  | .str s _ _, ctx => pushConst (.str s) ctx
  | .num x _, ctx => pushConst (.num x) ctx
  | .bool b _, ctx => pushConst (.bool b) ctx
  | .arr es sp, ctx => do
    let (cs, ctx) ← compConsts P es ctx
    match cs with
    | some cs => pushConst (.arr cs) ctx
    | none =>
      let len ← toU16 es.length
      let (is, ctx) ← compInstrs P es ctx
      let s ← locOf P sp
      return (is ++ [.makeArray len s], ctx)
  | .carr es _, ctx => do
    let (cs, ctx) ← compConsts P es ctx
    match cs with
    | some cs => pushConst (.carr cs) ctx
    | none => .error .panic
  | .nular n sp, ctx =>
    if isConstantCommand n then do
      let n ← normName n
      pushConst (.nular n) ctx
    else emitName P .callNular n sp ctx
  | .un c e sp, ctx => do
    let (a, ctx) ← compInstr P e ctx
    let (b, ctx) ← emitName P .callUnary c.asStr sp ctx
    return (a ++ b, ctx)
  | .bin c l r sp, ctx => do
    let (a, ctx) ← compInstr P l ctx
    let (b, ctx) ← compInstr P r ctx
    let (d, ctx) ← emitName P .callBinary c.asStr sp ctx
    return (a ++ b ++ d, ctx)
  | .var n sp, ctx => emitName P .getVariable n sp ctx
/-- the loop at libs/sqf/src/compiler/mod.rs:197-199 -/
def compInstrs (P : Proc) : List Expr → Ctx → R (List Instr × Ctx)
  | [], ctx => .ok ([], ctx)
  | e :: es, ctx => do
    let (a, ctx) ← compInstr P e ctx
    let (b, ctx) ← compInstrs P es ctx
    return (a ++ b, ctx)
/-- libs/sqf/src/compiler/mod.rs:118-148 `Statement::compile_instructions` -/
def compS (P : Proc) : Stmt → Ctx → R (List Instr × Ctx)
  | .assignGlobal n e sp, ctx => do
    let (a, ctx) ← compInstr P e ctx
    let (b, ctx) ← emitName P .assignTo n sp ctx
    return (.endStatement :: (a ++ b), ctx)
  | .assignLocal n e sp, ctx => do
    let (a, ctx) ← compInstr P e ctx
    let (b, ctx) ← emitName P .assignToLocal n sp ctx
    return (.endStatement :: (a ++ b), ctx)
  | .expr e _, ctx => do
    let (a, ctx) ← compInstr P e ctx
    return (.endStatement :: a, ctx)
/-- libs/sqf/src/compiler/mod.rs:68-71: the loop of `compile_to_instructions` -/
def compSs (P : Proc) : List Stmt → Ctx → R (List Instr × Ctx)
  | [], ctx => .ok ([], ctx)
  | s :: ss, ctx => do
    let (a, ctx) ← compS P s ctx
    let (b, ctx) ← compSs P ss ctx
    return (a ++ b, ctx)
end

/-- libs/sqf/src/compiler/serializer/mod.rs:400-412 `Compiled` -/
structure Compiled where
  entry : UInt16
  compress : Bool
  consts : List Const
  names : List Bytes
  files : List Bytes

/-- libs/sqf/src/compiler/mod.rs:29-48 `Statements::compile`; `files` is `processed.sources()`.
`as u16` truncates. -/
def Block.compile (P : Proc) (files : List Bytes) (b : Block) : R Compiled := do
  let (is, ctx) ← compSs P b.content ⟨[], []⟩
  let (i, ctx) ← addConst (.str b.source) ctx
  let ptr : CodePtr := .const i.toUInt64
  return { entry := UInt16.ofNat ctx.consts.length, compress := true,
           consts := ctx.consts ++ [.code ⟨is, ptr⟩], names := ctx.names, files := files }

end Verif.Sqf
