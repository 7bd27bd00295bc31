import Verif.Model.Sqf
import Verif.Model.Lzo
/-!
Model of the SQFC writer, `/repo/libs/sqf/src/compiler/serializer/mod.rs`. The writer is an in-memory buffer: the
result is the list of bytes written, or the error returned. `f32` values are their bit patterns (`write_f32` writes
them unchanged).
-/
namespace Verif.Sqf

/-- libs/sqf/src/compiler/serializer/mod.rs:639-659 `SerializeError` without I/O errors; `lzo` stands for any
failure of the compressor, including an access outside its buffers. -/
inductive SErr where
  | stringTooLong | arrayTooLong | instrLimit | bufferLimit | listTooLong | badConst | badName | lzo
deriving DecidableEq, Repr

abbrev SR := Except SErr Bytes

/-- libs/sqf/src/compiler/serializer/mod.rs:596-605 `serialize_string` -/
def serString (s : Bytes) : SR :=
  if s.length ≥ 2 ^ 24 then .error .stringTooLong else .ok (leBytes 3 s.length ++ s)

/-- a `for` loop calling a writer -/
def serAll {α : Type} (f : α → SR) : List α → SR
  | [] => .ok []
  | x :: xs => do return (← f x) ++ (← serAll f xs)

/-- libs/sqf/src/compiler/serializer/mod.rs:31-36 `SourceInfo::serialize` -/
def serInfo (s : SourceInfo) : Bytes := leBytes 4 s.offset.toNat ++ leBytes 1 s.file.toNat ++ leBytes 2 s.line.toNat

/-- libs/sqf/src/compiler/serializer/mod.rs:67-79 `CodePointer::serialize` -/
def serPtr : CodePtr → Bytes
  | .const i => leBytes 8 (i &&& 0x7FFFFFFF).toNat
  | .source o l => leBytes 4 o.toNat ++ leBytes 4 (l ||| 0x80000000).toNat

/-- libs/sqf/src/compiler/serializer/mod.rs:137-149 `Instruction::to_byte` -/
def Instr.tag : Instr → UInt8
  | .endStatement => 0
  | .push .. => 1
  | .callUnary .. => 2
  | .callBinary .. => 3
  | .callNular .. => 4
  | .assignTo .. => 5
  | .assignToLocal .. => 6
  | .getVariable .. => 7
  | .makeArray .. => 8

/-- libs/sqf/src/compiler/serializer/mod.rs:156-179 `Instruction::serialize`, with `assert_has_constant` and
`assert_has_name` (424-438) -/
def serInstr (c : Compiled) (i : Instr) : SR :=
  let body : SR := match i with
    | .endStatement => .ok []
    | .push k => if c.consts.length ≤ k.toNat then .error .badConst else .ok (leBytes 2 k.toNat)
    | .callUnary n s | .callBinary n s | .callNular n s | .assignTo n s | .assignToLocal n s | .getVariable n s =>
      if c.names.length ≤ n.toNat then .error .badName else .ok (serInfo s ++ leBytes 2 n.toNat)
    | .makeArray n s => .ok (serInfo s ++ leBytes 2 n.toNat)
  do return i.tag :: (← body)

/-- libs/sqf/src/compiler/serializer/mod.rs:233-243 `Instructions::serialize` -/
def serInstrs (c : Compiled) (is : Instrs) : SR :=
  if is.contents.length ≥ 2 ^ 32 then .error .instrLimit
  else do return serPtr is.ptr ++ leBytes 4 is.contents.length ++ (← serAll (serInstr c) is.contents)

mutual
/-- libs/sqf/src/compiler/serializer/mod.rs:280-324 `Constant::to_byte`, `Constant::serialize` -/
def serConst (c : Compiled) : Const → SR
  | .code is => do return 0 :: (← serInstrs c is)
  | .str s => do return 1 :: (← serString s)
  | .num x => .ok (2 :: leBytes 4 x.toNat)
  | .bool b => .ok [3, if b then 1 else 0]
  | .arr cs =>
    if cs.length ≥ 2 ^ 32 then .error .arrayTooLong
    else do return 4 :: (leBytes 4 cs.length ++ (← serConsts c cs))
  | .carr cs =>
    if cs.length ≥ 2 ^ 32 then .error .arrayTooLong
    else do return 4 :: (leBytes 4 cs.length ++ (← serConsts c cs))
  | .nular n => do return 5 :: (← serString n)
/-- the loops at libs/sqf/src/compiler/serializer/mod.rs:314-316 and 503-505 -/
def serConsts (c : Compiled) : List Const → SR
  | [] => .ok []
  | k :: ks => do return (← serConst c k) ++ (← serConsts c ks)
end

/-- a `u16` count followed by the items -/
def serList {α : Type} (f : α → SR) (l : List α) : SR :=
  if l.length ≥ 2 ^ 16 then .error .listTooLong
  else do return leBytes 2 l.length ++ (← serAll f l)

/-- libs/sqf/src/compiler/serializer/mod.rs:499-508 `serialize_constants_cache` -/
def serTable (c : Compiled) : SR :=
  if c.consts.length ≥ 2 ^ 16 then .error .listTooLong
  else do return leBytes 2 c.consts.length ++ (← serConsts c c.consts)

/-- libs/sqf/src/compiler/serializer/mod.rs:580-594 `serialize_compress_buffer`; the compressor gets a buffer of
the size `worst_compress` asks for -/
def serBuffer (b : Bytes) : SR :=
  if b.length ≥ 2 ^ 32 then .error .bufferLimit
  else match Lzo.compress (Lzo.worstCompress b.length) b with
    | .ok z => .ok (leBytes 4 b.length ++ 2 :: z)
    | .error _ => .error .lzo

/-- libs/sqf/src/compiler/serializer/mod.rs:474-482: the constants block -/
def serConstBlock (c : Compiled) : SR :=
  if c.compress then do return 1 :: (← serBuffer (← serTable c)) else do return 0 :: (← serTable c)

/-- libs/sqf/src/compiler/serializer/mod.rs:456-497 `Compiled::serialize` -/
def Compiled.serialize (c : Compiled) : SR := do
  let names ← serBuffer (← serList serString c.names)
  let consts ← serConstBlock c
  let files ← serList serString c.files
  return leBytes 4 1 ++ 5 :: (names ++ (consts ++ 2 :: (files ++ 3 :: leBytes 8 c.entry.toNat)))

end Verif.Sqf
