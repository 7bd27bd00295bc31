import Verif.Model.Io
/-!
Model of `/repo/libs/config/src/rapify` and of the config tree of `/repo/libs/config/src/model`.

Simplifications: spans are dropped (never written); `Class::Root` only occurs as the root, so a property
that is a class is `loc` or `ext`; a float is its 32 bits. `written` counters are modelled as the number
of bytes produced (`write_compressed_int` returns that number, theorem `C01`).
`rapified_length` of an invalid node is `unreachable!()`; the model gives it length 0 because writing
such a node panics in any case.
-/
namespace Verif.Rap
open Verif.Io

/-- repo: libs/config/src/model/number.rs:5-27 (`Number`) -/
inductive Num where
  | i32 (v : Int)
  | i64 (v : Int)
  | f32 (bits : Nat)
deriving DecidableEq, Repr

/-- repo: libs/config/src/model/array.rs:15-25 (`Item`) -/
inductive Item where
  | str (s : Bytes)
  | num (n : Num)
  | arr (items : List Item)
  | invalid

/-- repo: libs/config/src/model/value.rs:7-39 (`Value`), array.rs:7-11 (`Array`) -/
inductive Value where
  | str (s : Bytes)
  | num (n : Num)
  | expr (s : Bytes)
  | arr (expand : Bool) (items : List Item)
  | invalid

/-- repo: libs/config/src/model/property.rs:7-24 (`Property`), class.rs:9-47 (`Class`) -/
inductive Prp where
  | entry (name : Bytes) (v : Value)
  | loc (name : Bytes) (parent : Option Bytes) (ps : List Prp)
  | ext (name : Bytes)
  | del (name : Bytes)
  | missing (name : Bytes)

/-- `assert_eq!` on a length -/
def assertLen (bs : Bytes) (len : Nat) : Except Err Bytes :=
  if bs.length = len then .ok bs else .error .panic

/-- repo: libs/config/src/rapify/number.rs:8-29 (`rapify`): little-endian two's complement / IEEE bits -/
def Num.bytes : Num → Bytes
  | .i32 v => leBytes 4 (v % 2 ^ 32).toNat
  | .i64 v => leBytes 8 (v % 2 ^ 64).toNat
  | .f32 b => leBytes 4 b

/-- repo: libs/config/src/rapify/number.rs:31-36 (`rapified_length`) -/
def Num.len : Num → Nat
  | .i32 _ => 4
  | .f32 _ => 4
  | .i64 _ => 8

/-- repo: libs/config/src/rapify/number.rs:38-44 (`rapified_code`) -/
def Num.code : Num → UInt8
  | .i32 _ => 2
  | .i64 _ => 6
  | .f32 _ => 1

/-- `len() as u32` -/
def countU32 (l : List α) : Nat := l.length % 2 ^ 32

/-- repo: libs/config/src/rapify/array.rs:63-70 (`rapified_code` of an item); str.rs:21-23 -/
def Item.code : Item → Except Err UInt8
  | .str _ => .ok 0
  | .num n => .ok n.code
  | .arr _ => .ok 3
  | .invalid => .error .panic

mutual
/-- repo: libs/config/src/rapify/array.rs:51-61 (`rapified_length` of an item); str.rs:17-19 -/
def Item.len : Item → Nat
  | .str s => s.length + 1
  | .num n => n.len
  | .arr is => compressedIntLen (countU32 is) + itemsLen is
  | .invalid => 0
/-- the `usize::sum(… rapified_length() + 1)` of repo: libs/config/src/rapify/array.rs:26, 57 -/
def itemsLen : List Item → Nat
  | [] => 0
  | i :: is => (i.len + 1) + itemsLen is
end

mutual
/-- repo: libs/config/src/rapify/array.rs:31-49 (`rapify` of an item); str.rs:8-15 -/
def Item.bytes : Item → Except Err Bytes
  | .str s => .ok (writeCString s)
  | .num n => .ok n.bytes
  | .arr is =>
    match itemsBytes is with
    | .ok r => .ok (writeCompressed (countU32 is) ++ r)
    | .error e => .error e
  | .invalid => .error .panic
/-- the item loop of repo: libs/config/src/rapify/array.rs:16-19 and 40-43 -/
def itemsBytes : List Item → Except Err Bytes
  | [] => .ok []
  | i :: is =>
    match i.code, i.bytes, itemsBytes is with
    | .ok c, .ok b, .ok r => .ok (c :: b ++ r)
    | _, _, _ => .error .panic
end

/-- repo: libs/config/src/rapify/array.rs:10-22 (`rapify` of `Array`) with its assertion -/
def arrayBytes (items : List Item) : Except Err Bytes :=
  match itemsBytes items with
  | .ok r => assertLen (writeCompressed (countU32 items) ++ r)
      (compressedIntLen (countU32 items) + itemsLen items)
  | .error e => .error e

/-- repo: libs/config/src/rapify/value.rs:22-30 (`rapified_length`), array.rs:24-27 -/
def Value.len : Value → Nat
  | .str s => s.length + 1
  | .num n => n.len
  | .expr s => s.length + 1
  | .arr _ items => compressedIntLen (countU32 items) + itemsLen items
  | .invalid => 0

/-- repo: libs/config/src/rapify/value.rs:6-20 (`rapify`) with its assertion -/
def Value.bytes (v : Value) : Except Err Bytes :=
  match v with
  | .str s => assertLen (writeCString s) v.len
  | .num n => assertLen n.bytes v.len
  | .expr s => assertLen (writeCString s) v.len
  | .arr _ items =>
    match arrayBytes items with
    | .ok b => assertLen b v.len
    | .error e => .error e
  | .invalid => .error .panic

/-- repo: libs/config/src/model/property.rs:31-36 (`name`) -/
def Prp.name : Prp → Bytes
  | .entry n _ => n
  | .loc n _ _ => n
  | .ext n => n
  | .del n => n
  | .missing n => n

/-- repo: libs/config/src/rapify/property.rs:38-63 (`property_code`), value.rs:32-40 -/
def Prp.code : Prp → Except Err Bytes
  | .entry _ (.str _) => .ok [1, 0]
  | .entry _ (.num n) => .ok [1, n.code]
  | .entry _ (.expr _) => .ok [1, 4]
  | .entry _ (.arr e _) => .ok (if e then [5, 1, 0, 0, 0] else [2])
  | .entry _ .invalid => .error .panic
  | .loc _ _ _ => .ok [0]
  | .ext _ => .ok [3]
  | .del _ => .ok [4]
  | .missing _ => .error .panic

/-- length of `property_code()` -/
def Prp.codeLen : Prp → Nat
  | .entry _ (.arr e _) => if e then 5 else 1
  | .entry _ _ => 2
  | _ => 1

/-- repo: libs/config/src/rapify/property.rs:14-32 (`rapified_length`) -/
def Prp.len (p : Prp) : Nat :=
  p.codeLen + match p with
    | .entry _ v => v.len
    | .loc _ _ _ => 4
    | _ => 0

/-- parent name and terminator, repo: libs/config/src/rapify/class.rs:19-25 -/
def parentBytes : Option Bytes → Bytes
  | some p => writeCString p
  | none => [0]

mutual
/-- repo: libs/config/src/rapify/class.rs:88-113 (`rapified_length` of a class; 0 for other properties) -/
def Prp.bodyLen : Prp → Nat
  | .loc _ parent ps =>
    (parent.map List.length).getD 0 + 1 + 4 + compressedIntLen (countU32 ps) + propsTotal ps
  | _ => 0
/-- the sum of repo: libs/config/src/rapify/class.rs:97-109 -/
def propsTotal : List Prp → Nat
  | [] => 0
  | p :: ps => (p.name.length + 1 + p.len + p.bodyLen) + propsTotal ps
end

/-- `properties_len`, repo: libs/config/src/rapify/class.rs:28-31 -/
def propsLen (ps : List Prp) : Nat := (ps.map (fun p => p.name.length + 1 + p.len)).sum

mutual
/-- repo: libs/config/src/rapify/class.rs:11-84 (`rapify` of `Class::Local`, and of `Class::Root` with no
parent); other properties have no body. -/
def Prp.body : Prp → Nat → Except Err Bytes
  | .loc _ parent ps, offset =>
    let head := parentBytes parent ++ writeCompressed (countU32 ps)
    match propsBytes ps (offset + head.length + propsLen ps + 4) with
    | .error e => .error e
    | .ok (pb, bodies, next) =>
      if pb.length ≠ propsLen ps then .error .panic
      else .ok (head ++ pb ++ le32 next ++ bodies)
  | _, _ => .ok []
/-- The property loop of repo: libs/config/src/rapify/class.rs:36-67: the bytes of the property table, the
class bodies collected for later, and the final `class_offset`. -/
def propsBytes : List Prp → Nat → Except Err (Bytes × Bytes × Nat)
  | [], next => .ok ([], [], next)
  | p :: ps, next =>
    match p.code with
    | .error e => .error e
    | .ok code =>
      let head := code ++ writeCString p.name
      match p with
      | .entry _ v =>
        match v.bytes with
        | .error e => .error e
        | .ok vb =>
          if (head ++ vb).length ≠ p.len + p.name.length + 1 then .error .panic
          else match propsBytes ps next with
            | .error e => .error e
            | .ok (pb, bodies, fin) => .ok (head ++ vb ++ pb, bodies, fin)
      | .loc n parent cs =>
        match Prp.body (.loc n parent cs) next with
        | .error e => .error e
        | .ok b =>
          if b.length ≠ p.bodyLen then .error .panic
          else if (head ++ le32 next).length ≠ p.len + p.name.length + 1 then .error .panic
          else match propsBytes ps (next + b.length) with
            | .error e => .error e
            | .ok (pb, bodies, fin) => .ok (head ++ le32 next ++ pb, b ++ bodies, fin)
      | .ext _ =>
        if head.length ≠ p.len + p.name.length + 1 then .error .panic
        else match propsBytes ps next with
          | .error e => .error e
          | .ok (pb, bodies, fin) => .ok (head ++ pb, bodies, fin)
      | .del _ =>
        match propsBytes ps next with
        | .error e => .error e
        | .ok (pb, bodies, fin) => .ok (head ++ pb, bodies, fin)
      | .missing _ => .error .panic
end

/-- `Class::Root`, repo: libs/config/src/rapify/config.rs:18-20 -/
def rootClass (ps : List Prp) : Prp := .loc [] none ps

/-- repo: libs/config/src/rapify/config.rs:36-41 (`rapified_length`) -/
def configLen (ps : List Prp) : Nat := (rootClass ps).bodyLen + 20

/-- repo: libs/config/src/rapify/config.rs:10-34 (`rapify` of `Config`) -/
def rapify (ps : List Prp) : Except Err Bytes :=
  match (rootClass ps).body 16 with
  | .error e => .error e
  | .ok body =>
    if body.length ≠ (rootClass ps).bodyLen then .error .panic
    else if body.length + 20 ≠ configLen ps then .error .panic
    else .ok ([0, 114, 97, 80] ++ [0, 0, 0, 0, 8, 0, 0, 0] ++ le32 (16 + body.length) ++ body
      ++ [0, 0, 0, 0])

end Verif.Rap
