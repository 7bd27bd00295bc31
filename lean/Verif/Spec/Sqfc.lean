import Verif.Model.Sqf
import Verif.Model.Lzo
/-!
A reader for SQFC files, written from the format and not from the writer: version, name block (compressed), constants
block (plain or compressed), file name block, entry point block. A compressed block states the size of its content;
its LZO stream ends where decompression to that size first succeeds.
-/
namespace Verif.Sqfc
open Sqf

abbrev Rd (α : Type) := Bytes → Option (α × Bytes)

def num (k : Nat) : Rd Nat := fun b => if b.length < k then none else some (leValue (b.take k), b.drop k)
def raw (k : Nat) : Rd Bytes := fun b => if b.length < k then none else some (b.take k, b.drop k)

def string : Rd Bytes := fun b => do
  let (n, b) ← num 3 b
  raw n b

def many {α : Type} (r : Rd α) : Nat → Rd (List α)
  | 0, b => some ([], b)
  | n + 1, b => do
    let (x, b) ← r b
    let (xs, b) ← many r n b
    return (x :: xs, b)

def info : Rd SourceInfo := fun b => do
  let (o, b) ← num 4 b
  let (f, b) ← num 1 b
  let (l, b) ← num 2 b
  return (⟨UInt32.ofNat o, UInt8.ofNat f, UInt16.ofNat l⟩, b)

/-- The flag that tells the two kinds of pointers apart is the highest of the 64 bits. -/
def ptr : Rd CodePtr := fun b => do
  let (x, b) ← num 8 b
  return (if x < 2 ^ 63 then .const (UInt64.ofNat x)
          else .source (UInt32.ofNat (x % 2 ^ 32)) (UInt32.ofNat (x / 2 ^ 32 % 2 ^ 31)), b)

def instr : Rd Instr := fun b => do
  let (t, b) ← num 1 b
  if t = 0 then return (.endStatement, b)
  else if t = 1 then
    let (k, b) ← num 2 b
    return (.push (UInt16.ofNat k), b)
  else
    let (s, b) ← info b
    let (n, b) ← num 2 b
    let n := UInt16.ofNat n
    match t with
    | 2 => return (.callUnary n s, b)
    | 3 => return (.callBinary n s, b)
    | 4 => return (.callNular n s, b)
    | 5 => return (.assignTo n s, b)
    | 6 => return (.assignToLocal n s, b)
    | 7 => return (.getVariable n s, b)
    | 8 => return (.makeArray n s, b)
    | _ => none

/-- A constant; the first argument bounds the nesting of arrays. -/
def const : Nat → Rd Const
  | 0, _ => none
  | f + 1, b => do
    let (t, b) ← num 1 b
    match t with
    | 0 =>
      let (p, b) ← ptr b
      let (n, b) ← num 4 b
      let (is, b) ← many instr n b
      return (.code ⟨is, p⟩, b)
    | 1 =>
      let (s, b) ← string b
      return (.str s, b)
    | 2 =>
      let (x, b) ← num 4 b
      return (.num (UInt32.ofNat x), b)
    | 3 =>
      let (x, b) ← num 1 b
      return (.bool (x == 1), b)
    | 4 =>
      let (n, b) ← num 4 b
      let (cs, b) ← many (const f) n b
      return (.arr cs, b)
    | 5 =>
      let (s, b) ← string b
      return (.nular s, b)
    | _ => none

def list {α : Type} (r : Rd α) : Rd (List α) := fun b => do
  let (n, b) ← num 2 b
  many r n b

/-- The content of an LZO stream of the given size at the start of the input: the shortest piece that decompresses. -/
def stream (size : Nat) : Rd Bytes := fun b =>
  (List.range (b.length + 1)).findSome? fun k =>
    match Lzo.decompress size (b.take k) with
    | .ok (.ok out) => some (out, b.drop k)
    | _ => none

def block : Rd Bytes := fun b => do
  let (n, b) ← num 4 b
  let (m, b) ← num 1 b
  if m = 2 then stream n b else none

/-- reads a whole buffer -/
def whole {α : Type} (r : Rd α) (b : Bytes) : Option α :=
  match r b with
  | some (x, []) => some x
  | _ => none

def expect (t : UInt8) : Rd Unit
  | [] => none
  | b :: bs => if b = t then some ((), bs) else none

/-- What a file holds. -/
structure Script where
  entry : Nat
  consts : List Const
  names : List Bytes
  files : List Bytes

def read (f : Nat) (b : Bytes) : Option Script := do
  let (v, b) ← num 4 b
  if v ≠ 1 then none
  let ((), b) ← expect 5 b
  let (nb, b) ← block b
  let names ← whole (list string) nb
  let (t, b) ← num 1 b
  let (consts, b) ← (if t = 1 then do
      let (cb, b) ← block b
      return (← whole (list (const f)) cb, b)
    else if t = 0 then list (const f) b
    else none)
  let ((), b) ← expect 2 b
  let (files, b) ← list string b
  let ((), b) ← expect 3 b
  let entry ← whole (num 8) b
  return ⟨entry, consts, names, files⟩

end Verif.Sqfc
