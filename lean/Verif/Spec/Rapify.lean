import Verif.Model.Rapify
/-!
A reader for the binary ("raP") config format, written from the format description and independent of the
writer's functions: its own string, variable-length integer and offset handling. Class bodies are found by
following absolute offsets, and the reader insists that the bodies tile the file: every class entry must
point to where the previous body ended, and the stored end offset of a class must be where its last body ends.
-/
namespace Verif.Rap

mutual
/-- no unparsable item -/
def Item.clean : Item → Prop
  | .arr is => itemsClean is
  | .invalid => False
  | _ => True
def itemsClean : List Item → Prop
  | [] => True
  | i :: is => i.clean ∧ itemsClean is
end

def Value.clean : Value → Prop
  | .arr _ is => itemsClean is
  | .invalid => False
  | _ => True

mutual
/-- no node left over from a reported parse error -/
def Prp.clean : Prp → Prop
  | .entry _ v => v.clean
  | .loc _ _ ps => propsClean ps
  | .missing _ => False
  | _ => True
def propsClean : List Prp → Prop
  | [] => True
  | p :: ps => p.clean ∧ propsClean ps
end

/-- range of the two integer widths and of a float's bit pattern -/
def Num.fits : Num → Prop
  | .i32 v => -2 ^ 31 ≤ v ∧ v < 2 ^ 31
  | .i64 v => -2 ^ 63 ≤ v ∧ v < 2 ^ 63
  | .f32 b => b < 2 ^ 32

mutual
/-- strings without NUL, numbers in range -/
def Item.fits : Item → Prop
  | .str s => (0 : UInt8) ∉ s
  | .num n => n.fits
  | .arr is => itemsFit is
  | .invalid => True
def itemsFit : List Item → Prop
  | [] => True
  | i :: is => i.fits ∧ itemsFit is
end

def Value.fits : Value → Prop
  | .str s => (0 : UInt8) ∉ s
  | .num n => n.fits
  | .expr s => (0 : UInt8) ∉ s
  | .arr _ is => itemsFit is
  | .invalid => True

mutual
/-- names and strings without NUL, numbers in range; a parent, when given, has a name -/
def Prp.fits : Prp → Prop
  | .entry n v => (0 : UInt8) ∉ n ∧ v.fits
  | .loc n parent ps => (0 : UInt8) ∉ n ∧ (∀ p, parent = some p → p ≠ [] ∧ (0 : UInt8) ∉ p) ∧ propsFit ps
  | .ext n => (0 : UInt8) ∉ n
  | .del n => (0 : UInt8) ∉ n
  | .missing n => (0 : UInt8) ∉ n
def propsFit : List Prp → Prop
  | [] => True
  | p :: ps => p.fits ∧ propsFit ps
end

end Verif.Rap

namespace Verif.Rap.Spec
open Verif.Rap

/-- zero-terminated string -/
def cstr : Bytes → Option (Bytes × Bytes)
  | [] => none
  | b :: bs => if b = 0 then some ([], bs) else
      match cstr bs with
      | some (s, r) => some (b :: s, r)
      | none => none

/-- little-endian base-128 integer, high bit marks continuation -/
def varint : Bytes → Option (Nat × Bytes)
  | [] => none
  | b :: bs => if b.toNat < 128 then some (b.toNat, bs) else
      match varint bs with
      | some (v, r) => some (b.toNat - 128 + 128 * v, r)
      | none => none

/-- unsigned little-endian 32-bit integer -/
def u32 : Bytes → Option (Nat × Bytes)
  | a :: b :: c :: d :: r =>
    some (a.toNat + 2 ^ 8 * b.toNat + 2 ^ 16 * c.toNat + 2 ^ 24 * d.toNat, r)
  | _ => none

/-- two's complement reading of an unsigned `n`-bit number -/
def signed (n v : Nat) : Int := if v < 2 ^ (n - 1) then v else (v : Int) - 2 ^ n

/-- signed little-endian 32-bit integer -/
def i32 (bs : Bytes) : Option (Int × Bytes) :=
  match u32 bs with
  | some (v, r) => some (signed 32 v, r)
  | none => none

/-- signed little-endian 64-bit integer -/
def i64 (bs : Bytes) : Option (Int × Bytes) :=
  match u32 bs with
  | some (lo, r) =>
    match u32 r with
    | some (hi, r) => some (signed 64 (lo + 2 ^ 32 * hi), r)
    | none => none
  | none => none

/-- `n` repetitions of a reader -/
def rep {α : Type} (f : Bytes → Option (α × Bytes)) : Nat → Bytes → Option (List α × Bytes)
  | 0, bs => some ([], bs)
  | n+1, bs =>
    match f bs with
    | some (a, r) =>
      match rep f n r with
      | some (l, r) => some (a :: l, r)
      | none => none
    | none => none

/-- map the value of a reader result -/
def out {α β : Type} (f : α → β) : Option (α × Bytes) → Option (β × Bytes)
  | some (a, r) => some (f a, r)
  | none => none

/-- a number or string of the given type code -/
def scalar (code : UInt8) (bs : Bytes) : Option (Sum Num Bytes × Bytes) :=
  if code = 0 then out Sum.inr (cstr bs)
  else if code = 1 then out (fun v => Sum.inl (Num.f32 v)) (u32 bs)
  else if code = 2 then out (fun v => Sum.inl (Num.i32 v)) (i32 bs)
  else if code = 6 then out (fun v => Sum.inl (Num.i64 v)) (i64 bs)
  else none

/-- array element; the fuel bounds the nesting depth -/
def item : Nat → Bytes → Option (Item × Bytes)
  | 0, _ => none
  | _, [] => none
  | fuel+1, code :: bs =>
    if code = 3 then
      match varint bs with
      | some (n, r) => out Item.arr (rep (item fuel) n r)
      | none => none
    else out (fun | .inl n => Item.num n | .inr s => Item.str s) (scalar code bs)

/-- array: count and elements -/
def array (fuel : Nat) (bs : Bytes) : Option (List Item × Bytes) :=
  match varint bs with
  | some (n, r) => rep (item fuel) n r
  | none => none

/-- An entry of a property table: complete, or a class whose body is elsewhere. -/
inductive Raw where
  | done (p : Prp)
  | cls (name : Bytes) (off : Nat)

/-- property table entry -/
def entry (fuel : Nat) : Bytes → Option (Raw × Bytes)
  | [] => none
  | t :: bs =>
    if t = 0 then
      match cstr bs with
      | some (name, r) => out (Raw.cls name) (u32 r)
      | none => none
    else if t = 1 then
      match bs with
      | [] => none
      | sub :: bs =>
        match cstr bs with
        | some (name, r) =>
          if sub = 4 then out (fun s => .done (.entry name (.expr s))) (cstr r)
          else out (fun | .inl n => .done (.entry name (.num n)) | .inr s => .done (.entry name (.str s)))
            (scalar sub r)
        | none => none
    else if t = 2 then
      match cstr bs with
      | some (name, r) => out (fun is => .done (.entry name (.arr false is))) (array fuel r)
      | none => none
    else if t = 3 then out (fun n => .done (.ext n)) (cstr bs)
    else if t = 4 then out (fun n => .done (.del n)) (cstr bs)
    else if t = 5 then
      match u32 bs with
      | some (flag, r) =>
        if flag ≠ 1 then none else
        match cstr r with
        | some (name, r) => out (fun is => .done (.entry name (.arr true is))) (array fuel r)
        | none => none
      | none => none
    else none

/-- Follow the class entries of a property table, in order. `next` is where the next body must begin. -/
def resolve (body : Nat → Option (Option Bytes × List Prp × Nat)) :
    List Raw → Nat → Option (List Prp × Nat)
  | [], next => some ([], next)
  | .done p :: rs, next =>
    match resolve body rs next with
    | some (ps, e) => some (p :: ps, e)
    | none => none
  | .cls name off :: rs, next =>
    if off ≠ next then none else
    match body off with
    | none => none
    | some (parent, cs, e) =>
      match resolve body rs e with
      | some (ps, e') => some (.loc name parent cs :: ps, e')
      | none => none

/-- The class body at absolute offset `off`: parent, properties, and the offset after it and its children. -/
def cls : Nat → Bytes → Nat → Option (Option Bytes × List Prp × Nat)
  | 0, _, _ => none
  | fuel+1, file, off =>
    match cstr (file.drop off) with
    | none => none
    | some (parent, r) =>
      match varint r with
      | none => none
      | some (n, r) =>
        match rep (entry fuel) n r with
        | none => none
        | some (raws, r) =>
          match u32 r with
          | none => none
          | some (fin, r) =>
            match resolve (cls fuel file) raws (file.length - r.length) with
            | none => none
            | some (ps, e) =>
              if e = fin then some (if parent = [] then none else some parent, ps, fin) else none

/-- A whole file: magic, version words 0 and 8, offset of the (empty) enum table, root class at 16. -/
def decode (file : Bytes) : Option (List Prp) :=
  if file.take 12 ≠ [0, 0x72, 0x61, 0x50, 0, 0, 0, 0, 8, 0, 0, 0] then none else
  match u32 (file.drop 12) with
  | none => none
  | some (enumOff, _) =>
    match cls (file.length + 1) file 16 with
    | some (none, ps, e) =>
      if e = enumOff ∧ file.drop e = [0, 0, 0, 0] then some ps else none
    | _ => none

end Verif.Rap.Spec
