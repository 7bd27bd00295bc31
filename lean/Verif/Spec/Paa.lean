import Verif.Model.Paa
import Mathlib.Data.List.Forall2
/-!
Specification for C85 to C87: how a PAA file is put together. It is about concatenation, not about reading.
-/
namespace Verif.Paa

/-- The two bytes that stand for a format. -/
def code : Pax → Bytes
  | .dxt1 => le16 0xFF01
  | .dxt2 => le16 0xFF02
  | .dxt3 => le16 0xFF03
  | .dxt4 => le16 0xFF04
  | .dxt5 => le16 0xFF05
  | .rgba4 => le16 0x4444
  | .rgba5 => le16 0x5515
  | .rgba8 => le16 0x8888
  | .graya => le16 0x8080

/-- The codec for a format. -/
def codec : Pax → Option Format
  | .dxt1 => some .bc1
  | .dxt3 => some .bc2
  | .dxt5 => some .bc3
  | _ => none

/-- The bytes of a tag. -/
def tagBytes (t : Bytes × Bytes) : Bytes := ascii "GGAT" ++ t.1 ++ le32 t.2.length ++ t.2

/-- A file: the format, the tags and what follows, which does not look like a tag. -/
structure Layout (file : Bytes) (pax : Pax) (tags : List (Bytes × Bytes)) (rest : Bytes) : Prop where
  file : file = code pax ++ tags.flatMap tagBytes ++ rest
  tag : ∀ t ∈ tags, t.1.length = 4 ∧ isUtf8 t.1 = true ∧ t.2.length < 2 ^ 32
  long : 4 ≤ rest.length
  other : rest.take 4 ≠ ascii "GGAT"

/-- A mip map stands at the offset. -/
def MapAt (file : Bytes) (f : Format) (o : Nat) (m : MipMap) : Prop :=
  m.format = f ∧ m.width < 2 ^ 16 ∧ m.height < 2 ^ 16 ∧ m.data.length < 2 ^ 24 ∧
    ∃ a b, a.length = o ∧ file = a ++ (le16 m.width ++ le16 m.height ++ leBytes 3 m.data.length ++ m.data) ++ b

/-- The last tag with a name. -/
def lastTag (name : Bytes) (tags : List (Bytes × Bytes)) : Option Bytes :=
  (tags.reverse.find? fun t => t.1 = name).map (·.2)

/-- The numbers in a table of offsets: its bytes are those of the numbers, and less than four bytes more. -/
def Table (offs : Bytes) (l : List Nat) : Prop :=
  ∃ r, r.length < 4 ∧ offs = l.flatMap le32 ++ r ∧ ∀ o ∈ l, o < 2 ^ 32

/-- What reading a file yields: its format, for each name the last tag with that name, and the mip maps at the offsets in
the tag `SFFO` that are not zero, in that order. -/
def Yields (file : Bytes) (pax : Pax) (tags : List (Bytes × Bytes)) (p : File) : Prop :=
  p.format = pax ∧ (p.tags.map Prod.fst).Nodup ∧ (∀ name, getTag name p.tags = lastTag name tags) ∧
    ((lastTag (ascii "SFFO") tags = none ∧ p.maps = []) ∨
     ∃ offs l, lastTag (ascii "SFFO") tags = some offs ∧ Table offs l ∧
       List.Forall₂ (fun o m => ∃ f, codec pax = some f ∧ MapAt file f o m) (l.filter (· ≠ 0)) p.maps)

end Verif.Paa
