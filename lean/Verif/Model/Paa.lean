import Verif.Model.Lzo
/-!
Model of PAA images: `/repo/libs/paa/src/{paa,pax,mipmap}.rs`.

* The codec of the block formats (`texpresso`) is left out: writing takes the bytes it makes, and of reading an image the
  model gives what is handed to it.
* The table of tags is a list of names and contents without repetitions; its order means nothing.
* Reading a length and making a buffer of that size may exhaust memory; the model has unbounded memory.
* Sums of `u32` wrap round (release profile); where they could, writing aborts later (`C85_total`).
-/
namespace Verif.Paa

/-- `pax.rs:6-16`, `PaXType`. -/
inductive Pax
  | dxt1 | dxt2 | dxt3 | dxt4 | dxt5 | rgba4 | rgba5 | rgba8 | graya
  deriving DecidableEq, Repr

/-- `pax.rs:29-42`, `from_bytes`. -/
def Pax.fromBytes : Bytes → Option Pax
  | [1, 255] => some .dxt1
  | [2, 255] => some .dxt2
  | [3, 255] => some .dxt3
  | [4, 255] => some .dxt4
  | [5, 255] => some .dxt5
  | [68, 68] => some .rgba4
  | [21, 85] => some .rgba5
  | [136, 136] => some .rgba8
  | [128, 128] => some .graya
  | _ => none

/-- `pax.rs:45-57`, `as_bytes`. -/
def Pax.asBytes : Pax → Bytes
  | .dxt1 => [1, 255]
  | .dxt2 => [2, 255]
  | .dxt3 => [3, 255]
  | .dxt4 => [4, 255]
  | .dxt5 => [5, 255]
  | .rgba4 => [68, 68]
  | .rgba5 => [21, 85]
  | .rgba8 => [136, 136]
  | .graya => [128, 128]

/-- The formats of `texpresso` that are used. -/
inductive Format
  | bc1 | bc2 | bc3
  deriving DecidableEq, Repr

/-- `pax.rs:60-69`, `From<PaXType> for Format`. -/
def Pax.format : Pax → Except Err Format
  | .dxt1 => .ok .bc1
  | .dxt3 => .ok .bc2
  | .dxt5 => .ok .bc3
  | _ => .error .panic

/-- `Format::compressed_size` of `texpresso`: blocks of four by four pixels. -/
def Format.size (f : Format) (w h : Nat) : Nat :=
  (w + 3) / 4 * ((h + 3) / 4) * (if f = .bc1 then 8 else 16)

/-- `mipmap.rs:7-12`, `MipMap`. -/
structure MipMap where
  width : Nat
  height : Nat
  data : Bytes
  format : Format
  deriving DecidableEq, Repr

/-- `mipmap.rs:19-31`, `from_stream`. -/
def MipMap.fromStream (f : Format) (bs : Bytes) : Except Err MipMap :=
  match readLe 2 bs with
  | .error e => .error e
  | .ok (width, bs) => match readLe 2 bs with
    | .error e => .error e
    | .ok (height, bs) => match readLe 3 bs with
      | .error e => .error e
      | .ok (length, bs) => match takeN length bs with
        | .error e => .error e
        | .ok (data, _) => .ok ⟨width, height, data, f⟩

/-- `mipmap.rs:45-47`, `is_compressed`. -/
def MipMap.isCompressed (m : MipMap) : Bool := m.width % 32768 ≠ m.width

/-- `mipmap.rs:35-41`, `width`. -/
def MipMap.realWidth (m : MipMap) : Nat := if m.isCompressed then m.width - 32768 else m.width

/-- `mipmap.rs:78-107`, `get_image`: the bytes handed to the codec, the width and the height. The result of
decompressing is ignored; what it has not written is zero. -/
def MipMap.decoderInput (m : MipMap) : Except Err (Bytes × Nat × Nat) :=
  let width := if m.width % 32768 = m.width then m.width else m.width - 32768
  let size := if m.format = .bc1 then width * m.height / 2 else width * m.height
  if m.width % 32768 = m.width then .ok (m.data, width, m.height)
  else match Lzo.decompressRaw size m.data with
    | .error _ => .error .panic
    | .ok r => .ok (r.written ++ List.replicate (size - r.written.length) 0, width, m.height)

/-- `paa.rs:17-21`, `Paa`. -/
structure File where
  format : Pax
  tags : List (Bytes × Bytes)
  maps : List MipMap
  deriving DecidableEq, Repr

/-- `HashMap::insert`. -/
def insertTag (name data : Bytes) (tags : List (Bytes × Bytes)) : List (Bytes × Bytes) :=
  (name, data) :: tags.filter fun t => t.1 ≠ name

/-- `HashMap::get`. -/
def getTag (name : Bytes) (tags : List (Bytes × Bytes)) : Option Bytes := (tags.find? fun t => t.1 = name).map (·.2)

/-- `paa.rs:59-82`: the loop over the tags. `n` bounds the number of rounds. -/
def readTags : Nat → List (Bytes × Bytes) → Bytes → Except Err (List (Bytes × Bytes))
  | 0, _, _ => .error .panic
  | n + 1, tags, bs => match takeN 4 bs with
    | .error e => .error e
    | .ok (sig, bs) =>
      if sig = ascii "GGAT" then match takeN 4 bs with
        | .error e => .error e
        | .ok (name, bs) =>
          if isUtf8 name then match readLe 4 bs with
            | .error e => .error e
            | .ok (len, bs) => match takeN len bs with
              | .error e => .error e
              | .ok (data, bs) => readTags n (insertTag name data tags) bs
          else .error .parse
      else .ok tags

/-- `paa.rs:85-89`: the numbers in the table of offsets; what is left of four bytes is ignored. -/
def offsets : Bytes → List Nat
  | a :: b :: c :: d :: bs => leValue [a, b, c, d] :: offsets bs
  | _ => []

/-- `paa.rs:85-95`: the mip maps at the offsets that are not zero. -/
def readMaps (pax : Pax) (file : Bytes) : List Nat → Except Err (List MipMap)
  | [] => .ok []
  | o :: os =>
    if o = 0 then readMaps pax file os
    else match pax.format with
      | .error e => .error e
      | .ok f => match MipMap.fromStream f (file.drop o) with
        | .error e => .error e
        | .ok m => match readMaps pax file os with
          | .error e => .error e
          | .ok ms => .ok (m :: ms)

/-- `paa.rs:55-104`, `read`. -/
def read (file : Bytes) : Except Err File :=
  match takeN 2 file with
  | .error _ => .error .parse
  | .ok (b, bs) => match Pax.fromBytes b with
    | none => .error .parse
    | some pax => match readTags (file.length + 1) [] bs with
      | .error e => .error e
      | .ok tags => match getTag (ascii "SFFO") tags with
        | none => .ok ⟨pax, tags, []⟩
        | some offs => match readMaps pax file (offsets offs) with
          | .error e => .error e
          | .ok maps => .ok ⟨pax, tags, maps⟩

/-- A pixel: red, green, blue and alpha. -/
structure Pixel where
  r : UInt8
  g : UInt8
  b : UInt8
  a : UInt8
  deriving DecidableEq, Repr

/-- An image. -/
structure Image where
  width : Nat
  height : Nat
  pixels : List Pixel

/-- One channel of the mean colour, `paa.rs:117-139`. -/
def average (i : Image) (ch : Pixel → UInt8) : UInt8 :=
  UInt8.ofNat ((i.pixels.foldl (fun acc p => (acc + (ch p).toNat) % 2 ^ 32) 0) / (i.width * i.height % 2 ^ 32))

/-- One channel of the greatest colour, `paa.rs:144-153`. -/
def greatest (i : Image) (ch : Pixel → UInt8) : UInt8 := i.pixels.foldl (fun acc p => max acc (ch p)) 0

/-- `paa.rs:110-182`, `write`. `data` are the bytes the codec makes of the image. Writing a size of more than 24 bits
aborts, as does dividing by zero pixels. -/
def write (i : Image) (data : Bytes) : Except Err Bytes :=
  if i.width * i.height % 2 ^ 32 = 0 then .error .panic
  else
    let size := Format.bc3.size i.width i.height
    if 2 ^ 24 ≤ size then .error .panic
    else .ok (Pax.dxt5.asBytes ++
      (ascii "GGATAVGC" ++ le32 4 ++ [average i Pixel.r, average i Pixel.g, average i Pixel.b, average i Pixel.a]) ++
      (ascii "GGATCXAM" ++ le32 4 ++ [greatest i Pixel.r, greatest i Pixel.g, greatest i Pixel.b, greatest i Pixel.a]) ++
      (ascii "GGATSFFO" ++ le32 64 ++ le32 (2 + 8 + 4 + 4 + 8 + 4 + 4 + 8 + 4 + 64) ++ List.replicate 60 0) ++
      (le16 i.width ++ le16 i.height ++ leBytes 3 size ++ data))

end Verif.Paa
