import Verif.Model.Io
import Verif.Lib.IndexMap
/-!
Model of `/repo/libs/p3d/src/{lib,lod,face,point,vertex}.rs`.
`f32` values are their 32 bits (reading and writing a float copies its bits). `Vec::with_capacity` on counts from the
file may exhaust memory; the model has unbounded memory. `String`s are byte lists, valid UTF-8 by type.
-/
namespace Verif.P3d
open Io

/-- `read_u32::<LittleEndian>` / `read_f32::<LittleEndian>` -/
def rU32 : Reader UInt32 := fun bs =>
  match readLe 4 bs with
  | .ok (v, rest) => .ok (UInt32.ofNat v, rest)
  | .error e => .error e

/-- `write_u32::<LittleEndian>` / `write_f32::<LittleEndian>` -/
def wU32 (x : UInt32) : Bytes := le32 x.toNat

/-- A `for _i in 0..n` loop pushing what `r` reads. -/
def readN {α : Type} (r : Reader α) : Nat → Reader (List α)
  | 0, bs => .ok ([], bs)
  | n+1, bs =>
    match r bs with
    | .error e => .error e
    | .ok (a, bs) =>
      match readN r n bs with
      | .error e => .error e
      | .ok (as, bs) => .ok (a :: as, bs)

/-- repo: libs/p3d/src/point.rs:8-11 -/
structure Point where
  x : UInt32
  y : UInt32
  z : UInt32
  flags : UInt32
deriving DecidableEq, Repr

/-- repo: libs/p3d/src/point.rs:26-35 (`Point::read`) -/
def Point.read : Reader Point := fun bs => do
  let (x, bs) ← rU32 bs
  let (y, bs) ← rU32 bs
  let (z, bs) ← rU32 bs
  let (f, bs) ← rU32 bs
  .ok (⟨x, y, z, f⟩, bs)

/-- repo: libs/p3d/src/point.rs:41-47 (`Point::write`) -/
def Point.write (p : Point) : Bytes := wU32 p.x ++ wU32 p.y ++ wU32 p.z ++ wU32 p.flags

/-- repo: libs/p3d/src/vertex.rs:8-12 -/
structure Vertex where
  point : UInt32
  normal : UInt32
  u : UInt32
  v : UInt32
deriving DecidableEq, Repr

/-- repo: libs/p3d/src/vertex.rs:16-22 (`Vertex::new`) -/
def Vertex.new : Vertex := ⟨0, 0, 0, 0⟩

/-- repo: libs/p3d/src/vertex.rs:28-37 (`Vertex::read`) -/
def Vertex.read : Reader Vertex := fun bs => do
  let (p, bs) ← rU32 bs
  let (n, bs) ← rU32 bs
  let (u, bs) ← rU32 bs
  let (v, bs) ← rU32 bs
  .ok (⟨p, n, u, v⟩, bs)

/-- repo: libs/p3d/src/vertex.rs:43-49 (`Vertex::write`) -/
def Vertex.write (p : Vertex) : Bytes := wU32 p.point ++ wU32 p.normal ++ wU32 p.u ++ wU32 p.v

/-- repo: libs/p3d/src/face.rs:9-14 -/
structure Face where
  vertices : List Vertex
  flags : UInt32
  texture : Bytes
  material : Bytes
deriving DecidableEq, Repr

/-- repo: libs/p3d/src/face.rs:31-57 (`Face::read`) -/
def Face.read : Reader Face := fun bs => do
  let (n, bs) ← rU32 bs
  if n ≠ 3 ∧ n ≠ 4 then .error .parse
  else
    let (vs, bs) ← readN Vertex.read n.toNat bs
    let bs ← if n = 3 then (do let (_, bs) ← Vertex.read bs; .ok bs) else .ok bs
    let (flags, bs) ← rU32 bs
    let (tex, bs) := readCString bs
    let (mat, bs) := readCString bs
    .ok (⟨vs, flags, tex, mat⟩, bs)

/-- repo: libs/p3d/src/face.rs:63-82 (`Face::write`) -/
def Face.write (f : Face) : Except Err Bytes :=
  if 2 ^ 32 ≤ f.vertices.length then .error .parse
  else if f.vertices.length ≠ 3 ∧ f.vertices.length ≠ 4 then .error .parse
  else .ok (le32 f.vertices.length ++ f.vertices.flatMap Vertex.write ++
    (if f.vertices.length = 3 then Vertex.new.write else []) ++
    wU32 f.flags ++ writeCString f.texture ++ writeCString f.material)

/-- repo: libs/p3d/src/lod.rs:10-18 -/
structure Lod where
  major : UInt32
  minor : UInt32
  resolution : UInt32
  points : List Point
  normals : List (UInt32 × UInt32 × UInt32)
  faces : List Face
  taggs : List (Bytes × Bytes)
deriving DecidableEq, Repr

/-- The name of the last section, repo: libs/p3d/src/lod.rs:80,145. -/
def endName : Bytes := ascii "#EndOfFile#"

/-- One face normal, repo: libs/p3d/src/lod.rs:52-56. -/
def readNormal : Reader (UInt32 × UInt32 × UInt32) := fun bs => do
  let (x, bs) ← rU32 bs
  let (y, bs) ← rU32 bs
  let (z, bs) ← rU32 bs
  .ok ((x, y, z), bs)

/-- repo: libs/p3d/src/lod.rs:127-129 -/
def writeNormal (n : UInt32 × UInt32 × UInt32) : Bytes := wU32 n.1 ++ wU32 n.2.1 ++ wU32 n.2.2

/-- The section loop, repo: libs/p3d/src/lod.rs:72-86. `input.bytes().next()` skips a byte if there is one. The code
has no counter; running out of `fuel` is marked as a panic (and shown not to happen). -/
def readTaggs : Nat → List (Bytes × Bytes) → Reader (List (Bytes × Bytes))
  | 0, _, _ => .error .panic
  | f+1, taggs, bs => do
    let (name, bs) := readCString (bs.drop 1)
    let (size, bs) ← rU32 bs
    let (buf, bs) ← takeN size.toNat bs
    if name = endName then .ok (taggs, bs) else readTaggs f (IMap.insert taggs name buf) bs

/-- repo: libs/p3d/src/lod.rs:25-99 (`LOD::read`). `input.bytes().nth(3)` skips up to four bytes. -/
def Lod.read : Reader Lod := fun bs => do
  let (magic, bs) ← takeN 4 bs
  if magic ≠ ascii "P3DM" then .error .parse
  else
    let (major, bs) ← rU32 bs
    let (minor, bs) ← rU32 bs
    let (np, bs) ← rU32 bs
    let (nn, bs) ← rU32 bs
    let (nf, bs) ← rU32 bs
    let bs := bs.drop 4
    let (points, bs) ← readN Point.read np.toNat bs
    let (normals, bs) ← readN readNormal nn.toNat bs
    let (faces, bs) ← readN Face.read nf.toNat bs
    let (tagg, bs) ← takeN 4 bs
    if tagg ≠ ascii "TAGG" then .error .parse
    else
      let (taggs, bs) ← readTaggs (bs.length + 1) [] bs
      let (resolution, bs) ← rU32 bs
      .ok (⟨major, minor, resolution, points, normals, faces, taggs⟩, bs)

/-- A sequence of writes that stops at the first error. -/
def writeAll {α : Type} (w : α → Except Err Bytes) : List α → Except Err Bytes
  | [] => .ok []
  | a :: as =>
    match w a with
    | .error e => .error e
    | .ok b =>
      match writeAll w as with
      | .error e => .error e
      | .ok bs => .ok (b ++ bs)

/-- One section, repo: libs/p3d/src/lod.rs:138-144. -/
def writeTagg (t : Bytes × Bytes) : Except Err Bytes :=
  if 2 ^ 32 ≤ t.2.length then .error .parse
  else .ok ([1] ++ writeCString t.1 ++ le32 t.2.length ++ t.2)

/-- repo: libs/p3d/src/lod.rs:105-151 (`LOD::write`) -/
def Lod.write (l : Lod) : Except Err Bytes :=
  if 2 ^ 32 ≤ l.points.length ∨ 2 ^ 32 ≤ l.normals.length ∨ 2 ^ 32 ≤ l.faces.length then .error .parse
  else do
    let fs ← writeAll Face.write l.faces
    let ts ← writeAll writeTagg l.taggs
    .ok (ascii "P3DM" ++ wU32 l.major ++ wU32 l.minor ++ le32 l.points.length ++ le32 l.normals.length ++
      le32 l.faces.length ++ [0, 0, 0, 0] ++ l.points.flatMap Point.write ++ l.normals.flatMap writeNormal ++
      fs ++ ascii "TAGG" ++ ts ++ writeCString ([1] ++ endName) ++ le32 0 ++ wU32 l.resolution)

/-- repo: libs/p3d/src/lib.rs:30-33 -/
structure Model where
  version : UInt32
  lods : List Lod
deriving DecidableEq, Repr

/-- repo: libs/p3d/src/lib.rs:40-60 (`P3D::read`); the rest of the input is left alone. -/
def Model.read (bs : Bytes) : Except Err (Model × Bytes) := do
  let (magic, bs) ← takeN 4 bs
  if magic ≠ ascii "MLOD" then .error .parse
  else
    let (version, bs) ← rU32 bs
    let (n, bs) ← rU32 bs
    let (lods, bs) ← readN Lod.read n.toNat bs
    .ok (⟨version, lods⟩, bs)

/-- repo: libs/p3d/src/lib.rs:67-82 (`P3D::write`). After an error part of the file may have been written; the model
keeps only the error. -/
def Model.write (m : Model) : Except Err Bytes :=
  if 2 ^ 32 ≤ m.lods.length then .error .parse
  else do
    let ls ← writeAll Lod.write m.lods
    .ok (ascii "MLOD" ++ wU32 m.version ++ le32 m.lods.length ++ ls)

end Verif.P3d
