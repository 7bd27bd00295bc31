import Verif.Model.Pbo
/-!
Model of unpacking an archive, `/repo/bin/src/utils/pbo/unpack.rs`, on a Unix file system.

* A file system maps absolute paths, as lists of names from the root, to files and directories. There are no links,
  permissions or limits on names. A relative output directory is taken as resolved against the current directory.
* Names are bytes without NUL (they are read as C strings).
* An error leaves behind what was done before it: results carry the file system.
-/
namespace Verif.Unpack
open Verif.Pbo

abbrev Path := List Bytes

inductive Node
  | dir
  | file (content : Bytes)
  deriving DecidableEq, Repr

abbrev FS := Path → Option Node

/-- The file system with one entry replaced. -/
def FS.set (fs : FS) (p : Path) (n : Node) : FS := fun q => if q = p then some n else fs q

/-- The pieces of a name between slashes. -/
def splitSlash : Bytes → List Bytes
  | [] => [[]]
  | b :: bs =>
    if b = 47 then [] :: splitSlash bs
    else match splitSlash bs with
      | s :: ss => (b :: s) :: ss
      | [] => [[b]]

/-- `Path::components`: empty pieces and `.` do not count. -/
def components (ss : List Bytes) : List Bytes := ss.filter fun s => !(s = [] || s = ascii ".")

/-- `std::fs::create_dir_all`: the directories on the way, `..` being the parent. The path arrived at. -/
def createDirAll (fs : FS) (at_ : Path) : List Bytes → Except Err Path × FS
  | [] => (.ok at_, fs)
  | s :: ss =>
    if s = ascii ".." then createDirAll fs at_.dropLast ss
    else match fs (at_ ++ [s]) with
      | none => createDirAll (fs.set (at_ ++ [s]) .dir) (at_ ++ [s]) ss
      | some .dir => createDirAll fs (at_ ++ [s]) ss
      | some (.file _) => (.error .io, fs)

/-- `File::create`: a new or emptied file. -/
def create (fs : FS) (p : Path) : Except Err Unit × FS :=
  match fs p with
  | some .dir => (.error .io, fs)
  | _ => (.ok (), fs.set p (.file []))

/-- `write_all` at the end of an open file. -/
def append (fs : FS) (p : Path) (content : Bytes) : FS :=
  match fs p with
  | some (.file old) => fs.set p (.file (old ++ content))
  | _ => fs

/-- `OpenOptions::new().create(true).append(true).open`. -/
def openAppend (fs : FS) (p : Path) : Except Err Unit × FS :=
  match fs p with
  | some .dir => (.error .io, fs)
  | some (.file _) => (.ok (), fs)
  | none => (.ok (), fs.set p (.file []))

/-- `unpack.rs:32-44`, the properties. -/
def properties (fs : FS) (output : Path) : List (Bytes × Bytes) → Except Err Unit × FS
  | [] => (.ok (), fs)
  | (key, value) :: ps =>
    if key = prefixKey then
      match create fs (output ++ [ascii "$PBOPREFIX$"]) with
      | (.error e, fs) => (.error e, fs)
      | (.ok _, fs) => properties (append fs (output ++ [ascii "$PBOPREFIX$"]) value) output ps
    else
      match openAppend fs (output ++ [ascii "properties.txt"]) with
      | (.error e, fs) => (.error e, fs)
      | (.ok _, fs) =>
        properties (append fs (output ++ [ascii "properties.txt"]) (key ++ ascii "=" ++ value ++ ascii "\n")) output ps

/-- `header.filename().replace('\\', "/")` -/
def slashes (name : Bytes) : Bytes := name.map fun b => if b = 92 then 47 else b

/-- `unpack.rs:46-48`: the path is joined, its parent made and the file created. Joining an absolute path replaces the
output directory; the root has no parent (47, `expect`); a path that ends in a slash, `.` or `..` is a directory. -/
def place (fs : FS) (output : Path) (name : Bytes) : Except Err Path × FS :=
  let name := slashes name
  let start := if name.head? = some 47 then [] else output
  let ss := splitSlash name
  let cs := components ss
  if name.head? = some 47 ∧ cs = [] then (.error .panic, fs)
  else match createDirAll fs start cs.dropLast with
    | (.error e, fs) => (.error e, fs)
    | (.ok dir, fs) =>
      let last := ss.getLast?.getD []
      if last = [] ∨ last = ascii "." ∨ last = ascii ".." then (.error .io, fs)
      else match create fs (dir ++ [last]) with
        | (.error e, fs) => (.error e, fs)
        | (.ok _, fs) => (.ok (dir ++ [last]), fs)

/-- `unpack.rs:45-53`, the files. -/
def files (lower : Bytes → Bytes) (p : RPbo) (fs : FS) (output : Path) : List Header → Except Err Unit × FS
  | [] => (.ok (), fs)
  | h :: hs => match place fs output h.filename with
    | (.error e, fs) => (.error e, fs)
    | (.ok path, fs) => match p.file lower h.filename with
      | none => (.error .panic, fs)
      | some content => files lower p (append fs path content) output hs

/-- `unpack.rs:23-55`, `execute`, of an archive that has been read. -/
def unpack (lower : Bytes → Bytes) (p : RPbo) (fs : FS) (output : Path) : Except Err Unit × FS :=
  if (fs output).isSome then (.ok (), fs)
  else match createDirAll fs [] output with
    | (.error e, fs) => (.error e, fs)
    | (.ok _, fs) => match properties fs output p.properties with
      | (.error e, fs) => (.error e, fs)
      | (.ok _, fs) => files lower p fs output p.headers

end Verif.Unpack
