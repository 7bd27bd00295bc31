import Verif.Lib.Lex
import Verif.Lib.IndexMap
import Verif.Model.Io
/-!
Model of `/repo/libs/pbo/src` (writer, reader, headers).

* Files are in-memory byte strings; a Rust `Seek + Read` input only enters through its whole content.
* SHA-1 is a parameter `H`; `str::to_lowercase` is a parameter `lower`.
* `files: HashMap` is an association list; its iteration order is the extra argument `iter`.
* The two-thread hashing/writing of files over 1 MB (write.rs:179-190) performs the same two effects on
  separate objects and is modelled as doing both.
-/
namespace Verif.Pbo
open Verif.Io

/-- repo: libs/pbo/src/model/mime.rs:3-14 (`Mime`) -/
inductive Mime where
  | vers | cprs | enco | blank
deriving DecidableEq, Repr

/-- repo: libs/pbo/src/model/mime.rs:19-26 (`as_u32`) -/
def Mime.asU32 : Mime → Nat
  | .vers => 0x56657273
  | .cprs => 0x43707273
  | .enco => 0x456e6372
  | .blank => 0

/-- repo: libs/pbo/src/model/mime.rs:30-38 (`from_u32`) -/
def Mime.fromU32 (v : Nat) : Option Mime :=
  if v = 0x56657273 then some .vers
  else if v = 0x43707273 then some .cprs
  else if v = 0x456e6372 then some .enco
  else if v = 0 then some .blank
  else none

/-- repo: libs/pbo/src/model/header.rs:10-17 (`Header`) -/
structure Header where
  filename : Bytes
  mime : Mime
  original : Nat
  reserved : Nat
  timestamp : Nat
  size : Nat
deriving DecidableEq, Repr

/-- `Header::default()` -/
def Header.default : Header := ⟨[], .blank, 0, 0, 0, 0⟩

/-- repo: libs/pbo/src/model/header.rs:22-29 (`new_for_file`) -/
def Header.newForFile (filename : Bytes) (size : Nat) : Header :=
  { Header.default with filename := filename, original := size, size := size }

/-- repo: libs/pbo/src/model/header.rs:33-39 (`property`) -/
def Header.property : Header := { Header.default with mime := .vers }

/-- repo: libs/pbo/src/model/header.rs:82-91 (`write_pbo`) -/
def Header.write (h : Header) : Bytes :=
  h.filename ++ [0] ++ le32 h.mime.asU32 ++ le32 h.original ++ le32 h.reserved
    ++ le32 h.timestamp ++ le32 h.size

/-- repo: libs/pbo/src/model/header.rs:95-111 (`read_pbo`): header, announced size, rest. -/
def Header.read (bs : Bytes) : Except Err (Header × Nat × Bytes) := do
  let (filename, bs) := readCString bs
  let (mime, bs) ← readLe 4 bs
  match Mime.fromU32 mime with
  | none => .error .parse
  | some m =>
    let (original, bs) ← readLe 4 bs
    let (reserved, bs) ← readLe 4 bs
    let (timestamp, bs) ← readLe 4 bs
    let (size, bs) ← readLe 4 bs
    .ok (⟨filename, m, original, reserved, timestamp, size⟩, 4 * 5 + (filename.length + 1), bs)

/-- `str::replace('/', "\\")` -/
def norm (name : Bytes) : Bytes := name.map (fun b => if b = 47 then 92 else b)

/-- `str::trim_matches('\\')` -/
def trimBackslash (v : Bytes) : Bytes :=
  ((v.dropWhile (· == 92)).reverse.dropWhile (· == 92)).reverse

/-- repo: libs/pbo/src/write.rs:14-17 (`WritablePbo`) -/
structure WPbo where
  properties : List (Bytes × Bytes)
  files : List (Bytes × (Bytes × Header))
deriving DecidableEq, Repr

/-- repo: libs/pbo/src/write.rs:22-27 (`new`) -/
def WPbo.new : WPbo := ⟨[], []⟩

/-- repo: libs/pbo/src/write.rs:33-47 (`add_file`) -/
def WPbo.addFile (p : WPbo) (name content : Bytes) : Except Err WPbo :=
  if content.length > 2 ^ 32 - 1 then .error .parse
  else
    let name := norm name
    .ok { p with files := IMap.insert p.files name (content, Header.newForFile name content.length) }

/-- repo: libs/pbo/src/write.rs:53-60 (`add_file_with_header`) -/
def WPbo.addFileWithHeader (p : WPbo) (h : Header) (content : Bytes) : WPbo :=
  { p with files := IMap.insert p.files (norm h.filename) (content, h) }

/-- repo: libs/pbo/src/write.rs:66-74 (`file`) -/
def WPbo.file (p : WPbo) (name : Bytes) : Option Bytes :=
  (IMap.get p.files (norm name)).map Prod.fst

/-- repo: libs/pbo/src/write.rs:99-106 (`add_property`) -/
def WPbo.addProperty (p : WPbo) (k v : Bytes) : WPbo :=
  { p with properties := IMap.insert p.properties k (trimBackslash v) }

/-- repo: libs/pbo/src/write.rs:109-111 (`remove_property`) -/
def WPbo.removeProperty (p : WPbo) (k : Bytes) : WPbo :=
  { p with properties := IMap.swapRemove p.properties k }

/-- repo: libs/pbo/src/write.rs:115-117 (`property`) -/
def WPbo.property (p : WPbo) (k : Bytes) : Option Bytes := IMap.get p.properties k

/-- Comparison used by every sort, repo: libs/pbo/src/write.rs:90-94 and read.rs:101-105 -/
def hdrLe (lower : Bytes → Bytes) (a b : Header) : Bool :=
  lexLe (lower a.filename) (lower b.filename)

/-- repo: libs/pbo/src/write.rs:88-96 (`files_sorted`); `iter` is the hash map's iteration order. -/
def filesSorted (lower : Bytes → Bytes) (iter : List (Bytes × (Bytes × Header))) : List Header :=
  (iter.map (fun e => e.2.2)).mergeSort (hdrLe lower)

/-- The bytes `prefix`. -/
def prefixKey : Bytes := [112, 114, 101, 102, 105, 120]

/-- Property section body, repo: libs/pbo/src/write.rs:141-154 -/
def writeProps (props : List (Bytes × Bytes)) : Bytes :=
  (match IMap.get props prefixKey with
   | some p => writeCString prefixKey ++ writeCString p
   | none => []) ++
  (props.flatMap (fun kv => if kv.1 = prefixKey then [] else writeCString kv.1 ++ writeCString kv.2)) ++
  [0]

/-- The header block, repo: libs/pbo/src/write.rs:137-163 -/
def WPbo.headerBytes (lower : Bytes → Bytes) (p : WPbo) (iter : List (Bytes × (Bytes × Header)))
    (properties : Bool) : Bytes :=
  (if properties then Header.property.write ++ writeProps p.properties else []) ++
  (filesSorted lower iter).flatMap Header.write ++ Header.default.write

/-- Contents in written order, repo: libs/pbo/src/write.rs:172-177;
`none` is the `expect` panic of line 175. -/
def WPbo.contents (p : WPbo) : List Header → Option Bytes
  | [] => some []
  | h :: hs => match p.file h.filename, p.contents hs with
    | some c, some r => some (c ++ r)
    | _, _ => none

/-- repo: libs/pbo/src/write.rs:132-203 (`write`): the output and the returned checksum. -/
def WPbo.write (H : Bytes → Bytes) (lower : Bytes → Bytes) (p : WPbo)
    (iter : List (Bytes × (Bytes × Header))) (properties : Bool) : Except Err (Bytes × Bytes) :=
  match p.contents (filesSorted lower iter) with
  | none => .error .panic
  | some cs =>
    let hb := p.headerBytes lower iter properties
    let checksum := H (hb ++ cs)
    .ok (hb ++ cs ++ [0] ++ checksum, checksum)

/-- repo: libs/pbo/src/read.rs:16-23 (`ReadablePbo`) -/
structure RPbo where
  properties : List (Bytes × Bytes)
  versHeader : Option Header
  headers : List Header
  checksum : Bytes
  input : Bytes
  blobStart : Nat
deriving DecidableEq, Repr

theorem cstringBytes_rest_length (bs : Bytes) :
    (cstringBytes bs).1.length + (cstringBytes bs).2.length ≤ bs.length := by
  induction bs with
  | nil => simp [cstringBytes]
  | cons b bs ih =>
    simp only [cstringBytes]
    split
    · simp
    · simp; omega

theorem readCString_rest_lt {bs : Bytes} (h : (readCString bs).1 ≠ []) :
    (readCString bs).2.length < bs.length := by
  have h1 := cstringBytes_rest_length bs
  unfold readCString at h ⊢
  dsimp only at h ⊢
  split at h
  · have := List.length_pos_iff.2 h
    omega
  · simp at h

theorem readCString_rest_le (bs : Bytes) : (readCString bs).2.length ≤ bs.length := by
  have h1 := cstringBytes_rest_length bs
  unfold readCString
  dsimp only
  omega

/-- The inner loop of repo: libs/pbo/src/read.rs:40-49 -/
def readProps (bs : Bytes) (props : List (Bytes × Bytes)) (n : Nat) :
    List (Bytes × Bytes) × Nat × Bytes :=
  if h : (readCString bs).1 = [] then
    (props, n + ((readCString bs).1.length + 1), (readCString bs).2)
  else
    let key := (readCString bs).1
    let value := (readCString (readCString bs).2).1
    readProps (readCString (readCString bs).2).2 (IMap.insert props key value)
      (n + (key.length + 1) + (value.length + 1))
termination_by bs.length
decreasing_by
  have h1 := readCString_rest_lt h
  have h2 := readCString_rest_le (readCString bs).2
  omega

theorem readProps_rest_le (bs : Bytes) : ∀ (props : List (Bytes × Bytes)) (n : Nat),
    (readProps bs props n).2.2.length ≤ bs.length := by
  induction hn : bs.length using Nat.strongRecOn generalizing bs with
  | ind m ih =>
    intro props n
    subst hn
    rw [readProps]
    split
    · exact readCString_rest_le bs
    · rename_i h
      have h1 := readCString_rest_lt h
      have h2 := readCString_rest_le (readCString bs).2
      exact Nat.le_trans (ih _ (by omega) _ rfl _ _) (by omega)

theorem readLe_rest {k : Nat} {bs r : Bytes} {x : Nat} (h : readLe k bs = .ok (x, r)) :
    bs.length = k + r.length := by
  unfold readLe takeN at h
  split at h
  · rename_i v rest heq
    split at heq
    · cases heq
    · cases heq; cases h; simp; omega
  · cases h

theorem Header.read_rest {bs r : Bytes} {h : Header} {n : Nat} (e : Header.read bs = .ok (h, n, r)) :
    r.length < bs.length := by
  unfold Header.read at e
  dsimp only [bind, Except.bind] at e
  have h0 := readCString_rest_le bs
  repeat' (split at e <;> try (cases e; done))
  cases e
  rename_i h1 _ _ _ _ _ h2 _ _ h3 _ _ h4 _ _ h5
  have := readLe_rest h1
  have := readLe_rest h2
  have := readLe_rest h3
  have := readLe_rest h4
  have := readLe_rest h5
  omega

/-- Outer loop of repo: libs/pbo/src/read.rs:35-55 -/
def readHeaders (bs : Bytes) (props : List (Bytes × Bytes)) (vers : Option Header)
    (headers : List Header) (blob : Nat) :
    Except Err (List (Bytes × Bytes) × Option Header × List Header × Nat × Bytes) :=
  match _hr : Header.read bs with
  | .error e => .error e
  | .ok (h, n, rest) =>
    if h.mime = .vers then
      readHeaders (readProps rest props (blob + n)).2.2 (readProps rest props (blob + n)).1
        (some h) headers (readProps rest props (blob + n)).2.1
    else if h.filename = [] then .ok (props, vers, headers, blob + n, rest)
    else readHeaders rest props vers (headers ++ [h]) (blob + n)
termination_by bs.length
decreasing_by
  · have h1 := Header.read_rest _hr
    have h2 := readProps_rest_le rest props (blob + n)
    omega
  · exact Header.read_rest _hr

/-- repo: libs/pbo/src/read.rs:30-74 (`from`). Seeking past the end succeeds, reading there fails. -/
def RPbo.from (input : Bytes) : Except Err RPbo :=
  match readHeaders input [] none [] 0 with
  | .error e => .error e
  | .ok (props, vers, headers, blob, rest) =>
    let rest := (rest.drop (headers.map Header.size).sum).drop 1
    match takeN 20 rest with
    | .error e => .error e
    | .ok (checksum, tail) =>
      if tail ≠ [] then .error .parse
      else .ok ⟨props, vers, headers, checksum, input, blob⟩

/-- Search loop of repo: libs/pbo/src/read.rs:114-122 and 130-137: header and offset of a file. -/
def locate (lower : Bytes → Bytes) (name : Bytes) : List Header → Nat → Option (Header × Nat)
  | [], _ => none
  | h :: hs, off =>
    if lower h.filename = lower (norm name) then some (h, off)
    else locate lower name hs (off + h.size)

/-- repo: libs/pbo/src/read.rs:113-123 (`file`) together with file.rs:25-33: the bytes that reading the
returned file to its end yields. -/
def RPbo.file (lower : Bytes → Bytes) (p : RPbo) (name : Bytes) : Option Bytes :=
  (locate lower name p.headers p.blobStart).map (fun ho => (p.input.drop ho.2).take ho.1.size)

/-- repo: libs/pbo/src/read.rs:99-107 (`files_sorted`) -/
def RPbo.filesSorted (lower : Bytes → Bytes) (p : RPbo) : List Header :=
  p.headers.mergeSort (hdrLe lower)

/-- repo: libs/pbo/src/read.rs:144-167 (`is_sorted`) -/
def isSortedFrom (lower : Bytes → Bytes) (last : Header) : List Header → Bool
  | [] => true
  | c :: cs => if hdrLe lower last c then isSortedFrom lower c cs else false

def RPbo.isSorted (lower : Bytes → Bytes) (p : RPbo) : Bool :=
  match p.headers with
  | [] => true
  | h :: hs => isSortedFrom lower h hs

/-- Contents in sorted order as hashed by repo: libs/pbo/src/read.rs:207-212 -/
def RPbo.sortedContents (lower : Bytes → Bytes) (p : RPbo) : List Header → Option Bytes
  | [] => some []
  | h :: hs => match p.file lower h.filename, p.sortedContents lower hs with
    | some c, some r => some (c ++ r)
    | _, _ => none

/-- The digest input of repo: libs/pbo/src/read.rs:176-215 (`gen_checksum`) -/
def RPbo.checksumInput (lower : Bytes → Bytes) (p : RPbo) : Option Bytes :=
  (p.sortedContents lower (p.filesSorted lower)).map (fun cs =>
    (match p.versHeader with | some h => h.write | none => []) ++ writeProps p.properties
    ++ (p.filesSorted lower).flatMap Header.write ++ Header.default.write ++ cs)

/-- repo: libs/pbo/src/read.rs:176-215 (`gen_checksum`) -/
def RPbo.genChecksum (H : Bytes → Bytes) (lower : Bytes → Bytes) (p : RPbo) : Option Bytes :=
  (p.checksumInput lower).map H

/-- Digest input of repo: libs/pbo/src/read.rs:222-241 (`hash_filenames`); `none` is `Error::NoFiles`. -/
def RPbo.filenamesInput (lower : Bytes → Bytes) (p : RPbo) : Option Bytes :=
  if p.headers = [] then none
  else some ((p.filesSorted lower).flatMap (fun h =>
    match p.file lower h.filename with
    | none => []
    | some [] => []
    | some _ => lower (norm h.filename)))

end Verif.Pbo
