import Verif.Model.Pbo
/-!
Model of `/repo/libs/signing/src` and of the hashing half of `/repo/libs/pbo/src/read.rs`.

* `BigUint` is `Nat`; reading one (`read_exact` + `from_bytes_le`) is `readLe`. SHA-1 is the parameter `H`; feeding a hasher in pieces is hashing the concatenation.
* RSA key generation (`generate`, private.rs:37-63) is the `rsa` crate; it enters through the hypotheses
  of the theorems (modulus a product of two distinct primes, matching exponents).
* `PathBuf::extension` is modelled with Unix path rules.
-/
namespace Verif.Sign
open Verif.Io Verif.Pbo

/-- repo: libs/common/src/sign_version.rs:8-43 (`BISignVersion`) -/
inductive SigVersion where
  | v2 | v3
deriving DecidableEq, Repr

/-- repo: libs/common/src/sign_version.rs:94-101 (`From<BISignVersion> for u32`) -/
def SigVersion.toU32 : SigVersion → Nat
  | .v2 => 2
  | .v3 => 3

/-- repo: libs/common/src/sign_version.rs:86-91 (`nothing`) -/
def SigVersion.nothing : SigVersion → Bytes
  | .v2 => ascii "nothing"
  | .v3 => ascii "gnihton"

/-- Split at every `/`. -/
def splitSlash : Bytes → List Bytes
  | [] => [[]]
  | b :: bs =>
    if b = 47 then [] :: splitSlash bs
    else match splitSlash bs with
      | [] => [[b]]
      | p :: ps => (b :: p) :: ps

/-- `Path::file_name` (Unix): last component, ignoring empty and `.` components; `..` has none. -/
def fileName (path : Bytes) : Option Bytes :=
  match ((splitSlash path).filter (fun c => c ≠ [] ∧ c ≠ [46])).getLast? with
  | none => none
  | some c => if c = [46, 46] then none else some c

/-- `Path::extension`: after the last dot of the file name, unless that dot is its first byte. -/
def extension (path : Bytes) : Option Bytes :=
  match fileName path with
  | none => none
  | some n =>
    let after := (n.reverse.takeWhile (· ≠ 46)).reverse
    let before := n.take (n.length - after.length - 1)
    if after.length = n.length then none
    else if before = [] then none
    else some after

/-- The two extension lists of repo: libs/common/src/sign_version.rs:51-66 and 67-80. -/
def SigVersion.exts : SigVersion → List String
  | .v2 => ["fxy", "jpg", "lip", "ogg", "p3d", "paa", "pac", "png", "rtm", "rvmat", "tga", "wrp", "wss"]
  | .v3 => ["bikb", "cfg", "ext", "fsm", "h", "hpp", "inc", "sqf", "sqfc", "sqm", "sqs"]

/-- repo: libs/common/src/sign_version.rs:47-82 (`should_hash_file`) -/
def SigVersion.shouldHash (v : SigVersion) (name : Bytes) : Bool :=
  (v.exts.map ascii).contains ((extension name).getD [])

/-- Digest input of repo: libs/pbo/src/read.rs:247-270 (`hash_files`): the covered contents, or the
`nothing` text when no header is covered. -/
def filesInput (lower : Bytes → Bytes) (p : RPbo) (v : SigVersion) : Bytes :=
  let covered := (p.filesSorted lower).filter (fun h => v.shouldHash h.filename)
  covered.flatMap (fun h => (p.file lower h.filename).getD []) ++
    (if covered = [] then v.nothing else [])

/-- `BigUint::to_bytes_le`: no leading zero byte; zero is one zero byte. -/
def toBytesLe (n : Nat) : Bytes :=
  if n < 256 then [UInt8.ofNat n] else UInt8.ofNat (n % 256) :: toBytesLe (n / 256)
termination_by n
decreasing_by omega

/-- `Vec::resize` -/
def resize (v : Bytes) (size : Nat) (fill : UInt8) : Bytes :=
  if size ≤ v.length then v.take size else v ++ List.replicate (size - v.length) fill

/-- repo: libs/signing/src/lib.rs:31-35 (`write_biguint`) -/
def writeBiguint (n size : Nat) : Bytes := resize (toBytesLe n) size 0

/-- `BigUint::from_bytes_be` -/
def beValue (bs : Bytes) : Nat := bs.foldl (fun acc b => acc * 256 + b.toNat) 0

/-- The 16 constant bytes of repo: libs/signing/src/lib.rs:101-102 -/
def digestInfo : Bytes :=
  [0x00, 0x30, 0x21, 0x30, 0x09, 0x06, 0x05, 0x2b, 0x0e, 0x03, 0x02, 0x1a, 0x05, 0x00, 0x04, 0x14]

/-- repo: libs/signing/src/lib.rs:97-105 (`pad_hash`); `size - 36` underflows below 36. -/
def padHash (hash : Bytes) (size : Nat) : Except Err Nat :=
  if size < 36 then .error .panic
  else .ok (beValue (resize [0, 1] (size - 36) 255 ++ digestInfo ++ hash))

/-- repo: libs/signing/src/error.rs:3-48, the variants that `verify` and `generate_hashes` return. -/
inductive SErr where
  | authority | sorting | hash | noFiles | panic
deriving DecidableEq, Repr

/-- The prefix bytes appended to the second and third digest, repo: libs/signing/src/lib.rs:69-74, 80-85 -/
def prefixInput (p : RPbo) : Bytes :=
  match IMap.get p.properties prefixKey with
  | none => []
  | some v => v ++ (if v.getLast? = some 92 then [] else [92])

/-- The three digests of repo: libs/signing/src/lib.rs:59-87, before padding. -/
def rawHashes (H lower : Bytes → Bytes) (p : RPbo) (v : SigVersion) :
    Except SErr (Bytes × Bytes × Bytes) :=
  match p.genChecksum H lower with
  | none => .error .panic
  | some h1 =>
    match p.filenamesInput lower with
    | none => .error .noFiles
    | some names =>
      let h2 := H (h1 ++ H names ++ prefixInput p)
      let h3 := H (H (filesInput lower p v) ++ H names ++ prefixInput p)
      .ok (h1, h2, h3)

/-- repo: libs/signing/src/lib.rs:59-93 (`generate_hashes`) -/
def generateHashes (H lower : Bytes → Bytes) (p : RPbo) (v : SigVersion) (length : Nat) :
    Except SErr (Nat × Nat × Nat) :=
  match rawHashes H lower p v with
  | .error e => .error e
  | .ok (h1, h2, h3) =>
    match padHash h1 (length / 8), padHash h2 (length / 8), padHash h3 (length / 8) with
    | .ok a, .ok b, .ok c => .ok (a, b, c)
    | _, _, _ => .error .panic

/-- repo: libs/signing/src/private.rs:16-27 (`BIPrivateKey`) -/
structure PrivKey where
  authority : Bytes
  length : Nat
  exponent : Nat
  n : Nat
  p : Nat
  q : Nat
  dp : Nat
  dq : Nat
  qinv : Nat
  d : Nat
deriving DecidableEq, Repr

/-- repo: libs/signing/src/public.rs:12-17 (`BIPublicKey`) -/
structure PubKey where
  authority : Bytes
  length : Nat
  exponent : Nat
  n : Nat
deriving DecidableEq, Repr

/-- repo: libs/signing/src/signature.rs:12-21 (`BISign`) -/
structure Sig where
  version : SigVersion
  authority : Bytes
  length : Nat
  exponent : Nat
  n : Nat
  sig1 : Nat
  sig2 : Nat
  sig3 : Nat
deriving DecidableEq, Repr

/-- `BigUint::modpow`: a zero modulus panics. -/
def modpow (b e m : Nat) : Except SErr Nat :=
  if m = 0 then .error .panic else .ok (b ^ e % m)

/-- repo: libs/signing/src/private.rs:67-74 (`to_public_key`) -/
def PrivKey.toPublic (k : PrivKey) : PubKey := ⟨k.authority, k.length, k.exponent, k.n⟩

/-- repo: libs/signing/src/private.rs:158-180 (`sign`) -/
def PrivKey.sign (H lower : Bytes → Bytes) (k : PrivKey) (p : RPbo) (v : SigVersion) : Except SErr Sig :=
  match generateHashes H lower p v k.length with
  | .error e => .error e
  | .ok (h1, h2, h3) =>
    match modpow h1 k.d k.n, modpow h2 k.d k.n, modpow h3 k.d k.n with
    | .ok s1, .ok s2, .ok s3 => .ok ⟨v, k.authority, k.length, k.exponent, k.n, s1, s2, s3⟩
    | _, _, _ => .error .panic

/-- repo: libs/signing/src/public.rs:107-144 (`verify`), with signature.rs:76-83 (`signatures_modpow`):
the modulus and exponent are those of the signature. -/
def PubKey.verify (H lower : Bytes → Bytes) (k : PubKey) (p : RPbo) (s : Sig) : Except SErr Unit :=
  if k.authority ≠ s.authority then .error .authority
  else if p.isSorted lower = false then .error .sorting
  else
    match generateHashes H lower p s.version k.length with
    | .error e => .error e
    | .ok (r1, r2, r3) =>
      match modpow s.sig1 s.exponent s.n, modpow s.sig2 s.exponent s.n, modpow s.sig3 s.exponent s.n with
      | .ok s1, .ok s2, .ok s3 =>
        if r1 ≠ s1 then .error .hash
        else if r2 ≠ s2 then .error .hash
        else if r3 ≠ s3 then .error .hash
        else .ok ()
      | _, _, _ => .error .panic

/-- repo: libs/signing/src/public.rs:62-71 (`write`) -/
def PubKey.write (k : PubKey) : Bytes :=
  writeCString k.authority ++ le32 (k.length / 8 + 20)
    ++ [0x06, 0x02, 0x00, 0x00, 0x00, 0x24, 0x00, 0x00] ++ ascii "RSA1"
    ++ le32 k.length ++ writeBiguint k.exponent 4 ++ writeBiguint k.n (k.length / 8)

/-- repo: libs/signing/src/public.rs:80-101 (`read`) -/
def PubKey.read (bs : Bytes) : Except Err (PubKey × Bytes) := do
  let (authority, bs) := readCString bs
  let (temp, bs) ← readLe 4 bs
  let (_, bs) ← readLe 4 bs
  let (_, bs) ← readLe 4 bs
  let (_, bs) ← readLe 4 bs
  let (length, bs) ← readLe 4 bs
  let (exponent, bs) ← readLe 4 bs
  if temp ≠ length / 8 + 20 then .error .panic
  else
    let (n, bs) ← readLe (length / 8) bs
    .ok (⟨authority, length, exponent, n⟩, bs)

/-- repo: libs/signing/src/private.rs:188-211 (`write_danger`) -/
def PrivKey.write (k : PrivKey) : Bytes :=
  writeCString k.authority ++ le32 (k.length / 16 * 9 + 20)
    ++ [0x07, 0x02, 0x00, 0x00, 0x00, 0x24, 0x00, 0x00] ++ ascii "RSA2"
    ++ le32 k.length ++ writeBiguint k.exponent 4 ++ writeBiguint k.n (k.length / 8)
    ++ writeBiguint k.p (k.length / 16) ++ writeBiguint k.q (k.length / 16)
    ++ writeBiguint k.dp (k.length / 16) ++ writeBiguint k.dq (k.length / 16)
    ++ writeBiguint k.qinv (k.length / 16) ++ writeBiguint k.d (k.length / 8)

/-- repo: libs/signing/src/private.rs:80-152 (`read`) -/
def PrivKey.read (bs : Bytes) : Except Err (PrivKey × Bytes) := do
  let (authority, bs) := readCString bs
  let (temp, bs) ← readLe 4 bs
  let (_, bs) ← readLe 4 bs
  let (_, bs) ← readLe 4 bs
  let (_, bs) ← readLe 4 bs
  let (length, bs) ← readLe 4 bs
  if temp ≠ length / 16 * 9 + 20 then .error .parse
  else
    let (exponent, bs) ← readLe 4 bs
    let (n, bs) ← readLe (length / 8) bs
    let (p, bs) ← readLe (length / 16) bs
    let (q, bs) ← readLe (length / 16) bs
    let (dp, bs) ← readLe (length / 16) bs
    let (dq, bs) ← readLe (length / 16) bs
    let (qinv, bs) ← readLe (length / 16) bs
    let (d, bs) ← readLe (length / 8) bs
    .ok (⟨authority, length, exponent, n, p, q, dp, dq, qinv, d⟩, bs)

/-- repo: libs/signing/src/signature.rs:89-106 (`write`) -/
def Sig.write (s : Sig) : Bytes :=
  writeCString s.authority ++ le32 (s.length / 8 + 20)
    ++ [0x06, 0x02, 0x00, 0x00, 0x00, 0x24, 0x00, 0x00] ++ ascii "RSA1"
    ++ le32 s.length ++ writeBiguint s.exponent 4 ++ writeBiguint s.n (s.length / 8)
    ++ le32 (s.length / 8) ++ writeBiguint s.sig1 (s.length / 8)
    ++ le32 s.version.toU32
    ++ le32 (s.length / 8) ++ writeBiguint s.sig2 (s.length / 8)
    ++ le32 (s.length / 8) ++ writeBiguint s.sig3 (s.length / 8)

/-- repo: libs/signing/src/signature.rs:134-140: the version field -/
def SigVersion.ofU32 (v : Nat) : Option SigVersion :=
  if v = 2 then some .v2 else if v = 3 then some .v3 else none

/-- repo: libs/signing/src/signature.rs:114-165 (`read`) -/
def Sig.read (bs : Bytes) : Except Err (Sig × Bytes) := do
  let (authority, bs) := readCString bs
  let (temp, bs) ← readLe 4 bs
  let (_, bs) ← readLe 4 bs
  let (_, bs) ← readLe 4 bs
  let (_, bs) ← readLe 4 bs
  let (length, bs) ← readLe 4 bs
  let (exponent, bs) ← readLe 4 bs
  if temp ≠ length / 8 + 20 then .error .panic
  else
    let (n, bs) ← readLe (length / 8) bs
    let (_, bs) ← readLe 4 bs
    let (sig1, bs) ← readLe (length / 8) bs
    let (version, bs) ← readLe 4 bs
    match SigVersion.ofU32 version with
    | none => .error .parse
    | some v =>
      let (_, bs) ← readLe 4 bs
      let (sig2, bs) ← readLe (length / 8) bs
      let (_, bs) ← readLe 4 bs
      let (sig3, bs) ← readLe (length / 8) bs
      .ok (⟨v, authority, length, exponent, n, sig1, sig2, sig3⟩, bs)

end Verif.Sign
