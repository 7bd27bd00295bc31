import Verif.Model.Release
import Verif.Model.ProjectFile
/-!
Model of `hemtt utils verify` (`/repo/bin/src/utils/verify.rs`) and of the project file that `hemtt new` writes
(`/repo/bin/src/commands/new/mod.rs`).
-/
namespace Verif.Utils
open Verif.Io Verif.Pbo Verif.Sign
open Verif.Release (Path sigPath Digest)

/-! ### `hemtt utils verify` -/

/-- What is printed besides the details of the files, repo: bin/src/utils/verify.rs:60-105. -/
inductive Line
  /-- `Verification Warning: PBO has an invalid hash stored` -/
  | storedHash
  /-- `Verification Failed: PBO is missing a prefix header` -/
  | noPrefix
  /-- `Verification Warning: PBO reports an invalid hash` -/
  | reportedHash
  /-- `Verified!` -/
  | verified
  /-- `Verification Failed: ...` -/
  | failed (e : SErr)
  deriving DecidableEq, Repr

/-- What is said about the hash and the prefix, repo: bin/src/utils/verify.rs:60-68. -/
def warnings (pbo : RPbo) (actual : Bytes) : List Line :=
  (if actual ≠ pbo.checksum then [.storedHash] else []) ++
    if IMap.get pbo.properties prefixKey = none then [.noPrefix]
    else if pbo.checksum ≠ actual then [.reportedHash] else []

/-- What is said about the signature, repo: bin/src/utils/verify.rs:70-105. -/
def resultLine : Except SErr Unit → Line
  | .ok () => .verified
  | .error e => .failed e

/-- repo: bin/src/utils/verify.rs:30-107 (`execute`). `disk` is what can be opened, `name` the text of an authority.
`error` stands for every error that is passed on (the exit code is 1 then) and for an abort; with `ok` the exit code is 0
(repo: bin/src/lib.rs:159-177, bin/src/commands/utils.rs:45-48). -/
def verify (d : Digest) (name : Bytes → Text) (disk : Path → Option Bytes) (pboPath keyPath : Path) :
    Except Unit (List Line) :=
  match disk pboPath with
  | none => .error ()
  | some pboBytes =>
    match RPbo.from pboBytes with
    | .error _ => .error ()
    | .ok pbo =>
      match disk keyPath with
      | none => .error ()
      | some keyBytes =>
        match PubKey.read keyBytes with
        | .error _ => .error ()
        | .ok (key, _) =>
          match disk (sigPath pboPath (name key.authority)) with
          | none => .error ()
          | some sigBytes =>
            match Sig.read sigBytes with
            | .error _ => .error ()
            | .ok (sig, _) =>
              match pbo.genChecksum d.H d.lower with
              | none => .error ()
              | some actual =>
                match key.verify d.H d.lower pbo sig with
                | .error .panic => .error ()
                | result => .ok (warnings pbo actual ++ [resultLine result])

/-! ### `hemtt new` -/

/-- What is asked for, repo: bin/src/commands/new/mod.rs:66-95. -/
structure Answers where
  name : Text
  author : Text
  pfx : Text
  mainprefix : Text
  deriving DecidableEq, Repr

/-- One line of the file. -/
def tomlLine (key value : Text) : Text := key ++ " = \"".toList ++ value ++ "\"\n".toList

/-- `.hemtt/project.toml`, repo: bin/src/commands/new/mod.rs:113-118. -/
def projectToml (a : Answers) : Text :=
  tomlLine "name".toList a.name ++ tomlLine "author".toList a.author ++ tomlLine "prefix".toList a.pfx ++
    tomlLine "mainprefix".toList a.mainprefix

/-! How such a file is read: basic strings of TOML 1.0 (the crate `toml`). Only files with these four keys, one to a line,
in this order, can be read here; anything else is taken to be refused. -/

/-- A hexadecimal digit. -/
def hexVal (c : Char) : Option Nat :=
  if '0' ≤ c ∧ c ≤ '9' then some (c.toNat - 48)
  else if 'a' ≤ c ∧ c ≤ 'f' then some (c.toNat - 87)
  else if 'A' ≤ c ∧ c ≤ 'F' then some (c.toNat - 55)
  else none

/-- `n` hexadecimal digits. -/
def hexDigits : Nat → Nat → Text → Option (Nat × Text)
  | 0, acc, s => some (acc, s)
  | _ + 1, _, [] => none
  | n + 1, acc, c :: s => match hexVal c with
    | none => none
    | some v => hexDigits n (acc * 16 + v) s

/-- A Unicode scalar value. -/
def scalar (n : Nat) : Option Char := if n.isValidChar then some (Char.ofNat n) else none

/-- What follows a backslash: the character it stands for, and the rest. -/
def escape : Text → Option (Char × Text)
  | 'b' :: s => some ('\x08', s)
  | 't' :: s => some ('\t', s)
  | 'n' :: s => some ('\n', s)
  | 'f' :: s => some ('\x0c', s)
  | 'r' :: s => some ('\r', s)
  | '"' :: s => some ('"', s)
  | '\\' :: s => some ('\\', s)
  | 'u' :: s => (hexDigits 4 0 s).bind fun (n, s) => (scalar n).map (·, s)
  | 'U' :: s => (hexDigits 8 0 s).bind fun (n, s) => (scalar n).map (·, s)
  | _ => none

/-- A character that may not be written in a basic string. -/
def isControl (c : Char) : Bool := (c.toNat < 32 && c != '\t') || c.toNat = 127

/-- The rest of a basic string after its opening quote: its value, and what follows the closing quote. `n` bounds the
number of characters. -/
def basic : Nat → Text → Option (Text × Text)
  | 0, _ => none
  | _ + 1, [] => none
  | n + 1, c :: s =>
    if c = '"' then some ([], s)
    else if c = '\\' then (escape s).bind fun (x, s) => (basic n s).map fun (v, r) => (x :: v, r)
    else if isControl c then none
    else (basic n s).map fun (v, r) => (c :: v, r)

/-- A line `key = "value"`. Spaces and comments behind the value are taken to be refused. -/
def readLine (key s : Text) : Option (Text × Text) :=
  let start := key ++ " = \"".toList
  if start.isPrefixOf s then
    (basic (s.length + 1) (s.drop start.length)).bind fun (v, r) => match r with
      | '\n' :: r => some (v, r)
      | _ => none
  else none

/-- The four lines. -/
def readProject (s : Text) : Option Answers :=
  (readLine "name".toList s).bind fun (n, s) =>
  (readLine "author".toList s).bind fun (a, s) =>
  (readLine "prefix".toList s).bind fun (p, s) =>
  (readLine "mainprefix".toList s).bind fun (m, s) => if s = [] then some ⟨n, a, p, m⟩ else none

/-- The file as HEMTT reads it, repo: libs/common/src/config/project/mod.rs:151-184: an old heading is replaced first, and
a project must have a prefix. (The author is not read by HEMTT; it is kept here to say what the file means.) -/
def readConfig (s : Text) : Option Answers :=
  (readProject (ProjectFile.modern s)).bind fun a => if a.pfx = [] then none else some a

end Verif.Utils
