import Verif.Model.Signing
/-!
Model of `hemtt utils inspect` (`bin/src/utils/inspect.rs`), `hemtt utils pbo inspect` (`bin/src/utils/pbo/inspect.rs`)
and `hemtt utils pbo extract` (`bin/src/utils/pbo/extract.rs`).

Reading a texture and a config is a parameter (`Other`): it says whether the file can be read. What is printed of an
archive, a key and a signature is kept as data; the layout of the tables is not modelled. That a file cannot be opened
is left out of `inspect`, the bytes of the file are given.
-/
namespace Verif.Inspect
open Verif.Io Verif.Pbo Verif.Sign

/-- Why a command stops: an error that is reported (the exit code is 1), or a crash. -/
inductive Stop
  | error | crash
  deriving DecidableEq, Repr

/-- What is printed of an archive, repo: bin/src/utils/pbo/inspect.rs:39-80. -/
structure PboShown where
  properties : List (Bytes × Bytes)
  stored : Bytes
  actual : Bytes
  sorted : Bool
  files : List Header
  /-- "The PBO is not sorted, signatures may be invalid" -/
  warnOrder : Bool
  /-- "The PBO has an invalid hash stored" -/
  warnHash : Bool
  deriving DecidableEq, Repr

/-- What `hemtt utils inspect` shows. -/
inductive Shown
  | pbo (s : PboShown)
  | key (k : PubKey)
  | sign (s : Sig)
  | paa
  | config
  /-- "Unsupported file type" -/
  | unsupported
  deriving DecidableEq, Repr

/-- Whether a texture and a config can be read. -/
structure Other where
  paa : Bytes → Bool
  config : Bytes → Bool

/-- The outcome of reading as an outcome of the command. -/
def stopOf : Err → Stop
  | .panic => .crash
  | _ => .error

/-- repo: bin/src/utils/pbo/inspect.rs:37-82 (`inspect`); a file that is in the list of files but not found is a crash
(repo: libs/pbo/src/read.rs:208-210). -/
def inspectPbo (H lower : Bytes → Bytes) (bs : Bytes) : Except Stop PboShown :=
  match RPbo.from bs with
  | .error e => .error (stopOf e)
  | .ok p => match p.genChecksum H lower with
    | none => .error .crash
    | some actual => .ok ⟨p.properties, p.checksum, actual, p.isSorted lower, p.headers, !p.isSorted lower,
        decide (p.checksum ≠ actual)⟩

/-- repo: bin/src/utils/inspect.rs:94-102 (`bikey`) -/
def bikey (bs : Bytes) : Except Stop Shown :=
  match PubKey.read bs with
  | .error e => .error (stopOf e)
  | .ok (k, _) => .ok (.key k)

/-- repo: bin/src/utils/inspect.rs:108-117 (`bisign`) -/
def bisign (bs : Bytes) : Except Stop Shown :=
  match Sig.read bs with
  | .error e => .error (stopOf e)
  | .ok (s, _) => .ok (.sign s)

def pboShown (H lower : Bytes → Bytes) (bs : Bytes) : Except Stop Shown :=
  match inspectPbo H lower bs with
  | .error e => .error e
  | .ok s => .ok (.pbo s)

/-- repo: bin/src/utils/paa/inspect.rs:38-73, of which only the reading is of interest here -/
def paaShown (o : Other) (bs : Bytes) : Except Stop Shown := if o.paa bs then .ok .paa else .error .error

/-- The branch for other extensions, repo: bin/src/utils/inspect.rs:49-85. The assertion in the readers of signatures
and public keys (repo: libs/signing/src/signature.rs:123, public.rs:89) ends the command. -/
def byContent (H lower : Bytes → Bytes) (o : Other) (bs : Bytes) : Except Stop Shown :=
  if bs.length < 6 then .error .error
  else if bs.take 6 = [0x00, 0x73, 0x72, 0x65, 0x56, 0x00] then pboShown H lower bs
  else if (bs.take 6).drop 2 = ascii "GGAT" then paaShown o bs
  else match Sig.read bs with
    | .error .panic => .error .crash
    | .ok _ => bisign bs
    | .error _ => match PubKey.read bs with
      | .error .panic => .error .crash
      | .ok _ => bikey bs
      | .error _ => .ok .unsupported

/-- repo: bin/src/utils/inspect.rs:26-88 (`execute`), by the extension of the path, which is taken as it is. The
config is shown by `super::config::inspect`. -/
def inspect (H lower : Bytes → Bytes) (o : Other) (ext : String) (bs : Bytes) : Except Stop Shown :=
  match ext with
  | "paa" => paaShown o bs
  | "pbo" => pboShown H lower bs
  | "bikey" => bikey bs
  | "bisign" => bisign bs
  | "cpp" => if o.config bs then .ok .config else .error .error
  | "hpp" => if o.config bs then .ok .config else .error .error
  | _ => byContent H lower o bs

/-- What `hemtt utils pbo extract` does. -/
inductive Extracted
  /-- "File … not found in PBO" -/
  | notFound
  /-- "Output file already exists" -/
  | exists
  | saved (path : String) (c : Bytes)
  | printed (c : Bytes)
  deriving DecidableEq, Repr

/-- repo: bin/src/utils/pbo/extract.rs:22-40 (`execute`); `there` is what exists on the disk. -/
def extract (lower : Bytes → Bytes) (there : String → Bool) (archive name : Bytes) (output : Option String) :
    Except Stop Extracted :=
  match RPbo.from archive with
  | .error e => .error (stopOf e)
  | .ok p => match p.file lower name with
    | none => .ok .notFound
    | some c => match output with
      | none => .ok (.printed c)
      | some path => if there path then .ok .exists else .ok (.saved path c)

/-- The disk after the command. -/
def Extracted.disk (disk : String → Option Bytes) : Extracted → String → Option Bytes
  | .saved path c => fun x => if x = path then some c else disk x
  | _ => disk

end Verif.Inspect
