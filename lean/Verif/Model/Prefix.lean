import Verif.Lib.Text
/-! Model of `/repo/libs/common/src/prefix.rs` (`Prefix::new`, `Display`). -/
namespace Verif.Prefix

/-- Rust `char::is_whitespace` (Unicode `White_Space`). -/
def isWs (c : Char) : Bool :=
  let n := c.toNat
  (9 ≤ n && n ≤ 13) || n == 32 || n == 0x85 || n == 0xA0 || n == 0x1680 ||
  (0x2000 ≤ n && n ≤ 0x200A) || n == 0x2028 || n == 0x2029 || n == 0x202F || n == 0x205F || n == 0x3000

/-- `str::trim` -/
def trim (s : Text) : Text := ((s.dropWhile isWs).reverse.dropWhile isWs).reverse

/-- A line without its trailing `\r`. -/
def stripCr (l : Text) : Text := if l.getLast? = some '\r' then l.dropLast else l

/-- `str::lines`: split at `\n`, no empty piece after a final `\n`, trailing `\r` removed where the line
ended with `\n` (the last, unterminated line keeps its `\r`). -/
def lines (s : Text) : List Text :=
  match (split '\n' s).reverse with
  | [] => []
  | last :: initRev =>
    let terminated := initRev.reverse.map stripCr
    if last = [] then terminated else terminated ++ [last]

/-- `str::split_once('=')` -/
def splitOnceEq : Text → Option (Text × Text)
  | [] => none
  | c :: s => if c = '=' then some ([], s) else (splitOnceEq s).map (fun p => (c :: p.1, p.2))

/-- ASCII lower case (`to_lowercase` compared with the ASCII word `prefix`; no other character lower-cases
to one of its letters). -/
def lower (s : Text) : Text := s.map Char.toLower

/-- repo: libs/common/src/prefix.rs:113-123 (`Error`) -/
inductive Error where
  | empty
  | invalidPrefix (s : Text)
deriving DecidableEq, Repr

/-- The `for line in content.lines()` loop, repo: libs/common/src/prefix.rs:55-72 -/
def findPrefix (content : Text) : List Text → Except Error (List Text)
  | [] => .error (.invalidPrefix content)
  | l :: ls =>
    match splitOnceEq l with
    | some (k, v) =>
      if lower (trim k) = "prefix".toList then
        let value := trim v
        if value.head? = some '\\' then .error (.invalidPrefix value)
        else .ok (split '\\' value)
      else findPrefix content ls
    | none => findPrefix content ls

/-- repo: libs/common/src/prefix.rs:35-73 (`Prefix::new`); the prefix is its list of parts. -/
def new (content : Text) : Except Error (List Text) :=
  let content := trim content
  if content = [] then .error .empty
  else if '/' ∈ content then .error (.invalidPrefix content)
  else if (lines content).length = 1 ∧ '=' ∉ content then
    if content.head? = some '\\' then .error (.invalidPrefix content)
    else .ok (split '\\' content)
  else findPrefix content (lines content)

/-- repo: libs/common/src/prefix.rs:105-109 (`Display`) -/
def display (p : List Text) : Text := joinWith '\\' p

end Verif.Prefix
