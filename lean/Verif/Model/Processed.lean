import Verif.Model.Preproc
/-!
Model of the preprocessed text and its source map, `libs/workspace/src/reporting/processed.rs`.

`read` stands for `WorkspacePath::read_to_string`. The content of a source is not kept, only its path. `line_offsets`,
`macros`, `usage`, `warnings` and `no_rapify` are carried along by the code and left out here.
The text is kept as characters; `bytesOf` is its UTF-8 form.
-/
namespace Verif.Processed
open Verif.Preproc

/-- `processed.rs:333-340`, `Mapping`; `original` is the position of `token`. -/
structure Mapping where
  source : Nat
  start : LineCol
  stop : LineCol
  token : Tok
  wasMacro : Bool
  deriving DecidableEq, Repr

/-- `processed.rs:18-46` together with the `string_stack` of `new`; the last element of `stack` is its top. -/
structure P where
  sources : List Text := []
  output : Text := []
  mappings : List Mapping := []
  line : Nat := 0
  col : Nat := 0
  total : Nat := 0
  stack : List Char := []
  deriving DecidableEq, Repr

/-- The index of a source, which is added when it is not known, `processed.rs:54-65` and `148-159`. -/
def sourceOf (read : Text → Option Text) (p : P) (path : Text) : Option (P × Nat) :=
  match p.sources.findIdx? (· = path) with
  | some i => some (p, i)
  | none => match read path with
    | none => none
    | some _ => some ({ p with sources := p.sources ++ [path] }, p.sources.length)

/-- The string stack after a token, `processed.rs:66-84`. -/
def quoteStack (stack : List Char) (t : Tok) : List Char :=
  if t.sym = .dquote then
    if stack.getLast? = some '"' then stack.dropLast else stack ++ ['"']
  else if t.sym = .squote then
    if stack.getLast? = some '\'' ∧ t.pos.start.offset ≠ t.pos.stop.offset then stack.dropLast
    else stack ++ ['\'']
  else stack

/-- Errors: a source cannot be read (`Error::Workspace`) or the program panics. -/
inductive PrErr
  | io | panic
  deriving DecidableEq, Repr

/-- `processed.rs:48-129`. The end of the entry of a token lies `chars` too far: `total` and `col` have been advanced
already when `chars` is added again (`processed.rs:113-120`). -/
def appendToken (read : Text → Option Text) (p : P) (t : Tok) : Except PrErr P :=
  match sourceOf read p t.pos.path with
  | none => .error .io
  | some (p, source) =>
    let p := { p with stack := quoteStack p.stack t }
    if t.sym = .newline then
      .ok { p with
        output := p.output ++ ['\n'], line := p.line + 1, col := 0, total := p.total + 1
        mappings := p.mappings ++ [⟨source, ⟨p.total, p.line, p.col⟩, ⟨p.total + 1, p.line + 1, 0⟩, t, false⟩] }
    else
      let str := t.sym.text
      if str = [] then .ok p
      else if str = ['#', '#'] ∧ p.stack = [] then .ok p
      else
        .ok { p with
          output := p.output ++ str, col := p.col + str.length, total := p.total + str.length
          mappings := p.mappings ++ [⟨source, ⟨p.total, p.line, p.col⟩,
            ⟨p.total + str.length + str.length, p.line, p.col + str.length + str.length⟩, t, false⟩] }

mutual
/-- One element of the output, the body of the loop `processed.rs:136-172`. -/
def appendOut (read : Text → Option Text) (p : P) : Out → Except PrErr P
  | .direct t => appendToken read p t
  | .mac root o =>
    match appendOutput read p o with
    | .error e => .error e
    | .ok p' => match sourceOf read p' root.pos.path with
      | none => .error .panic
      | some (p', source) => .ok { p' with
          mappings := p'.mappings ++ [⟨source, ⟨p.total, p.line, p.col⟩, ⟨p'.total, p'.line, p'.col⟩, root, true⟩] }
/-- `processed.rs:131-174`. -/
def appendOutput (read : Text → Option Text) (p : P) : List Out → Except PrErr P
  | [] => .ok p
  | o :: l => match appendOut read p o with
    | .error e => .error e
    | .ok p => appendOutput read p l
end

/-- `processed.rs:181-199`, `Processed::new`. -/
def new (read : Text → Option Text) (output : List Out) : Except PrErr P := appendOutput read {} output

/-- `processed.rs:240-247`. -/
def P.mappingsAt (p : P) (offset : Nat) : List Mapping :=
  p.mappings.filter fun m => m.start.offset ≤ offset && m.stop.offset > offset

/-- `processed.rs:257-259`. -/
def P.mappingAt (p : P) (offset : Nat) : Option Mapping := (p.mappingsAt offset).getLast?

/-! ### Text by character span -/

/-- The bytes of a Rust string. -/
def bytesOf (s : Text) : List UInt8 := s.flatMap String.utf8EncodeChar

/-- `str::is_char_boundary`. -/
def isBoundary (b : List UInt8) (i : Nat) : Bool :=
  i == 0 || i == b.length || (b[i]?.any fun x => x < 0x80 || 0xC0 ≤ x)

/-- Indexing a string with a range of bytes: panics unless the ends are in order and on character boundaries. -/
def slice (b : List UInt8) (i j : Nat) : Except PrErr (List UInt8) :=
  if i ≤ j ∧ isBoundary b i ∧ isBoundary b j then .ok ((b.drop i).take (j - i)) else .error .panic

/-- The loop that adds up `len_utf8` of the characters before `n`, `processed.rs:293-302`. -/
def realOffset : Text → Nat → Nat → Nat
  | [], _, _ => 0
  | c :: l, p, n => (if p < n then c.utf8Size else 0) + realOffset l (p + 1) n

/-- `processed.rs:287-304`, as bytes. -/
def extract (output : Text) (start stop : Nat) : Except PrErr (List UInt8) :=
  if start = stop then .ok []
  else slice (bytesOf output) (realOffset output 0 start) (realOffset output 0 stop)

/-- `processed.rs:306-315`, as bytes. -/
def extractFrom (output : Text) (start : Nat) : Except PrErr (List UInt8) :=
  slice (bytesOf output) (realOffset output 0 start) (bytesOf output).length

/-- `processed.rs:270-273`; the cast to `u32` wraps. -/
def byteOffset (output : Text) (offset : Nat) : UInt32 :=
  UInt32.ofNat ((output.take offset).map Char.utf8Size).sum

end Verif.Processed
