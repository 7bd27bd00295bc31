import Verif.Model.Preproc
/-!
Model of the tokenizer of the preprocessor, `libs/preprocessor/src/parse/mod.rs` and
`libs/preprocessor/src/parse/config.pest`.

Simplifications.
* The parser that `pest` generates from the grammar is replaced by `next`/`pairs`: at every place the
  implicit rules (`WHITESPACE`, `COMMENT`) are tried first and then the alternatives of `file` in
  their order. `pest` documents that `WHITESPACE` and `COMMENT` are atomic, so a block comment ends
  at the first `*/` and nothing is skipped inside of one.
* The Unicode tables behind `LETTER` and the other categories are the parameters `Classes`.
* The diagnostic of a file that cannot be read is not modelled, only that there is one.
-/
namespace Verif.Preproc

/-- The Unicode categories the grammar uses, `config.pest:9,23`: `LETTER`, and the union of
`LETTER`, `MARK`, `NUMBER`, `SYMBOL`, `PUNCTUATION`, `MATH` and `OTHER_MATH`. -/
structure Classes where
  letter : Char → Bool
  sign : Char → Bool

/-- What the Unicode tables say about ASCII: the letters, and all visible characters. -/
structure Classes.Ascii (cl : Classes) : Prop where
  letter : ∀ c, c.toNat < 128 → cl.letter c = c.isAlpha
  sign : ∀ c, c.toNat < 128 → cl.sign c = decide (33 ≤ c.toNat ∧ c.toNat < 127)

/-- `config.pest:10`, `ASCII_DIGIT`. -/
def asciiDigit (c : Char) : Bool := decide ('0' ≤ c ∧ c ≤ '9')

/-- `config.pest:8`, what goes on a word. -/
def Classes.wordChar (cl : Classes) (c : Char) : Bool := cl.letter c || asciiDigit c || c == '_'

/-- A pair the generated parser hands out: the text it covers and its symbol
(`parse/mod.rs:112-151`, `to_symbol`). -/
structure Pair where
  raw : Text
  sym : Sym
  deriving DecidableEq, Repr

/-- The text up to the first `*/` and what stands behind it, `config.pest:30`. -/
def blockEnd : Text → Option (Text × Text)
  | [] => none
  | c :: s =>
    if c = '*' ∧ s.head? = some '/' then some ([], s.tail)
    else match blockEnd s with
      | none => none
      | some (a, r) => some (c :: a, r)

/-- `config.pest:30`, `COMMENT`. -/
def commentAt : Text → Option (Text × Text)
  | '/' :: '*' :: s => match blockEnd s with
    | none => none
    | some (a, r) => some ('/' :: '*' :: a ++ ['*', '/'], r)
  | '/' :: '/' :: s => some (['/', '/'], s)
  | _ => none

/-- The alternatives of `file` in order, `config.pest:1-7`. -/
def tokenAt (cl : Classes) (c : Char) (s : Text) : Option (Pair × Text) :=
  if c = '_' ∨ cl.letter c = true then
    let w := c :: s.takeWhile cl.wordChar
    some (⟨w, .word w⟩, s.dropWhile cl.wordChar)
  else if asciiDigit c = true then some (⟨[c], .digit (c.toNat - '0'.toNat)⟩, s)
  else if c = '(' then some (⟨[c], .lparen⟩, s)
  else if c = ')' then some (⟨[c], .rparen⟩, s)
  else if c = '#' ∧ s.head? = some '#' then some (⟨['#', '#'], .join⟩, s.tail)
  else if c = '#' then some (⟨[c], .directive⟩, s)
  else if c = '\\' then some (⟨[c], .escape⟩, s)
  else if c = ',' then some (⟨[c], .comma⟩, s)
  else if c = '"' then some (⟨[c], .dquote⟩, s)
  else if c = '\'' then some (⟨[c], .squote⟩, s)
  else if c = '<' then some (⟨[c], .langle⟩, s)
  else if c = '>' then some (⟨[c], .rangle⟩, s)
  else if c = '=' then some (⟨[c], .equals⟩, s)
  else if cl.sign c = true then some (⟨[c], .unicode [c]⟩, s)
  else if c = '\n' then some (⟨[c], .newline⟩, s)
  else if c = '\r' ∧ s.head? = some '\n' then some (⟨['\r', '\n'], .newline⟩, s.tail)
  else if c = '\r' then some (⟨[c], .newline⟩, s)
  else none

/-- The next pair: the implicit rules of `config.pest:29-30` first. -/
def next (cl : Classes) : Text → Option (Pair × Text)
  | [] => none
  | c :: s =>
    if c = ' ' then some (⟨[c], .space⟩, s)
    else if c = '\t' then some (⟨[c], .tab⟩, s)
    else match commentAt (c :: s) with
      | some (raw, r) => some (⟨raw, .comment raw⟩, r)
      | none => tokenAt cl c s

/-- `config.pest:1-7`, `file`: all pairs up to `EOI`, or nothing if the text is not a `file`.
Every pair takes at least one character, so the length of the text is enough fuel. -/
def pairs (cl : Classes) : Nat → Text → Option (List Pair)
  | _, [] => some [⟨[], .eoi⟩]
  | 0, _ :: _ => none
  | n + 1, c :: s => match next cl (c :: s) with
    | none => none
    | some (p, r) => match pairs cl n r with
      | none => none
      | some ps => some (p :: ps)

/-- `str::len`, the length in bytes of UTF-8. -/
def utf8 (t : Text) : Nat := (t.map Char.utf8Size).sum

/-- The variables of the loop, `parse/mod.rs:31-36`. -/
structure LexSt where
  line : Nat := 1
  col : Nat := 0
  offset : Nat := 0
  single : Bool := false
  double : Bool := false
  skipping : Bool := false
  deriving DecidableEq, Repr

/-- `parse/mod.rs:39-93`: the variables after the `match`, except `offset`. -/
def LexSt.turn (st : LexSt) (p : Pair) : LexSt :=
  match p.sym with
  | .newline => { st with skipping := false, line := st.line + 1, col := 0 }
  | .comment _ =>
    if st.single || st.double then st
    else
      let lines := split '\n' p.raw
      { st with
        line := st.line + (lines.length - 1)
        col := if 0 < lines.length - 1 then utf8 (lines.getLastD []) + 1 else 0
        skipping := st.skipping || p.raw == ['/', '/'] }
  | .squote =>
    if !st.skipping && !st.double then { st with single := !st.single, col := st.col + 1 } else st
  | .dquote =>
    if !st.skipping && !st.single then { st with double := !st.double, col := st.col + 1 } else st
  | _ => { st with col := st.col + utf8 p.raw }

/-- `parse/mod.rs:38,48-58`: a comment inside of a string is pushed as a word. -/
def LexSt.stray (st : LexSt) (path : Text) (p : Pair) : List Tok :=
  match p.sym with
  | .comment _ =>
    if (st.single || st.double) && !st.skipping then
      [⟨.word p.raw, ⟨⟨st.offset, st.line, st.col⟩, ⟨st.offset + 2, st.line + 2, st.col + 2⟩, path⟩⟩]
    else []
  | _ => []

/-- `parse/mod.rs:37-103`, the loop. -/
def lexLoop (path : Text) : LexSt → List Pair → List Tok
  | _, [] => []
  | st, p :: ps =>
    let st' := { st.turn p with offset := st.offset + utf8 p.raw }
    st.stray path p ++
      (if st'.skipping then []
        else [⟨p.sym, ⟨⟨st.offset, st.line, st.col⟩, ⟨st'.offset, st'.line, st'.col⟩, path⟩⟩]) ++
      lexLoop path st' ps

/-- `parse/mod.rs:26-105`, `parse`: the tokens of a file with this content. -/
def tokenise (cl : Classes) (path : Text) (src : Text) : Option (List Tok) :=
  match pairs cl src.length src with
  | none => none
  | some ps => some (lexLoop path {} ps)

end Verif.Preproc
