import Verif.Lib.Text
/-!
Model of the preprocessor, `libs/preprocessor/src`.

The model covers the whole `Processor`: conditional state (`ifstate.rs`), macro table
(`defines.rs`), pragmas (`processor/pragma.rs`), token walking (`processor/mod.rs`), macro use
(`processor/defines.rs`), directives (`processor/directives.rs`) and whitespace helpers
(`processor/whitespace.rs`).

Simplifications.
* A file is its token list, which `Env.load` supplies. The tokenizer (`parse/mod.rs`, a pest grammar)
  is modelled in `Verif.Model.Tokenize`. `Env.locate` stands for `WorkspacePath::locate`.
* A `HashMap` is a partial function; nothing below iterates over one.
* The code recurses without bound, so every function that can recurse takes fuel and answers
  `PErr.fuel` when the fuel is used up. A run that answers `PErr.fuel` for every amount of fuel is
  a run of the program that never ends (or exhausts the stack).
* `expect`/`panic!`/index underflow is `PErr.panic` (`PErr.stray` for the one of a stray `#else`). Diagnostics are reduced to their number and
  the offending token. `macros`, `token_count` and the lsp-only maps are left out: nothing in this
  crate reads them.
* `__COUNTER__` is a `u16` incremented with `+=`, which wraps (release build). The model counts without bound and shows the count modulo
  65536, which is the same.
* The comparison of `#if a < b` on `f64` is the parameter `Env.compare`.
-/
namespace Verif.Preproc

/-- A string literal as text. -/
def kw (s : String) : Text := s.toList

/-- `libs/workspace/src/reporting/symbol.rs:10-81`, the symbols the tokenizer produces. -/
inductive Sym
  | word (w : Text) | alpha (c : Char) | digit (n : Nat) | underscore | equals
  | lparen | rparen | join | directive | escape | comma | dquote | squote | langle | rangle
  | unicode (s : Text) | newline | space | tab | comment (s : Text) | eoi
  deriving DecidableEq, Repr

/-- `libs/workspace/src/reporting/symbol.rs:209-254`, `Display`. -/
def Sym.text : Sym → Text
  | .word w => w
  | .alpha c => [c]
  | .digit n => (toString n).toList
  | .underscore => ['_']
  | .equals => ['=']
  | .lparen => ['(']
  | .rparen => [')']
  | .join => ['#', '#']
  | .directive => ['#']
  | .escape => ['\\']
  | .comma => [',']
  | .dquote => ['"']
  | .squote => ['\'']
  | .langle => ['<']
  | .rangle => ['>']
  | .unicode s => s
  | .newline => ['\n']
  | .space => [' ']
  | .tab => ['\t']
  | .comment _ => []
  | .eoi => []

/-- `symbol.rs:97-99`: comments count as whitespace. -/
def Sym.isWs : Sym → Bool
  | .space | .tab | .comment _ => true
  | _ => false

/-- `symbol.rs:91-93`. -/
def Sym.isWord : Sym → Bool
  | .word _ => true
  | _ => false

/-- `libs/workspace/src/position.rs`: offset, line and column. -/
structure LineCol where
  offset : Nat
  line : Nat
  col : Nat
  deriving DecidableEq, Repr

/-- `libs/workspace/src/position.rs`: `Position`. -/
structure Pos where
  start : LineCol
  stop : LineCol
  path : Text
  deriving DecidableEq, Repr

/-- `libs/workspace/src/reporting/token.rs:9-12`. -/
structure Tok where
  sym : Sym
  pos : Pos
  deriving DecidableEq, Repr

/-- `libs/workspace/src/reporting/output.rs:7-12`. -/
inductive Out
  | direct (t : Tok)
  | mac (t : Tok) (body : List Out)
  deriving Repr

mutual
/-- `output.rs:16-21`, `last_symbol`. -/
def Out.lastSym : Out → Option Sym
  | .direct t => some t.sym
  | .mac _ l => Out.lastSymL l
/-- The last symbol of the last element. -/
def Out.lastSymL : List Out → Option Sym
  | [] => none
  | [o] => o.lastSym
  | _ :: b :: l => Out.lastSymL (b :: l)
end

mutual
/-- `output.rs:40-50`, `From<Output> for Vec<Arc<Token>>`. -/
def Out.toks : Out → List Tok
  | .direct t => [t]
  | .mac _ l => Out.toksL l
/-- Flattening of a list. -/
def Out.toksL : List Out → List Tok
  | [] => []
  | o :: l => o.toks ++ Out.toksL l
end

/-- The text of a list of tokens, `to_string` of each and concatenation. -/
def toksText (l : List Tok) : Text := l.flatMap fun t => t.sym.text

/-! ### Conditional state, `ifstate.rs` -/

/-- `ifstate.rs:8-14`. -/
inductive IfState
  | readingIf (t : Tok) | passingIf (t : Tok) | readingElse (t : Tok) | passingElse (t : Tok)
  | passingChild (t : Tok)
  deriving DecidableEq, Repr

/-- `ifstate.rs:17-22`. -/
def IfState.reading : IfState → Bool
  | .readingIf _ | .readingElse _ => true
  | .passingIf _ | .passingElse _ | .passingChild _ => false

/-- `ifstate.rs:24-32`. -/
def IfState.token : IfState → Tok
  | .readingIf t | .passingIf t | .readingElse t | .passingElse t | .passingChild t => t

/-- `ifstate.rs:36-39`. The stack is kept with its last element first. -/
structure IfStates where
  stack : List IfState := []
  didElse : Option Tok := none
  deriving DecidableEq, Repr

/-- The further tokens of a code: a list for most, both sides and the operator for `IfIncompatibleType`
(`codes/pe16_if_incompatible_types.rs:9-16`), each side with whether it is the value of a macro. -/
inductive More
  | toks (l : List Tok)
  | sides (left : List Tok × Bool) (op : List Tok) (right : List Tok × Bool)
  deriving DecidableEq, Repr

/-- How a run can end without a result: with the code `PE n` for the token `t`. Further tokens of the code are the previous parameter for
5, the definition for 7, 9, 10 and 11, the path for 12, the opening symbol if there is one for 13, the operator for 15, the earlier `#else`
and the `#if` for 17. -/
inductive PErr
  | code (n : Nat) (t : Tok) (more : More := .toks [])
  | panic
  /-- The `expect` of `ifstate.rs:72`, kept apart from the others. -/
  | stray
  | fuel
  deriving DecidableEq, Repr

namespace IfStates

/-- `ifstate.rs:42-44`. -/
def reading (s : IfStates) : Bool := s.stack.all IfState.reading

/-- `ifstate.rs:46-49`. -/
def push (s : IfStates) (i : IfState) : IfStates := { stack := i :: s.stack, didElse := none }

/-- `ifstate.rs:51-58`. -/
def pushIf (s : IfStates) (t : Tok) (b : Bool) : IfStates :=
  s.push (if b then .readingIf t else .passingIf t)

/-- `ifstate.rs:60-63`. -/
def pop (s : IfStates) : Option IfState × IfStates :=
  (s.stack.head?, { stack := s.stack.tail, didElse := none })

/-- The new top of the stack in `flip`, `ifstate.rs:84-89`. -/
def flipTop : Option IfState → Option IfState
  | some (.passingChild t) => some (.passingChild t)
  | some (.passingIf t) => some (.readingElse t)
  | some (.readingIf t) => some (.passingElse t)
  | some (.passingElse _) | some (.readingElse _) | none => none

/-- `ifstate.rs:65-95`. `self.stack.len() - 1` underflows on an empty stack: debug builds abort;
release builds take every element of the empty stack, pop nothing and only record the `#else`.
The model is the release build. -/
def flip (s : IfStates) (t : Tok) : Except PErr IfStates :=
  match s.didElse with
  | some p => match s.stack with
    | [] => .error .stray
    | i :: _ => .error (.code 17 t (.toks [p, i.token]))
  | none =>
    if s.stack.tail.all IfState.reading then
      match flipTop s.stack.head? with
      | some i => .ok { stack := i :: s.stack.tail, didElse := some t }
      | none => .ok { stack := s.stack.tail, didElse := some t }
    else .ok { s with didElse := some t }

end IfStates

/-! ### Macro table, `defines.rs` and `definition.rs` -/

/-- `definition.rs:68-72`. -/
structure FuncDef where
  pos : Pos
  args : List Tok
  body : List Tok
  deriving DecidableEq, Repr

/-- `definition.rs:8-17`. -/
inductive Definition
  | function (f : FuncDef)
  | value (body : List Tok)
  | unit
  | void
  deriving DecidableEq, Repr

/-- `defines.rs:13-17`. -/
inductive DefSource
  | source (files : List Text) | generated | argument
  deriving DecidableEq, Repr

/-- `defines.rs:19`, one entry. -/
structure Entry where
  tok : Tok
  defn : Definition
  src : DefSource
  deriving DecidableEq, Repr

/-- `defines.rs:19`, `InnerDefines`. -/
abbrev Inner := Text → Option Entry

/-- `HashMap::insert`. -/
def Inner.insert (m : Inner) (k : Text) (e : Entry) : Inner := fun k' => if k' = k then some e else m k'
/-- `HashMap::remove`. -/
def Inner.remove (m : Inner) (k : Text) : Inner := fun k' => if k' = k then none else m k'

/-- `defines.rs:21-27`. The stack is kept with its last element first. -/
structure Defines where
  global : Inner := fun _ => none
  stack : List (Text × Inner) := []
  counter : Nat := 0

/-- `defines.rs:30`. -/
def builtinConst : List Text := [(kw "__ARMA__"), (kw "__ARMA3__")]
/-- `defines.rs:33-40`. -/
def builtinGen : List Text :=
  [(kw "__COUNTER__"), (kw "__COUNTER_RESET__"), (kw "__FILE__"), (kw "__FILE_NAME__"),
    (kw "__FILE_SHORT__"), (kw "__LINE__")]
/-- `defines.rs:43`. -/
def builtinSpecial : List Text := [(kw "__EVAL")]
/-- `defines.rs:46-65`. -/
def builtinProtest : List Text :=
  [(kw "__DATE_ARR__"), (kw "__DATE_STR__"), (kw "__DATE_STR_ISO8601__"), (kw "__TIME__"),
    (kw "__TIME_UTC__"), (kw "__TIMESTAMP_UTC__"), (kw "__DAY__"), (kw "__MONTH__"),
    (kw "__YEAR__"), (kw "__RAND_INT*__"), (kw "__RAND_UINT*__"), (kw "__GAME_VER__"),
    (kw "__GAME_VER_MAJ__"), (kw "__GAME_VER_MIN__"), (kw "__GAME_BUILD__"),
    (kw "__A3_DIAG__"), (kw "__A3_DEBUG__"), (kw "__EXEC")]

/-- `defines.rs:68-73`. -/
def isBuiltin (k : Text) : Bool :=
  builtinGen.contains k || builtinSpecial.contains k || builtinProtest.contains k ||
    builtinConst.contains k

/-- `defines.rs:75-77`. -/
def isUnsupportedBuiltin (k : Text) : Bool := builtinProtest.contains k

/-- The outside world. `load` is reading and tokenizing a file, `parse/mod.rs:26-105`; `locate` is
`WorkspacePath::locate` from the current file and answers the path and whether its case differs;
`fileMacro` and `fileName` are the texts of `__FILE__` and `__FILE_NAME__`, `defines.rs:120-192`. -/
structure Env where
  load : Text → Except PErr (List Tok)
  locate : Text → Text → Option (Text × Bool)
  fileMacro : Text → Text
  fileName : Text → Text
  compare : Text → Text → Text → Option Bool

namespace Defines

/-- `defines.rs:79-93`. -/
def containsKey (d : Defines) (k : Text) : Bool :=
  builtinGen.contains k ||
    match d.stack with
    | [] => (d.global k).isSome
    | (name, m) :: _ => if name = k then false else (m k).isSome || (d.global k).isSome

/-- `defines.rs:226-234`. -/
def getReadonly (d : Defines) (k : Text) : Option Entry :=
  match d.stack with
  | [] => d.global k
  | (_, m) :: _ => match m k with
    | some e => some e
    | none => d.global k

/-- `defines.rs:244-254`. -/
def insert (d : Defines) (k : Text) (e : Entry) : Defines :=
  match d.stack with
  | [] => { d with global := d.global.insert k e }
  | (n, m) :: s => { d with stack := (n, m.insert k e) :: s }

/-- `defines.rs:256-262`: the removed entry and the new table. -/
def remove (d : Defines) (k : Text) : Option Entry × Defines :=
  match d.stack with
  | [] => (d.global k, { d with global := d.global.remove k })
  | (n, m) :: s => (m k, { d with stack := (n, m.remove k) :: s })

/-- `defines.rs:264-266`. -/
def push (d : Defines) (name : Text) (args : Inner) : Defines :=
  { d with stack := (name, args) :: d.stack }

/-- `defines.rs:268-270`. -/
def pop (d : Defines) : Defines := { d with stack := d.stack.tail }

/-- The name without its last extension, `defines.rs:172-183`. -/
def shortName (s : Text) : Text := ((s.reverse.dropWhile (· != '.')).drop 1).reverse

/-- The text of `__FILE__`, `defines.rs:120-161`: main prefix (if any) and prefix of the project, if there is a project, and the path in the
workspace. -/
def fileText (project : Option (Option Text × Text)) (path : Text) : Text :=
  let path := path.map fun c => if c = '/' then '\\' else c
  match project with
  | none => path
  | some (none, pre) => pre ++ path
  | some (some main, pre) => main ++ '\\' :: (pre ++ path)

/-- The generated built-ins, `defines.rs:103-204`. -/
def builtin (env : Env) (d : Defines) (key : Tok) (site : Pos) (w : Text) : Definition × Defines :=
  let tok s : Tok := { sym := s, pos := key.pos }
  if w = (kw "__COUNTER__") then
    (.value [tok (.digit (d.counter % 65536))], { d with counter := d.counter + 1 })
  else if w = (kw "__COUNTER_RESET__") then (.void, { d with counter := 0 })
  else if w = (kw "__FILE__") then
    (.value [tok .dquote, tok (.word (env.fileMacro site.path)), tok .dquote], d)
  else if w = (kw "__FILE_NAME__") then (.value [tok (.word (env.fileName site.path))], d)
  else if w = (kw "__FILE_SHORT__") then
    (.value [tok (.word (shortName (env.fileName site.path)))], d)
  else (.value [tok (.digit site.start.line)], d)

/-- `defines.rs:95-223`, with the site always given as both callers do. -/
def getWithGen (env : Env) (d : Defines) (key : Tok) (site : Pos) : Option Entry × Defines :=
  let w := key.sym.text
  if builtinGen.contains w then
    let (df, d') := builtin env d key site w
    (some { tok := key, defn := df, src := .generated }, d')
  else
    match d.getReadonly w with
    | some e => match e.defn with
      | .function f =>
        if key.pos.path ≠ f.pos.path ∨ key.pos.start.line < f.pos.start.line ∨
            f.pos.stop.line < key.pos.start.line then (some e, d)
        else (none, d)
      | _ => (some e, d)
    | none => (none, d)

end Defines

/-! ### Pragmas, `processor/pragma.rs` -/

/-- `pragma.rs:95-99`. -/
inductive Scope
  | line | file | config
  deriving DecidableEq, Repr

/-- The `as u8` value. -/
def Scope.rank : Scope → Nat
  | .line => 0 | .file => 1 | .config => 2

/-- `pragma.rs:101-112`. -/
def Scope.parse (s : Text) : Option Scope :=
  if s = (kw "line") then some .line
  else if s = (kw "file") then some .file
  else if s = (kw "config") then some .config
  else none

/-- `pragma.rs:114-118`. -/
inductive Flag
  | pw3IgnoreFormat | pe23IgnoreIfHasInclude
  deriving DecidableEq, Repr

/-- `pragma.rs:126-136`. -/
def Flag.parse (s : Text) : Option Flag :=
  if s = (kw "pw3_ignore_format") then some .pw3IgnoreFormat
  else if s = (kw "pe23_ignore_has_include") then some .pe23IgnoreIfHasInclude
  else none

/-- `pragma.rs:138-141`. -/
inductive Suppress
  | pw3PaddedArg
  deriving DecidableEq, Repr

/-- `pragma.rs:149-158`. -/
def Suppress.parse (s : Text) : Option Suppress :=
  if s = (kw "pw3_padded_arg") then some .pw3PaddedArg else none

/-- `pragma.rs:13-18`. -/
structure Pragma where
  root : Bool := true
  suppress : Suppress → Option Scope := fun _ => none
  flags : Flag → Option Scope := fun _ => none

namespace Pragma

/-- `pragma.rs:29-51`. -/
def child (p : Pragma) : Pragma where
  root := false
  suppress k := if p.suppress k = some .config then some .config else none
  flags k := if p.flags k = some .config then some .config else none

/-- `pragma.rs:53-55`. -/
def clearLine (p : Pragma) : Pragma :=
  { p with suppress := fun k => (p.suppress k).filter fun v => Scope.rank .line < v.rank }

/-- `pragma.rs:57-59`. -/
def isSuppressed (p : Pragma) (k : Suppress) : Bool := (p.suppress k).isSome

/-- `pragma.rs:75-77`. -/
def isFlagged (p : Pragma) (k : Flag) : Bool := (p.flags k).isSome

/-- The insertion rule of `pragma.rs:66-72` and `84-90`. -/
def widen (old : Option Scope) (s : Scope) : Scope :=
  match old with
  | some o => if s.rank < o.rank then o else s
  | none => s

/-- `pragma.rs:61-73`. -/
def addSuppress (p : Pragma) (t : Tok) (s : Scope) : Except PErr Pragma :=
  match Suppress.parse t.sym.text with
  | none => .error (.code 21 t)
  | some k => .ok { p with
      suppress := fun k' => if k' = k then some (widen (p.suppress k) s) else p.suppress k' }

/-- `pragma.rs:79-91`. -/
def addFlag (p : Pragma) (t : Tok) (s : Scope) : Except PErr Pragma :=
  match Flag.parse t.sym.text with
  | none => .error (.code 22 t)
  | some k => .ok { p with
      flags := fun k' => if k' = k then some (widen (p.flags k) s) else p.flags k' }

end Pragma

/-! ### The processor -/

/-- Warnings: `PW1` (new and old identifier), `PW3` (token and macro name) and `PW4`. -/
inductive Warn
  | redefine (new old : Tok)
  | padded (t : Tok) (name : Text)
  | includeCase (path : List Tok)
  deriving DecidableEq, Repr

/-- `processor/mod.rs:27-56`. The pragma set of the current file is passed by mutable reference
in the code; here it is part of the state and saved and restored around an include. The file stack
has the current file first. -/
structure St where
  ifs : IfStates := {}
  defs : Defines := {}
  pragma : Pragma := {}
  files : List Text := []
  included : List Text := []
  warns : List Warn := []
  noRapify : Bool := false

/-- Result of a step: state, remaining stream and output buffer. -/
abbrev R := Except PErr (St × List Tok × List Out)

/-- `processor/mod.rs:298-311`. -/
def output (st : St) (t : Tok) (buf : List Out) : List Out :=
  if st.ifs.reading then
    match t.sym with
    | .comment _ => buf
    | .newline =>
      if buf.getLast?.bind Out.lastSym = some .escape then buf.dropLast else buf ++ [.direct t]
    | _ => buf ++ [.direct t]
  else buf

/-- `processor/whitespace.rs:13-29`, without a buffer. -/
def skipWs : List Tok → List Tok
  | [] => []
  | t :: l => if t.sym.isWs then skipWs l else t :: l

/-- `processor/whitespace.rs:13-29`, with a buffer. -/
def skipWsOut (st : St) : List Tok → List Out → List Tok × List Out
  | [], buf => ([], buf)
  | t :: l, buf => if t.sym.isWs then skipWsOut st l (output st t buf) else (t :: l, buf)

/-- `processor/whitespace.rs:34-50`, without a buffer as all callers do. -/
def skipLine : List Tok → List Tok
  | [] => []
  | t :: l => if t.sym = .newline then l else skipLine l

/-- `processor/whitespace.rs:55-70`. -/
def expectNothing : List Tok → Except PErr (List Tok)
  | [] => .ok []
  | t :: l =>
    if t.sym = .newline ∨ t.sym = .eoi then .ok l
    else if t.sym.isWs then expectNothing l
    else .error (.code 1 t)

/-- `processor/mod.rs:248-262`. The second component is the stream also when an error is
reported, because `read_pragma` goes on after one: the offending token has been taken. -/
def currentWord : List Tok → Except PErr Tok × List Tok
  | [] => (.error .panic, [])
  | t :: l =>
    if t.sym.isWord then (.ok t, l)
    else if t.sym = .eoi then (.error (.code 2 t), t :: l)
    else (.error (.code 3 t), l)

/-- `processor/mod.rs:269-276`, without a buffer as all callers do. -/
def nextWord (l : List Tok) : Except PErr (Tok × List Tok) :=
  match currentWord (skipWs l) with
  | (.ok t, l') => .ok (t, l')
  | (.error e, _) => .error e

/-- `processor/defines.rs:116-156`: the parameters of a macro definition, after the left
parenthesis. -/
def readParams : List Tok → Bool → List Tok → Except PErr (List Tok × List Tok)
  | [], _, args => .ok (args, [])
  | t :: l, commaNext, args =>
    if t.sym.isWord then
      if commaNext then .error (.code 5 t (.toks args.getLast?.toList)) else readParams l true (args ++ [t])
    else if t.sym = .comma then
      if commaNext then readParams l false args else .error (.code 1 t)
    else if t.sym = .rparen then .ok (args, l)
    else if t.sym.isWs then readParams l commaNext args
    else .error (.code 1 t)

/-- `processor/defines.rs:164-188`, after the leading whitespace. -/
def readBody : List Tok → List Tok → List Tok × List Tok
  | [], body => (body, [])
  | t :: l, body =>
    if t.sym = .newline then
      if body.getLast?.map Tok.sym = some .escape then readBody l (body.dropLast ++ [t])
      else (body, l)
    else if t.sym = .eoi then readBody l body
    else readBody l (body ++ [t])

/-- `processor/directives.rs:327-343`, `read_value`: up to whitespace or a newline. -/
def readValue : List Tok → List Tok × List Tok
  | [] => ([], [])
  | t :: l =>
    if t.sym.isWs ∨ t.sym = .newline then ([], t :: l)
    else
      let (v, r) := readValue l
      (t :: v, r)

/-- `processor/directives.rs:344-358`, `resolve_value`. A macro that stands for nothing is not in the table, so the report
`IfUnitOrFunction` does not find it there and its `expect` fails, `codes/pe7_if_unit_or_function.rs:88-93`. -/
def resolveValue (env : Env) (d : Defines) (t : Tok) :
    Except PErr ((List Tok × Bool) × Defines) :=
  match d.getWithGen env t t.pos with
  | (some e, d') => match e.defn with
    | .value b => .ok ((b, true), d')
    | .void => .error .panic
    | _ => .error (.code 7 t (.toks [e.tok]))
  | (none, d') => .ok (([t], false), d')

/-- One side of an `#if`: a single token is looked up, anything else is taken as it stands,
`directives.rs:384-393` and `426-436`. -/
def resolveSide (env : Env) (d : Defines) : List Tok → Except PErr ((List Tok × Bool) × Defines)
  | [t] => resolveValue env d t
  | l => .ok ((l, false), d)

/-- The token stream as `#if` leaves it and the truth value, `directives.rs:438-481`. -/
def ifCompare (env : Env) (l : List Tok) (ldef : Bool) (op : List Tok) (r : List Tok) (rdef : Bool) : Except PErr Bool :=
  let o := toksText op
  let a := toksText l
  let b := toksText r
  if o = (kw "==") then .ok (decide (a = b))
  else if o = (kw "!=") then .ok (decide (a ≠ b))
  else if o = (kw ">") ∨ o = (kw ">=") ∨ o = (kw "<") ∨ o = (kw "<=") then
    match env.compare o a b with
    | some x => .ok x
    | none => .error (.code 16 (op.headD (l.headD ⟨.eoi, ⟨⟨0, 0, 0⟩, ⟨0, 0, 0⟩, []⟩⟩)) (.sides (l, ldef) op (r, rdef)))
  else match op with
    | t :: _ => .error (.code 15 t (.toks op))
    | [] => .error (.code 15 (l.headD ⟨.eoi, ⟨⟨0, 0, 0⟩, ⟨0, 0, 0⟩, []⟩⟩))

/-- The second half of `#if`, `directives.rs:397-437`: operator, right side and the rest. -/
def ifRight (env : Env) (d : Defines) (left : List Tok) (leftDefined : Bool) (toks : List Tok) :
    Except PErr (List Tok × (List Tok × Bool) × Defines × List Tok) :=
  match toks with
  | t :: _ =>
    if t.sym = .newline then
      if leftDefined then
        .ok ([⟨.equals, t.pos⟩, ⟨.equals, t.pos⟩], ([⟨.digit 1, t.pos⟩], false), d, toks)
      else .error (.code 8 (left.headD t))
    else ifRightOp env d toks
  | [] => ifRightOp env d toks
where
  /-- `directives.rs:413-436`. -/
  ifRightOp (env : Env) (d : Defines) (toks : List Tok) :
      Except PErr (List Tok × (List Tok × Bool) × Defines × List Tok) :=
    let (op, toks) := readValue toks
    let (right, toks) := readValue (skipWs toks)
    match right with
    | [] => match op.getLast? with
      | some t => .error (.code 2 t)
      | none => .error .panic
    | _ :: _ => match resolveSide env d right with
      | .error e => .error e
      | .ok (r, d) => .ok (op, r, d, toks)

/-- `directives.rs:320-485`. -/
def directiveIf (env : Env) (st : St) (cmd : Tok) (toks : List Tok) :
    Except PErr (St × List Tok) :=
  let (left, toks) := readValue (skipWs toks)
  if left.head?.map Tok.sym = some (.word (kw "__has_include")) then
    if st.pragma.isFlagged .pe23IgnoreIfHasInclude then
      .ok ({ st with noRapify := true, ifs := st.ifs.pushIf cmd false }, skipLine toks)
    else .error (.code 23 (left.headD cmd))
  else match resolveSide env st.defs left with
    | .error e => .error e
    | .ok ((l, ldef), d) =>
      if l = [] then .error (.code 2 cmd)
      else match ifRight env d l ldef (skipWs toks) with
        | .error e => .error e
        | .ok (op, r, d, toks) => match ifCompare env l ldef op r.1 r.2 with
          | .error e => .error e
          | .ok b => match expectNothing toks with
            | .error e => .error e
            | .ok toks => .ok ({ st with defs := d, ifs := st.ifs.pushIf cmd b }, toks)

/-- `directives.rs:487-500`. -/
def directiveIfdef (st : St) (cmd : Tok) (outcome : Bool) (toks : List Tok) :
    Except PErr (St × List Tok) :=
  match nextWord toks with
  | .error e => .error e
  | .ok (t, toks) => match expectNothing toks with
    | .error e => .error e
    | .ok toks =>
      .ok ({ st with ifs := st.ifs.pushIf cmd (decide (st.defs.containsKey t.sym.text = outcome)) },
        toks)

/-- The position of a function macro, `directives.rs:268-284`. -/
def bodyPos (ident : Tok) (body : List Tok) : Pos :=
  match body with
  | [] => ident.pos
  | b :: l => ⟨b.pos.start, (l.getLastD b).pos.stop, ident.pos.path⟩

/-- `directives.rs:236-305`. -/
def directiveDefine (st : St) (toks : List Tok) : Except PErr (St × List Tok) :=
  match nextWord toks with
  | .error e => .error e
  | .ok (ident, toks) => match toks with
    | [] => .error (.code 2 ident)
    | next :: rest =>
      let name := ident.sym.text
      if isBuiltin name then .error (.code 6 ident)
      else
        let (old, defs) := st.defs.remove name
        let warns := match old with
          | some ⟨o, _, .source _⟩ => st.warns ++ [.redefine ident o]
          | _ => st.warns
        let done df toks := .ok ({ st with
          warns := warns
          defs := defs.insert name { tok := ident, defn := df, src := .source st.files } }, toks)
        match next.sym with
        | .lparen => match readParams rest false [] with
          | .error e => .error e
          | .ok (args, toks) =>
            let (body, toks) := readBody (skipWs toks) []
            done (.function ⟨bodyPos ident body, args, body⟩) toks
        | .newline | .eoi => done .unit toks
        | _ =>
          let (body, toks) := readBody (skipWs toks) []
          done (.value body) toks

/-- `directives.rs:307-318`. -/
def directiveUndef (st : St) (toks : List Tok) : Except PErr (St × List Tok) :=
  match nextWord toks with
  | .error e => .error e
  | .ok (ident, toks) => match expectNothing toks with
    | .error e => .error e
    | .ok toks => .ok ({ st with defs := (st.defs.remove ident.sym.text).2 }, toks)

/-- `directives.rs:125-150`: code token, scope and rest. -/
def readPragma (_cmd : Tok) (toks : List Tok) : Except PErr (Tok × Scope × List Tok) :=
  match nextWord toks with
  | .error e => .error e
  | .ok (code, toks) =>
    match currentWord (skipWs toks) with
    | (.ok t, toks) => match Scope.parse t.sym.text with
      | none => .error (.code 20 t)
      | some s => match expectNothing toks with
        | .error e => .error e
        | .ok toks => .ok (code, s, toks)
    | (.error .panic, _) => .error .panic
    | (.error _, toks) => .ok (code, .line, toks)

/-- `directives.rs:98-116`. -/
def directivePragma (st : St) (toks : List Tok) : Except PErr (St × List Tok) :=
  match nextWord toks with
  | .error e => .error e
  | .ok (h, toks) =>
    if h.sym.text ≠ (kw "hemtt") then .ok (st, skipLine toks)
    else match nextWord toks with
      | .error e => .error e
      | .ok (cmd, toks) =>
        if cmd.sym.text = (kw "suppress") then
          match readPragma cmd toks with
          | .error e => .error e
          | .ok (code, s, toks) => match st.pragma.addSuppress code s with
            | .error e => .error e
            | .ok p => .ok ({ st with pragma := p }, toks)
        else if cmd.sym.text = (kw "flag") then
          match readPragma cmd toks with
          | .error e => .error e
          | .ok (code, s, toks) => match st.pragma.addFlag code s with
            | .error e => .error e
            | .ok p => .ok ({ st with pragma := p }, toks)
        else .error (.code 19 cmd)

/-- The path of an `#include`, `directives.rs:172-193`: up to the closing symbol. -/
def readPath (close : Sym) (opn : Tok) : List Tok → List Tok → Except PErr (List Tok × List Tok)
  | [], path => .ok (path, [])
  | t :: l, path =>
    if t.sym = close then .ok (path, l)
    else if t.sym = .newline then .error (.code 13 t (.toks [opn]))
    else if t.sym = .eoi then .error (.code 2 t)
    else readPath close opn l (path ++ [t])

/-- What `#include` names: the found file, its tokens and the rest of the stream,
`directives.rs:152-234`. -/
def includeTarget (env : Env) (st : St) (toks : List Tok) :
    Except PErr (Text × List Tok × List Warn × List Tok) :=
  match skipWs toks with
  | [] => .error .panic
  | opn :: toks =>
    let go close := match readPath close opn toks [] with
      | .error e => .error e
      | .ok (path, toks) => match expectNothing toks with
        | .error (.code _ t _) => .error (.code 14 t)
        | .error e => .error e
        | .ok toks => match st.files with
          | [] => .error .panic
          | cur :: _ => match env.locate cur (toksText path) with
            | none => .error (.code 12 opn (.toks path))
            | some (found, mismatch) => match env.load found with
              | .error e => .error e
              | .ok inner =>
                .ok (found, inner, if mismatch then [Warn.includeCase path] else [], toks)
    match opn.sym with
    | .dquote => go .dquote
    | .langle => go .rangle
    | _ => .error (.code 13 opn (.toks (if opn.sym.isWord then [] else [opn])))

/-- The directives that make `walk` look for one in the middle of a stream,
`processor/mod.rs:178-182`. -/
def directiveWords : List Text :=
  [(kw "if"), (kw "else"), (kw "endif"), (kw "ifdef"), (kw "ifndef"), (kw "define"),
    (kw "undef"), (kw "include"), (kw "pragma")]

/-- Does `#` quote the next token? `processor/mod.rs:193-201`. -/
def quotes (st : St) (t : Tok) (rest : List Tok) (site : Pos) : Bool :=
  match rest with
  | [] => false
  | n :: _ => n.sym.isWord && st.defs.containsKey n.sym.text &&
      (t.pos.path ≠ site.path || t.pos.start.offset < site.start.offset)

/-- The closing quote of `#word`, `processor/mod.rs:235-238`. -/
def closeQuote (st : St) (q : Option Pos) (buf : List Out) : List Out :=
  match q with
  | some p => output st ⟨.dquote, p⟩ buf
  | none => buf

/-- `processor/defines.rs:239-253`: the padded argument warnings of one argument. -/
def paddedWarns (name : Text) (value : List Tok) (ws : List Warn) : List Warn :=
  let step ws (t : Option Tok) := match t with
    | some t => if t.sym.isWs ∧ ¬ ws.any (fun w => match w with
        | .padded t' _ => t' == t
        | _ => false) then ws ++ [Warn.padded t name] else ws
    | none => ws
  step (step ws value.head?) value.getLast?

/-- `processor/defines.rs:231-235`. -/
def formatPrefixes : List Text :=
  [(kw "ARR_"), (kw "TRACE_"), (kw "INFO_"), (kw "WARNING_"), (kw "ERROR_"),
    (kw "DEBUG_"), (kw "FORMAT_")]

/-- Are padded arguments of this macro reported? `processor/defines.rs:229-237`. -/
def checksPadding (p : Pragma) (name : Text) : Bool :=
  !p.isSuppressed .pw3PaddedArg &&
    (!p.isFlagged .pw3IgnoreFormat || formatPrefixes.all fun s => !s.isPrefixOf name)

/-- `processor/defines.rs:227-264`: the argument map and the warnings. -/
def bindArgs (p : Pragma) (name : Text) : List (Tok × List Tok) → Inner → List Warn →
    Inner × List Warn
  | [], m, ws => (m, ws)
  | (a, v) :: l, m, ws =>
    bindArgs p name l (m.insert a.sym.text { tok := a, defn := .value v, src := .argument })
      (if checksPadding p name then paddedWarns name v ws else ws)

/-- `definition.rs:105-111` and `processor/defines.rs:287`: the body without `##`. -/
def noJoin (l : List Tok) : List Tok := l.filter fun t => t.sym ≠ .join

/-- A directive that writes nothing. -/
def liftR (buf : List Out) (r : Except PErr (St × List Tok)) : R :=
  match r with
  | .error e => .error e
  | .ok (st, toks) => .ok (st, toks, buf)

mutual

/-- `processor/mod.rs:142-241`. `q` is `in_quotes`, `jw` is `just_whitespace`, `quote` the pending
closing quote. -/
def walk (fuel : Nat) (env : Env) (site : Option Pos) (im : Option Text) (q jw : Bool)
    (quote : Option Pos) (st : St) (toks : List Tok) (buf : List Out) : R :=
  match fuel with
  | 0 => .error .fuel
  | n + 1 =>
    match toks with
    | [] => .ok (st, [], buf)
    | t :: rest =>
      match t.sym, q with
      | .word w, false =>
        if w = (kw "__EXEC") then .error (.code 25 t)
        else if isUnsupportedBuiltin w then .error (.code 26 t)
        else if im ≠ some w ∧ st.defs.containsKey w = true then
          match defineUse n env (site.getD t.pos) st (t :: rest) buf with
          | .error e => .error e
          | .ok (st, toks, buf) =>
            walk n env site im false false none st toks (closeQuote st quote buf)
        else walk n env site im false false none st rest (closeQuote st quote (output st t buf))
      | .directive, false =>
        if jw = true ∧ (rest.head?.any fun c => directiveWords.contains c.sym.text) then
          match directive n env st (t :: rest) buf with
          | .error e => .error e
          | .ok (_, st, toks, buf) => walk n env site im false true quote st toks buf
        else if im.isSome ∧ (site.any fun s => quotes st t rest s) then
          walk n env site im false jw (some t.pos) st rest (output st ⟨.dquote, t.pos⟩ buf)
        else walk n env site im false jw none st rest (closeQuote st quote (output st t buf))
      | .newline, false =>
        if im = none then .ok (st, rest, output st t buf)
        else walk n env site im false true none st rest (closeQuote st quote (output st t buf))
      | .dquote, _ =>
        walk n env site im (!q) false none st rest (closeQuote st quote (output st t buf))
      | .eoi, _ => .ok (st, t :: rest, buf)
      | .space, _ => walk n env site im q jw none st rest (closeQuote st quote (output st t buf))
      | .tab, _ => walk n env site im q jw none st rest (closeQuote st quote (output st t buf))
      | _, _ => walk n env site im q false none st rest (closeQuote st quote (output st t buf))

/-- `processor/defines.rs:196-325`. -/
def defineUse (fuel : Nat) (env : Env) (site : Pos) (st : St) (toks : List Tok)
    (buf : List Out) : R :=
  match fuel with
  | 0 => .error .fuel
  | n + 1 =>
    match currentWord toks with
    | (.error e, _) => .error e
    | (.ok ident, toks) =>
      match st.defs.getWithGen env ident site with
      | (none, d) => .ok ({ st with defs := d }, toks, buf ++ [.direct ident])
      | (some e, d) =>
        let st := { st with defs := d }
        match e.defn with
        | .function f => match toks with
          | [] => .error .panic
          | p :: toks =>
            if p.sym ≠ .lparen then .error (.code 10 ident (.toks [e.tok]))
            else match readArgs n env site false 0 st toks [] [] with
              | .error e => .error e
              | .ok (st, toks, args) =>
                if args.length ≠ f.args.length then .error (.code 9 ident (.toks [e.tok]))
                else
                  let (m, ws) := bindArgs st.pragma ident.sym.text (f.args.zip args)
                    (fun _ => none) st.warns
                  match walk n env (some site) (some ident.sym.text) false true none
                      { st with warns := ws, defs := st.defs.push ident.sym.text m }
                      (noJoin f.body) [] with
                  | .error e => .error e
                  | .ok (st, _, layer) =>
                    .ok ({ st with defs := st.defs.pop }, toks, buf ++ [.mac ident layer])
        | .value body =>
          if e.src = .argument then .ok (st, toks, buf ++ [.mac ident (body.map .direct)])
          else
            match walk n env (some site) (some ident.sym.text) false true none st
                (noJoin body) [] with
            | .error e => .error e
            | .ok (st, _, layer) => .ok (st, toks, buf ++ [.mac ident layer])
        | .void => .ok (st, toks, buf)
        | .unit => match toks with
          | [] => .error .panic
          | _ :: _ => .error (.code 11 ident (.toks [e.tok]))

/-- `processor/defines.rs:47-94`: the arguments of a call, after the left parenthesis. -/
def readArgs (fuel : Nat) (env : Env) (site : Pos) (q : Bool) (depth : Nat) (st : St)
    (toks : List Tok) (args : List (List Tok)) (arg : List Tok) :
    Except PErr (St × List Tok × List (List Tok)) :=
  match fuel with
  | 0 => .error .fuel
  | n + 1 =>
    match toks with
    | [] => .ok (st, [], if arg = [] then args else args ++ [arg])
    | t :: rest =>
      if q then readArgs n env site (t.sym ≠ .dquote) depth st rest args (arg ++ [t])
      else match t.sym with
        | .word w =>
          if st.defs.containsKey w then
            match defineUse n env site st (t :: rest) [] with
            | .error e => .error e
            | .ok (st, toks, inner) =>
              readArgs n env site false depth st toks args (arg ++ Out.toksL inner)
          else readArgs n env site false depth st rest args (arg ++ [t])
        | .lparen => readArgs n env site false (depth + 1) st rest args (arg ++ [t])
        | .rparen =>
          if depth = 0 then .ok (st, rest, if arg = [] then args else args ++ [arg])
          else readArgs n env site false (depth - 1) st rest args (arg ++ [t])
        | .comma => readArgs n env site false depth st rest (args ++ [arg]) []
        | .dquote => readArgs n env site true depth st rest args (arg ++ [t])
        | _ => readArgs n env site false depth st rest args (arg ++ [t])

/-- `processor/directives.rs:36-54`. The boolean says whether a directive was there; a `#` that no
word follows is taken from the stream all the same. -/
def directive (fuel : Nat) (env : Env) (st : St) (toks : List Tok) (buf : List Out) :
    Except PErr (Bool × St × List Tok × List Out) :=
  match fuel with
  | 0 => .error .fuel
  | n + 1 =>
    match toks with
    | [] => .ok (false, st, toks, buf)
    | h :: rest =>
      if h.sym = .directive then
        match rest with
        | [] => .ok (false, st, rest, buf)
        | c :: rest' =>
          if c.sym.isWord then
            match command n env st c rest' buf with
            | .error e => .error e
            | .ok (st, toks, buf) => .ok (true, st, toks, buf)
          else .ok (false, st, rest, buf)
      else .ok (false, st, toks, buf)

/-- `processor/directives.rs:56-123`, after the command word has been taken. -/
def command (fuel : Nat) (env : Env) (st : St) (cmd : Tok) (toks : List Tok) (buf : List Out) :
    R :=
  match fuel with
  | 0 => .error .fuel
  | n + 1 =>
    if cmd.sym.text = (kw "else") then
      match st.ifs.flip cmd with
      | .error e => .error e
      | .ok ifs => match expectNothing toks with
        | .error e => .error e
        | .ok toks => .ok ({ st with ifs := ifs }, toks, buf)
    else if cmd.sym.text = (kw "endif") then
      match expectNothing toks with
      | .error e => .error e
      | .ok toks => .ok ({ st with ifs := st.ifs.pop.2 }, toks, buf)
    else if st.ifs.reading then
      if cmd.sym.text = (kw "include") then
        match includeTarget env st toks with
        | .error e => .error e
        | .ok (found, inner, ws, toks) =>
          match file n env { st with
              pragma := st.pragma.child, files := found :: st.files,
              included := st.included ++ [found], warns := st.warns ++ ws } inner buf with
          | .error e => .error e
          | .ok (st', _, buf) => .ok ({ st' with pragma := st.pragma, files := st.files }, toks, buf)
      else if cmd.sym.text = (kw "define") then liftR buf (directiveDefine st toks)
      else if cmd.sym.text = (kw "undef") then liftR buf (directiveUndef st toks)
      else if cmd.sym.text = (kw "if") then liftR buf (directiveIf env st cmd toks)
      else if cmd.sym.text = (kw "ifdef") then liftR buf (directiveIfdef st cmd true toks)
      else if cmd.sym.text = (kw "ifndef") then liftR buf (directiveIfdef st cmd false toks)
      else if cmd.sym.text = (kw "pragma") then liftR buf (directivePragma st toks)
      else .error (.code 4 cmd)
    else if cmd.sym.text = (kw "if") ∨ cmd.sym.text = (kw "ifdef") ∨ cmd.sym.text = (kw "ifndef") then
      .ok ({ st with ifs := st.ifs.push (.passingChild cmd) }, skipLine toks, buf)
    else .ok (st, skipLine toks, buf)

/-- `processor/mod.rs:108-121`. -/
def file (fuel : Nat) (env : Env) (st : St) (toks : List Tok) (buf : List Out) : R :=
  match fuel with
  | 0 => .error .fuel
  | n + 1 =>
    match toks with
    | [] => .ok (st, [], buf)
    | t :: rest =>
      if t.sym = .eoi then .ok (st, t :: rest, buf)
      else match line n env st (t :: rest) buf with
        | .error e => .error e
        | .ok (st, toks, buf) => file n env st toks buf

/-- `processor/mod.rs:123-140`. -/
def line (fuel : Nat) (env : Env) (st : St) (toks : List Tok) (buf : List Out) : R :=
  match fuel with
  | 0 => .error .fuel
  | n + 1 =>
    let (toks, buf) := skipWsOut st toks buf
    match directive n env st toks buf with
    | .error e => .error e
    | .ok (true, st, toks, buf) => .ok (st, toks, buf)
    | .ok (false, st, toks, buf) =>
      if st.ifs.reading then
        match walk n env none none false true none st toks buf with
        | .error e => .error e
        | .ok (st, toks, buf) => .ok ({ st with pragma := st.pragma.clearLine }, toks, buf)
      else .ok ({ st with pragma := st.pragma.clearLine }, skipLine toks, buf)

end

/-- `processor/mod.rs:69-106`, up to the construction of `Processed`. -/
def run (fuel : Nat) (env : Env) (path : Text) : Except PErr (St × List Out) :=
  match env.load path with
  | .error e => .error e
  | .ok toks => match file fuel env { files := [path] } toks [] with
    | .error e => .error e
    | .ok (st, _, buf) => match st.ifs.pop with
      | (some i, _) => .error (.code 18 i.token)
      | (none, _) => .ok (st, buf)

end Verif.Preproc
