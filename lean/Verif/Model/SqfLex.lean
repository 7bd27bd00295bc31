import Verif.Model.SqfParse
import Verif.Model.Prefix
/-!
Model of the SQF lexer, from text to tokens (libs/sqf/src/parser/lexer.rs:132-303), and of the printing of an expression
(libs/sqf/src/lib.rs:178-228).

Text is a list of characters, positions are counted in characters as `chumsky` does for `&str`. The combinators are taken
to mean what Model/SqfParse says of them; in addition `not` reads one character where its parser fails, and `padded`
passes over white space on both sides. Names and strings are stored in UTF-8, as everywhere in the models of SQF.
`f32` is a parameter: how a decimal number is rounded and how a number is printed.
-/
namespace Verif.SqfLex
open Verif.Sqf Verif.SqfParse
open Verif.Prefix (isWs)

/-- The bytes of a text in UTF-8. -/
def enc (s : Text) : Bytes := s.flatMap String.utf8EncodeChar
/-- The text of bytes in UTF-8. -/
def dec (b : Bytes) : Text := (b.toByteArray.utf8Decode?).elim [] Array.toList

/-- `f32`: `FromStr` for the texts the lexer hands to it, the cast from `u32`, and `Display`. -/
structure F32 where
  parse : Text → UInt32
  ofNat : Nat → UInt32
  display : UInt32 → Text

/-- `just(p)`: the rest behind `p` -/
def just : Text → Text → Option Text
  | [], s => some s
  | _ :: _, [] => none
  | p :: ps, c :: s => if p = c then just ps s else none

/-- `parser.not().repeated()`, `q` saying where the parser succeeds -/
def notRep (q : Text → Bool) : Text → Text × Text
  | [] => ([], [])
  | c :: s => if q (c :: s) then ([], c :: s) else ((c :: (notRep q s).1), (notRep q s).2)

/-- lexer.rs:186-188 `newline` -/
def isNewline (s : Text) : Bool := (just ['\r', '\n'] s).isSome || (just ['\n'] s).isSome

/-- lexer.rs:173-178 `multi_line_comment` -/
def multiLine (s : Text) : Option (Text × Text) :=
  (just ['/', '*'] s).bind fun r =>
    let m := notRep (fun x => (just ['*', '/'] x).isSome) r
    (just ['*', '/'] m.2).map fun e => (['/', '*'] ++ m.1 ++ ['*', '/'], e)

/-- lexer.rs:180-184 `single_line_comment` -/
def singleLine (s : Text) : Option (Text × Text) :=
  (just ['/', '/'] s).map fun r => (['/', '/'] ++ (notRep isNewline r).1, (notRep isNewline r).2)

/-- lexer.rs:166-171 `comment` -/
def comment (s : Text) : Option (Token × Text) :=
  ((multiLine s).or (singleLine s)).map fun m => (.comment (enc m.1), m.2)

def isDigit (c : Char) : Bool := '0' ≤ c && c ≤ '9'
def isHex (c : Char) : Bool := isDigit c || ('a' ≤ c && c ≤ 'f') || ('A' ≤ c && c ≤ 'F')
def isAlpha (c : Char) : Bool := ('a' ≤ c && c ≤ 'z') || ('A' ≤ c && c ≤ 'Z')

/-- `one_of(..).repeated().at_least(1)` -/
def many1 (q : Char → Bool) (s : Text) : Option (Text × Text) :=
  if s.takeWhile q = [] then none else some (s.takeWhile q, s.dropWhile q)

/-- lexer.rs:248-250 `number_digits` -/
def digits (s : Text) : Option (Text × Text) := many1 isDigit s

/-- The value of digits, highest first. -/
def value (base : Nat) (s : Text) : Nat := s.foldl (fun v c => v * base +
  (if isDigit c then c.toNat - 48 else if 'a' ≤ c ∧ c ≤ 'f' then c.toNat - 87 else c.toNat - 55)) 0

/-- lexer.rs:202-210 `number_hex` -/
def numberHex (F : F32) (s : Text) : Option (UInt32 × Text) :=
  ((just ['$'] s).or (just ['0', 'x'] s)).bind fun r =>
    (many1 isHex r).bind fun (d, e) => if value 16 d < 2 ^ 32 then some (F.ofNat (value 16 d), e) else none

/-- lexer.rs:212-218 `number_int` -/
def numberInt (F : F32) (s : Text) : Option (UInt32 × Text) :=
  (digits s).bind fun (d, e) => if value 10 d < 2 ^ 32 then some (F.ofNat (value 10 d), e) else none

/-- lexer.rs:221-223 `number_digits().chain(just('.')).or_not()` -/
def whole (s : Text) : Text × Text :=
  ((digits s).bind fun (d, e) => (just ['.'] e).map fun r => (d ++ ['.'], r)).getD ([], s)

/-- lexer.rs:226 `one_of("-+").or_not()` -/
def sign : Text → Text × Text
  | '-' :: s => (['-'], s)
  | '+' :: s => (['+'], s)
  | s => ([], s)

/-- lexer.rs:225 `one_of("eE")` -/
def letterE : Text → Option (Char × Text)
  | 'e' :: s => some ('e', s)
  | 'E' :: s => some ('E', s)
  | _ => none

/-- lexer.rs:220-231 `number_float_exponent` -/
def numberExp (F : F32) (s : Text) : Option (UInt32 × Text) :=
  (digits (whole s).2).bind fun (d, s2) => (letterE s2).bind fun (c, s3) => (digits (sign s3).2).map fun (x, s4) =>
    (F.parse ((whole s).1 ++ d ++ [c] ++ (sign s3).1 ++ x), s4)

/-- lexer.rs:233-241 `number_float_basic` -/
def numberBasic (F : F32) (s : Text) : Option (UInt32 × Text) :=
  let w := (digits s).getD ([], s)
  (just ['.'] w.2).bind fun s2 => (digits s2).map fun (d, s3) => (F.parse (w.1 ++ ['.'] ++ d), s3)

/-- lexer.rs:190-200 `number` -/
def number (F : F32) (s : Text) : Option (UInt32 × Text) :=
  (((numberExp F s).or (numberBasic F s)).or (numberHex F s)).or (numberInt F s)

/-- `chumsky::text::ident` -/
def ident : Text → Option (Text × Text)
  | [] => none
  | c :: s => if isAlpha c || c = '_' then
      some (c :: s.takeWhile (fun c => isAlpha c || isDigit c || c = '_'), s.dropWhile (fun c => isAlpha c || isDigit c || c = '_'))
    else none

/-- lexer.rs:253 `content.repeated()` -/
def content (d : Char) : Text → Text × Text
  | [] => ([], [])
  | c :: s =>
    if c ≠ d then (c :: (content d s).1, (content d s).2)
    else match s with
      | [] => ([], [c])
      | c' :: s' => if c' = d then (d :: (content d s').1, (content d s').2) else ([], c :: c' :: s')

/-- lexer.rs:252-258 `string` -/
def string (d : Char) (s : Text) : Option (Text × Text) :=
  (just [d] s).bind fun r => (just [d] (content d r).2).map fun e => ((content d r).1, e)

/-- lexer.rs:153 `constant` -/
def constant (F : F32) (s : Text) : Option (Token × Text) :=
  ((((number F s).map fun m => (Token.num m.1, m.2)).or
    ((ident s).map fun m => (Token.ident (enc m.1), m.2))).or
    ((string '\'' s).map fun m => (Token.str (enc m.1) .single, m.2))).or
    ((string '"' s).map fun m => (Token.str (enc m.1) .double, m.2))

/-- lexer.rs:104-128 `Operator::to_str` -/
def opText : Op → Text
  | .and => ['&', '&'] | .or => ['|', '|'] | .eq => ['=', '='] | .notEq => ['!', '='] | .configPath => ['>', '>']
  | .greaterEq => ['>', '='] | .lessEq => ['<', '='] | .greater => ['>'] | .less => ['<'] | .not => ['!'] | .add => ['+']
  | .sub => ['-'] | .mul => ['*'] | .div => ['/'] | .rem => ['%'] | .exp => ['^'] | .assign => ['=']
  | .associate => [':'] | .select => ['#']

/-- lexer.rs:67-78 `Control::to_str` -/
def ctlText : Ctl → Text
  | .terminator => [';'] | .separator => [','] | .squareOpen => ['['] | .squareClose => [']'] | .roundOpen => ['(']
  | .roundClose => [')'] | .curlyOpen => ['{'] | .curlyClose => ['}']

/-- lexer.rs:260-282 `operator`, in the order of the alternatives -/
def operators : List (Text × Op) := [(['&', '&'], .and), (['|', '|'], .or), (['=', '='], .eq), (['!', '='], .notEq),
  (['>', '>'], .configPath), (['>', '='], .greaterEq), (['<', '='], .lessEq), (['>'], .greater), (['<'], .less),
  (['!'], .not), (['+'], .add), (['-'], .sub), (['*'], .mul), (['/'], .div), (['%'], .rem), (['^'], .exp),
  (['='], .assign), ([':'], .associate), (['#'], .select)]
/-- lexer.rs:284-295 `control` -/
def controls : List (Text × Ctl) := [([';'], .terminator), ([','], .separator), (['['], .squareOpen), ([']'], .squareClose),
  (['('], .roundOpen), ([')'], .roundClose), (['{'], .curlyOpen), (['}'], .curlyClose)]
/-- `choice` of `just(..).to(..)` -/
def choice {α : Type} (l : List (Text × α)) (s : Text) : Option (α × Text) :=
  l.findSome? fun p => (just p.1 s).map fun r => (p.2, r)

/-- lexer.rs:145-163 `base` -/
def base (F : F32) (s : Text) : Option (Token × Text) :=
  (((choice operators s).map fun m => (Token.op m.1, m.2)).or
    ((choice controls s).map fun m => (Token.ctl m.1, m.2))).or
    ((constant F s).bind fun m => if (constant F m.2).isSome then none else some m)

/-- lexer.rs:137-138 `comment().or(base())` -/
def token (F : F32) (s : Text) : Option (Token × Text) := (comment s).or (base F s)

/-- lexer.rs:137-141 `.map_with_span(..).padded().repeated()`; `n` is the length of the text. -/
def loop (F : F32) (n : Nat) : Nat → Text → List Tok × Text
  | 0, s => ([], s)
  | f + 1, s =>
    let s' := s.dropWhile isWs
    match token F s' with
    | none => ([], s)
    | some (t, r) =>
      let m := loop F n f (r.dropWhile isWs)
      ((t, (n - s'.length, n - r.length)) :: m.1, m.2)

/-- lexer.rs:132-143 `run` -/
def lex (F : F32) (s : Text) : Option (List Tok) :=
  if s.dropWhile isWs = [] then some []
  else
    let m := loop F s.length (s.length + 1) s
    if m.2 = [] then some m.1 else none

/-- The whole way from text to tree; libs/sqf/src/parser/mod.rs:23-60 `run` calls the lexer first. -/
def compile (env : Env) (F : F32) (s : Text) : Option (List Stmt) := (lex F s).bind (SqfParse.run env)

/-! ### Printing -/

/-- lib.rs:153-161 `StringWrapper::as_str` -/
def quote : Wrapper → Char
  | .single => '\''
  | .double => '"'

/-- lib.rs:431-443 `UnaryCommand::as_str` -/
def unText : UnCmd → Text
  | .named n => dec n
  | .plus => ['+'] | .minus => ['-'] | .not => ['!']

/-- lib.rs:478-510 `BinaryCommand::as_str` -/
def binText : BinCmd → Text
  | .named n => dec n
  | .or => ['|', '|'] | .and => ['&', '&'] | .eq => ['=', '='] | .notEq => ['!', '='] | .greater => ['>'] | .less => ['<']
  | .greaterEq => ['>', '='] | .lessEq => ['<', '='] | .add => ['+'] | .sub => ['-'] | .mul => ['*'] | .div => ['/']
  | .rem => ['%'] | .exp => ['^'] | .els => ['e', 'l', 's', 'e'] | .max => ['m', 'a', 'x'] | .min => ['m', 'i', 'n']
  | .mod => ['m', 'o', 'd'] | .atan2 => ['a', 't', 'a', 'n', '2'] | .associate => [':'] | .configPath => ['>', '>'] | .select => ['#']

/-- lib.rs:332-334 `is_binary` -/
def isBinary : Expr → Bool
  | .bin .. => true
  | _ => false

/-- lib.rs:181-188 `maybe_enclose`, of the printed argument -/
def enclose (b : Bool) (src : Text) : Text := if b then ['('] ++ src ++ [')'] else src

mutual
/-- lib.rs:179-228 `Expression::source` -/
def source (F : F32) : Expr → Text
  | .code _ src _ => ['{'] ++ dec src ++ ['}']
  | .str s _ w => [quote w] ++ dec s ++ [quote w]
  | .num x _ => F.display x
  | .bool b _ => if b then ['t', 'r', 'u', 'e'] else ['f', 'a', 'l', 's', 'e']
  | .carr es _ => ['['] ++ sources F es ++ [']']
  | .arr es _ => ['['] ++ sources F es ++ [']']
  | .nular n _ => dec n
  | .un c e _ => unText c ++ [' '] ++ enclose (isBinary e) (source F e)
  | .bin c l r _ => enclose (isBinary l) (source F l) ++ [' '] ++ binText c ++ [' '] ++ enclose (isBinary r) (source F r)
  | .var n _ => dec n
/-- lib.rs:203-212 the elements of an array -/
def sources (F : F32) : List Expr → Text
  | [] => []
  | [e] => source F e
  | e :: e' :: es => source F e ++ [','] ++ sources F (e' :: es)
end

end Verif.SqfLex
