import Verif.Model.SqfLex
import Verif.Model.Rapify
import Verif.Model.Math
/-!
Model of the config parser, from text to tree (libs/config/src/parse).

Text is a list of characters. The combinators of `chumsky` are taken to mean what Model/SqfParse and Model/SqfLex say of
them; in addition `separated_by` reads items with separators between them, gives back a separator no item follows, and
with `allow_trailing` keeps one such separator when there was an item. Spans are left out.

What happens after `recover_with` found an error is not modelled: the model stops there with `halt .recovery`. It also
stops where the code panics.

Numbers: `f32` and `f64` are parameters.
-/
namespace Verif.ConfigParse
open Verif.SqfLex (just many1 digits isDigit isHex isAlpha)
open Verif.Prefix (isWs trim)
open Verif.Rap (Num)

/-- Floating point: `f32` as in the lexer of SQF with negation; `f64` as in the evaluator of expressions, with
`fract() == 0.0` giving the whole number, and the cast to `f32`. -/
structure Fl (α : Type) where
  f32 : SqfLex.F32
  neg : UInt32 → UInt32
  f64 : Math.Num α
  whole : α → Option Int
  toF32 : α → UInt32

/-- repo: libs/config/src/model/array.rs:15-25 (`Item`) -/
inductive Item where
  | str (s : Text)
  | num (n : Num)
  | arr (items : List Item)
  | invalid

/-- repo: libs/config/src/model/value.rs:7-39 (`Value`), array.rs:7-11 (`Array`); `uarr` is `UnexpectedArray` -/
inductive Val where
  | str (s : Text)
  | num (n : Num)
  | expr (s : Text)
  | arr (expand : Bool) (items : List Item)
  | uarr (items : List Item)
  | invalid

/-- repo: libs/config/src/model/property.rs:7-24 (`Property`), class.rs:9-47 (`Class`); `expected` is `expected_array`,
`nobraces` is `err_missing_braces` -/
inductive Prp where
  | entry (name : Text) (v : Val) (expected : Bool)
  | loc (name : Text) (parent : Option Text) (ps : List Prp) (nobraces : Bool)
  | ext (name : Text)
  | del (name : Text)
  | missing (name : Text)

/-- repo: libs/config/src/model/property.rs:31-36 (`name`) -/
def Prp.name : Prp → Text
  | .entry n _ _ => n
  | .loc n _ _ _ => n
  | .ext n => n
  | .del n => n
  | .missing n => n

/-- Why the model stops. -/
inductive Halt where
  | recovery
  | panic
deriving DecidableEq

/-- The outcome of a parser: a result and the text behind it, failure, or the end of the model. -/
inductive R (α : Type) where
  | ok (a : α) (rest : Text)
  | fail
  | halt (h : Halt)

/-- `then` -/
def R.bind {α β : Type} (x : R α) (f : α → Text → R β) : R β :=
  match x with
  | .ok a r => f a r
  | .fail => .fail
  | .halt h => .halt h

/-- `or`, `choice` -/
def R.or {α : Type} (x y : R α) : R α :=
  match x with
  | .fail => y
  | _ => x

/-- `map` -/
def R.map {α β : Type} (f : α → β) (x : R α) : R β := x.bind fun a r => .ok (f a) r

/-- A parser that needs no recovery. -/
def lift {α : Type} : Option (α × Text) → R α
  | some m => .ok m.1 m.2
  | none => .fail

/-- White space is passed over. -/
def ws (s : Text) : Text := s.dropWhile isWs

/-- `just(p)` -/
def tok (p s : Text) : R Unit :=
  match just p s with
  | some r => .ok () r
  | none => .fail

/-- `just(p).padded()` -/
def tokP (p s : Text) : R Unit := (tok p (ws s)).bind fun _ r => .ok () (ws r)

/-- `parser.padded()` -/
def padded {α : Type} (p : Text → R α) (s : Text) : R α := (p (ws s)).bind fun a r => .ok a (ws r)

/-- `recover_with(skip_until([';'], ..))`: a failure is recovered from if there is a semicolon. -/
def orSkip {α : Type} (x : R α) (s : Text) : R α :=
  match x with
  | .fail => if ';' ∈ s then .halt .recovery else .fail
  | _ => x

/-! ### Numbers -/

/-- number.rs:11-20, 21-30: the kind of an integer -/
def intNum (v : Nat) : Num := if v > 2 ^ 31 - 1 then .i64 v else .i32 v

/-- number.rs:38-45 `number_hex` -/
def numberHex (s : Text) : Option (Nat × Text) :=
  (just ['0', 'x'] s).bind fun r =>
    (many1 isHex r).bind fun (d, e) => if SqfLex.value 16 d < 2 ^ 63 then some (SqfLex.value 16 d, e) else none

/-- number.rs:47-53 `number_int` -/
def numberInt (s : Text) : Option (Nat × Text) :=
  (digits s).bind fun (d, e) => if SqfLex.value 10 d < 2 ^ 63 then some (SqfLex.value 10 d, e) else none

/-- libs/config/src/model/number.rs:52-68 `negate` -/
def negate {α : Type} (F : Fl α) : Num → Num
  | .i32 v => .i32 (-v)
  | .i64 v => .i64 (-v)
  | .f32 b => .f32 (F.neg (.ofNat b)).toNat

/-- number.rs:8-31 the alternatives of `number`; 55-66 and 68-76 are those of the SQF lexer -/
def unsigned {α : Type} (F : Fl α) (s : Text) : Option (Num × Text) :=
  ((((SqfLex.numberExp F.f32 s).map fun m => (Num.f32 m.1.toNat, m.2)).or
    ((SqfLex.numberBasic F.f32 s).map fun m => (Num.f32 m.1.toNat, m.2))).or
    ((numberHex s).map fun m => (intNum m.1, m.2))).or
    ((numberInt s).map fun m => (intNum m.1, m.2))

/-- number.rs:5-36 `number` -/
def number {α : Type} (F : Fl α) (s : Text) : Option (Num × Text) :=
  match just ['-'] s with
  | some r => (unsigned F r).map fun m => (negate F m.1, m.2)
  | none => unsigned F s

/-- `Display` of an integer -/
def intText : Int → Text
  | .ofNat n => decimal n
  | .negSucc n => '-' :: decimal (n + 1)

/-- libs/config/src/model/number.rs:81-89 `Display` -/
def numText {α : Type} (F : Fl α) : Num → Text
  | .i32 v => intText v
  | .i64 v => intText v
  | .f32 b => F.f32.display (.ofNat b)

/-- The cast from `f64` to `i64`, of a whole number. -/
def clamp64 (v : Int) : Int := max (-2 ^ 63) (min v (2 ^ 63 - 1))

/-- libs/config/src/model/number.rs:30-49 `try_evaulation` -/
def evaluate {α : Type} (F : Fl α) (s : Text) : Option Num :=
  (Math.eval F.f64 s).map fun v =>
    match F.whole v with
    | some z => if -2 ^ 31 ≤ z ∧ z ≤ 2 ^ 31 - 1 then .i32 z else .i64 (clamp64 z)
    | none => .f32 (F.toF32 v).toNat

/-- value.rs:20-28 the characters an expression is made of besides numbers -/
def mathChars : List Char := ['-', '+', '*', '/', '%', '^', '(', ')', ' ']

/-- value.rs:18-29 one piece of an expression -/
def piece {α : Type} (F : Fl α) (s : Text) : Option (Text × Text) :=
  ((number F s).map fun m => (numText F m.1, m.2)).or
    (match s with
      | [] => none
      | c :: r => if c ∈ mathChars then some ([c], r) else none)

/-- value.rs:30 `.repeated()`; the first number bounds the pieces -/
def pieces {α : Type} (F : Fl α) : Nat → Text → List Text × Text
  | 0, s => ([], s)
  | f + 1, s =>
    match piece F s with
    | none => ([], s)
    | some (p, r) => (p :: (pieces F f r).1, (pieces F f r).2)

/-- value.rs:17-46 `math` -/
def math {α : Type} (F : Fl α) (s : Text) : Option (Num × Text) :=
  let m := pieces F s.length s
  if m.1.length < 2 then none else (evaluate F (trim m.1.flatten)).map fun n => (n, m.2)

/-- value.rs:12-13, array.rs:33-34 -/
def numeric {α : Type} (F : Fl α) (s : Text) : Option (Num × Text) := (math F s).or (number F s)

/-! ### Strings and expressions -/

/-- str.rs:12 `.separated_by(just("\\n").padded())`, from the second segment on -/
def segments : Nat → Text → List Text × Text
  | 0, s => ([], s)
  | f + 1, s =>
    match (just ['\\', 'n'] (ws s)).bind fun r => SqfLex.string '"' (ws r) with
    | none => ([], s)
    | some (t, r) => (t :: (segments f r).1, (segments f r).2)

/-- `replace("\\\n", "")` -/
def dropBreaks : Text → Text
  | [] => []
  | [c] => [c]
  | c :: d :: s => if c = '\\' ∧ d = '\n' then dropBreaks s else c :: dropBreaks (d :: s)

/-- str.rs:5-24 `string`, at `'"'` -/
def string (s : Text) : Option (Text × Text) :=
  (SqfLex.string '"' s).map fun (t, r) =>
    let m := segments r.length r
    (dropBreaks (joinWith '\n' (t :: m.1)), m.2)

/-- value.rs:55-57 `none_of("()").repeated().at_least(1)` -/
def plain (s : Text) : Option (Text × Text) := many1 (fun c => c ≠ '(' && c ≠ ')') s

mutual
/-- value.rs:51-54 an expression in brackets -/
def group : Nat → Text → Option (Text × Text)
  | 0, _ => none
  | f + 1, s => (just ['('] s).bind fun r =>
    let m := parts f r
    if m.1 = [] then none else (just [')'] m.2).map fun e => (['('] ++ m.1.flatten ++ [')'], e)
/-- value.rs:51 `eval.repeated()` -/
def parts : Nat → Text → List Text × Text
  | 0, s => ([], s)
  | f + 1, s =>
    match (group f s).or (plain s) with
    | none => ([], s)
    | some (p, r) => (p :: (parts f r).1, (parts f r).2)
end

/-- `strip_prefix('(')` and `strip_suffix(')')` -/
def unwrap : Text → Option Text
  | '(' :: s => if s.getLast? = some ')' then some s.dropLast else none
  | _ => none

/-- value.rs:48-68 `eval` -/
def eval (s : Text) : R Text :=
  (tok ['_', '_', 'E', 'V', 'A', 'L'] s).bind fun _ r =>
    (lift ((group (2 * r.length + 1) r).or (plain r))).bind fun t e =>
      match unwrap t with
      | some x => .ok x e
      | none => .halt .panic

/-! ### Arrays and values -/

/-- array.rs:30-36 `array_value` -/
def arrayValue {α : Type} (F : Fl α) (s : Text) : Option (Item × Text) :=
  ((string s).map fun m => (Item.str m.1, m.2)).or ((numeric F s).map fun m => (Item.num m.1, m.2))

/-- array.rs:11-16 `recover_with(skip_parser(..))`: a failure is recovered from at anything but `}` and `,`. -/
def orSkipItem (x : R Item) (s : Text) : R Item :=
  match x with
  | .fail =>
    match ws s with
    | [] => .fail
    | c :: _ => if c = '}' ∨ c = ',' then .fail else .halt .recovery
  | _ => x

mutual
/-- array.rs:8-21 the items of an array -/
def array {α : Type} (F : Fl α) : Nat → Text → R (List Item)
  | 0, _ => .fail
  | f + 1, s => (tokP ['{'] s).bind fun _ r => (items F f r).bind fun is e => (tokP ['}'] e).bind fun _ e => .ok is e
/-- array.rs:9-17 one item, padded -/
def item {α : Type} (F : Fl α) : Nat → Text → R Item
  | 0, _ => .fail
  | f + 1, s => (((array F f (ws s)).map Item.arr).or (orSkipItem (lift (arrayValue F (ws s))) (ws s))).bind fun i r => .ok i (ws r)
/-- array.rs:18-19 `.separated_by(just(',').padded()).allow_trailing()` -/
def items {α : Type} (F : Fl α) : Nat → Text → R (List Item)
  | 0, s => .ok [] s
  | f + 1, s =>
    match item F f s with
    | .halt h => .halt h
    | .fail => .ok [] s
    | .ok i r =>
      match tokP [','] r with
      | .ok _ e => (items F f e).map (i :: ·)
      | _ => .ok [i] r
end

/-- value.rs:7-15 `value` -/
def value {α : Type} (F : Fl α) (s : Text) : R Val :=
  (((((eval s).map Val.expr).or
    ((array F (3 * s.length + 3) s).map Val.uarr)).or
    ((lift (string s)).map Val.str)).or
    ((lift (numeric F s)).map Val.num))

/-! ### Properties -/

/-- ident.rs:6 -/
def isIdent (c : Char) : Bool := isDigit c || isAlpha c || c = '_'

/-- ident.rs:5-11 `ident` -/
def ident (s : Text) : R Text := lift (many1 isIdent s)

/-- property.rs:7-11 `class_parent` -/
def parent (s : Text) : R Text := (tokP [':'] s).bind fun _ r => padded ident r

/-- property.rs:14-16, 39-41, 44-46 `class` and the name -/
def className (s : Text) : R Text := (tokP ['c', 'l', 'a', 's', 's', ' '] s).bind fun _ r => padded ident r

/-- `parser.or_not()` -/
def orNot {α : Type} (p : Text → R α) (s : Text) : R (Option α) := ((p s).map some).or (.ok none s)

/-- property.rs:43-54 `class_local`; `body` are the properties in the braces -/
def classLocal (body : Text → R (List Prp)) (s : Text) : R Prp :=
  (className s).bind fun n r => (orNot parent r).bind fun p r => (tok ['{'] (ws r)).bind fun _ r =>
    (padded body r).bind fun ps r => (tok ['}'] r).bind fun _ r => .ok (.loc n p ps false) r

/-- property.rs:13-25 `class_missing_braces` -/
def classMissing (s : Text) : R Prp :=
  (className s).bind fun n r => (parent r).bind fun p r => .ok (.loc n (some p) [] true) (ws r)

/-- property.rs:38-42 `class_external` -/
def classExternal (s : Text) : R Prp := (className s).bind fun n r => .ok (.ext n) (ws r)

/-- property.rs:58-61 -/
def delete (s : Text) : R Prp :=
  (tokP ['d', 'e', 'l', 'e', 't', 'e', ' '] s).bind fun _ r => (ident r).bind fun n r => .ok (.del n) r

/-- property.rs:66-88 what stands behind `name[]` -/
def arrayRhs {α : Type} (F : Fl α) (s : Text) : R Val :=
  (tokP ['[', ']'] s).bind fun _ r =>
    orSkip
      (((tokP ['='] r).bind fun _ e =>
          orSkip (padded (fun x => ((array F (3 * x.length + 3) x).map (Val.arr false)).or (value F x)) e) e).or
        (padded (fun x => (((tokP ['+', '='] x).bind fun _ e => (array F (3 * e.length + 3) e).map (Val.arr true)).or
          (value F x))) r))
      r

/-- property.rs:89-97 what stands behind `name` -/
def plainRhs {α : Type} (F : Fl α) (s : Text) : R Val :=
  (tokP ['='] s).bind fun _ r => padded (fun x => orSkip (value F x) x) r

/-- property.rs:62-103 -/
def entry {α : Type} (F : Fl α) (s : Text) : R Prp :=
  (padded ident s).bind fun n r =>
    (((arrayRhs F r).map fun v => (v, true)).or ((plainRhs F r).map fun v => (v, false))).bind fun v r =>
      .ok (.entry n v.1 v.2) r

/-- property.rs:105-112 the semicolon -/
def semicolon (p : Prp) (r : Text) : R Prp :=
  match tokP [';'] r with
  | .ok _ e => .ok p e
  | _ => .ok (.missing p.name) r

mutual
/-- property.rs:28-115 `property` -/
def property {α : Type} (F : Fl α) : Nat → Text → R Prp
  | 0, _ => .fail
  | f + 1, s =>
    (((((classLocal (properties F f) s).or (classMissing s)).or (classExternal s)).or (delete s)).or (entry F s)).bind semicolon
/-- property.rs:31-33, mod.rs:20-21 `.padded().repeated()` -/
def properties {α : Type} (F : Fl α) : Nat → Text → R (List Prp)
  | 0, s => .ok [] s
  | f + 1, s =>
    match property F f (ws s) with
    | .halt h => .halt h
    | .fail => .ok [] s
    | .ok p r => (properties F f (ws r)).map (p :: ·)
end

/-- mod.rs:17-27 `config` -/
def config {α : Type} (F : Fl α) (s : Text) : R (List Prp) :=
  ((properties F (2 * s.length + 2) s).bind fun ps r => if r = [] then .ok ps [] else .fail).or
    (if ws s = [] then .ok [] [] else .fail)

end Verif.ConfigParse
