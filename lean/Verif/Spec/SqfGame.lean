import Verif.Lib.SqfGrammar
import Verif.Lib.SqfSource
/-!
Specification of what an expression does in the game: a state, values, evaluation from left to right, and what the wiki says
about the few commands that suggestions of lints are about. Nothing here uses the model of the lints.
-/
namespace Verif.SqfLint
open Verif.Sqf Verif.SqfLex Verif.SqfParse

/-- Values `V`, states `S`, and what commands do. `none` is an error. -/
structure Game (S V : Type) where
  bool : Bool → V
  num : UInt32 → V
  str : Bytes → V
  arr : List V → V
  code : List Stmt → V
  read : Bytes → S → Option V
  nular : Bytes → S → Option (V × S)
  un : UnCmd → V → S → Option (V × S)
  bin : BinCmd → V → V → S → Option (V × S)
  /-- what is between the `if` and the `then`, and around the `else` -/
  ifv : Bool → V
  pair : V → V → V
  /-- running code -/
  call : V → S → Option (V × S)
  /-- does the text or array have the text in it? `none` if it is neither -/
  has : V → Bytes → Option Bool
  /-- the vehicle an object is in, if any; `none` if there is no such object -/
  inside : V → S → Option (Option V)
  /-- the object that is none -/
  null : V

namespace Game
variable {S V : Type} (G : Game S V)

mutual
/-- The value of an expression, and the state after it. Positions do not matter. -/
def eval : Expr → S → Option (V × S)
  | .code ss _ _, s => some (G.code (eraseSs ss), s)
  | .str t _ _, s => some (G.str t, s)
  | .num x _, s => some (G.num x, s)
  | .bool b _, s => some (G.bool b, s)
  | .arr es _, s => match evals es s with
    | some (vs, s') => some (G.arr vs, s')
    | none => none
  | .carr es _, s => match evals es s with
    | some (vs, s') => some (G.arr vs, s')
    | none => none
  | .nular n _, s => G.nular n s
  | .un c e _, s => match eval e s with
    | some (v, s') => G.un c v s'
    | none => none
  | .bin c l r _, s => match eval l s with
    | some (v, s') => match eval r s' with
      | some (w, s'') => G.bin c v w s''
      | none => none
    | none => none
  | .var n _, s => match G.read n s with
    | some v => some (v, s)
    | none => none
def evals : List Expr → S → Option (List V × S)
  | [], s => some ([], s)
  | e :: es, s => match eval e s with
    | some (v, s') => match evals es s' with
      | some (vs, s'') => some (v :: vs, s'')
      | none => none
    | none => none
end

end Game

/-- What a branch of a conditional assignment can be: a literal or a variable. -/
inductive Constant : Expr → Prop where
  | num {x sp} : Constant (.num x sp)
  | str {s sp w} : Constant (.str s sp w)
  | bool {b sp} : Constant (.bool b sp)
  | var {n sp} : Constant (.var n sp)

/-- A literal. -/
inductive Literally : Expr → Prop where
  | num {x sp} : Literally (.num x sp)
  | str {s sp w} : Literally (.str s sp w)
  | bool {b sp} : Literally (.bool b sp)

/-- The bits of 0, 1 and -1. -/
def zeroBits : UInt32 := 0
def oneBits : UInt32 := 0x3f800000
def minusOneBits : UInt32 := 0xbf800000

/-- What the wiki says about the commands. -/
structure Game.Laws {S V : Type} (G : Game S V) : Prop where
  if_ : ∀ n b s, asciiLower n = ascii "if" → G.un (.named n) (G.bool b) s = some (G.ifv b, s)
  else_ : ∀ x y s, G.bin .els x y s = some (G.pair x y, s)
  then_ : ∀ n b x y s, asciiLower n = ascii "then" → G.bin (.named n) (G.ifv b) (G.pair x y) s = G.call (if b then x else y) s
  call_ : ∀ e s, Constant e → G.call (G.code (eraseSs [.expr e (0, 0)])) s = G.eval e s
  select_ : ∀ n x y b s, asciiLower n = ascii "select" →
    G.bin (.named n) (G.arr [x, y]) (G.bool b) s = some (if b then y else x, s)
  parseNumber_ : ∀ n b s, asciiLower n = ascii "parsenumber" →
    G.un (.named n) (G.bool b) s = some (G.num (if b then oneBits else zeroBits), s)
  not_ : ∀ b s, G.un .not (G.bool b) s = some (G.bool (!b), s)
  eq_ : ∀ a b s, G.bin .eq (G.bool a) (G.bool b) s = some (G.bool (a == b), s)
  notEq_ : ∀ x y b s s', G.bin .eq x y s = some (G.bool b, s') ↔ G.bin .notEq x y s = some (G.bool (!b), s')
  minus_ : ∀ s, G.un .minus (G.num oneBits) s = some (G.num minusOneBits, s)
  /-- the indices are not negative, so they are greater than -1 -/
  greater_ : ∀ k s, k.toNat ≤ 0x7f800000 → G.bin .greater (G.num k) (G.num minusOneBits) s = some (G.bool true, s)
  greater_not_ : ∀ s, G.bin .greater (G.num minusOneBits) (G.num minusOneBits) s = some (G.bool false, s)
  find_ : ∀ n x t s, asciiLower n = ascii "find" →
    (G.has x t = some true → ∃ k : UInt32, k.toNat ≤ 0x7f800000 ∧ G.bin (.named n) x (G.str t) s = some (G.num k, s)) ∧
    (G.has x t = some false → G.bin (.named n) x (G.str t) s = some (G.num minusOneBits, s))
  in_ : ∀ n x t b s, asciiLower n = ascii "in" → G.has x t = some b → G.bin (.named n) (G.str t) x s = some (G.bool b, s)
  vehicle_ : ∀ n x y s, asciiLower n = ascii "vehicle" → G.inside x s = some y → G.un (.named n) x s = some (y.getD x, s)
  objectParent_ : ∀ n x y s, asciiLower n = ascii "objectparent" → G.inside x s = some y →
    G.un (.named n) x s = some (y.getD G.null, s)
  isNull_null : ∀ n s, asciiLower n = ascii "isnull" → G.un (.named n) G.null s = some (G.bool true, s)
  isNull_vehicle : ∀ n x y s, asciiLower n = ascii "isnull" → G.inside x s = some (some y) →
    G.un (.named n) y s = some (G.bool false, s)
  /-- an object that exists is itself, and not the vehicle it is in -/
  same_object : ∀ x y s, G.inside x s = some y → G.bin .eq x x s = some (G.bool true, s)
  other_object : ∀ x y s, G.inside x s = some (some y) →
    G.bin .eq x y s = some (G.bool false, s) ∧ G.bin .eq y x s = some (G.bool false, s)

/-- `t` is read as the expression `e`, also where something that binds as strongly as `p` is needed. -/
structure ReadAs (env : Env) (F : F32) (p : Nat) (t : Text) (e : Expr) : Prop where
  program : ∃ ss, compile env F t = some ss ∧ eraseSs ss = eraseSs [.expr e (0, 0)]
  operand : ∃ ts e', lex F t = some ts ∧ eraseE e' = eraseE e ∧ Der env.db true p e' (SqfParse.code ts)

/-- `l` is a block of the single expression `a`. -/
def Block (l a : Expr) : Prop := ∃ sp src sp', l = .code [.expr a sp] src sp'

/-- The value of `a` is the same in both states, and there is one. -/
def Settled {S V : Type} (G : Game S V) (a : Expr) (s s' : S) : Prop :=
  ∃ v, G.eval a s = some (v, s) ∧ G.eval a s' = some (v, s')

/-- The condition is true or false, whatever else it does. -/
def Decides {S V : Type} (G : Game S V) (cond : Expr) (s : S) (b : Bool) (s' : S) : Prop := G.eval cond s = some (G.bool b, s')

/-- A string without a double quote in it, or something else. -/
def NoQuote : Expr → Prop
  | .str s _ _ => ∃ t : Text, s = enc t ∧ '"' ∉ t
  | _ => True

/-- For words of plain letters, lower case is what it is in English. -/
def PlainLower (lower : Bytes → Bytes) : Prop := ∀ n, IsWord n → lower n = asciiLower n

end Verif.SqfLint
