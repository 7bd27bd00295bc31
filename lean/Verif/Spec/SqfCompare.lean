import Verif.Model.Sqf
import Mathlib.Order.Defs.LinearOrder
/-!
Specification of conditions: what a condition of an `if` means, as far as `&&`, `||` and comparisons with numbers go.
Nothing here uses the model of the lint.
-/
namespace Verif.SqfLint
open Verif.Sqf

/-- Bits of a number as it can be written in a script: not negative, not NaN. -/
def Literal (x : UInt32) : Prop := x.toNat ≤ 0x7f800000

/-- The numbers of the game: the value of a literal is the larger the larger its bits are. -/
structure Numbers (V : Type) [LinearOrder V] where
  val : UInt32 → V
  mono : ∀ x y, Literal x → Literal y → x.toNat < y.toNat → val x < val y

variable {V : Type} [LinearOrder V]

/-- The comparisons, of values that may not be numbers (`none`): those differ from everything. -/
def Holds : BinCmd → Option V → Option V → Prop
  | .less, some a, some b => a < b
  | .lessEq, some a, some b => a ≤ b
  | .eq, some a, some b => a = b
  | .greaterEq, some a, some b => b ≤ a
  | .greater, some a, some b => b < a
  | .notEq, some a, some b => a ≠ b
  | .notEq, _, _ => True
  | _, _, _ => False

/-- The number an operand stands for. -/
def operand (N : Numbers V) (env : Bytes → Option V) : Expr → Option (Option V)
  | .var n _ => some (env n)
  | .num x _ => some (some (N.val x))
  | _ => none

/-- Is it one of the six comparisons? -/
def isComparison : BinCmd → Bool
  | .less | .lessEq | .eq | .notEq | .greaterEq | .greater => true
  | _ => false

/-- A comparison of two operands that are variables or numbers; anything else is whatever `other` says. -/
def compared (N : Numbers V) (env : Bytes → Option V) (other : Expr → Prop) (c : BinCmd) (l r : Expr) (sp : Span) : Prop :=
  match isComparison c, operand N env l, operand N env r with
  | true, some a, some b => Holds c a b
  | _, _, _ => other (.bin c l r sp)

/-- Is the condition true? `env` is the value of the variables. -/
def Truth (N : Numbers V) (env : Bytes → Option V) (other : Expr → Prop) : Expr → Prop
  | .bin .and l r _ => Truth N env other l ∧ Truth N env other r
  | .bin .or l r _ => Truth N env other l ∨ Truth N env other r
  | .bin c l r sp => compared N env other c l r sp
  | .code [.expr e _] _ _ => Truth N env other e
  | e => other e

/-- `d` is one of the alternatives of `e`: what stands between its outermost `||`. An operand may be a code block of a
single expression, if that is an operator with its operands. -/
inductive Alternative : Expr → Expr → Prop where
  | refl (e) : Alternative e e
  | orL {d l r sp} : Alternative d l → Alternative d (.bin .or l r sp)
  | orR {d l r sp} : Alternative d r → Alternative d (.bin .or l r sp)
  | code {d c l r p sp src sp'} : Alternative d (.bin c l r p) → Alternative d (.code [.expr (.bin c l r p) sp] src sp')

/-- `d` is one of the conditions joined by `&&` in `e`; code blocks as before. -/
inductive Joined : Expr → Expr → Prop where
  | refl (e) : Joined e e
  | andL {d l r sp} : Joined d l → Joined d (.bin .and l r sp)
  | andR {d l r sp} : Joined d r → Joined d (.bin .and l r sp)
  | code {d c l r p sp src sp'} : Joined d (.bin c l r p) → Joined d (.code [.expr (.bin c l r p) sp] src sp')

/-- `e` compares the variable `n` with the number `x`, whichever stands first. -/
def Compares (e : Expr) (c : BinCmd) (n : Bytes) (x : UInt32) : Prop :=
  isComparison c = true ∧ ∃ p q sp, e = .bin c (.var n p) (.num x q) sp ∨ e = .bin c (.num x q) (.var n p) sp

/-- `20 < n`: a number compared with a variable behind it, by an operator for which the order matters. -/
def NumFirst (e : Expr) : Prop :=
  ∃ c n x p q sp, e = .bin c (.num x q) (.var n p) sp ∧ c ≠ .eq ∧ c ≠ .notEq

/-- The numbers compared in the condition are literals. -/
def LiteralIn (e : Expr) : Prop := ∀ d a c n x, Alternative d e → Joined a d → Compares a c n x → Literal x

/-- No comparison in the condition has its number first. -/
def VarFirstIn (e : Expr) : Prop := ∀ d a, Alternative d e → Joined a d → ¬ NumFirst a

/-- `a` and `b` are two of the conditions joined by `&&` in `d`, `a` before `b`. -/
def JoinedPair (a b d : Expr) : Prop := ∃ l r sp, Joined (.bin .and l r sp) d ∧ Joined a l ∧ Joined b r

/-- Upper and lower bounds, read with the variable on the left. -/
def Upper (c : BinCmd) : Prop := c = .less ∨ c = .lessEq
def Lower (c : BinCmd) : Prop := c = .greater ∨ c = .greaterEq

/-- What is reported as impossible: an upper bound below a lower bound, or to be and not to be the same number. -/
def Contradicts (c : BinCmd) (x : UInt32) (c' : BinCmd) (x' : UInt32) : Prop :=
  (Upper c ∧ Lower c' ∧ x.toNat < x'.toNat) ∨ (c = .notEq ∧ c' = .eq ∧ x = x')

/-- What is reported as overlapping: two bounds on the same side, or the same thing said twice. -/
def Overlaps (c : BinCmd) (x : UInt32) (c' : BinCmd) (x' : UInt32) : Prop :=
  (Upper c ∧ Upper c') ∨ (Lower c ∧ Lower c') ∨ (c = c' ∧ (c = .eq ∨ c = .notEq) ∧ x = x')

end Verif.SqfLint
