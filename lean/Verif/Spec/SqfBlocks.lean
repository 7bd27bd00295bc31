import Verif.Model.Sqf
import Mathlib.Logic.Function.Basic
/-!
What the claims about lints of whole blocks are stated with: the parts of a script, uses of commands, runs of a list of
assignments.
-/
namespace Verif.SqfLint
open Verif.Sqf

/-- The expression of a statement. -/
def body : Stmt → Expr
  | .assignGlobal _ e _ | .assignLocal _ e _ | .expr e _ => e

/-- `x` is `e` or written somewhere inside `e`, also in code. -/
inductive Within (x : Expr) : Expr → Prop where
  | here : Within x x
  | un {c : UnCmd} {e : Expr} {sp : Span} : Within x e → Within x (.un c e sp)
  | left {c : BinCmd} {l r : Expr} {sp : Span} : Within x l → Within x (.bin c l r sp)
  | right {c : BinCmd} {l r : Expr} {sp : Span} : Within x r → Within x (.bin c l r sp)
  | item {es : List Expr} {sp : Span} {e : Expr} : e ∈ es → Within x e → Within x (.arr es sp)
  | code {ss : List Stmt} {src : Bytes} {sp : Span} {s : Stmt} : s ∈ ss → Within x (body s) → Within x (.code ss src sp)

/-- `x` is written somewhere in a script. -/
def Written (ss : List Stmt) (x : Expr) : Prop := ∃ s ∈ ss, Within x (body s)

/-- The blocks of a script: itself and what is in braces in it. -/
def IsBlock (ss b : List Stmt) : Prop := b = ss ∨ ∃ src sp, Written ss (.code b src sp)

/-- The statements of a script, also those in braces. -/
def IsStatement (ss : List Stmt) (s : Stmt) : Prop := ∃ b, IsBlock ss b ∧ s ∈ b

/-- `x` is a use of the command `c` at `sp`. -/
inductive UseOf : Bytes → Span → Expr → Prop where
  | nular (n : Bytes) (sp : Span) : UseOf n sp (.nular n sp)
  | un (c : UnCmd) (e : Expr) (sp : Span) : UseOf c.asStr sp (.un c e sp)
  | bin (c : BinCmd) (l r : Expr) (sp : Span) : UseOf c.asStr sp (.bin c l r sp)

/-- All parts of an expression are commands or code, all commands without arguments have a known version. -/
inductive Covered (since : Bytes → Option Nat) : Expr → Prop where
  | nular {n : Bytes} {sp : Span} {v : Nat} : since n = some v → v ≠ 0 → Covered since (.nular n sp)
  | un {c : UnCmd} {e : Expr} {sp : Span} {v : Nat} : since c.asStr = some v → Covered since e → Covered since (.un c e sp)
  | bin {c : BinCmd} {l r : Expr} {sp : Span} {v : Nat} : since c.asStr = some v → Covered since l → Covered since r →
      Covered since (.bin c l r sp)
  | code {ss : List Stmt} {src : Bytes} {sp : Span} : ss ≠ [] → (∀ s ∈ ss, Covered since (body s)) → Covered since (.code ss src sp)

/-- A statement assigns `e` to `x`. -/
inductive Assigns : Stmt → Bytes → Expr → Prop where
  | global (x : Bytes) (e : Expr) (sp : Span) : Assigns (.assignGlobal x e sp) x e
  | local_ (x : Bytes) (e : Expr) (sp : Span) : Assigns (.assignLocal x e sp) x e

/-- Running a block on the values of variables: an assigned variable is copied, other expressions have any value and change no
variable; expressions alone change no variable. -/
inductive Runs {V : Type} : List Stmt → (Bytes → V) → (Bytes → V) → Prop where
  | done (σ : Bytes → V) : Runs [] σ σ
  | expr {e : Expr} {sp : Span} {ss : List Stmt} {σ σ' : Bytes → V} : Runs ss σ σ' → Runs (.expr e sp :: ss) σ σ'
  | copy {s : Stmt} {x w : Bytes} {sp : Span} {ss : List Stmt} {σ σ' : Bytes → V} : Assigns s x (.var w sp) →
      Runs ss (Function.update σ x (σ w)) σ' → Runs (s :: ss) σ σ'
  | set {s : Stmt} {x : Bytes} {e : Expr} {ss : List Stmt} {σ σ' : Bytes → V} (v : V) : Assigns s x e → (∀ w sp, e ≠ .var w sp) →
      Runs ss (Function.update σ x v) σ' → Runs (s :: ss) σ σ'

/-- Variables the reserved ones are kept in: `keeps h = some r` means that `h` is for `r`. Every variable is kept in one only,
it is assigned nothing else, and it is assigned to nothing else. -/
structure Tidy (reserved : List Bytes) (keeps : Bytes → Option Bytes) (ss : List Stmt) : Prop where
  unreserved : ∀ h r, keeps h = some r → h ∉ reserved ∧ r ∈ reserved
  one : ∀ h h' r, keeps h = some r → keeps h' = some r → h = h'
  saved : ∀ s ∈ ss, ∀ h r sp, Assigns s h (.var r sp) → r ∈ reserved → h ∉ reserved → keeps h = some r
  kept : ∀ s ∈ ss, ∀ h r e, Assigns s h e → keeps h = some r → ∃ sp, e = .var r sp
  back : ∀ s ∈ ss, ∀ x h r sp, Assigns s x (.var h sp) → keeps h = some r → x = r

end Verif.SqfLint
