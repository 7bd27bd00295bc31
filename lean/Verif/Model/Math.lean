import Verif.Lib.Text
/-!
Model of `/repo/libs/common/src/math.rs`.
The number type (`f64` in Rust) and its text parser and operations are parameters.
`Vec`s used as stacks are lists with the top at the head; `output_queue` is a list in order.
-/
namespace Verif.Math

/-- `f64` parsing and arithmetic: parameters. -/
structure Num (α : Type) where
  parse : Text → Option α
  add : α → α → α
  sub : α → α → α
  mul : α → α → α
  div : α → α → α
  pow : α → α → α
  rem : α → α → α

/-- repo: libs/common/src/math.rs:101-106 (`Token`) -/
inductive Token (α : Type) where
  | num (a : α)
  | op (c : Char)
  | lp
  | rp
deriving DecidableEq, Repr

/-- repo: libs/common/src/math.rs:109-112 (`Associativity`) -/
inductive Assoc where
  | left | right
deriving DecidableEq, Repr

/-- repo: libs/common/src/math.rs:14-24 (`operators` table) -/
def operators (c : Char) : Option (Nat × Assoc) :=
  if c = '+' then some (1, .left)
  else if c = '-' then some (1, .left)
  else if c = '*' then some (2, .left)
  else if c = '/' then some (2, .left)
  else if c = '^' then some (3, .right)
  else if c = '%' then some (2, .left)
  else none

variable {α : Type}

/-- The test of repo: libs/common/src/math.rs:33-38 -/
def shouldPop (op top : Char) : Bool :=
  match operators op, operators top with
  | some (p, a), some (tp, _) =>
    (a == .left && p ≤ tp) || (a == .right && p < tp)
  | _, _ => false

/-- The `while let` loop of repo: libs/common/src/math.rs:32-46; returns (popped, remaining). -/
def popOps (op : Char) : List (Token α) → List (Token α) × List (Token α)
  | .op top :: st =>
    if shouldPop op top then
      let r := popOps op st
      (.op top :: r.1, r.2)
    else ([], .op top :: st)
  | st => ([], st)

/-- The loop of repo: libs/common/src/math.rs:51-61; `none` if no left parenthesis was hit. -/
def popParen : List (Token α) → Option (List (Token α) × List (Token α))
  | [] => none
  | .lp :: st => some ([], st)
  | t :: st => (popParen st).map (fun r => (t :: r.1, r.2))

/-- One iteration of the token loop, repo: libs/common/src/math.rs:28-64.
State: (output queue, operator stack). -/
def step (s : List (Token α) × List (Token α)) (t : Token α) :
    Option (List (Token α) × List (Token α)) :=
  match t with
  | .num _ => some (s.1 ++ [t], s.2)
  | .op c => let r := popOps c s.2; some (s.1 ++ r.1, .op c :: r.2)
  | .lp => some (s.1, .lp :: s.2)
  | .rp => (popParen s.2).map (fun r => (s.1 ++ r.1, r.2))

def run (s : List (Token α) × List (Token α)) : List (Token α) →
    Option (List (Token α) × List (Token α))
  | [] => some s
  | t :: ts => match step s t with
    | some s' => run s' ts
    | none => none

/-- repo: libs/common/src/math.rs:11-71 (`shunting_yard`) after tokenisation -/
def shuntingYard (toks : List (Token α)) : Option (List (Token α)) :=
  (run ([], []) toks).map (fun s => s.1 ++ s.2)

/-- repo: libs/common/src/math.rs:82-90 -/
def applyOp (N : Num α) (c : Char) (l r : α) : Option α :=
  if c = '+' then some (N.add l r)
  else if c = '-' then some (N.sub l r)
  else if c = '*' then some (N.mul l r)
  else if c = '/' then some (N.div l r)
  else if c = '^' then some (N.pow l r)
  else if c = '%' then some (N.rem l r)
  else none

/-- The loop of repo: libs/common/src/math.rs:74-95, from value stack `st`. -/
def postfix' (N : Num α) (st : List α) : List (Token α) → Option (List α)
  | [] => some st
  | .num a :: ts => postfix' N (a :: st) ts
  | .op c :: ts =>
    match st with
    | r :: l :: st' => match applyOp N c l r with
      | some v => postfix' N (v :: st') ts
      | none => none
    | _ => none
  | _ :: _ => none

/-- repo: libs/common/src/math.rs:73-98 (`evaluate_postfix`) -/
def evaluatePostfix (N : Num α) (ts : List (Token α)) : Option α :=
  match postfix' N [] ts with
  | some st => st.head?
  | none => none

/-- `'0'..='9' | '.'` -/
def isNumChar (c : Char) : Bool := ('0' ≤ c && c ≤ '9') || c == '.'

/-- Flush of `current_number`, repo: libs/common/src/math.rs:122-129 and 151-157.
`toks` is the token vector reversed; `cur` is `current_number` in order. -/
def flush (N : Num α) (toks : List (Token α)) (cur : Text) : Option (List (Token α)) :=
  if cur = [] then some toks
  else (N.parse cur).map (fun a => .num a :: toks)

/-- repo: libs/common/src/math.rs:114-160 (`tokenize`) as a loop over characters -/
def tokLoop (N : Num α) (toks : List (Token α)) (cur : Text) : Text → Option (List (Token α))
  | [] => (flush N toks cur).map List.reverse
  | c :: s =>
    if isNumChar c then tokLoop N toks (cur ++ [c]) s
    else match flush N toks cur with
      | none => none
      | some toks =>
        if c = '+' ∨ c = '*' ∨ c = '/' ∨ c = '^' ∨ c = '%' then tokLoop N (.op c :: toks) [] s
        else if c = '(' then tokLoop N (.lp :: toks) [] s
        else if c = ')' then tokLoop N (.rp :: toks) [] s
        else if c = '-' then
          match toks with
          | .op _ :: _ => tokLoop N toks [c] s
          | .lp :: _ => tokLoop N toks [c] s
          | _ => tokLoop N (.op c :: toks) [] s
        else if c = ' ' then tokLoop N toks [] s
        else none

def tokenize (N : Num α) (s : Text) : Option (List (Token α)) := tokLoop N [] [] s

/-- Token-level evaluator: `evaluate_postfix ∘ shunting_yard`. -/
def evalTokens (N : Num α) (toks : List (Token α)) : Option α :=
  match shuntingYard toks with
  | some q => evaluatePostfix N q
  | none => none

/-- repo: libs/common/src/math.rs:7-9 (`eval`) -/
def eval (N : Num α) (s : Text) : Option α :=
  match tokenize N s with
  | some toks => evalTokens N toks
  | none => none

end Verif.Math
