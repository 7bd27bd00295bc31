import Verif.Model.Preproc
/-!
What conditional compilation means, stated on structured programs and without the preprocessor's
state machine.

A program is a list of items. `printItems` is its source, `evalItems` what has to come out: text
lines of the selected branches with comments removed, and the macro table at the end. `evalItems`
answers `none` when the program does something outside this fragment in a *selected* branch
(a text line that uses a macro, an `#if` on something that is not a plain value).
Positions do not matter, so sources are lists of symbols.
-/
namespace Verif.Preproc.Spec
open Verif.Preproc

/-- The condition of `#ifdef N`, `#ifndef N`, `#if X` and `#if L op R`, where `L` and `R` are single
tokens and `sp1`, `sp2` the white space around the operator. -/
inductive Test
  | ifdef (n : Text) | ifndef (n : Text) | truthy (s : Sym)
  | cmp (l : Sym) (sp1 op sp2 : List Sym) (r : Sym)

/-- White space in front of `#`, after the directive word and at the end of the line. -/
structure Sp where
  ind : List Sym := []
  mid : List Sym := [.space]
  trail : List Sym := []

/-- Structured source. `text` is one line without its newline; `value` is `#define N body` with
non-empty white space `gap`; `flag` is `#define N`; `func` is `#define N(p,q)body`. -/
inductive Item
  | text (l : List Sym)
  | value (sp : Sp) (n : Text) (gap body : List Sym)
  | flag (sp : Sp) (n : Text)
  | func (sp : Sp) (n : Text) (params : List Text) (body : List Sym)
  | undef (sp : Sp) (n : Text)
  | cond (sp : Sp) (t : Test) (th : List Item) (els : Option Sp) (el : List Item) (spEnd : Sp)

/-- What a macro name stands for. -/
inductive Def
  | unit | value (b : List Sym) | func

/-- The macros defined so far. -/
abbrev Macros := Text → Option Def

/-- Is it a conditional? -/
def Item.nested : Item → Bool
  | .cond .. => true
  | _ => false

/-! ### Source -/

/-- The directive word and operands of a condition. -/
def Test.src (mid : List Sym) : Test → List Sym
  | .ifdef n => .word (kw "ifdef") :: mid ++ [.word n]
  | .ifndef n => .word (kw "ifndef") :: mid ++ [.word n]
  | .truthy s => .word (kw "if") :: mid ++ [s]
  | .cmp l sp1 op sp2 r => .word (kw "if") :: mid ++ l :: sp1 ++ op ++ sp2 ++ [r]

/-- Parameters separated by commas. -/
def paramSrc : List Text → List Sym
  | [] => []
  | [p] => [.word p]
  | p :: q :: l => .word p :: .comma :: paramSrc (q :: l)

mutual
/-- Source of one item. -/
def printItem : Item → List Sym
  | .text l => l ++ [.newline]
  | .value sp n gap body =>
    sp.ind ++ .directive :: .word (kw "define") :: sp.mid ++ .word n :: gap ++ body ++ [.newline]
  | .flag sp n => sp.ind ++ .directive :: .word (kw "define") :: sp.mid ++ [.word n, .newline]
  | .func sp n ps body =>
    sp.ind ++ .directive :: .word (kw "define") :: sp.mid ++ .word n :: .lparen :: paramSrc ps ++
      .rparen :: body ++ [.newline]
  | .undef sp n =>
    sp.ind ++ .directive :: .word (kw "undef") :: sp.mid ++ .word n :: sp.trail ++ [.newline]
  | .cond sp t th els el spEnd =>
    (sp.ind ++ .directive :: t.src sp.mid ++ sp.trail ++ [.newline]) ++ printItems th ++
      elseSrc els ++ (if els.isSome then printItems el else []) ++
      (spEnd.ind ++ .directive :: .word (kw "endif") :: spEnd.trail ++ [.newline])
/-- Source of a list of items. -/
def printItems : List Item → List Sym
  | [] => []
  | i :: l => printItem i ++ printItems l
/-- The `#else` line if there is one. -/
def elseSrc : Option Sp → List Sym
  | none => []
  | some sp => sp.ind ++ .directive :: .word (kw "else") :: sp.trail ++ [.newline]
end

/-! ### Well-formed source -/

/-- White space and comments only. -/
def blank (l : List Sym) : Bool := l.all Sym.isWs

/-- No line end inside. -/
def oneLine (l : List Sym) : Bool := l.all fun s => s ≠ .newline && s ≠ .eoi

/-- The first symbol that is not blank. -/
def firstSym : List Sym → Option Sym
  | [] => none
  | s :: l => if s.isWs then firstSym l else some s

/-- An operand of `#if`: one token, no white space. -/
def operand (s : Sym) : Bool := !s.isWs && s ≠ .newline && s ≠ .eoi

def Sp.ok (sp : Sp) : Bool := blank sp.ind && blank sp.mid && blank sp.trail

def Test.ok : Test → Bool
  | .ifdef _ | .ifndef _ => true
  | .truthy s => operand s && s ≠ .word (kw "__has_include")
  | .cmp l sp1 op sp2 r =>
    operand l && l ≠ .word (kw "__has_include") && blank sp1 && sp1 ≠ [] && op.all operand &&
      op ≠ [] && blank sp2 && sp2 ≠ [] && operand r

mutual
/-- Lines are lines, text lines do not start with `#`, bodies do not end in a continuation. -/
def Item.ok : Item → Bool
  | .text l => oneLine l && firstSym l ≠ some .directive
  | .value sp n gap body =>
    sp.ok && !isBuiltin n && blank gap && gap ≠ [] && oneLine body &&
      !(body.head?.any Sym.isWs) && body.getLast? ≠ some .escape
  | .flag sp n => sp.ok && !isBuiltin n
  | .func sp n _ body =>
    sp.ok && !isBuiltin n && oneLine body && !(body.head?.any Sym.isWs) &&
      body.getLast? ≠ some .escape
  | .undef sp _ => sp.ok
  | .cond sp t th els el spEnd =>
    sp.ok && t.ok && Item.okL th && els.all Sp.ok && Item.okL el && spEnd.ok
/-- All items of a list. -/
def Item.okL : List Item → Bool
  | [] => true
  | i :: l => i.ok && Item.okL l
end

/-! ### Meaning -/

/-- What remains of white space and text: everything but comments. -/
def visible (l : List Sym) : List Sym := l.filter fun s => match s with
  | .comment _ => false
  | _ => true

/-- Does the text line use no macro? Words in double quotes are never macros. The quotes must be
closed at the end of the line. -/
def plain (m : Macros) : Bool → List Sym → Bool
  | q, [] => !q
  | false, .word w :: l =>
    !builtinGen.contains w && !builtinProtest.contains w && (m w).isNone && plain m false l
  | q, .dquote :: l => plain m (!q) l
  | q, _ :: l => plain m q l

/-- The value of an operand of `#if`: a name that is a value macro stands for its body. -/
def operandValue (m : Macros) (s : Sym) : Option (List Sym) :=
  if builtinGen.contains s.text then none
  else match m s.text with
    | none => some [s]
    | some (.value b) => some b
    | some _ => none

/-- Text of a list of symbols. -/
def text (l : List Sym) : Text := l.flatMap Sym.text

/-- Comparison; `cmp` compares numbers. -/
def compare (cmp : Text → Text → Text → Option Bool) (op a b : Text) : Option Bool :=
  if op = kw "==" then some (decide (a = b))
  else if op = kw "!=" then some (decide (a ≠ b))
  else if op = kw ">" ∨ op = kw ">=" ∨ op = kw "<" ∨ op = kw "<=" then cmp op a b
  else none

/-- Is the name a macro? -/
def defined (m : Macros) (n : Text) : Bool := builtinGen.contains n || (m n).isSome

/-- Truth of a condition. -/
def Test.eval (cmp : Text → Text → Text → Option Bool) (m : Macros) : Test → Option Bool
  | .ifdef n => some (defined m n)
  | .ifndef n => some (!defined m n)
  | .truthy s =>
    if builtinGen.contains s.text then none
    else match m s.text with
      | some (.value b) => if b = [] then none else some (decide (text b = ['1']))
      | _ => none
  | .cmp l _ op _ r => do
    let a ← operandValue m l
    let b ← operandValue m r
    if a = [] then none else compare cmp (text op) (text a) (text b)

/-- Add or replace a definition. -/
def Macros.set (m : Macros) (n : Text) (d : Option Def) : Macros := fun k => if k = n then d else m k

mutual
/-- What an item in a selected branch produces. -/
def evalItem (cmp : Text → Text → Text → Option Bool) (m : Macros) :
    Item → Option (Macros × List Sym)
  | .text l =>
    if plain m false l = true ∧ (visible l).getLast? ≠ some .escape then
      some (m, visible l ++ [.newline])
    else none
  | .value sp n _ body => some (m.set n (some (.value body)), visible sp.ind)
  | .flag sp n => some (m.set n (some .unit), visible sp.ind ++ [.newline])
  | .func sp n _ _ => some (m.set n (some .func), visible sp.ind)
  | .undef sp n => some (m.set n none, visible sp.ind)
  | .cond sp t th els el spEnd =>
    match t.eval cmp m with
    | none => none
    | some true => match evalItems cmp m th with
      | none => none
      | some (m', out) =>
        some (m', visible sp.ind ++ out ++
          (match els with
            | some sp => visible sp.ind
            | none => visible spEnd.ind))
    | some false => match els with
      | none => some (m, visible sp.ind)
      | some _ => match evalItems cmp m el with
        | none => none
        | some (m', out) => some (m', visible sp.ind ++ out ++ visible spEnd.ind)
/-- A list of items in a selected branch. -/
def evalItems (cmp : Text → Text → Text → Option Bool) (m : Macros) :
    List Item → Option (Macros × List Sym)
  | [] => some (m, [])
  | i :: l => match evalItem cmp m i with
    | none => none
    | some (m', o) => match evalItems cmp m' l with
      | none => none
      | some (m'', o') => some (m'', o ++ o')
end

end Verif.Preproc.Spec
