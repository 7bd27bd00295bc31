import Verif.Spec.PreprocFrom
import Verif.Spec.PreprocAcyclic
/-!
What the built-in macros stand for (C132).
-/
namespace Verif.Preproc.Spec

/-- The built-in macros that stand for something that depends on the place or on the run. -/
def placed : List Text :=
  [kw "__COUNTER__", kw "__COUNTER_RESET__", kw "__FILE__", kw "__FILE_NAME__", kw "__FILE_SHORT__", kw "__LINE__"]

/-- A token of a file that is read. -/
def Source (env : Env) (root : Text) (t : Tok) : Prop := ∃ f all, Read env root f ∧ env.load f = .ok all ∧ t ∈ all

/-- A quotation mark stands before the token in its file. -/
def Quoted (env : Env) (root : Text) (t : Tok) : Prop :=
  ∃ f all x z d, Read env root f ∧ env.load f = .ok all ∧ all = x ++ t :: z ∧ d ∈ x ∧ d.sym = .dquote

/-- The tokens that are not written in a file, for a macro used at `site`. -/
inductive Gen (env : Env) (root : Text) (site : Pos) : Tok → Prop
  | quote {h : Tok} : Source env root h → h.sym = .directive → Gen env root site ⟨.dquote, h.pos⟩
  | line {k : Tok} : Source env root k → k.sym = .word (kw "__LINE__") → Gen env root site ⟨.digit site.start.line, k.pos⟩
  | mark {k : Tok} : Source env root k → k.sym = .word (kw "__FILE__") → Gen env root site ⟨.dquote, k.pos⟩
  | file {k : Tok} : Source env root k → k.sym = .word (kw "__FILE__") → Gen env root site ⟨.word (env.fileMacro site.path), k.pos⟩
  | name {k : Tok} : Source env root k → k.sym = .word (kw "__FILE_NAME__") →
      Gen env root site ⟨.word (env.fileName site.path), k.pos⟩
  | short {k : Tok} : Source env root k → k.sym = .word (kw "__FILE_SHORT__") →
      Gen env root site ⟨.word (Defines.shortName (env.fileName site.path)), k.pos⟩
  | counter {k : Tok} {n : Nat} : Source env root k → k.sym = .word (kw "__COUNTER__") → n < 65536 →
      Gen env root site ⟨.digit n, k.pos⟩

/-- What may be in the result of a macro used at `site`: what is written in a file, where the built-in macros stay only behind a quotation
mark, and the tokens above. -/
def Shown (env : Env) (root : Text) (site : Pos) (t : Tok) : Prop :=
  (Source env root t ∧ ∀ w ∈ placed, t.sym = .word w → Quoted env root t) ∨ Gen env root site t

/-- The numbers among tokens. -/
def digits (l : List Tok) : List Nat := l.filterMap fun t => match t.sym with | .digit n => some n | _ => none

mutual
/-- The numbers that uses of `__COUNTER__` became, in the order of the result. -/
def numbers : Out → List Nat
  | .direct _ => []
  | .mac t l => if t.sym = .word (kw "__COUNTER__") then digits (Out.toksL l) else numbersL l
/-- The same for several. -/
def numbersL : List Out → List Nat
  | [] => []
  | o :: l => numbers o ++ numbersL l
end

/-- Sources that can be read from `root`: tokens know their file, macro bodies hold no directive, and no file has the name of a built-in
macro. -/
structure Usual (env : Env) (root : Text) : Prop where
  places : ∀ {f all}, Read env root f → env.load f = .ok all → ∀ t ∈ all, t.pos.path = f
  defs : ∀ {f all pre h d ws nm l name}, Read env root f → env.load f = .ok all → all = pre ++ h :: d :: (ws ++ nm :: l) →
    h.sym = .directive → d.sym = .word (kw "define") → blank (ws.map Tok.sym) = true → nm.sym = .word name → NoDir (logical false l)
  names : ∀ {f}, Read env root f → env.fileMacro f ∉ placed ∧ env.fileName f ∉ placed ∧ Defines.shortName (env.fileName f) ∉ placed

/-- What a part of the result may be: a token of a file, or what a macro in a file stands for at its place. -/
def Stands (env : Env) (root : Text) : Out → Prop
  | .direct t => Source env root t ∧ ∀ w ∈ placed, t.sym = .word w → Quoted env root t
  | .mac t l => Source env root t ∧ ∀ u ∈ Out.toksL l, Shown env root t.pos u

/-- No file sets the count back. -/
def NoReset (env : Env) (root : Text) : Prop := ∀ t, Source env root t → t.sym ≠ .word (kw "__COUNTER_RESET__")

/-- No two tokens stand in the same place. -/
def OnePlace (env : Env) (root : Text) : Prop := ∀ t u, Source env root t → Source env root u → t.pos = u.pos → t = u

/-- What a file without `#` and `\\` gives: `q` says whether a quotation mark is open, `c` is the count so far. The built-in macros outside of
quotation marks become what they stand for at their place. Comments are dropped. -/
def written (env : Env) (q : Bool) (c : Nat) : List Tok → List Sym
  | [] => []
  | t :: l =>
    match t.sym, q with
    | .eoi, _ => []
    | .comment _, _ => written env q c l
    | .dquote, _ => .dquote :: written env (!q) c l
    | .word w, false =>
      if w = kw "__COUNTER__" then .digit (c % 65536) :: written env false (c + 1) l
      else if w = kw "__COUNTER_RESET__" then written env false 0 l
      else if w = kw "__FILE__" then .dquote :: .word (env.fileMacro t.pos.path) :: .dquote :: written env false c l
      else if w = kw "__FILE_NAME__" then .word (env.fileName t.pos.path) :: written env false c l
      else if w = kw "__FILE_SHORT__" then .word (Defines.shortName (env.fileName t.pos.path)) :: written env false c l
      else if w = kw "__LINE__" then .digit t.pos.start.line :: written env false c l
      else .word w :: written env false c l
    | s, _ => s :: written env q c l

/-- A word that the preprocessor refuses. -/
def refused (w : Text) : Prop := w = kw "__EXEC" ∨ isUnsupportedBuiltin w = true

/-- A token of a file without directives and continued lines. -/
def Simple (env : Env) (t : Tok) : Prop :=
  t.sym ≠ .directive ∧ t.sym ≠ .escape ∧ (∀ w, t.sym = .word w → ¬ refused w) ∧
    ∀ w, w = env.fileName t.pos.path ∨ w = Defines.shortName (env.fileName t.pos.path) → ¬ refused w ∧ w ∉ placed

end Verif.Preproc.Spec
