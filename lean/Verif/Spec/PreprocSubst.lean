import Verif.Spec.Preproc
/-!
What macro use means, stated as a big-step substitution relation on symbols: no token positions, no
macro stack, no fuel, no output tree.

`Holds T (.text m ρ src out)`: with macros `T` and arguments `ρ`, the source `src` stands for `out`.
Arguments are expanded where they are written and then put in verbatim; the body of a macro only
sees its own arguments; a text whose expansion would not end stands for nothing (there is no finite
derivation).
-/
namespace Verif.Preproc.Subst
open Verif.Preproc Verif.Preproc.Spec

/-- What a macro name stands for. Bodies are as written. -/
inductive Mac
  | unit | value (b : List Sym) | func (ps : List Text) (b : List Sym)
  deriving DecidableEq

/-- The macros defined at some point of a program. -/
abbrev Table := Text → Option Mac

/-- The arguments of the macro whose body is being read. -/
abbrev Args := Text → Option (List Sym)

/-- No arguments: text of a file and bodies of macros without parameters. -/
def noArgs : Args := fun _ => none

/-- Names with a meaning of their own: they are generated or rejected. -/
def ordinary (w : Text) : Prop := builtinGen.contains w = false ∧ builtinProtest.contains w = false

/-- Where a text stands: a line of the file, the body of a macro, or an argument of a call; there
`d` and `d'` are the numbers of open parentheses at its start and end. -/
inductive Mode
  | line | body | arg (d d' : Nat)

/-- Is it the argument of a call? -/
def Mode.isArg : Mode → Prop
  | .arg _ _ => True
  | _ => False

/-- Symbols that stand for themselves wherever they are. -/
def inert : Sym → Prop
  | .word _ | .dquote | .newline | .eoi | .comment _ | .directive | .lparen | .rparen | .comma =>
    False
  | _ => True

/-- Parentheses and commas mean something only in arguments, `#` only outside. -/
def plainIn (m : Mode) (s : Sym) : Prop :=
  inert s ∨ (¬ m.isArg ∧ (s = .lparen ∨ s = .rparen ∨ s = .comma)) ∨ (m.isArg ∧ s = .directive) ∨
    (m.isArg ∧ ∃ c, s = .comment c)

/-- The actual arguments: a last one that is empty does not count. -/
def actuals (vs : List (List Sym)) : List (List Sym) :=
  if vs.getLast? = some [] then vs.dropLast else vs

/-- Parameters with their values. -/
def bind : List Text → List (List Sym) → Args
  | p :: ps, v :: vs => fun w => match bind ps vs w with
    | some x => some x
    | none => if w = p then some v else none
  | _, _ => noArgs

/-- A body without `##`. -/
def joined (b : List Sym) : List Sym := b.filter fun s => s ≠ .join

/-- What can be said about macro use. `use`: a macro name, with its arguments if it takes some.
`args`: the text between the parentheses of a call, `d` parentheses being open. -/
inductive Claim
  | text (m : Mode) (ρ : Args) (src out : List Sym)
  | use (ρ : Args) (src out : List Sym)
  | args (d : Nat) (ρ : Args) (src : List Sym) (vals : List (List Sym))

/-- The meaning of macro use. -/
inductive Holds (T : Table) : Claim → Prop
  /-- The end of a line or body. -/
  | done {m ρ} : ¬ m.isArg → Holds T (.text m ρ [] [])
  /-- The end of an argument. -/
  | doneArg {d ρ} : Holds T (.text (.arg d d) ρ [] [])
  /-- A symbol that stands for itself. -/
  | sym {m ρ s l o} : plainIn m s → Holds T (.text m ρ l o) → Holds T (.text m ρ (s :: l) (s :: o))
  /-- Comments are dropped. -/
  | comment {m ρ c l o} : ¬ m.isArg → Holds T (.text m ρ l o) →
      Holds T (.text m ρ (.comment c :: l) o)
  /-- A parenthesis is opened inside an argument. -/
  | lparen {d d' ρ l o} : Holds T (.text (.arg (d + 1) d') ρ l o) →
      Holds T (.text (.arg d d') ρ (.lparen :: l) (.lparen :: o))
  /-- A parenthesis is closed inside an argument. -/
  | rparen {d d' ρ l o} : Holds T (.text (.arg d d') ρ l o) →
      Holds T (.text (.arg (d + 1) d') ρ (.rparen :: l) (.rparen :: o))
  /-- Nothing in double quotes is a macro. -/
  | string {m ρ x l o} :
      (∀ s ∈ x, s ≠ .dquote ∧ s ≠ .newline ∧ s ≠ .eoi ∧ ∀ c, s ≠ .comment c) →
      Holds T (.text m ρ l o) →
      Holds T (.text m ρ (.dquote :: x ++ .dquote :: l) (.dquote :: x ++ .dquote :: o))
  /-- A word that is neither argument nor macro. -/
  | word {m ρ w l o} : ordinary w → ρ w = none → T w = none → Holds T (.text m ρ l o) →
      Holds T (.text m ρ (.word w :: l) (.word w :: o))
  /-- Macro use. -/
  | mac {m ρ u x l o} : Holds T (.use ρ u x) → Holds T (.text m ρ l o) →
      Holds T (.text m ρ (u ++ l) (x ++ o))
  /-- `#` in front of an argument or macro in a body puts it in quotes. -/
  | quote {ρ w u x l o} : Holds T (.use ρ (.word w :: u) x) → directiveWords.contains w = false →
      Holds T (.text .body ρ l o) →
      Holds T (.text .body ρ (.directive :: .word w :: u ++ l) (.dquote :: x ++ .dquote :: o))
  /-- `#` in front of anything else, not at the start of a line of the file. -/
  | hash {m ρ l o} : ¬ m.isArg →
      (∀ s, l.head? = some s → directiveWords.contains s.text = false ∧
        ∀ w, m = .body → s = .word w → ordinary w ∧ ρ w = none ∧ T w = none) →
      Holds T (.text m ρ l o) → Holds T (.text m ρ (.directive :: l) (.directive :: o))
  /-- An argument stands for the text given for it. -/
  | param {ρ w v} : ordinary w → ρ w = some v → Holds T (.use ρ [.word w] v)
  /-- A macro without parameters stands for the meaning of its body. -/
  | value {ρ w b x} : ordinary w → ρ w = none → T w = some (.value b) →
      Holds T (.text .body noArgs (joined b) x) → Holds T (.use ρ [.word w] x)
  /-- A call stands for the meaning of the body with the arguments put in. -/
  | call {ρ w ps b src vs x} : ordinary w → ρ w = none → T w = some (.func ps b) →
      Holds T (.args 0 ρ src vs) → (actuals vs).length = ps.length →
      Holds T (.text .body (bind ps (actuals vs)) (joined b) x) →
      Holds T (.use ρ (.word w :: .lparen :: src ++ [.rparen]) x)
  /-- The last argument of a call. -/
  | lastArg {d ρ a v} : Holds T (.text (.arg d 0) ρ a v) → Holds T (.args d ρ a [v])
  /-- Arguments are separated by commas, also by commas in parentheses. -/
  | moreArgs {d d' ρ a v l vs} : Holds T (.text (.arg d d') ρ a v) → Holds T (.args d' ρ l vs) →
      Holds T (.args d ρ (a ++ .comma :: l) (v :: vs))

/-- The words of a body. -/
def Mac.words : Mac → List Text
  | .unit => []
  | .value b | .func _ b => b.filterMap fun s => match s with
    | .word w => some w
    | _ => none

/-- No macro leads back to itself. -/
def Ranked (T : Table) : Prop :=
  ∃ rank : Text → Nat, ∀ n m, T n = some m → ∀ w ∈ m.words, (T w).isSome → rank w < rank n

/-- Parameter names are kept apart from other names: no macro has itself as parameter, and no body
of a macro without parameters mentions a parameter of another macro. -/
def Apart (T : Table) : Prop :=
  (∀ n ps b, T n = some (.func ps b) → n ∉ ps) ∧
  ∀ n b, T n = some (.value b) → ∀ w ∈ (Mac.value b).words, ∀ f ps c, T f = some (.func ps c) → w ∉ ps

/-! ### Programs -/

/-- Add or replace a definition. -/
def Table.set (T : Table) (n : Text) (d : Option Mac) : Table := fun k => if k = n then d else T k

/-- What conditions can tell about a macro. -/
def Mac.forget : Mac → Def
  | .unit => .unit
  | .value b => .value b
  | .func _ _ => .func

/-- What conditions can tell about the macros. -/
def Table.forget (T : Table) : Macros := fun k => (T k).map Mac.forget

/-- What a list of items in a selected branch produces: the macros at the end and the text. -/
inductive Means (cmp : Text → Text → Text → Option Bool) :
    Table → List Item → Table → List Sym → Prop
  | nil {T} : Means cmp T [] T []
  | text {T T' l o is o'} : Ranked T → Apart T → Holds T (.text .line noArgs l o) →
      o.getLast? ≠ some .escape → Means cmp T is T' o' →
      Means cmp T (.text l :: is) T' (o ++ .newline :: o')
  | value {T T' sp n gap body is o} : Means cmp (T.set n (some (.value body))) is T' o →
      Means cmp T (.value sp n gap body :: is) T' (visible sp.ind ++ o)
  | flag {T T' sp n is o} : Means cmp (T.set n (some .unit)) is T' o →
      Means cmp T (.flag sp n :: is) T' (visible sp.ind ++ .newline :: o)
  | func {T T' sp n ps body is o} : Means cmp (T.set n (some (.func ps body))) is T' o →
      Means cmp T (.func sp n ps body :: is) T' (visible sp.ind ++ o)
  | undef {T T' sp n is o} : Means cmp (T.set n none) is T' o →
      Means cmp T (.undef sp n :: is) T' (visible sp.ind ++ o)
  | condTrue {T T1 T2 sp t th els el spEnd is o1 o2} : t.eval cmp T.forget = some true →
      Means cmp T th T1 o1 → Means cmp T1 is T2 o2 →
      Means cmp T (.cond sp t th els el spEnd :: is) T2
        (visible sp.ind ++ o1 ++ visible (els.getD spEnd).ind ++ o2)
  | condFalse {T T2 sp t th el spEnd is o2} : t.eval cmp T.forget = some false →
      Means cmp T is T2 o2 →
      Means cmp T (.cond sp t th none el spEnd :: is) T2 (visible sp.ind ++ o2)
  | condElse {T T1 T2 sp t th spe el spEnd is o1 o2} : t.eval cmp T.forget = some false →
      Means cmp T el T1 o1 → Means cmp T1 is T2 o2 →
      Means cmp T (.cond sp t th (some spe) el spEnd :: is) T2
        (visible sp.ind ++ o1 ++ visible spEnd.ind ++ o2)

/-! ### Places -/

/-- A token in front of another one in a file. -/
def Ahead (a b : Tok) : Prop :=
  a.pos.stop.line ≤ b.pos.start.line ∧ a.pos.start.offset < b.pos.start.offset ∧
    (a.sym = .newline → a.pos.start.line < b.pos.start.line)

/-- Positions as the tokenizer gives them: they grow, and the line number grows at line ends. -/
def InOrder (l : List Tok) : Prop := l.Pairwise Ahead ∧ ∀ t ∈ l, t.pos.start.line ≤ t.pos.stop.line

end Verif.Preproc.Subst
