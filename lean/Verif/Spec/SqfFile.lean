import Verif.Spec.SqfRun
import Verif.Spec.SqfSem
import Verif.Spec.Sqfc
import Verif.Model.Processed
import Verif.Model.SqfLex
/-!
Specification side of C129: what the game finds in a compiled script. An array that an instruction pushes from the table of
constants is shared between all executions of the script; an array inside of such a constant belongs to it, and an array
put together by an instruction is new. The text of a piece of code is cut out of the text kept in the file.
-/
namespace Verif.Sqf

/-- The tree of a constant read from a file; `top` says that an instruction pushes it. The first number bounds the nesting
of constants that is followed. -/
def ftree (T : Tables) : Nat → Bool → Const → Option Tree
  | 0, _, _ => none
  | _+1, _, .str s => some (.str s)
  | _+1, _, .num x => some (.num x)
  | _+1, _, .bool b => some (.bool b)
  | _+1, _, .nular n => some (.nular (asciiLower n) none)
  | f+1, true, .arr cs => (cs.mapM (ftree T f false)).map .shared
  | f+1, false, .arr cs => (cs.mapM (ftree T f false)).map .arr
  | _+1, _, .carr _ => none
  | f+1, _, .code is => (body (ftree T f true) T is.contents).map (.code is.ptr)

/-- What a compiled script consists of. -/
structure Found where
  files : List Bytes
  text : Bytes
  stmts : List TStmt

/-- Reading a file: its entry point must be code that names a text. -/
def found (f : Nat) (w : Bytes) : Option Found := do
  let s ← Sqfc.read f w
  match s.consts[s.entry]? with
  | some (.code ⟨is, .const i⟩) =>
    match s.consts[i.toNat]? with
    | some (.str t) => return ⟨s.files, t, ← body (ftree ⟨s.consts, s.names⟩ f true) ⟨s.consts, s.names⟩ is⟩
    | _ => none
  | _ => none

variable {E S B : Type}

mutual
/-- Meaning of what is found in a file; `src` is the text kept in it. -/
def Sem.t (M : Sem E S B) (src : Bytes) : Tree → E
  | .code (.source o l) ss => M.code ((src.drop o.toNat).take l.toNat) (M.block (M.tss src ss))
  | .code (.const _) ss => M.code [] (M.block (M.tss src ss))
  | .str s => M.str s
  | .num x => M.num x
  | .bool b => M.bool b
  | .arr es => M.arr (M.ts src es)
  | .shared es => M.shared (M.ts src es)
  | .nular n _ => M.nular n
  | .un n e _ => M.un n (M.t src e)
  | .bin n l r _ => M.bin n (M.t src l) (M.t src r)
  | .var n _ => M.var n
def Sem.ts (M : Sem E S B) (src : Bytes) : List Tree → List E
  | [] => []
  | e :: es => M.t src e :: M.ts src es
def Sem.tst (M : Sem E S B) (src : Bytes) : TStmt → S
  | .assign l n e _ => M.assign l n (M.t src e)
  | .expr e => M.expr (M.t src e)
def Sem.tss (M : Sem E S B) (src : Bytes) : List TStmt → List S
  | [] => []
  | s :: ss => M.tst src s :: M.tss src ss
end

/-- The game does not distinguish upper and lower case in names, and for code without statements it does not matter which
text is kept of it. -/
structure NameLaws (M : Sem E S B) : Prop where
  nular : ∀ n, M.nular (asciiLower n) = M.nular n
  un : ∀ n x, M.un (asciiLower n) x = M.un n x
  bin : ∀ n x y, M.bin (asciiLower n) x y = M.bin n x y
  var : ∀ n, M.var (asciiLower n) = M.var n
  assign : ∀ l n x, M.assign l (asciiLower n) x = M.assign l n x
  empty : ∀ s t, M.code s (M.block []) = M.code t (M.block [])

/-- libs/workspace/src/reporting/processed.rs:287-305 `extract`, where it does not panic: spans of the parser run forward. -/
def textOf (s : Text) (sp : Span) : Bytes :=
  match Processed.extract s sp.1 sp.2 with
  | .ok b => b
  | .error _ => []

/-- What the compiler reads from the processed text `s`. -/
def procOf (loc : Span → Option SourceInfo) (s : Text) : Proc where
  loc := loc
  offset := Processed.byteOffset s
  len sp := (textOf s sp).length

mutual
/-- Arrays have fewer than 65536 elements. -/
def Small : Expr → Prop
  | .code c _ _ => SmallSs c
  | .arr es _ => es.length < 65536 ∧ Smalls es
  | .carr es _ => Smalls es
  | .un _ e _ => Small e
  | .bin _ l r _ => Small l ∧ Small r
  | _ => True
def Smalls : List Expr → Prop
  | [] => True
  | e :: es => Small e ∧ Smalls es
def SmallS : Stmt → Prop
  | .assignGlobal _ e _ | .assignLocal _ e _ | .expr e _ => Small e
def SmallSs : List Stmt → Prop
  | [] => True
  | s :: ss => SmallS s ∧ SmallSs ss
end

end Verif.Sqf
