import Verif.Spec.SqfGame
/-!
A small game in which everything said of the commands holds: the laws do not contradict each other, and examples can be
evaluated in it. Object 0 is none, object 1 is in object 2, all others are on foot. Indices are not modelled: what is found is
found at 0.
-/
namespace Verif.SqfLint
open Verif.Sqf Verif.SqfLex Verif.SqfParse

inductive Val where
  | bool (b : Bool)
  | num (x : UInt32)
  | str (s : Bytes)
  | arr (vs : List Val)
  | code (ss : List Stmt)
  | ifv (b : Bool)
  | pair (x y : Val)
  | obj (n : Nat)

/-- Is the text somewhere in the other? -/
def occurs (t : Bytes) : Bytes → Bool
  | [] => t.isEmpty
  | c :: s => t.isPrefixOf (c :: s) || occurs t s

def toyHas : Val → Bytes → Option Bool
  | .str s, t => some (occurs t s)
  | _, _ => none

def toyInside : Val → Option (Option Val)
  | .obj 0 => none
  | .obj 1 => some (some (.obj 2))
  | .obj _ => some none
  | _ => none

abbrev Vars := Bytes → Option Val

/-- Code that is a literal or a variable. -/
def toyCall : Val → Vars → Option (Val × Vars)
  | .code [.expr (.num x _) _], s => some (.num x, s)
  | .code [.expr (.str t _ _) _], s => some (.str t, s)
  | .code [.expr (.bool b _) _], s => some (.bool b, s)
  | .code [.expr (.var n _) _], s => (s n).map (·, s)
  | _, _ => none

def toyEq : Val → Val → Option Bool
  | .bool a, .bool b => some (a == b)
  | .num a, .num b => some (a == b)
  | .str a, .str b => some (a == b)
  | .obj a, .obj b => some (a == b && a != 0)
  | _, _ => none

def toyUnNamed (n : Bytes) (v : Val) : Option Val :=
  if n = ascii "if" then match v with | .bool b => some (.ifv b) | _ => none
  else if n = ascii "parsenumber" then match v with | .bool b => some (.num (if b then oneBits else zeroBits)) | _ => none
  else if n = ascii "vehicle" then match v with | .obj n => some (((toyInside (.obj n)).getD none).getD (.obj n)) | _ => none
  else if n = ascii "objectparent" then match v with | .obj n => some (((toyInside (.obj n)).getD none).getD (.obj 0)) | _ => none
  else if n = ascii "isnull" then match v with | .obj n => some (.bool (n == 0)) | _ => none
  else none

def toyUn : UnCmd → Val → Vars → Option (Val × Vars)
  | .not, .bool b, s => some (.bool !b, s)
  | .minus, .num x, s => some (.num (x ^^^ 0x80000000), s)
  | .named n, v, s => (toyUnNamed (asciiLower n) v).map (·, s)
  | _, _, _ => none

def toyBinNamed (n : Bytes) (v w : Val) (s : Vars) : Option (Val × Vars) :=
  if n = ascii "then" then match v, w with | .ifv b, .pair x y => toyCall (if b then x else y) s | _, _ => none
  else if n = ascii "select" then match v, w with | .arr [x, y], .bool b => some (if b then y else x, s) | _, _ => none
  else if n = ascii "find" then match v, w with
    | .str x, .str t => some (if occurs t x then .num 0 else .num minusOneBits, s)
    | _, _ => none
  else if n = ascii "in" then match v, w with | .str t, .str x => some (.bool (occurs t x), s) | _, _ => none
  else none

def toyBin : BinCmd → Val → Val → Vars → Option (Val × Vars)
  | .els, v, w, s => some (.pair v w, s)
  | .eq, v, w, s => (toyEq v w).map fun b => (.bool b, s)
  | .notEq, v, w, s => (toyEq v w).map fun b => (.bool !b, s)
  | .greater, .num x, .num y, s => some (.bool (if y = minusOneBits then decide (x.toNat ≤ 0x7f800000) else decide (y.toNat < x.toNat)), s)
  | .named n, v, w, s => toyBinNamed (asciiLower n) v w s
  | _, _, _, _ => none

/-- The game; `player` is object 1. -/
def toy : Game Vars Val where
  bool := .bool
  num := .num
  str := .str
  arr := .arr
  code := .code
  read n s := s n
  nular n s := if n = ascii "player" then some (.obj 1, s) else none
  un := toyUn
  bin := toyBin
  ifv := .ifv
  pair := .pair
  call := toyCall
  has := toyHas
  inside v _ := toyInside v
  null := .obj 0

theorem toy_eq_symm {v w : Val} {b : Bool} : toyEq v w = some b ↔ (toyEq v w).map (fun x => !x) = some !b := by
  cases toyEq v w <;> simp

theorem toy_laws : toy.Laws where
  if_ n b s h := by simp [toy, toyUn, toyUnNamed, h]
  else_ x y s := rfl
  then_ n b x y s h := by simp [toy, toyBin, toyBinNamed, h]
  call_ e s h := by
    cases h with
    | var =>
      rename_i n sp
      simp only [toy, toyCall, eraseSs, eraseS, eraseE, Game.eval]
      cases s n <;> rfl
    | _ => rfl
  select_ n x y b s h := by
    have : (ascii "select" = ascii "then") = False := by decide +kernel
    simp [toy, toyBin, toyBinNamed, h, this]
  parseNumber_ n b s h := by
    have : (ascii "parsenumber" = ascii "if") = False := by decide +kernel
    simp [toy, toyUn, toyUnNamed, h, this]
  not_ b s := rfl
  eq_ a b s := rfl
  notEq_ x y b s s' := by
    simp only [toy, toyBin]
    cases toyEq x y <;> simp
  minus_ s := by
    have : oneBits ^^^ 0x80000000 = minusOneBits := by decide +kernel
    simp [toy, toyUn, this]
  greater_ k s h := by
    simp only [toy, toyBin, if_true]
    simp [h]
  greater_not_ s := by
    have : decide (minusOneBits.toNat ≤ 0x7f800000) = false := by decide +kernel
    simp only [toy, toyBin, if_true, this]
  find_ n x t s h := by
    have h1 : (ascii "find" = ascii "then") = False := by decide +kernel
    have h2 : (ascii "find" = ascii "select") = False := by decide +kernel
    cases x <;> simp [toy, toyHas]
    constructor
    · intro ho
      exact ⟨0, by decide, by simp [toyBin, toyBinNamed, h, h1, h2, ho]⟩
    · intro ho
      simp [toyBin, toyBinNamed, h, h1, h2, ho]
  in_ n x t b s h := by
    have h1 : (ascii "in" = ascii "then") = False := by decide +kernel
    have h2 : (ascii "in" = ascii "select") = False := by decide +kernel
    have h3 : (ascii "in" = ascii "find") = False := by decide +kernel
    cases x <;> simp [toy, toyHas]
    rintro rfl
    simp [toyBin, toyBinNamed, h, h1, h2, h3]
  vehicle_ n x y s h hi := by
    have h1 : (ascii "vehicle" = ascii "if") = False := by decide +kernel
    have h2 : (ascii "vehicle" = ascii "parsenumber") = False := by decide +kernel
    cases x <;> simp [toy, toyInside] at hi
    have hi' : toyInside (.obj _) = some y := hi
    simp [toy, toyUn, toyUnNamed, h, h1, h2, hi']
  objectParent_ n x y s h hi := by
    have h1 : (ascii "objectparent" = ascii "if") = False := by decide +kernel
    have h2 : (ascii "objectparent" = ascii "parsenumber") = False := by decide +kernel
    have h3 : (ascii "objectparent" = ascii "vehicle") = False := by decide +kernel
    cases x <;> simp [toy, toyInside] at hi
    have hi' : toyInside (.obj _) = some y := hi
    simp [toy, toyUn, toyUnNamed, h, h1, h2, h3, hi']
  isNull_null n s h := by
    have h1 : (ascii "isnull" = ascii "if") = False := by decide +kernel
    have h2 : (ascii "isnull" = ascii "parsenumber") = False := by decide +kernel
    have h3 : (ascii "isnull" = ascii "vehicle") = False := by decide +kernel
    have h4 : (ascii "isnull" = ascii "objectparent") = False := by decide +kernel
    simp [toy, toyUn, toyUnNamed, h, h1, h2, h3, h4]
  isNull_vehicle n x y s h hi := by
    have h1 : (ascii "isnull" = ascii "if") = False := by decide +kernel
    have h2 : (ascii "isnull" = ascii "parsenumber") = False := by decide +kernel
    have h3 : (ascii "isnull" = ascii "vehicle") = False := by decide +kernel
    have h4 : (ascii "isnull" = ascii "objectparent") = False := by decide +kernel
    have hy : y = .obj 2 := by
      simp only [toy] at hi
      unfold toyInside at hi
      split at hi <;> cases hi
      rfl
    subst hy
    simp [toy, toyUn, toyUnNamed, h, h1, h2, h3, h4]
  same_object x y s hi := by
    simp only [toy] at hi
    unfold toyInside at hi
    split at hi <;> cases hi
    · simp [toy, toyBin, toyEq]
    · rename_i n _ h0
      have : n ≠ 0 := by rintro rfl; simp_all
      simp [toy, toyBin, toyEq, this]
  other_object x y s hi := by
    simp only [toy] at hi
    unfold toyInside at hi
    split at hi <;> cases hi
    exact ⟨rfl, rfl⟩

end Verif.SqfLint
