import Verif.Lib.ConfigComplete
import Verif.Lib.ConfigPanic
import Verif.Props.Math
/-!
C52–C54: configs as text.
-/
namespace Verif.ConfigParse
open Verif.Prefix (isWs trim)
open Verif.Rap (Num)

section
variable {α : Type} {F : Fl α}

/-- **C52**. What the parser returns is what is written in the text, all of it: each name, class, parent, array, string and
number is at its place. -/
theorem C52_sound {s r : Text} {ps : List Prp} (h : config F s = .ok ps r) : Written (Reading F) ps s ∧ r = [] :=
  config_sound h

/-- **C52**. Text written by the rules, with all its semicolons, is read, and read as what is written. (Numbers are written as
such and, when a blank follows, do not change by being printed and evaluated; see C53.) -/
theorem C52_complete {s : Text} {ps : List Prp} (h : Written (Writing F) ps s) (hp : AllEnded ps) : config F s = .ok ps [] :=
  config_complete h hp

/-- **C52**. A text has one meaning. -/
theorem C52_unique {s : Text} {ps qs : List Prp} (h : Written (Writing F) ps s) (h' : Written (Writing F) qs s) (hp : AllEnded ps)
    (hq : AllEnded qs) : ps = qs := by
  have h1 := config_complete h hp
  rw [config_complete h' hq] at h1
  injection h1 with h1
  exact h1.symm

/-- The text of a property `x` with this value and this white space before the semicolon. -/
def assign (l w : Text) : Text := ['x', '='] ++ l ++ w ++ [';']

/-- **C53**, in part. White space behind a number makes no difference if it does not begin with a blank. Missing: a blank, see
`C53_violated`. -/
theorem C53_number_partial {n : Num} {l w : Text} (h : Lit F n l) (hw : Blank w) (hb : w.head? ≠ some ' ') :
    config F (assign l w) = .ok [.entry ['x'] (.num n) false] [] := by
  refine config_complete ?_ (by simp [AllEnded, Ended])
  have hn : Writing F n (l ++ (w ++ [';'])) (w ++ [';']) := by
    refine ⟨l, h, rfl, fun he => absurd he ?_⟩
    cases w with
    | nil => simp
    | cons c w => simpa using hb
  have hr : Rhs (Writing F) (.num n) false ([] ++ ['='] ++ [] ++ (l ++ (w ++ [';']))) (w ++ [';']) := .val .nil .nil (.num hn)
  have hb : Body (Writing F) (.entry ['x'] (.num n) false) (['x'] ++ ([] ++ ['='] ++ [] ++ (l ++ (w ++ [';'])))) (w ++ [';']) :=
    .entry ⟨by simp, by decide⟩ hr
  have := Props.cons .nil hb hw (.nil (r := []) .nil)
  show Props _ _ _ _
  simpa [assign] using this

theorem config_assign {c : Char} {t r : Text} {n : Num} (hc : SqfLex.isDigit c = true ∨ c = '.' ∨ c = '-')
    (h : numeric F (c :: t) = some (n, r)) (hr : ws r = [';']) :
    config F ('x' :: '=' :: c :: t) = .ok [.entry ['x'] (.num n) false] [] := by
  have hd := numHead_ne hc
  have hn : Name ['x'] := ⟨by simp, by decide⟩
  have hap : Apart ('=' :: c :: t) := by simp [Apart]; decide
  have hx : ∃ d s', ws ('=' :: c :: t) = d :: s' ∧ isIdent d = false := ⟨'=', c :: t, ws_solid (by decide), by decide⟩
  have h1 : className ('x' :: '=' :: c :: t) = .fail := className_entry hn hap hx
  have h2 : delete ('x' :: '=' :: c :: t) = .fail := delete_entry hn hap hx
  have h3 : padded ident ('x' :: '=' :: c :: t) = .ok ['x'] ('=' :: c :: t) := padIdent_complete (w := []) hn .nil hap
  have h4 : arrayRhs F ('=' :: c :: t) = .fail := by rw [arrayRhs, tokP_fail (ws_solid (by decide)) (by decide)]; rfl
  have h5 : value F (c :: t) = .ok (.num n) r := by
    rw [value, eval_fail hd.2.2.2.1, array_fail hd.1 hd.2.1, string_none hd.2.2.1, h]; rfl
  have h6 : plainRhs F ('=' :: c :: t) = .ok (.num n) [';'] := by
    rw [plainRhs, tokP_at (ws_solid (by decide)), ws_solid hd.1]
    show (orSkip (value F (ws (c :: t))) _).bind _ = _
    rw [ws_solid hd.1, h5]
    show R.ok _ (ws r) = _
    rw [hr]
  have h7 : entry F ('x' :: '=' :: c :: t) = .ok (.entry ['x'] (.num n) false) [';'] := by
    rw [entry, h3]
    show R.bind (R.or (R.map _ (arrayRhs F ('=' :: c :: t))) (R.map _ (plainRhs F ('=' :: c :: t)))) _ = _
    rw [h4, h6]; rfl
  have h8 : ∀ f, property F (f + 1) ('x' :: '=' :: c :: t) = .ok (.entry ['x'] (.num n) false) [] := by
    intro f
    rw [property, classes_fail h1, h2, h7]; rfl
  have h9 : ∀ f, properties F (f + 2) ('x' :: '=' :: c :: t) = .ok [.entry ['x'] (.num n) false] [] := by
    intro f
    rw [properties, ws_solid (by decide), h8]
    show (properties F (f + 1) []).map _ = _
    rw [properties, show ws [] = [] from rfl, property_end (.inl rfl)]; rfl
  rw [config, show 2 * ('x' :: '=' :: c :: t).length + 2 = (2 * (t.length + 3)) + 2 by simp, h9]; rfl

/-- **C53** does not hold. A fraction with a blank behind it is printed and evaluated, and becomes a whole number if its value
is one: `x=1.0 ;` is the integer 1 where `x=1.0;` is a float. -/
theorem C53_violated {v : α} (hd : F.f32.display (F.f32.parse ['1', '.', '0']) = ['1'])
    (he : Math.eval F.f64 ['1'] = some v) (hv : F.whole v = some 1) :
    config F (assign ['1', '.', '0'] []) = .ok [.entry ['x'] (.num (.f32 (F.f32.parse ['1', '.', '0']).toNat)) false] [] ∧
    config F (assign ['1', '.', '0'] [' ']) = .ok [.entry ['x'] (.num (.i32 1)) false] [] := by
  refine ⟨C53_number_partial (.pos (.frac (w := ['1']) (d := ['0']) (.inr ⟨by simp, by decide⟩) ⟨by simp, by decide⟩)) .nil (by simp), ?_⟩
  refine config_assign (t := ['.', '0', ' ', ';']) (r := [';']) (.inl (by decide)) ?_ rfl
  have hp : pieces F 5 ['1', '.', '0', ' ', ';'] =
      ([F.f32.display (UInt32.ofNat (F.f32.parse ['1', '.', '0']).toNat), [' ']], [';']) := rfl
  rw [UInt32.ofNat_toNat, hd] at hp
  have he' : evaluate F ['1'] = some (.i32 1) := by rw [evaluate, he, Option.map_some, hv]; rfl
  have hm : math F ['1', '.', '0', ' ', ';'] = some (.i32 1, [';']) := by
    rw [math]
    simp only [List.length_cons, List.length_nil, Nat.zero_add, Nat.reduceAdd, hp]
    show (evaluate F ['1']).map _ = _
    rw [he']; rfl
  rw [numeric, hm]; rfl

/-- **C53** does not hold. Two numbers without anything between them are printed next to each other and evaluated: `x=1.0.0;`,
which the documentation of lint `invalid_value` gives as an invalid value, is the integer 10. -/
theorem C53_joined_violated {v : α} (hd : F.f32.display (F.f32.parse ['1', '.', '0']) = ['1'])
    (hd' : F.f32.display (F.f32.parse ['.', '0']) = ['0'])
    (he : Math.eval F.f64 ['1', '0'] = some v) (hv : F.whole v = some 10) :
    config F ['x', '=', '1', '.', '0', '.', '0', ';'] = .ok [.entry ['x'] (.num (.i32 10)) false] [] := by
  refine config_assign (t := ['.', '0', '.', '0', ';']) (r := [';']) (.inl (by decide)) ?_ rfl
  have hp : pieces F 6 ['1', '.', '0', '.', '0', ';'] =
      ([F.f32.display (UInt32.ofNat (F.f32.parse ['1', '.', '0']).toNat),
        F.f32.display (UInt32.ofNat (F.f32.parse ['.', '0']).toNat)], [';']) := rfl
  rw [UInt32.ofNat_toNat, UInt32.ofNat_toNat, hd, hd'] at hp
  have he' : evaluate F ['1', '0'] = some (.i32 10) := by rw [evaluate, he, Option.map_some, hv]; rfl
  have hm : math F ['1', '.', '0', '.', '0', ';'] = some (.i32 10, [';']) := by
    rw [math]
    simp only [List.length_cons, List.length_nil, Nat.zero_add, Nat.reduceAdd, hp]
    show (evaluate F ['1', '0']).map _ = _
    rw [he']; rfl
  rw [numeric, hm]; rfl

/-- **C54** does not hold. The parser aborts at `__EVAL` without brackets. -/
theorem C54_violated : config F ['x', '=', '_', '_', 'E', 'V', 'A', 'L', ' ', '5', ';'] = .halt .panic := by
  rfl

/-- **C54**, in part. There is no other way to abort: if each `__EVAL` is followed by a bracket, the parser does not. Missing:
the rest, see `C54_violated`. -/
theorem C54_abort_partial {s : Text} (h : Bracketed s) : config F s ≠ .halt .panic := config_safe h
end

/-! ### Examples -/

/-- Numbers as far as the examples need them: `1.0` and whole numbers. -/
def sampleFl : Fl Int where
  f32 := { parse := fun s => if s = ['1', '.', '0'] then 0x3f800000 else 0
           ofNat := UInt32.ofNat
           display := fun x => if x = 0x3f800000 then ['1'] else ['0'] }
  neg x := x ^^^ 0x80000000
  f64 := Math.intNum
  whole := some
  toF32 _ := 0

/-- `class A : B {x[]={1,"a"};}; delete C; y=__EVAL(1+(2));` -/
def sampleText : Text := "class A : B {x[]={1,\"a\"};}; delete C; y=__EVAL(1+(2));".toList

/-- The properties of a class. -/
def Prp.inner : Prp → List Prp
  | .loc _ _ ps _ => ps
  | _ => []

/-- The hypothesis of `C52_sound`. -/
example : (match config sampleFl sampleText with
    | .ok [a, c, y] r => decide (r = [] ∧ a.name = ['A'] ∧ a.inner.map Prp.name = [['x']] ∧ c.name = ['C']) && (match y with
      | .entry n (.expr e) b => decide (n = ['y'] ∧ e = ['1', '+', '(', '2', ')'] ∧ b = false)
      | _ => false)
    | _ => false) = true := by decide +kernel

/-- The hypotheses of `C52_complete`. -/
example : Written (Writing sampleFl) [.ext ['B'], .loc ['A'] (some ['B']) [.entry ['s'] (.str ['"']) false] false]
      ("class B; class A:B{s=\"\"\"\";};".toList) ∧
    AllEnded [.ext ['B'], .loc ['A'] (some ['B']) [.entry ['s'] (.str ['"']) false] false] := by
  refine ⟨?_, by simp [AllEnded, Ended]⟩
  have hB : Name ['B'] := ⟨by simp, by decide⟩
  have hA : Name ['A'] := ⟨by simp, by decide⟩
  have hs : Str ['"'] ['"', '"', '"', '"'] :=
    ⟨[['"']], .one, [['"']], rfl, rfl, by intro x hx; simp at hx; subst hx; exact no_infix_short (by simp)⟩
  have h1 : Body (Writing sampleFl) (.entry ['s'] (.str ['"']) false)
      (['s'] ++ ([] ++ ['='] ++ [] ++ (['"', '"', '"', '"'] ++ [';', '}', ';']))) ([] ++ ';' :: ['}', ';']) :=
    .entry ⟨by simp, by decide⟩ (.val .nil .nil (.str hs))
  have h2 := Props.cons .nil h1 .nil (.nil (w := []) (r := ['}', ';']) .nil)
  have h3 := Body.child (r := [';']) (.mk (w := []) hA .nil) (w := []) (w' := []) (w'' := []) .nil .nil hB .nil h2
  have h4 := Props.cons (w := [' ']) (w' := []) (by intro c hc; simp at hc; subst hc; decide) h3 .nil (.nil (w := []) (r := []) .nil)
  have h5 : Body (Writing sampleFl) (.ext ['B']) _ ([] ++ ';' :: " class A:B{s=\"\"\"\";};".toList) := .ext (.mk (w := []) hB .nil)
  exact Props.cons (w := []) .nil h5 .nil h4

/-- The hypotheses of `C53_number_partial`. -/
example : Lit sampleFl (.i32 (-12)) ['-', '1', '2'] ∧ Blank ['\n'] :=
  ⟨.neg (n := .i32 12) (.int ⟨by simp, by decide⟩ (by decide) (.small (v := 12) (by decide))) .i32, by intro c hc; simp at hc; subst hc; decide⟩

/-- The hypotheses of `C53_violated` and `C53_joined_violated`. -/
example : sampleFl.f32.display (sampleFl.f32.parse ['1', '.', '0']) = ['1'] ∧
    sampleFl.f32.display (sampleFl.f32.parse ['.', '0']) = ['0'] ∧
    Math.eval sampleFl.f64 ['1'] = some 1 ∧ Math.eval sampleFl.f64 ['1', '0'] = some 10 ∧ sampleFl.whole 10 = some 10 := by
  decide +kernel

/-- The hypothesis of `C54_abort_partial`. -/
example : Bracketed ['_', '_', 'E', 'V', 'A', 'L', '('] := by
  intro a b h
  cases a with
  | nil => simp at h; subst h; rfl
  | cons c a =>
    cases a with
    | nil => simp at h
    | cons d a =>
      have := congrArg List.length h
      simp at this
      omega

end Verif.ConfigParse
