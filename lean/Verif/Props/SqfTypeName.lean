import Verif.Model.SqfSmallLint
import Verif.Spec.SqfTypes
import Verif.Lib.SqfSuggest
import Verif.Props.SqfSuggest
/-!
C110: `typeName` of constants, and C111: needless `!` and `_this`.
-/
namespace Verif.SqfLint
open Verif.Sqf Verif.SqfLex Verif.SqfParse

variable {S V : Type} {G : Game S V} {env : Env} {F : F32} {lower : Bytes → Bytes}

/-- `t` is the text of the ASCII name `b`, with no double quote in it. -/
def Names (t : Text) (b : Bytes) : Prop := enc t = b ∧ dec b = t ∧ '"' ∉ t

theorem ite_some {A : Type} {c : Prop} [Decidable c] {a b : Option A} {t : A} (h : (if c then a else b) = some t) :
    c ∧ a = some t ∨ b = some t := by
  by_cases hc : c
  · rw [if_pos hc] at h; exact .inl ⟨hc, h⟩
  · rw [if_neg hc] at h; exact .inr h

theorem nularType_some {n : Bytes} {t : Text} (h : nularType n = some t) :
    ∃ c ∈ constantTypes, n = asciiLower (ascii c.1) ∧ Names t (ascii c.2) := by
  unfold nularType at h
  unfold Names
  rcases ite_some h with ⟨e, h⟩ | h
  · cases h; subst e; exact ⟨("scriptNull", "SCRIPT"), by decide +kernel, by decide +kernel, by decide +kernel⟩
  rcases ite_some h with ⟨e, h⟩ | h
  · cases h; subst e; exact ⟨("objNull", "OBJECT"), by decide +kernel, by decide +kernel, by decide +kernel⟩
  rcases ite_some h with ⟨e, h⟩ | h
  · cases h; subst e; exact ⟨("grpNull", "GROUP"), by decide +kernel, by decide +kernel, by decide +kernel⟩
  rcases ite_some h with ⟨e, h⟩ | h
  · cases h; subst e; exact ⟨("controlNull", "CONTROL"), by decide +kernel, by decide +kernel, by decide +kernel⟩
  rcases ite_some h with ⟨e, h⟩ | h
  · cases h; subst e; exact ⟨("teamMemberNull", "TEAM_MEMBER"), by decide +kernel, by decide +kernel, by decide +kernel⟩
  rcases ite_some h with ⟨e, h⟩ | h
  · cases h; subst e; exact ⟨("displayNull", "DISPLAY"), by decide +kernel, by decide +kernel, by decide +kernel⟩
  rcases ite_some h with ⟨e, h⟩ | h
  · cases h; subst e; exact ⟨("taskNull", "TASK"), by decide +kernel, by decide +kernel, by decide +kernel⟩
  rcases ite_some h with ⟨e, h⟩ | h
  · cases h; subst e; exact ⟨("locationNull", "LOCATION"), by decide +kernel, by decide +kernel, by decide +kernel⟩
  rcases ite_some h with ⟨e, h⟩ | h
  · cases h; subst e; exact ⟨("sideUnknown", "SIDE"), by decide +kernel, by decide +kernel, by decide +kernel⟩
  rcases ite_some h with ⟨e, h⟩ | h
  · cases h
    rcases e with rfl | rfl
    · exact ⟨("configFile", "CONFIG"), by decide +kernel, by decide +kernel, by decide +kernel⟩
    · exact ⟨("configNull", "CONFIG"), by decide +kernel, by decide +kernel, by decide +kernel⟩
  rcases ite_some h with ⟨e, h⟩ | h
  · cases h
    rcases e with rfl | rfl | rfl | rfl
    · exact ⟨("missionNamespace", "NAMESPACE"), by decide +kernel, by decide +kernel, by decide +kernel⟩
    · exact ⟨("profileNamespace", "NAMESPACE"), by decide +kernel, by decide +kernel, by decide +kernel⟩
    · exact ⟨("uiNamespace", "NAMESPACE"), by decide +kernel, by decide +kernel, by decide +kernel⟩
    · exact ⟨("parsingNamespace", "NAMESPACE"), by decide +kernel, by decide +kernel, by decide +kernel⟩
  rcases ite_some h with ⟨e, h⟩ | h
  · cases h; subst e; exact ⟨("diaryRecordNull", "DIARY_RECORD"), by decide +kernel, by decide +kernel, by decide +kernel⟩
  rcases ite_some h with ⟨e, h⟩ | h
  · cases h; subst e; exact ⟨("createHashMap", "HASHMAP"), by decide +kernel, by decide +kernel, by decide +kernel⟩
  cases h

theorem nularType_of {n : Bytes} {c : String × String} (hc : c ∈ constantTypes) (hn : n = asciiLower (ascii c.1)) :
    nularType n = some c.2.toList := by
  subst hn
  have : ∀ c ∈ constantTypes, nularType (asciiLower (ascii c.1)) = some c.2.toList := by decide +kernel
  exact this c hc

/-- What is seen as a constant: literals, the empty array and block, one of the commands and `text`, both written with small
letters only. -/
inductive Seen : Expr → Prop where
  | str {s sp w} : Seen (.str s sp w)
  | num {x sp} : Seen (.num x sp)
  | bool {b sp} : Seen (.bool b sp)
  | code {src sp} : Seen (.code [] src sp)
  | arr {sp} : Seen (.arr [] sp)
  | nular {c sp} : c ∈ constantTypes → Seen (.nular (asciiLower (ascii c.1)) sp)
  | text {e sp} : Seen (.un (.named (ascii "text")) e sp)

/-- C110: what is reported: `typeName`, in any letter case, of a constant. -/
theorem C110_reported {e : Expr} : (staticTypename lower e).isSome = true ↔
    ∃ n a sp, e = .un (.named n) a sp ∧ lower n = ascii "typename" ∧ Seen a := by
  have key : ∀ a : Expr, (staticType a).isSome = true ↔ Seen a := by
    intro a
    constructor
    · intro h
      unfold staticType at h
      split at h
      · exact .str
      · exact .num
      · exact .bool
      · exact .code
      · exact .arr
      · obtain ⟨t, ht⟩ := Option.isSome_iff_exists.1 h
        obtain ⟨c, hc, hn, -⟩ := nularType_some ht
        subst hn
        exact .nular hc
      · split at h
        · rename_i e; subst e; exact .text
        · cases h
      · cases h
    · intro h
      cases h with
      | nular hc => rw [staticType, nularType_of hc rfl]; rfl
      | text => rw [staticType, if_pos rfl]; rfl
      | _ => rfl
  constructor
  · intro h
    unfold staticTypename at h
    split at h
    · rename_i n a sp
      split at h
      · cases h
      · rename_i hn
        rw [Option.isSome_map, key] at h
        exact ⟨n, a, sp, rfl, by simpa using hn, h⟩
    · cases h
  · rintro ⟨n, a, sp, rfl, hn, h⟩
    rw [staticTypename, if_neg (by simpa using hn), Option.isSome_map, key]
    exact h

/-- C110: what is suggested is read as a string, and has the value of the expression; of a `text` only if it is that of a
string, whose evaluation changes nothing. -/
theorem C110_same_value (hdb : env.db.Plain) (hlow : PlainLower lower) {typeOf : V → Bytes} (hG : G.TypeLaws typeOf)
    {e a : Expr} {n : Bytes} {sp : Span} {t : Text} (he : e = .un (.named n) a sp) (hn : IsWord n)
    (h : staticTypename lower e = some t) :
    ∃ e', ReadAs env F 10 t e' ∧ ∀ s, (∀ m x q, a = .un m x q → ∃ v, G.eval x s = some (v, s) ∧ typeOf v = ascii "STRING") →
      G.eval e' s = G.eval e s := by
  subst he
  rw [staticTypename] at h
  split at h
  · cases h
  rename_i hl
  rw [not_not, hlow n hn] at hl
  obtain ⟨u, hu, ht⟩ := Option.map_eq_some_iff.1 h
  -- the value of the operand has the type that is suggested
  have val : ∃ b, Names u b ∧ ∀ s, (∀ m x q, a = .un m x q → ∃ v, G.eval x s = some (v, s) ∧ typeOf v = ascii "STRING") →
      ∃ v, G.eval a s = some (v, s) ∧ typeOf v = b := by
    unfold staticType at hu
    unfold Names
    split at hu
    · cases hu; exact ⟨ascii "STRING", by decide +kernel, fun s _ => ⟨_, rfl, hG.str_ _⟩⟩
    · cases hu; exact ⟨ascii "SCALAR", by decide +kernel, fun s _ => ⟨_, rfl, hG.num_ _⟩⟩
    · cases hu; exact ⟨ascii "BOOL", by decide +kernel, fun s _ => ⟨_, rfl, hG.bool_ _⟩⟩
    · cases hu; exact ⟨ascii "CODE", by decide +kernel, fun s _ => ⟨_, rfl, hG.code_ _⟩⟩
    · cases hu; exact ⟨ascii "ARRAY", by decide +kernel, fun s _ => ⟨_, rfl, hG.arr_ _⟩⟩
    · obtain ⟨c, hc, hm, hN⟩ := nularType_some hu
      refine ⟨ascii c.2, hN, fun s _ => ?_⟩
      rw [Game.eval]
      refine hG.constant_ c hc _ s ?_
      have idem : ∀ c ∈ constantTypes, asciiLower (asciiLower (ascii c.1)) = asciiLower (ascii c.1) := by decide +kernel
      rw [hm, idem c hc]
    · split at hu
      · rename_i e
        subst e
        cases hu
        refine ⟨ascii "TEXT", by decide +kernel, fun s hs => ?_⟩
        obtain ⟨v, h1, h2⟩ := hs _ _ _ rfl
        obtain ⟨w, h3, h4⟩ := hG.text_ (ascii "text") v s (by decide +kernel) h2
        exact ⟨w, by simp only [Game.eval, h1, h3], h4⟩
      · cases hu
    · cases hu
  obtain ⟨b, ⟨hb1, hb2, hb3⟩, hv⟩ := val
  refine ⟨.str b (0, 0) .double, readAs hdb (by decide) (by decide) ?_, fun s hs => ?_⟩
  · have hr := source_reads (F := F) hdb (.str b (0, 0) .double) ⟨u, hb1.symm, hb3⟩
    have e1 : source F (.str b (0, 0) .double) = t := by
      rw [← ht]
      simp [source, quote, hb2]
    rw [e1] at hr
    exact hr
  · obtain ⟨v, h1, h2⟩ := hv s hs
    simp only [Game.eval, h1, hG.typeName_ n v s hl, h2]

/-- C110, what does not hold of the code: `text` of a location is its name, a string, but `"TEXT"` is suggested. -/
theorem C110_violated_location (hdb : env.db.Plain) {typeOf : V → Bytes} (hG : G.TypeLaws typeOf) {n : Bytes} {x : Expr}
    {p q : Span} (hn : asciiLower n = ascii "typename") {s s' : S} {v : V} (hx : G.eval x s = some (v, s'))
    (hv : typeOf v = ascii "LOCATION") :
    ∃ t e', staticTypename asciiLower (.un (.named n) (.un (.named (ascii "text")) x p) q) = some t ∧ ReadAs env F 10 t e' ∧
      G.eval (.un (.named n) (.un (.named (ascii "text")) x p) q) s = some (G.str (ascii "STRING"), s') ∧
      ∀ r, G.eval e' s ≠ some (G.str (ascii "STRING"), r) := by
  refine ⟨['"'] ++ "TEXT".toList ++ ['"'], .str (ascii "TEXT") (0, 0) .double, ?_, readAs hdb (by decide) (by decide) ?_, ?_, ?_⟩
  · rw [staticTypename, if_neg (by simpa using hn), staticType, if_pos rfl, Option.map_some]
  · have hr := source_reads (F := F) hdb (.str (ascii "TEXT") (0, 0) .double) ⟨"TEXT".toList, by decide +kernel, by decide +kernel⟩
    have e1 : source F (.str (ascii "TEXT") (0, 0) .double) = ['"'] ++ "TEXT".toList ++ ['"'] := by
      have : dec (ascii "TEXT") = "TEXT".toList := by decide +kernel
      simp [source, quote, this]
    rw [e1] at hr
    exact hr
  · obtain ⟨w, h1⟩ := hG.text_location (ascii "text") v s' (by decide +kernel) hv
    simp only [Game.eval, hx, h1, hG.typeName_ n _ s' hn, hG.str_]
  · intro r h
    rw [Game.eval] at h
    have h1 := hG.str_inj _ _ (Prod.mk.inj (Option.some.inj h)).1
    exact absurd h1 (by decide +kernel)

/-- C110, what does not hold of the code: with a command written as the wiki does, `typeName` of a constant is not reported,
though its value is always the same. -/
theorem C110_violated_case {typeOf : V → Bytes} (hG : G.TypeLaws typeOf) {c : String × String} (hc : c ∈ constantTypes) (p q : Span)
    (s : S) : staticTypename asciiLower (.un (.named (ascii "typeName")) (.nular (ascii c.1) p) q) = none ∧
      G.eval (.un (.named (ascii "typeName")) (.nular (ascii c.1) p) q) s = some (G.str (ascii c.2), s) := by
  constructor
  · have : ∀ c ∈ constantTypes, nularType (ascii c.1) = none := by decide +kernel
    rw [staticTypename, staticType, this c hc, Option.map_none, ite_self]
  · obtain ⟨v, h1, h2⟩ := hG.constant_ c hc (ascii c.1) s rfl
    simp only [Game.eval, h1, hG.typeName_ (ascii "typeName") v s (by decide +kernel), h2]

/-! ### C111 -/

/-- C111: what is reported: an `if` with `!` and an `else`. -/
theorem C111_not_reported {e : Expr} : (ifNotElse lower e).isSome = true ↔
    ∃ n m c l r p q p' p'', e = .bin (.named n) (.un (.named m) (.un .not c q) p) (.bin .els l r p') p'' ∧ lower n = ascii "then" := by
  constructor
  · intro h
    unfold ifNotElse at h
    split at h
    · split at h
      · exact ⟨_, _, _, _, _, _, _, _, _, rfl, by assumption⟩
      · cases h
    · cases h
  · rintro ⟨n, m, c, l, r, p, q, p', p'', rfl, h⟩
    rw [ifNotElse, if_pos h]
    rfl

/-- C111: of an `if` that is reported, `!` can be left out and the branches exchanged: what is done is the same, if the
condition is true or false. The part that is reported is the condition with its `!`. -/
theorem C111_not_swap (hlow : PlainLower lower) (hG : G.Laws) {e x : Expr} (h : ifNotElse lower e = some x)
    (hif : ∀ n y c p, e = .bin (.named n) y c p → IsWord n ∧ ∀ m z q, y = .un (.named m) z q → asciiLower m = ascii "if") :
    ∃ n m c l r p q p' p'', e = .bin (.named n) (.un (.named m) (.un .not c q) p) (.bin .els l r p') p'' ∧ x = .un .not c q ∧
      ∀ s b s', Decides G c s b s' →
        (∀ a, a = l ∨ a = r → ∃ v, ∀ s, G.eval a s = some (v, s)) →
        G.eval (.bin (.named n) (.un (.named m) c p) (.bin .els r l p') p'') s = G.eval e s := by
  unfold ifNotElse at h
  split at h
  · rename_i n m c q p l r p' p''
    split at h
    · rename_i hn
      cases h
      obtain ⟨h1, h2⟩ := hif _ _ _ _ rfl
      have hm := h2 _ _ _ rfl
      rw [hlow n h1] at hn
      refine ⟨n, m, c, l, r, p, q, p', p'', rfl, rfl, fun s b s' hd hb => ?_⟩
      obtain ⟨vl, hvl⟩ := hb l (.inl rfl)
      obtain ⟨vr, hvr⟩ := hb r (.inr rfl)
      unfold Decides at hd
      simp only [Game.eval, hd, hvl, hvr, hG.not_, hG.if_ m _ s' hm, hG.else_, hG.then_ n _ _ _ s' hn]
      cases b <;> rfl
    · cases h
  · cases h

/-- Branches that are blocks meet the condition of `C111_not_swap`. -/
theorem C111_blocks (ss : List Stmt) (src : Bytes) (sp : Span) : ∃ v, ∀ s, G.eval (.code ss src sp) s = some (v, s) := ⟨_, fun _ => rfl⟩

/-- C111: what is reported: `_this call`, with `_this` in small letters. -/
theorem C111_this_reported {e : Expr} {sp : Span} : thisCall lower e = some sp ↔
    ∃ n c q, e = .bin (.named n) (.var (ascii "_this") sp) c q ∧ lower n = ascii "call" := by
  constructor
  · intro h
    unfold thisCall at h
    split at h
    · split at h
      · rename_i hc
        cases h
        obtain ⟨h1, rfl⟩ := hc
        exact ⟨_, _, _, rfl, h1⟩
      · cases h
    · cases h
  · rintro ⟨n, c, q, rfl, h⟩
    rw [thisCall, if_pos ⟨h, rfl⟩]

/-- C111: where `_this call` is reported `_this` can be left out, if it has a value, and if this is the same before and after
the code is evaluated. -/
theorem C111_this_same (hlow : PlainLower lower) {run : Option V → V → S → Option (V × S)} (hG : G.CallLaws run) {n : Bytes}
    (hn : IsWord n) {c : Expr} {p q sp : Span} (h : thisCall lower (.bin (.named n) (.var (ascii "_this") p) c q) = some sp)
    {s s' : S} {x v : V} (hx : G.read (ascii "_this") s = some x) (hc : G.eval c s = some (v, s')) (hx' : G.read (ascii "_this") s' = some x) :
    G.eval (.un (.named n) c q) s = G.eval (.bin (.named n) (.var (ascii "_this") p) c q) s := by
  obtain ⟨m, c', q', he, hl⟩ := C111_this_reported.1 h
  cases he
  rw [hlow n hn] at hl
  simp only [Game.eval, hx, hc, hG.with_ n x v s' hl, hG.plain_ n v s' hl, hx']

/-- C111: without a value of `_this`, `_this call` is an error, and leaving `_this` out is not the same. -/
theorem C111_this_undefined {run : Option V → V → S → Option (V × S)} (hG : G.CallLaws run) {n : Bytes}
    (hl : asciiLower n = ascii "call") {c : Expr} {p q : Span} {s s' : S} {v : V} (hx : G.read (ascii "_this") s = none)
    (hc : G.eval c s = some (v, s')) :
    G.eval (.bin (.named n) (.var (ascii "_this") p) c q) s = none ∧
      G.eval (.un (.named n) c q) s = run (G.read (ascii "_this") s') v s' := by
  simp only [Game.eval, hx, hc, hG.plain_ n v s' hl, and_self]

/-! ### Examples -/

/-- Values of a game with types: literals, code, and for everything else its type. -/
inductive TVal where
  | str (s : Bytes)
  | num (x : UInt32)
  | bool (b : Bool)
  | code (ss : List Stmt)
  | arr (vs : List TVal)
  | of (type : Bytes)

def tType : TVal → Bytes
  | .str _ => ascii "STRING"
  | .num _ => ascii "SCALAR"
  | .bool _ => ascii "BOOL"
  | .code _ => ascii "CODE"
  | .arr _ => ascii "ARRAY"
  | .of t => t

abbrev TVars := Bytes → Option TVal

/-- Running code: only `{_this}` does something. -/
def tRun (this : Option TVal) : TVal → TVars → Option (TVal × TVars)
  | .code [.expr (.var n _) _], s => if n = ascii "_this" then this.map (·, s) else none
  | _, _ => none

/-- The game with these values. -/
def tGame : Game TVars TVal where
  bool := .bool
  num := .num
  str := .str
  arr := .arr
  code := .code
  read n s := s n
  nular n s := (constantTypes.find? fun c => asciiLower n = asciiLower (ascii c.1)).map fun c => (.of (ascii c.2), s)
  un c v s := match c with
    | .named n =>
      if asciiLower n = ascii "typename" then some (.str (tType v), s)
      else if asciiLower n = ascii "text" then
        if tType v = ascii "LOCATION" then some (.str [], s) else some (.of (ascii "TEXT"), s)
      else if asciiLower n = ascii "call" then tRun (s (ascii "_this")) v s
      else none
    | _ => none
  bin c v w s := match c with
    | .named n => if asciiLower n = ascii "call" then tRun (some v) w s else none
    | _ => none
  ifv := .bool
  pair v w := .arr [v, w]
  call _ _ := none
  has _ _ := none
  inside _ _ := none
  null := .of []

theorem tGame_types : tGame.TypeLaws tType where
  typeName_ n v s h := by simp [tGame, h]
  str_ _ := rfl
  num_ _ := rfl
  bool_ _ := rfl
  code_ _ := rfl
  arr_ _ := rfl
  constant_ c hc n s h := by
    have : ∀ c ∈ constantTypes, (constantTypes.find? fun d => asciiLower (ascii c.1) = asciiLower (ascii d.1)) = some c := by
      decide +kernel
    refine ⟨.of (ascii c.2), ?_, rfl⟩
    simp only [tGame, h, this c hc, Option.map_some]
  text_ n v s h hv := by
    have h1 : ascii "text" ≠ ascii "typename" := by decide +kernel
    have h2 : ascii "STRING" ≠ ascii "LOCATION" := by decide +kernel
    refine ⟨.of (ascii "TEXT"), ?_, rfl⟩
    simp only [tGame, h]
    rw [if_neg h1, if_pos trivial, hv, if_neg h2]
  text_location n v s h hv := by
    have h1 : ascii "text" ≠ ascii "typename" := by decide +kernel
    refine ⟨[], ?_⟩
    simp only [tGame, h]
    rw [if_neg h1, if_pos trivial, hv, if_pos rfl]
  str_inj t u h := by cases h; rfl

theorem tGame_calls : tGame.CallLaws tRun where
  with_ n x c s h := by simp [tGame, h]
  plain_ n c s h := by
    have h1 : ascii "call" ≠ ascii "typename" := by decide +kernel
    have h2 : ascii "call" ≠ ascii "text" := by decide +kernel
    simp only [tGame, h]
    rw [if_neg h1, if_neg h2, if_pos trivial]

theorem word_typeName : IsWord (ascii "typeName") :=
  word_of 't' ['y', 'p', 'e', 'N', 'a', 'm', 'e'] (by decide +kernel) (by decide) (by decide)
theorem word_call : IsWord (ascii "call") := word_of 'c' ['a', 'l', 'l'] (by decide +kernel) (by decide) (by decide)
theorem word_then : IsWord (ascii "then") := word_of 't' ['h', 'e', 'n'] (by decide +kernel) (by decide) (by decide)

def typeNameOf (e : Expr) : Expr := .un (.named (ascii "typeName")) e (0, 0)

/-- `typeName 5` is to be written `"SCALAR"`, `typeName (text "x")` is to be written `"TEXT"`, `typeName objnull` is to be
written `"OBJECT"`; `typeName objNull` is not reported, and neither is `typeName [5]`. -/
example : staticTypename asciiLower (typeNameOf (k 5)) = some "\"SCALAR\"".toList ∧
    staticTypename asciiLower (typeNameOf (.un (.named (ascii "text")) (.str (ascii "x") (0, 0) .double) (0, 0))) = some "\"TEXT\"".toList ∧
    staticTypename asciiLower (typeNameOf (.nular (ascii "objnull") (0, 0))) = some "\"OBJECT\"".toList ∧
    staticTypename asciiLower (typeNameOf (.nular (ascii "objNull") (0, 0))) = none ∧
    staticTypename asciiLower (typeNameOf (.arr [k 5] (0, 0))) = none := by decide +kernel

/-- The hypotheses of `C110_same_value`. -/
example : ∃ e', ReadAs (sampleEnv sugDb) sugF 10 "\"TEXT\"".toList e' ∧ ∀ s : TVars,
    (∀ m x q, Expr.un (.named (ascii "text")) (.str (ascii "x") (0, 0) .double) (0, 0) = .un m x q →
      ∃ v, tGame.eval x s = some (v, s) ∧ tType v = ascii "STRING") → tGame.eval e' s = tGame.eval (typeNameOf (.un (.named (ascii "text")) (.str (ascii "x") (0, 0) .double) (0, 0))) s :=
  C110_same_value sug_plain plain_ascii tGame_types rfl word_typeName (by decide +kernel)

/-- Those of `C110_violated_location`: `typeName text locationNull`. -/
example : ∃ t e', staticTypename asciiLower (typeNameOf (.un (.named (ascii "text")) (.nular (ascii "locationNull") (0, 0)) (0, 0))) = some t ∧
    ReadAs (sampleEnv sugDb) sugF 10 t e' ∧
    tGame.eval (typeNameOf (.un (.named (ascii "text")) (.nular (ascii "locationNull") (0, 0)) (0, 0))) (fun _ => none) =
      some (tGame.str (ascii "STRING"), fun _ => none) ∧
    ∀ r, tGame.eval e' (fun _ => none) ≠ some (tGame.str (ascii "STRING"), r) :=
  C110_violated_location (v := .of (ascii "LOCATION")) sug_plain tGame_types (by decide +kernel)
    (by
      obtain ⟨v, h1, h2⟩ := tGame_types.constant_ ("locationNull", "LOCATION") (by decide +kernel) (ascii "locationNull") (fun _ => none) rfl
      have : (constantTypes.find? fun d => asciiLower (ascii "locationNull") = asciiLower (ascii d.1)) = some ("locationNull", "LOCATION") := by
        decide +kernel
      simp only [Game.eval, tGame, this, Option.map_some]) rfl

/-- `C110_violated_case` for `objNull`. -/
example : tGame.eval (typeNameOf (.nular (ascii "objNull") (0, 0))) (fun _ => none) = some (.str (ascii "OBJECT"), fun _ => none) :=
  (C110_violated_case tGame_types (c := ("objNull", "OBJECT")) (by decide +kernel) _ _ _).2

/-- `if (!_c) then {5} else {6}` and `if (_c) then {6} else {5}` -/
def notIf : Expr := .bin (.named (ascii "then")) (.un (.named (ascii "if")) (.un .not (v "_c") (0, 0)) (0, 0)) (.bin .els (block (k 5)) (block (k 6)) (0, 0)) (0, 0)

example : ∃ n m c l r p q p' p'', notIf = .bin (.named n) (.un (.named m) (.un .not c q) p) (.bin .els l r p') p'' ∧
    Expr.un .not (v "_c") (0, 0) = .un .not c q ∧ ∀ s b s', Decides toy c s b s' →
      (∀ a, a = l ∨ a = r → ∃ v, ∀ s, toy.eval a s = some (v, s)) →
      toy.eval (.bin (.named n) (.un (.named m) c p) (.bin .els r l p') p'') s = toy.eval notIf s :=
  C111_not_swap plain_ascii toy_laws (e := notIf) (x := .un .not (v "_c") (0, 0)) (by
      have : asciiLower (ascii "then") = ascii "then" := by decide +kernel
      rw [notIf, ifNotElse, if_pos this])
    (fun n y c p h => by
      cases h
      exact ⟨word_then, fun m z q h => by cases h; decide +kernel⟩)

example : toy.eval notIf vars = some (.num 6, vars) ∧ toy.eval (ifThen (v "_c") (k 6) (k 5)) vars = some (.num 6, vars) := ⟨rfl, rfl⟩

/-- `_this call {_this}` -/
def callThis : Expr := .bin (.named (ascii "call")) (.var (ascii "_this") (3, 8)) (block (v "_this")) (0, 0)

example : thisCall asciiLower callThis = some (3, 8) := by decide +kernel

example : tGame.eval (.un (.named (ascii "call")) (block (v "_this")) (0, 0)) (fun _ => some (.num 5)) =
    tGame.eval callThis (fun _ => some (.num 5)) :=
  C111_this_same plain_ascii tGame_calls word_call (sp := (3, 8)) (by decide +kernel) rfl rfl rfl

end Verif.SqfLint
