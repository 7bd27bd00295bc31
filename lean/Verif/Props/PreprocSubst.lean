import Verif.Lib.PreprocMeans
import Verif.Props.Tokenize
/-!
C82: macros stand for the text that substitution gives.
-/
namespace Verif.Preproc
open Spec Ex Subst

/-! ### Positions of a file that is written apart -/

theorem utf8_pos {s : Text} (h : s ≠ []) : 0 < utf8 s := by
  cases s with
  | nil => exact absurd rfl h
  | cons c s => simp only [utf8, List.map_cons, List.sum_cons]; have := Char.utf8Size_pos c; omega

theorem line_le (st : LexSt) (p : Pair) : st.line ≤ (st.after p).line := by
  simp only [LexSt.after, LexSt.turn]
  split <;> (try split) <;> simp

theorem spelled_in_order {cl : Classes} (path : Text) : ∀ (l : List Sym) (st : LexSt), st.skipping = false →
    Spec.Apart cl st.double st.single l →
    InOrder (lexLoop path st (l.map (fun y => ⟨spell y, y⟩) ++ [⟨[], .eoi⟩])) ∧
    ∀ t ∈ lexLoop path st (l.map (fun y => ⟨spell y, y⟩) ++ [⟨[], .eoi⟩]),
      st.line ≤ t.pos.start.line ∧ st.offset ≤ t.pos.start.offset := by
  intro l
  induction l with
  | nil => intro st hs _; simp [lexLoop, LexSt.stray, LexSt.turn, hs, InOrder]
  | cons y l ih =>
    intro st hs h
    simp only [List.map_cons, List.cons_append]
    rw [lexLoop_cons]
    have key : (st.after ⟨spell y, y⟩).skipping = false ∧
        (st.after ⟨spell y, y⟩).double = (flags st.double st.single y).1 ∧
        (st.after ⟨spell y, y⟩).single = (flags st.double st.single y).2 ∧ st.stray path ⟨spell y, y⟩ = [] := by
      cases y with
      | comment c =>
        obtain ⟨⟨hd, hq⟩, ⟨a, rfl, _⟩, _⟩ := h
        simp [LexSt.after, LexSt.turn, flags, hd, hq, hs, LexSt.stray, spell]
      | dquote =>
        cases hd : st.double <;> cases hq : st.single <;> simp [LexSt.after, LexSt.turn, flags, hd, hq, hs, LexSt.stray]
      | squote =>
        cases hd : st.double <;> cases hq : st.single <;> simp [LexSt.after, LexSt.turn, flags, hd, hq, hs, LexSt.stray]
      | _ => simp [LexSt.after, LexSt.turn, flags, hs, LexSt.stray]
    obtain ⟨k1, k2, k3, k4⟩ := key
    obtain ⟨⟨i1, i2⟩, i3⟩ := ih _ k1 (by rw [k2, k3]; exact (apart_tail h))
    have hl := line_le st ⟨spell y, y⟩
    have ho : st.offset < (st.after ⟨spell y, y⟩).offset := by
      have := utf8_pos (spell_ne h)
      simp only [LexSt.after]; omega
    have hn : y = .newline → st.line < (st.after ⟨spell y, y⟩).line := by
      rintro rfl; simp [LexSt.after, LexSt.turn]
    simp only [LexSt.emits, k1, k4, List.nil_append, Bool.false_eq_true, if_false, List.cons_append]
    refine ⟨⟨List.pairwise_cons.2 ⟨fun b hb => ?_, i1⟩, ?_⟩, ?_⟩
    · obtain ⟨j1, j2⟩ := i3 b hb
      exact ⟨j1, lt_of_lt_of_le ho j2, fun e => lt_of_lt_of_le (hn e) j1⟩
    · intro t ht
      rcases List.mem_cons.1 ht with rfl | ht
      · exact hl
      · exact i2 t ht
    · intro t ht
      rcases List.mem_cons.1 ht with rfl | ht
      · exact ⟨le_rfl, le_rfl⟩
      · have := i3 t ht; exact ⟨by omega, by omega⟩

/-! ### C82 -/

/-- C82. A file with the tokens of a structured program is preprocessed to what the program means when every macro use
is replaced by substitution, and the macros afterwards are those the program defines. -/
theorem C82_substitution {env : Env} {path : Text} {items : List Item} {toks : List Tok} {T' : Table}
    {out : List Sym} (hload : env.load path = .ok toks)
    (hsrc : toks.map Tok.sym = printItems items ++ [.eoi]) (hok : Item.okL items = true) (hord : InOrder toks)
    (hm : Means env.compare (fun _ => none) items T' out) :
    ∃ k st buf, (∀ n, k ≤ n → run n env path = .ok (st, buf)) ∧ (Out.toksL buf).map Tok.sym = out ∧
      ∀ name, Agrees (st.defs.getReadonly name) (T'.forget name) := by
  obtain ⟨a, b, rfl, ha, hb⟩ := splitAppend hsrc
  obtain ⟨e, c, rfl, he, hc⟩ := splitCons hb
  obtain rfl := splitNil hc
  obtain ⟨st, x, hx⟩ := run_means hm (st := { files := [path] }) (a := a) (fut := [e]) (buf := []) rfl
    ⟨rfl, fun _ => rfl, by simp, by simp, by simp⟩ hord hok ha (by simp [NoEsc])
  have hruns : Runs env { files := [path] } (a ++ [e]) [] (.ok (st, [e], x)) := by
    exact hx.emits _ ⟨by simp, 1, by rw [file.eq_def]; simp [he]⟩
  obtain ⟨hne, n, hn⟩ := hruns
  refine ⟨n, st, x, fun k hk => ?_, hx.out, fun name => ?_⟩
  · rw [run, hload]
    simp only
    rw [file_more hk hn hne]
    simp only
    have : st.ifs.stack = [] := hx.keep.stack
    simp [IfStates.pop, this]
  · have := hx.inv.rep.2 name
    rwa [Defines.getReadonly, hx.inv.rep.1]

/-- C82, for the text of the file. A file that contains the text of a structured program (written apart enough not to
run together) is preprocessed to the text that substitution gives. -/
theorem C82_text {cl : Classes} (hcl : cl.Ascii) {env : Env} {path : Text} {items : List Item} {T' : Table}
    {out : List Sym} (hap : Spec.Apart cl false false (printItems items)) (hok : Item.okL items = true)
    (hload : ∀ toks, tokenise cl path (spellAll (printItems items)) = some toks → env.load path = .ok toks)
    (hm : Means env.compare (fun _ => none) items T' out) :
    ∃ k st buf, (∀ n, k ≤ n → run n env path = .ok (st, buf)) ∧ toksText (Out.toksL buf) = text out ∧
      ∀ name, Agrees (st.defs.getReadonly name) (T'.forget name) := by
  have h1 : tokenise cl path (spellAll (printItems items)) =
      some (lexLoop path {} ((printItems items).map (fun y => ⟨spell y, y⟩) ++ [⟨[], .eoi⟩])) := by
    rw [tokenise, pairs_spell hcl _ false false _ hap le_rfl]
  obtain ⟨k, st, buf, h3, h4, h5⟩ := C82_substitution (hload _ h1) (loop_spell path _ {} rfl hap) hok
    (spelled_in_order path _ {} rfl hap).1 hm
  exact ⟨k, st, buf, h3, by rw [toksText_sym, h4], h5⟩

theorem tk_in_order (path : Text) : ∀ (x : List Sym) (l o : Nat), InOrder (tk path l o x) ∧
    ∀ t ∈ tk path l o x, l ≤ t.pos.start.line ∧ o ≤ t.pos.start.offset := by
  intro x
  induction x with
  | nil => intro l o; simp [tk, InOrder]
  | cons s x ih =>
    intro l o
    obtain ⟨⟨i1, i2⟩, i3⟩ := ih (if s = .newline then l + 1 else l) (o + 1)
    have hl : l ≤ (if s = .newline then l + 1 else l) := by split <;> omega
    rw [tk]
    refine ⟨⟨List.pairwise_cons.2 ⟨fun b hb => ?_, i1⟩, ?_⟩, ?_⟩
    · obtain ⟨j1, j2⟩ := i3 b hb
      refine ⟨by simp only; omega, by simp only; omega, fun e => ?_⟩
      simp only at e
      rw [if_pos e] at j1
      simp only; omega
    · intro t ht
      rcases List.mem_cons.1 ht with rfl | ht
      · exact le_rfl
      · exact i2 t ht
    · intro t ht
      rcases List.mem_cons.1 ht with rfl | ht
      · exact ⟨le_rfl, le_rfl⟩
      · have := i3 t ht; exact ⟨by omega, by omega⟩

/-- C82. The meaning is a function of the program: substitution gives one text. -/
theorem C82_one_meaning {cmp : Text → Text → Text → Option Bool} {items : List Item} {T1 T2 : Table}
    {o1 o2 : List Sym} (hok : Item.okL items = true) (h1 : Means cmp (fun _ => none) items T1 o1)
    (h2 : Means cmp (fun _ => none) items T2 o2) : o1 = o2 := by
  let env : Env := { world (printItems items ++ [.eoi]) with compare := cmp }
  have hl : env.load (kw "main") = .ok (tk (kw "main") 1 0 (printItems items ++ [.eoi])) := by
    simp [env, world]
  obtain ⟨k1, s1, b1, r1, e1, _⟩ := C82_substitution hl (tk_sym _ _ _ _) hok (tk_in_order _ _ _ _).1 h1
  obtain ⟨k2, s2, b2, r2, e2, _⟩ := C82_substitution hl (tk_sym _ _ _ _) hok (tk_in_order _ _ _ _).1 h2
  have := (r1 (max k1 k2) (le_max_left _ _)).symm.trans (r2 (max k1 k2) (le_max_right _ _))
  simp only [Except.ok.injEq, Prod.mk.injEq] at this
  rw [← e1, ← e2, this.2]

/-! ### A program with macros in macros -/

/-- ```
#define SUFFIX value
#define QUOTE(x) #x
#define GLUE(a,b) a##_of_##b
#define SET(n,v) GLUE(n,SUFFIX) = v; QUOTE(n)
#ifdef SUFFIX
SET(x,1) SUFFIX
#endif
``` -/
def Ex.macroProg : List Item :=
  [.value {} (kw "SUFFIX") [.space] [w "value"],
   .func {} (kw "QUOTE") [kw "x"] [.directive, w "x"],
   .func {} (kw "GLUE") [kw "a", kw "b"] [w "a", .join, w "_of_", .join, w "b"],
   .func {} (kw "SET") [kw "n", kw "v"] [w "GLUE", .lparen, w "n", .comma, w "SUFFIX", .rparen, .space, .equals, .space,
     w "v", .unicode [';'], .space, w "QUOTE", .lparen, w "n", .rparen],
   .cond {} (.ifdef (kw "SUFFIX")) [.text [w "SET", .lparen, w "x", .comma, .digit 1, .rparen, .space, w "SUFFIX"]]
     none [] {}]

/-- No macros. -/
def Ex.noMacros : Table := fun _ => none

/-- The macros of `macroProg`. -/
def Ex.macroTable : Table :=
  (((noMacros.set (kw "SUFFIX") (some (.value [w "value"]))).set (kw "QUOTE")
    (some (.func [kw "x"] [.directive, w "x"]))).set (kw "GLUE")
    (some (.func [kw "a", kw "b"] [w "a", .join, w "_of_", .join, w "b"]))).set (kw "SET")
    (some (.func [kw "n", kw "v"] [w "GLUE", .lparen, w "n", .comma, w "SUFFIX", .rparen, .space, .equals, .space,
     w "v", .unicode [';'], .space, w "QUOTE", .lparen, w "n", .rparen]))

theorem Ex.macroTable_some {n : Text} {m : Mac} (h : macroTable n = some m) :
    (n, m) ∈ [(kw "SUFFIX", Mac.value [w "value"]), (kw "QUOTE", .func [kw "x"] [.directive, w "x"]),
      (kw "GLUE", .func [kw "a", kw "b"] [w "a", .join, w "_of_", .join, w "b"]),
      (kw "SET", .func [kw "n", kw "v"] [w "GLUE", .lparen, w "n", .comma, w "SUFFIX", .rparen, .space, .equals, .space,
        w "v", .unicode [';'], .space, w "QUOTE", .lparen, w "n", .rparen])] := by
  simp only [macroTable, Table.set, noMacros] at h
  split at h
  · simp_all
  split at h
  · simp_all
  split at h
  · simp_all
  split at h
  · simp_all
  · simp at h

theorem Ex.macro_ranked : Ranked macroTable := by
  refine ⟨fun n => if n = kw "SET" then 1 else 0, fun n m h => ?_⟩
  have hm := macroTable_some h
  clear h
  revert hm
  generalize hp : (n, m) = p
  intro hm
  have : ∀ p ∈ [(kw "SUFFIX", Mac.value [w "value"]), (kw "QUOTE", .func [kw "x"] [.directive, w "x"]),
      (kw "GLUE", .func [kw "a", kw "b"] [w "a", .join, w "_of_", .join, w "b"]),
      (kw "SET", .func [kw "n", kw "v"] [w "GLUE", .lparen, w "n", .comma, w "SUFFIX", .rparen, .space, .equals, .space,
        w "v", .unicode [';'], .space, w "QUOTE", .lparen, w "n", .rparen])],
      ∀ x ∈ p.2.words, (macroTable x).isSome = true → (if x = kw "SET" then 1 else 0) < (if p.1 = kw "SET" then 1 else 0) := by
    decide +kernel
  have := this p hm
  rw [← hp] at this
  exact this

theorem Ex.macro_apart : Subst.Apart macroTable := by
  constructor
  · intro n ps b h
    have hm := macroTable_some h
    simp only [List.mem_cons, Prod.mk.injEq, reduceCtorEq, and_false, Mac.func.injEq, List.not_mem_nil, or_false,
      false_or] at hm
    rcases hm with ⟨rfl, rfl, _⟩ | ⟨rfl, rfl, _⟩ | ⟨rfl, rfl, _⟩ <;> decide +kernel
  · intro n b h x hx f ps c hf
    have hm := macroTable_some h
    have hm' := macroTable_some hf
    simp only [List.mem_cons, Prod.mk.injEq, reduceCtorEq, and_false, Mac.func.injEq, Mac.value.injEq,
      List.not_mem_nil, or_false, false_or] at hm hm'
    obtain ⟨rfl, rfl⟩ := hm
    have : x = kw "value" := by simpa [Mac.words] using hx
    subst this
    rcases hm' with ⟨rfl, rfl, _⟩ | ⟨rfl, rfl, _⟩ | ⟨rfl, rfl, _⟩ <;> decide +kernel

/-- A word is not special. -/
theorem Ex.plain {x : Text} (h : (builtinGen.contains x || builtinProtest.contains x) = false := by decide +kernel) :
    ordinary x := by simpa [ordinary] using h

example : Means (fun _ _ _ => none) (fun _ => none) macroProg macroTable
    [w "x", w "_of_", w "value", .space, .equals, .space, .digit 1, .unicode [';'], .space, .dquote, w "x", .dquote,
      .space, w "value", .newline] := by
  have hv : ∀ ρ : Args, ρ (kw "SUFFIX") = none → Holds macroTable (.use ρ [w "SUFFIX"] [w "value"]) := fun ρ hρ =>
    .value (b := [w "value"]) plain hρ (by decide +kernel)
      (.word (o := []) plain (by rfl) (by decide +kernel) (.done (by simp [Mode.isArg])))
  have hn : ∀ s : Sym, (∀ m, plainIn m s) → ∀ {m ρ l o}, Holds macroTable (.text m ρ l o) →
      Holds macroTable (.text m ρ (s :: l) (s :: o)) := fun s h m _ _ _ hh => .sym (h m) hh
  have sp : ∀ m, plainIn m .space := fun m => .inl trivial
  have eq : ∀ m, plainIn m .equals := fun m => .inl trivial
  have dg : ∀ m, plainIn m (.digit 1) := fun m => .inl trivial
  have un : ∀ m, plainIn m (.unicode [';']) := fun m => .inl trivial
  have fin : ∀ ρ, Holds macroTable (.text .body ρ [] []) := fun ρ => .done (by simp [Mode.isArg])
  -- GLUE(n,SUFFIX) in the body of SET
  have glue : Holds macroTable (.use (bind [kw "n", kw "v"] [[w "x"], [.digit 1]])
      [w "GLUE", .lparen, w "n", .comma, w "SUFFIX", .rparen] [w "x", w "_of_", w "value"]) := by
    refine .call (ps := [kw "a", kw "b"]) (b := [w "a", .join, w "_of_", .join, w "b"])
      (src := [w "n", .comma, w "SUFFIX"]) (vs := [[w "x"], [w "value"]]) plain (by decide +kernel) (by decide +kernel)
      ?_ (by decide +kernel) ?_
    · refine .moreArgs (a := [w "n"]) (d' := 0) ?_ (.lastArg ?_)
      · exact .mac (u := [w "n"]) (x := [w "x"]) (l := []) (o := []) (.param plain (by decide +kernel)) .doneArg
      · exact .mac (u := [w "SUFFIX"]) (x := [w "value"]) (l := []) (o := []) (hv _ (by decide +kernel)) .doneArg
    · have ha : actuals [[w "x"], [w "value"]] = [[w "x"], [w "value"]] := by decide +kernel
      have hj : joined [w "a", .join, w "_of_", .join, w "b"] = [w "a", w "_of_", w "b"] := by decide +kernel
      rw [ha, hj]
      refine .mac (u := [w "a"]) (x := [w "x"]) (l := [w "_of_", w "b"]) (o := [w "_of_", w "value"])
        (.param plain (by decide +kernel)) (.word plain (by decide +kernel) (by decide +kernel) ?_)
      exact .mac (u := [w "b"]) (x := [w "value"]) (l := []) (o := []) (.param plain (by decide +kernel)) (fin _)
  have quote : Holds macroTable (.use (bind [kw "n", kw "v"] [[w "x"], [.digit 1]])
      [w "QUOTE", .lparen, w "n", .rparen] [.dquote, w "x", .dquote]) := by
    refine .call (ps := [kw "x"]) (b := [.directive, w "x"])
      (src := [w "n"]) (vs := [[w "x"]]) plain (by decide +kernel) (by decide +kernel)
      (.lastArg ?_) (by decide +kernel) ?_
    · exact .mac (u := [w "n"]) (x := [w "x"]) (l := []) (o := []) (.param plain (by decide +kernel)) .doneArg
    · have ha : actuals [[w "x"]] = [[w "x"]] := by decide +kernel
      have hj : joined [.directive, w "x"] = [.directive, w "x"] := by decide +kernel
      rw [ha, hj]
      exact .quote (u := []) (x := [w "x"]) (l := []) (o := []) (.param plain (by decide +kernel)) (by decide +kernel)
        (fin _)
  have set : Holds macroTable (.use noArgs [w "SET", .lparen, w "x", .comma, .digit 1, .rparen]
      [w "x", w "_of_", w "value", .space, .equals, .space, .digit 1, .unicode [';'], .space, .dquote, w "x",
        .dquote]) := by
    refine .call (ps := [kw "n", kw "v"]) (b := [w "GLUE", .lparen, w "n", .comma, w "SUFFIX", .rparen, .space, .equals,
        .space, w "v", .unicode [';'], .space, w "QUOTE", .lparen, w "n", .rparen])
      (src := [w "x", .comma, .digit 1]) (vs := [[w "x"], [.digit 1]]) plain rfl (by decide +kernel)
      (.moreArgs (a := [w "x"]) (d' := 0) (.word plain rfl (by decide +kernel) .doneArg)
        (.lastArg (hn _ dg .doneArg))) (by decide +kernel) ?_
    have ha : actuals [[w "x"], [.digit 1]] = [[w "x"], [.digit 1]] := by decide +kernel
    have hj : joined [w "GLUE", .lparen, w "n", .comma, w "SUFFIX", .rparen, .space, .equals,
        .space, w "v", .unicode [';'], .space, w "QUOTE", .lparen, w "n", .rparen] =
        [w "GLUE", .lparen, w "n", .comma, w "SUFFIX", .rparen, .space, .equals,
        .space, w "v", .unicode [';'], .space, w "QUOTE", .lparen, w "n", .rparen] := by decide +kernel
    rw [ha, hj]
    refine .mac (u := [w "GLUE", .lparen, w "n", .comma, w "SUFFIX", .rparen]) (x := [w "x", w "_of_", w "value"])
      glue (hn _ sp (hn _ eq (hn _ sp ?_)))
    refine .mac (u := [w "v"]) (x := [.digit 1]) (.param plain (by decide +kernel)) (hn _ un (hn _ sp ?_))
    exact .mac (u := [w "QUOTE", .lparen, w "n", .rparen]) (x := [.dquote, w "x", .dquote]) (l := []) (o := [])
      quote (fin _)
  have line : Holds macroTable (.text .line noArgs [w "SET", .lparen, w "x", .comma, .digit 1, .rparen, .space, w "SUFFIX"]
      [w "x", w "_of_", w "value", .space, .equals, .space, .digit 1, .unicode [';'], .space, .dquote, w "x", .dquote,
        .space, w "value"]) :=
    .mac (u := [w "SET", .lparen, w "x", .comma, .digit 1, .rparen])
      (x := [w "x", w "_of_", w "value", .space, .equals, .space, .digit 1, .unicode [';'], .space, .dquote, w "x",
        .dquote]) set (hn _ sp (.mac (u := [w "SUFFIX"]) (x := [w "value"]) (l := []) (o := []) (hv _ rfl)
          (.done (by simp [Mode.isArg]))))
  exact .value (.func (.func (.func (.condTrue (T1 := macroTable) (o1 := [w "x", w "_of_", w "value", .space, .equals,
    .space, .digit 1, .unicode [';'], .space, .dquote, w "x", .dquote, .space, w "value", .newline]) (o2 := [])
    (by decide +kernel) (.text macro_ranked macro_apart line (by decide +kernel) .nil) .nil))))

example : Item.okL macroProg = true ∧ Spec.Apart ascii false false (printItems macroProg) ∧
    InOrder (tk (kw "main") 1 0 (printItems macroProg ++ [.eoi])) :=
  ⟨by decide +kernel, apartB_ok _ _ _ (by decide +kernel), (tk_in_order _ _ _ _).1⟩

/-! ### Where the code differs from substitution -/

/-- The macros `A` with body `x` and `F(x)` with body `A`. -/
def Ex.capture : Table :=
  (noMacros.set (kw "A") (some (.value [w "x"]))).set (kw "F") (some (.func [kw "x"] [w "A"]))

/-- C82 needs parameter names that are kept apart: with `#define A x` and `#define F(x) A`, substitution gives `x` for
`F(1)`; the body of `A` does not see the parameter of `F`. -/
theorem C82_capture_meaning : Holds capture (.text .line noArgs [w "F", .lparen, .digit 1, .rparen] [w "x"]) := by
  refine .mac (u := [w "F", .lparen, .digit 1, .rparen]) (x := [w "x"]) (l := []) (o := []) ?_
    (.done (by simp [Mode.isArg]))
  refine .call (ps := [kw "x"]) (b := [w "A"]) (src := [.digit 1]) (vs := [[.digit 1]]) plain rfl (by decide +kernel)
    (.lastArg (.sym (.inl trivial) .doneArg)) (by decide +kernel) ?_
  have hj : joined [w "A"] = [w "A"] := by decide +kernel
  rw [hj]
  refine .mac (u := [w "A"]) (x := [w "x"]) (l := []) (o := []) ?_ (.done (by simp [Mode.isArg]))
  exact .value (b := [w "x"]) plain (by decide +kernel) (by decide +kernel)
    (.word (o := []) plain rfl (by decide +kernel) (.done (by simp [Mode.isArg])))

/-- C82 is violated. The code gives `1`: an object-like macro used in the body of a function-like macro sees the
parameters of the latter. -/
theorem C82_violated_capture :
    outText (run 200 (worldOf "#define A x\n#define F(x) A\nF(1) A\n") (kw "main")) = some "1 x\n" := by
  decide +kernel

/-- C82 is violated. `#` in front of a parameter is not the quoting operator when it stands in the arguments of another
macro. -/
theorem C82_violated_quote :
    outText (run 200 (worldOf "#define F(x) [x]\n#define G(x) F(#x) #x\nG(a)\n") (kw "main")) =
      some "[#a] \"a\"\n" := by
  decide +kernel

/-- C82 is violated. A comma in parentheses separates arguments, so a call with one argument in parentheses is refused. -/
theorem C82_violated_comma :
    errOf (run 200 (worldOf "#define F(x) [x]\nF((1,2))\n") (kw "main")) = some (some (9, w "F")) ∧
    outText (run 200 (worldOf "#define F(x,y) [x][y]\nF((1,2))\n") (kw "main")) = some "[(1][2)]\n" := by
  decide +kernel

/-- C82 is violated. An argument that is empty does not count when it is the last one, and counts when it is not. -/
theorem C82_violated_empty :
    errOf (run 200 (worldOf "#define F(x) [x]\nF()\n") (kw "main")) = some (some (9, w "F")) ∧
    outText (run 200 (worldOf "#define F(x,y) [x][y]\nF(,a)\n") (kw "main")) = some "[][a]\n" := by
  decide +kernel

end Verif.Preproc
