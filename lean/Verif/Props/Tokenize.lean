import Verif.Lib.Spelling
import Verif.Props.Preproc
/-!
C75: comments are not read.
C76: tokens stand where their positions say.
C77: what is written down is read back.
-/
namespace Verif.Preproc
open Spec

/-! ### Helpers for examples -/

namespace Ex

/-- Unicode as far as ASCII goes; nothing else is known. -/
def ascii : Classes where
  letter c := c.isAlpha && decide (c.toNat < 128)
  sign c := decide (33 ≤ c.toNat ∧ c.toNat < 127)

theorem ascii_ok : ascii.Ascii := ⟨fun c h => by simp [ascii, h], fun c h => rfl⟩

/-- A world with the one file `main`, given as text. -/
def worldOf (src : String) : Env where
  load p := if p = kw "main" then
    match tokenise ascii p src.toList with
    | some t => .ok t
    | none => .error (.code 24 ⟨.eoi, ⟨⟨0, 0, 0⟩, ⟨0, 0, 0⟩, p⟩⟩)
    else .error .panic
  locate _ _ := none
  fileMacro p := p
  fileName p := p
  compare _ _ _ := none

/-- The text written by a run. -/
def outText (r : Except PErr (St × List Out)) : Option String :=
  match r with
  | .ok (_, b) => some (String.ofList (toksText (Out.toksL b)))
  | .error _ => none

/-- The text of the tokens of a source. -/
def readText (src : String) : Option String :=
  (tokenise ascii (kw "main") src.toList).map fun t => String.ofList (toksText t)

end Ex
open Ex

/-! ### C75 -/

/-- C75. The text the preprocessor works on is the source without its comments: everything from `//` to the end
of the line and everything from `/*` to `*/` is gone, strings are kept as they are whatever they contain, and all
else is kept in order. (If no `/* … */` begins in a string or in a `//` comment.) -/
theorem C75_comments {cl : Classes} (hcl : cl.Ascii) {path src : Text} {toks : List Tok}
    (h : tokenise cl path src = some toks) (ht : NoTrap .code src) :
    toksText toks = strip .code src := by
  rw [tokenise] at h
  cases hp : pairs cl src.length src with
  | none => simp [hp] at h
  | some ps =>
    simp [hp] at h; subst h
    exact lexLoop_text hcl path _ _ ps {} hp ⟨by simp, by simp⟩ ht

/-- C75. A source is read if and only if all its characters outside of `/* … */` are known to the grammar. -/
theorem C75_readable {cl : Classes} (hcl : cl.Ascii) (path src : Text) :
    (tokenise cl path src).isSome = true ↔
      ∀ c ∈ outside false src, cl.letter c = true ∨ cl.sign c = true ∨ c ∈ [' ', '\t', '\n', '\r'] := by
  have := pairs_some hcl src.length src le_rfl
  have e : (tokenise cl path src).isSome = (pairs cl src.length src).isSome := by
    unfold tokenise; cases pairs cl src.length src <;> rfl
  rw [e, this]
  simp [Known]

/-- C75. What is in a block comment does not matter. -/
theorem C75_block_content {cl : Classes} (hcl : cl.Ascii) {path src src' : Text} {toks toks' : List Tok}
    {a b c : Text} (ha : ¬ Closes (a ++ ['*'])) (hb : ¬ Closes (b ++ ['*']))
    (hs : src = '/' :: '*' :: a ++ '*' :: '/' :: c) (hs' : src' = '/' :: '*' :: b ++ '*' :: '/' :: c)
    (h : tokenise cl path src = some toks) (h' : tokenise cl path src' = some toks') (ht : NoTrap .code c) :
    toksText toks = toksText toks' := by
  have key : ∀ x : Text, ¬ Closes (x ++ ['*']) →
      NoTrap .code ('/' :: '*' :: x ++ '*' :: '/' :: c) ∧
      strip .code ('/' :: '*' :: x ++ '*' :: '/' :: c) = strip .code c := by
    intro x hx
    have hbe := blockEnd_append (r := c) hx
    have hclo : Closes (x ++ '*' :: '/' :: c) := ⟨x, c, by simp⟩
    simp only [List.cons_append]
    constructor
    · simp only [NoTrap]; exact ⟨fun _ => (noTrap_block hbe).2 ht, fun hn => absurd hclo hn⟩
    · rw [strip, if_pos hclo, strip_block hbe]
  subst hs hs'
  rw [C75_comments hcl h (key a ha).1, C75_comments hcl h' (key b hb).1, (key a ha).2, (key b hb).2]

theorem text_visible (l : List Sym) : text (visible l) = text l := by
  induction l with
  | nil => rfl
  | cons y l ih => cases y <;> simp_all [text, visible, Sym.text]

/-- C75, on the whole preprocessor. A file of text lines (no directives, no macros used, strings closed on their
line, no line ends in `\`) is preprocessed to its source without comments. -/
theorem C75_plain_file {cl : Classes} (hcl : cl.Ascii) {env : Env} {path src : Text} {toks : List Tok}
    (hload : env.load path = .ok toks) (h : tokenise cl path src = some toks) (ht : NoTrap .code src)
    {lines : List (List Sym)} (hl : toks.map Tok.sym = lines.flatMap (· ++ [.newline]) ++ [.eoi])
    (hok : ∀ l ∈ lines, oneLine l = true ∧ firstSym l ≠ some .directive ∧ plain (fun _ => none) false l = true ∧
      (visible l).getLast? ≠ some .escape) :
    ∃ k st buf, (∀ n, k ≤ n → run n env path = .ok (st, buf)) ∧ toksText (Out.toksL buf) = strip .code src := by
  have hpr : ∀ ls : List (List Sym), printItems (ls.map .text) = ls.flatMap (· ++ [.newline]) := by
    intro ls
    induction ls with
    | nil => rfl
    | cons l ls ih => simp [printItems, printItem, ih]
  have hev : ∀ ls : List (List Sym), (∀ l ∈ ls, l ∈ lines) →
      evalItems env.compare (fun _ => none) (ls.map .text) =
        some ((fun _ => none), ls.flatMap fun l => visible l ++ [.newline]) := by
    intro ls
    induction ls with
    | nil => intro _; rfl
    | cons l ls ih =>
      intro hls
      obtain ⟨_, _, h3, h4⟩ := hok l (hls l (by simp))
      simp only [List.map_cons, evalItems, evalItem]
      rw [if_pos ⟨h3, h4⟩]
      simp only []
      rw [ih (fun l hl => hls l (by simp [hl]))]
      simp
  have hokL : ∀ ls : List (List Sym), (∀ l ∈ ls, l ∈ lines) → Item.okL (ls.map .text) = true := by
    intro ls
    induction ls with
    | nil => intro _; rfl
    | cons l ls ih =>
      intro hls
      obtain ⟨h1, h2, _, _⟩ := hok l (hls l (by simp))
      simp [Item.okL, Item.ok, h1, h2, ih (fun l hl => hls l (by simp [hl]))]
  obtain ⟨k, st, buf, h1, h2, _⟩ := C29_conditionals (items := lines.map .text) hload (by rw [hl, hpr])
    (hokL lines (fun _ h => h)) (hev lines (fun _ h => h))
  refine ⟨k, st, buf, h1, ?_⟩
  rw [toksText_sym, h2, ← C75_comments hcl h ht, toksText_sym, hl]
  simp only [text, List.flatMap_append, List.flatMap_assoc, List.flatMap_cons, List.flatMap_nil, Sym.text,
    List.append_nil]
  congr 1
  funext l
  exact congrArg (· ++ ['\n']) (text_visible l)

/-- The hypotheses are met by a source with both kinds of comments, `//` in a string and an unclosed `/*`. -/
example : NoTrap .code "url = \"http://x\"; // 'it\r\n/* a\n\" */b = 1 /* c\n".toList ∧
    readText "url = \"http://x\"; // 'it\r\n/* a\n\" */b = 1 /* c\n" = some "url = \"http://x\"; \nb = 1 /* c\n" := by
  refine ⟨?_, by decide +kernel⟩
  simp [NoTrap, Closes]
  decide +kernel

example : strip .code "url = \"http://x\"; // 'it\r\n/* a\n\" */b = 1 /* c\n".toList =
    "url = \"http://x\"; \nb = 1 /* c\n".toList := by decide +kernel

/-- The hypotheses of `C75_plain_file` are met. -/
example : ∃ (toks : List Tok) (lines : List (List Sym)), tokenise ascii (kw "main") "a = 1; // one\n".toList = some toks ∧
    toks.map Tok.sym = lines.flatMap (· ++ [.newline]) ++ [.eoi] ∧
    (∀ l ∈ lines, oneLine l = true ∧ firstSym l ≠ some .directive ∧ plain (fun _ => none) false l = true ∧
      (visible l).getLast? ≠ some .escape) :=
  ⟨_, [[w "a", .space, .equals, .space, .digit 1, .unicode [';'], .space]], rfl, by decide +kernel, by decide +kernel⟩

/-- C75 fails: `/*` in a `//` comment starts a block comment all the same. It swallows the following lines, and what
stands behind its end is skipped up to the end of that line. -/
theorem C75_violated_line :
    readText "a = 1; // see addons/*\nb = 2; /* two */ c = 3;\nd = 4;\n" = some "a = 1; \nd = 4;\n" ∧
    strip .code "a = 1; // see addons/*\nb = 2; /* two */ c = 3;\nd = 4;\n".toList =
      "a = 1; \nb = 2;  c = 3;\nd = 4;\n".toList := by decide +kernel

/-- C75 fails: `/*` in a string makes everything up to the next `*/` part of the string, so a comment is kept. -/
theorem C75_violated_string :
    readText "p = \"res/*.paa\"; // one */ two\n" = some "p = \"res/*.paa\"; // one */ two\n" ∧
    strip .code "p = \"res/*.paa\"; // one */ two\n".toList = "p = \"res/*.paa\"; \n".toList := by decide +kernel

/-- C75 fails: a character the grammar does not know (a no-break space, say) makes the whole file unreadable though
it stands in a `//` comment. -/
theorem C75_violated_unreadable {cl : Classes} (hcl : cl.Ascii) (path : Text) {c : Char}
    (hl : cl.letter c = false) (hs : cl.sign c = false) (hc : c ∉ [' ', '\t', '\n', '\r']) :
    tokenise cl path ['/', '/', c, '\n'] = none := by
  cases h : tokenise cl path ['/', '/', c, '\n'] with
  | none => rfl
  | some t =>
    have h1 := (C75_readable hcl path ['/', '/', c, '\n']).1 (by rw [h]; rfl)
    have hsl : c ≠ '/' := by
      rintro rfl
      rw [hcl.sign '/' (by decide +kernel)] at hs
      exact absurd hs (by decide +kernel)
    have h2 := h1 c (by simp [outside, hsl])
    rw [hl, hs] at h2
    simp only [Bool.false_eq_true, false_or] at h2
    exact absurd h2 hc

/-- C75 fails: a comment on the last line takes the end of the file with it. A directive that misses its name is
reported without the comment, and stops the program with it. -/
theorem C75_violated_end :
    errOf (run 100 (worldOf "#undef ") (kw "main")) = some (some (2, .eoi)) ∧
    aborts (run 100 (worldOf "#undef // later") (kw "main")) = true := by decide +kernel

/-- C75 fails: an apostrophe in a text that is no string keeps all comments up to the next apostrophe. -/
theorem C75_violated_apostrophe :
    outText (run 100 (worldOf "name = O'Neil; // me\nage = 9; // years\n") (kw "main")) =
      some "name = O'Neil; // me\nage = 9; // years\n" := by decide +kernel

/-! ### C76 -/

/-- C76. Every token names its file and its place: its offset (in bytes) is the length of the text before it, and
at that place stands the spelling of its symbol, up to the offset of its end. -/
theorem C76_places {cl : Classes} (hcl : cl.Ascii) {path src : Text} {toks : List Tok}
    (h : tokenise cl path src = some toks) {t : Tok} (ht : t ∈ toks) :
    t.pos.path = path ∧ ∃ pre raw post, src = pre ++ raw ++ post ∧ Spelled t.sym raw ∧
      t.pos.start.offset = utf8 pre ∧ (t.sym.stray = false → t.pos.stop.offset = utf8 (pre ++ raw)) := by
  rw [tokenise] at h
  cases hp : pairs cl src.length src with
  | none => simp [hp] at h
  | some ps =>
    simp [hp] at h; subst h
    obtain ⟨⟨a, raw, b, h1, _⟩, h2⟩ := lexLoop_placed hcl path _ [] src ps {} hp rfl t ht
    exact ⟨h2, a, raw, b, by simpa using h1.src, h1.spelled, h1.start, h1.stop⟩

theorem offset_le {path : Text} : ∀ (ps : List Pair) (st : LexSt), ∀ t ∈ lexLoop path st ps,
    st.offset ≤ t.pos.start.offset := by
  intro ps
  induction ps with
  | nil => intro st t ht; simp [lexLoop] at ht
  | cons p ps ih =>
    intro st t ht
    rw [lexLoop_cons] at ht
    rcases List.mem_append.1 ht with ht | ht
    · unfold LexSt.emits LexSt.stray at ht
      rcases List.mem_append.1 ht with ht | ht
      · split at ht
        · split at ht
          · rw [List.mem_singleton] at ht; subst ht; exact le_rfl
          · simp at ht
        · simp at ht
      · split at ht
        · simp at ht
        · rw [List.mem_singleton] at ht; subst ht; exact le_rfl
    · have := ih _ t ht
      simp only [LexSt.after] at this
      omega

/-- C76. Tokens come in the order of the source. -/
theorem C76_order {cl : Classes} {path src : Text} {toks : List Tok} (h : tokenise cl path src = some toks) :
    toks.Pairwise fun a b => a.pos.start.offset ≤ b.pos.start.offset := by
  rw [tokenise] at h
  cases hp : pairs cl src.length src with
  | none => simp [hp] at h
  | some ps =>
    simp [hp] at h; subst h
    generalize ({} : LexSt) = st
    clear hp
    induction ps generalizing st with
    | nil => simp [lexLoop]
    | cons p ps ih =>
      rw [lexLoop_cons, List.pairwise_append]
      refine ⟨?_, ih _, ?_⟩
      · unfold LexSt.emits LexSt.stray
        split
        · split <;> split <;> simp
        · split <;> simp
      · intro a ha b hb
        have h1 := offset_le ps _ b hb
        have h2 : a.pos.start.offset = st.offset := by
          unfold LexSt.emits LexSt.stray at ha
          rcases List.mem_append.1 ha with ha | ha
          · split at ha
            · split at ha
              · rw [List.mem_singleton] at ha; subst ha; rfl
              · simp at ha
            · simp at ha
          · split at ha
            · simp at ha
            · rw [List.mem_singleton] at ha; subst ha; rfl
        simp only [LexSt.after] at h1
        omega

/-- C76. The line of a token, which is what `__LINE__` is replaced by, is one more than the number of line ends
before it. (Line ends are `\n` or `\r\n`, and no `/* … */` begins in a string or in a `//` comment.) -/
theorem C76_lines {cl : Classes} (hcl : cl.Ascii) {path src : Text} {toks : List Tok}
    (h : tokenise cl path src = some toks) (htr : NoTrap .code src) (hcr : NoBareCr src) {t : Tok} (ht : t ∈ toks) :
    ∃ pre raw post, src = pre ++ raw ++ post ∧ Spelled t.sym raw ∧ t.pos.start.offset = utf8 pre ∧
      t.pos.start.line = 1 + pre.count '\n' ∧
      (t.sym.stray = false → t.pos.stop.line = 1 + (pre ++ raw).count '\n') := by
  rw [tokenise] at h
  cases hp : pairs cl src.length src with
  | none => simp [hp] at h
  | some ps =>
    simp [hp] at h; subst h
    obtain ⟨a, raw, b, h1, h2⟩ := lexLoop_lined hcl path _ [] src ps {} hp rfl rfl ⟨by simp, by simp⟩ htr hcr t ht
    exact ⟨a, raw, b, by simpa using h1.src, h1.spelled, h1.start, h2.start, h2.stop⟩

/-- Where the word `s` stands: offset, line, column of its start and the line of its end. -/
def Ex.whereIs (src s : String) : Option (Nat × Nat × Nat × Nat) := do
  let toks ← tokenise ascii (kw "main") src.toList
  let t ← toks.find? fun t => t.sym = .word s.toList
  some (t.pos.start.offset, t.pos.start.line, t.pos.start.col, t.pos.stop.line)

/-- Positions behind comments of both kinds; the hypotheses of `C76_lines` are met. -/
example : whereIs "/* a\n b */ // c\r\n here" "here" = some (18, 3, 1, 3) := by decide +kernel

/-- C76 fails: a block comment in a string hides its line ends, so `__LINE__` is too small from there on. -/
theorem C76_violated_line :
    outText (run 100 (worldOf "x = \"/*\n*/\";\n__LINE__\n") (kw "main")) = some "x = \"/*\n*/\";\n2\n" := by decide +kernel

/-- C76 fails: `//` in a string is said to end two lines further down. -/
theorem C76_violated_end : whereIs "u = \"http://x\";" "//" = some (10, 1, 10, 3) := by decide +kernel

/-- C76 fails: a comment resets the column, and an apostrophe in a string is not counted. -/
theorem C76_violated_column :
    whereIs "/* one */ here" "here" = some (10, 1, 1, 1) ∧
    whereIs "a = \"it's\"; here" "here" = some (12, 1, 11, 1) := by decide +kernel

/-! ### C77 -/

/-- C77. Symbols written down (apart enough not to run together) are read back: the tokens of the text are exactly
these symbols, followed by the end of the file. -/
theorem C77_reads_back {cl : Classes} (hcl : cl.Ascii) (path : Text) {l : List Sym} (h : Apart cl false false l) :
    ∃ toks, tokenise cl path (spellAll l) = some toks ∧ toks.map Tok.sym = l ++ [.eoi] := by
  rw [tokenise, pairs_spell hcl l false false _ h le_rfl]
  exact ⟨_, rfl, loop_spell path l {} rfl h⟩

/-- C77, with C29. A file that contains the text of a structured program (nested conditionals, definitions, comments)
is preprocessed to what the program means. -/
theorem C77_program {cl : Classes} (hcl : cl.Ascii) {env : Env} {path : Text} {items : List Item} {m' : Macros}
    {out : List Sym} (hap : Apart cl false false (printItems items)) (hok : Item.okL items = true)
    (hload : ∀ toks, tokenise cl path (spellAll (printItems items)) = some toks → env.load path = .ok toks)
    (hev : evalItems env.compare (fun _ => none) items = some (m', out)) :
    ∃ k st buf, (∀ n, k ≤ n → run n env path = .ok (st, buf)) ∧
      toksText (Out.toksL buf) = text out ∧ ∀ name, Agrees (st.defs.getReadonly name) (m' name) := by
  obtain ⟨toks, h1, h2⟩ := C77_reads_back hcl path hap
  obtain ⟨k, st, buf, h3, h4, h5⟩ := C29_conditionals (hload toks h1) h2 hok hev
  exact ⟨k, st, buf, h3, by rw [toksText_sym, h4], h5⟩

/-- A program that is written apart: a comment, a definition and a conditional. -/
def Ex.apartProg : List Item :=
  [.text [.comment "/* a */".toList, w "x", .space, .equals, .space, .digit 1, .unicode [';']],
   .flag {} (kw "DEBUG"),
   .cond {} (.ifdef (kw "DEBUG")) [.text [w "yes"]] (some {}) [.text [w "no"]] {}]

example : spellAll (printItems apartProg) =
    "/* a */x = 1;\n#define DEBUG\n#ifdef DEBUG\nyes\n#else\nno\n#endif\n".toList ∧
    outText (run 200 (worldOf "/* a */x = 1;\n#define DEBUG\n#ifdef DEBUG\nyes\n#else\nno\n#endif\n") (kw "main")) =
      some "x = 1;\n\nyes\n" := by decide +kernel

/-- A program that decides `Apart`. -/
def Ex.apartB (cl : Classes) (dq sq : Bool) : List Sym → Bool
  | [] => true
  | .word w :: l =>
    (match w with
      | [] => false
      | c :: t => (c == '_' || cl.letter c) && t.all cl.wordChar) &&
      (match spellAll l with
        | [] => true
        | d :: _ => !cl.wordChar d) && apartB cl dq sq l
  | .digit n :: l => decide (n < 10) && apartB cl dq sq l
  | .directive :: l => decide ((spellAll l).head? ≠ some '#') && apartB cl dq sq l
  | .unicode u :: l =>
    (match u with
      | [c] => cl.sign c && !cl.letter c && !asciiDigit c &&
          !(['_', '(', ')', '#', '\\', ',', '"', '\'', '<', '>', '=', '/'].contains c)
      | _ => false) && apartB cl dq sq l
  | .comment c :: l =>
    !dq && !sq && decide (c = '/' :: '*' :: (c.drop 2).dropLast.dropLast ++ ['*', '/']) &&
      decide (¬ Closes ((c.drop 2).dropLast.dropLast ++ ['*'])) && apartB cl dq sq l
  | .dquote :: l => apartB cl (if sq then dq else !dq) sq l
  | .squote :: l => apartB cl dq (if dq then sq else !sq) l
  | .alpha _ :: _ | .underscore :: _ | .eoi :: _ => false
  | _ :: l => apartB cl dq sq l

theorem apartB_ok {cl : Classes} : ∀ (l : List Sym) (dq sq : Bool), apartB cl dq sq l = true → Apart cl dq sq l := by
  intro l
  induction l with
  | nil => intros; trivial
  | cons y l ih =>
    intro dq sq h
    cases y with
    | word w =>
      simp only [apartB, Bool.and_eq_true] at h
      obtain ⟨⟨h1, h2⟩, h3⟩ := h
      cases w with
      | nil => simp at h1
      | cons c t =>
        simp at h1
        refine ⟨⟨c, t, rfl, h1.1, h1.2⟩, ?_, ih _ _ h3⟩
        intro d hd
        cases hs : spellAll l with
        | nil => simp [hs] at hd
        | cons e s => simp [hs] at hd h2; subst hd; exact h2
    | unicode u =>
      simp only [apartB, Bool.and_eq_true] at h
      obtain ⟨h1, h2⟩ := h
      match u, h1 with
      | [c], h1 =>
        simp at h1
        refine ⟨⟨c, rfl, ⟨h1.1.1.1, h1.1.1.2, h1.1.2, ?_⟩, ?_⟩, ih _ _ h2⟩
        · simp_all
        · rintro rfl; simp_all
    | comment c =>
      simp only [apartB, Bool.and_eq_true, decide_eq_true_eq, Bool.not_eq_true'] at h
      obtain ⟨⟨⟨⟨h1, h2⟩, h3⟩, h4⟩, h5⟩ := h
      exact ⟨⟨h1, h2⟩, ⟨_, h3, h4⟩, ih _ _ h5⟩
    | digit n => simp [apartB] at h; exact ⟨h.1, ih _ _ h.2⟩
    | directive => simp [apartB] at h; exact ⟨h.1, ih _ _ h.2⟩
    | alpha _ => simp [apartB] at h
    | underscore => simp [apartB] at h
    | eoi => simp [apartB] at h
    | _ => exact ih _ _ h

example : Apart ascii false false (printItems apartProg) := apartB_ok _ _ _ (by decide +kernel)

end Verif.Preproc
