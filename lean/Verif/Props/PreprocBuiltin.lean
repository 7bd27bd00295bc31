import Verif.Lib.PreprocBuiltin
import Verif.Lib.PreprocCond
import Verif.Props.PreprocStop
import Verif.Props.Tokenize
/-!
C132: the built-in macros stand for the place and the count.
-/
namespace Verif.Preproc
open Spec Ex
variable {env : Env} {root : Text}

/-! ### Files without directives -/

/-- Nothing is defined or open. -/
structure Fresh (st : St) : Prop where
  ifs : st.ifs.stack = []
  global : st.defs.global = fun _ => none
  stack : st.defs.stack = []

theorem Fresh.reading {st : St} (h : Fresh st) : st.ifs.reading = true := by simp [IfStates.reading, h.ifs]

theorem Fresh.key {st : St} (h : Fresh st) (w : Text) : st.defs.containsKey w = builtinGen.contains w := by
  simp [Defines.containsKey, h.stack, h.global]

/-- The symbols of a buffer. -/
def symsL (l : List Out) : List Sym := (Out.toksL l).map Tok.sym

theorem symsL_append (a b : List Out) : symsL (a ++ b) = symsL a ++ symsL b := by simp [symsL, outs_append]

theorem output_fresh {st : St} (h : Fresh st) {t : Tok} {buf : List Out} (hn : NoEsc buf) (he : t.sym ≠ .escape) :
    NoEsc (output st t buf) ∧ symsL (output st t buf) = symsL buf ++ (match t.sym with | .comment _ => [] | s => [s]) := by
  have hd : NoEsc (buf ++ [.direct t]) ∧ symsL (buf ++ [.direct t]) = symsL buf ++ [t.sym] :=
    ⟨by simp [NoEsc, Out.lastSym, he], by rw [symsL_append]; simp [symsL, Out.toksL, Out.toks]⟩
  rw [output, if_pos h.reading]
  split
  · rename_i hs
    simp [hs, hn]
  · rename_i hs
    rw [if_neg hn]
    simpa [hs] using hd
  · rename_i h1 h2
    refine ⟨hd.1, hd.2.trans ?_⟩
    split
    · rename_i hs
      exact absurd hs (h1 _)
    · rfl

/-- What the use of a built-in macro gives. -/
def stands (env : Env) (c : Nat) (p : Pos) (w : Text) : List Sym :=
  if w = kw "__COUNTER__" then [.digit (c % 65536)]
  else if w = kw "__FILE__" then [.dquote, .word (env.fileMacro p.path), .dquote]
  else if w = kw "__FILE_NAME__" then [.word (env.fileName p.path)]
  else if w = kw "__FILE_SHORT__" then [.word (Defines.shortName (env.fileName p.path))]
  else if w = kw "__LINE__" then [.digit p.start.line] else []

theorem walk_one_digit {n : Nat} {s : Pos} {im : Option Text} {st : St} (h : Fresh st) {c : Nat} {p : Pos} :
    walk (n + 2) env (some s) im false true none st [⟨.digit c, p⟩] [] = .ok (st, [], [.direct ⟨.digit c, p⟩]) := by
  rw [walk.eq_def]
  simp only
  rw [walk.eq_def]
  simp [closeQuote, output, h.reading]

theorem walk_one_word {n : Nat} {s : Pos} {im : Option Text} {st : St} (h : Fresh st) {w : Text} {p : Pos} (h1 : ¬ refused w)
    (h2 : w ∉ placed) :
    walk (n + 2) env (some s) im false true none st [⟨.word w, p⟩] [] = .ok (st, [], [.direct ⟨.word w, p⟩]) := by
  have hk : st.defs.containsKey w = false := by
    rw [h.key]
    have h3 : w ∉ builtinGen := h2
    simpa using h3
  rw [refused, not_or] at h1
  rw [walk.eq_def]
  simp only
  rw [if_neg h1.1, if_neg h1.2, hk, if_neg (by simp), walk.eq_def]
  simp [closeQuote, output, h.reading]

theorem walk_quoted_word {n : Nat} {s : Pos} {im : Option Text} {st : St} (h : Fresh st) {w : Text} {p : Pos} :
    walk (n + 4) env (some s) im false true none st [⟨.dquote, p⟩, ⟨.word w, p⟩, ⟨.dquote, p⟩] [] =
      .ok (st, [], [.direct ⟨.dquote, p⟩, .direct ⟨.word w, p⟩, .direct ⟨.dquote, p⟩]) := by
  rw [walk.eq_def]
  simp only
  rw [walk.eq_def]
  simp only [Bool.not_false]
  rw [walk.eq_def]
  simp only [Bool.not_true]
  rw [walk.eq_def]
  simp [closeQuote, output, h.reading]

theorem kws : kw "__COUNTER_RESET__" ≠ kw "__COUNTER__" ∧
    kw "__FILE__" ≠ kw "__COUNTER__" ∧
    kw "__FILE__" ≠ kw "__COUNTER_RESET__" ∧
    kw "__FILE_NAME__" ≠ kw "__COUNTER__" ∧
    kw "__FILE_NAME__" ≠ kw "__COUNTER_RESET__" ∧
    kw "__FILE_NAME__" ≠ kw "__FILE__" ∧
    kw "__FILE_SHORT__" ≠ kw "__COUNTER__" ∧
    kw "__FILE_SHORT__" ≠ kw "__COUNTER_RESET__" ∧
    kw "__FILE_SHORT__" ≠ kw "__FILE__" ∧
    kw "__FILE_SHORT__" ≠ kw "__FILE_NAME__" ∧
    kw "__LINE__" ≠ kw "__COUNTER__" ∧
    kw "__LINE__" ≠ kw "__COUNTER_RESET__" ∧
    kw "__LINE__" ≠ kw "__FILE__" ∧
    kw "__LINE__" ≠ kw "__FILE_NAME__" ∧
    kw "__LINE__" ≠ kw "__FILE_SHORT__" ∧
    kw "__COUNTER_RESET__" ≠ kw "__FILE__" ∧
    kw "__COUNTER_RESET__" ≠ kw "__FILE_NAME__" ∧
    kw "__COUNTER_RESET__" ≠ kw "__FILE_SHORT__" ∧
    kw "__COUNTER_RESET__" ≠ kw "__LINE__" := by
  refine ⟨?_, ?_, ?_, ?_, ?_, ?_, ?_, ?_, ?_, ?_, ?_, ?_, ?_, ?_, ?_, ?_, ?_, ?_, ?_⟩ <;> decide +kernel

theorem use_value {st : St} {t : Tok} {rest : List Tok} {buf : List Out} {w : Text} (hw : t.sym = .word w) (hp : w ∈ placed)
    {body : List Tok} {d : Defines} (hb : Defines.builtin env st.defs t t.pos w = (.value body, d)) {n : Nat} {st' : St} {l : List Tok}
    {layer : List Out} (h : walk n env (some t.pos) (some w) false true none { st with defs := d } (noJoin body) [] = .ok (st', l, layer)) :
    defineUse (n + 1) env t.pos st (t :: rest) buf = .ok (st', rest, buf ++ [.mac t layer]) := by
  have hc : builtinGen.contains w = true := List.contains_iff_mem.2 hp
  rw [defineUse.eq_def]
  simp only [currentWord, hw, Sym.isWord, Defines.getWithGen, Sym.text, hc, hb, if_true, h]
  simp

theorem use_void {st : St} {t : Tok} {rest : List Tok} {buf : List Out} {w : Text} (hw : t.sym = .word w) (hp : w ∈ placed)
    {d : Defines} (hb : Defines.builtin env st.defs t t.pos w = (.void, d)) {n : Nat} :
    defineUse (n + 1) env t.pos st (t :: rest) buf = .ok ({ st with defs := d }, rest, buf) := by
  have hc : builtinGen.contains w = true := List.contains_iff_mem.2 hp
  rw [defineUse.eq_def]
  simp only [currentWord, hw, Sym.isWord, Defines.getWithGen, Sym.text, hc, hb, if_true]

theorem use_placed {st : St} (h : Fresh st) {t : Tok} {rest : List Tok} {buf : List Out} {w : Text} (hw : t.sym = .word w)
    (hp : w ∈ placed) (hs : Simple env t) (hn : NoEsc buf) : ∃ st' buf',
      (∀ n, defineUse (n + 5) env t.pos st (t :: rest) buf = .ok (st', rest, buf')) ∧ Fresh st' ∧ NoEsc buf' ∧
      symsL buf' = symsL buf ++ stands env st.defs.counter t.pos w ∧
      st'.defs.counter = if w = kw "__COUNTER__" then st.defs.counter + 1 else if w = kw "__COUNTER_RESET__" then 0
        else st.defs.counter := by
  have hf : ∀ n : Nat, Fresh { st with defs := { st.defs with counter := n } } := fun n => ⟨h.ifs, h.global, h.stack⟩
  have hmac : ∀ (l : List Out), Out.lastSymL l ≠ some .escape → NoEsc (buf ++ [.mac t l]) := by
    intro l hl
    simpa [NoEsc, Out.lastSym] using hl
  have h0 := hp
  simp only [placed, List.mem_cons, List.not_mem_nil, or_false] at hp
  obtain ⟨d1, d2, d3, d4, d5, d6, d7, d8, d9, d10, d11, d12, d13, d14, d15, d16, d17, d18, d19⟩ := kws
  rcases hp with rfl | rfl | rfl | rfl | rfl | rfl
  · refine ⟨_, _, fun n => use_value hw h0 (by rw [Defines.builtin, if_pos rfl]) (n := n + 4)
      (by simpa [noJoin] using walk_one_digit (n := n + 2) (hf _)), hf _, hmac _ (by simp [Out.lastSymL, Out.lastSym]), ?_, ?_⟩
    · rw [symsL_append]; simp [symsL, Out.toksL, Out.toks, stands]
    · simp
  · refine ⟨_, _, fun n => use_void hw h0 (by rw [Defines.builtin, if_neg d1, if_pos rfl]) (n := n + 4), hf _, hn, ?_, ?_⟩
    · simp [stands, d1, d16, d17, d18, d19]
    · simp [d1]
  · refine ⟨_, _, fun n => use_value hw h0 (by rw [Defines.builtin, if_neg d2, if_neg d3, if_pos rfl]) (n := n + 4)
      (by simpa [noJoin] using walk_quoted_word (n := n) h), h, hmac _ (by simp [Out.lastSymL, Out.lastSym]), ?_, ?_⟩
    · rw [symsL_append]; simp [symsL, Out.toksL, Out.toks, stands, d2]
    · simp [d2, d3]
  · have hr := hs.2.2.2 _ (.inl rfl)
    refine ⟨_, _, fun n => use_value hw h0 (by rw [Defines.builtin, if_neg d4, if_neg d5, if_neg d6, if_pos rfl]) (n := n + 4)
      (by simpa [noJoin] using walk_one_word (n := n + 2) h hr.1 hr.2), h, hmac _ (by simp [Out.lastSymL, Out.lastSym]), ?_, ?_⟩
    · rw [symsL_append]; simp [symsL, Out.toksL, Out.toks, stands, d4, d6]
    · simp [d4, d5]
  · have hr := hs.2.2.2 _ (.inr rfl)
    refine ⟨_, _, fun n => use_value hw h0 (by rw [Defines.builtin, if_neg d7, if_neg d8, if_neg d9, if_neg d10, if_pos rfl]) (n := n + 4)
      (by simpa [noJoin] using walk_one_word (n := n + 2) h hr.1 hr.2), h, hmac _ (by simp [Out.lastSymL, Out.lastSym]), ?_, ?_⟩
    · rw [symsL_append]; simp [symsL, Out.toksL, Out.toks, stands, d7, d9, d10]
    · simp [d7, d8]
  · refine ⟨_, _, fun n => use_value hw h0 (by rw [Defines.builtin, if_neg d11, if_neg d12, if_neg d13, if_neg d14, if_neg d15])
      (n := n + 4) (by simpa [noJoin] using walk_one_digit (n := n + 2) h), h, hmac _ (by simp [Out.lastSymL, Out.lastSym]), ?_, ?_⟩
    · rw [symsL_append]; simp [symsL, Out.toksL, Out.toks, stands, d11, d13, d14, d15]
    · simp [d11, d12]

/-- What ends a file. -/
def Ends (l : List Tok) : Prop := ∀ t ∈ l.head?, t.sym = .eoi

theorem written_ends {l : List Tok} (h : Ends l) (q q' : Bool) (c c' : Nat) : written env q c l = written env q' c' l := by
  cases l with
  | nil => rfl
  | cons t l =>
    have := h t (by simp)
    simp [written, this]

theorem walk_simple {toks : List Tok} : ∀ {q jw : Bool} {st : St} {buf : List Out}, Fresh st → (∀ t ∈ toks, Simple env t) → NoEsc buf →
    ∃ k st' rest buf', (∀ n, walk (n + k) env none none q jw none st toks buf = .ok (st', rest, buf')) ∧ Fresh st' ∧ NoEsc buf' ∧
      rest <:+ toks ∧ (rest.length < toks.length ∨ Ends toks) ∧
      symsL buf' ++ written env false st'.defs.counter rest = symsL buf ++ written env q st.defs.counter toks := by
  induction toks with
  | nil =>
    intro q jw st buf hf _ hn
    exact ⟨1, st, [], buf, fun n => by rw [walk.eq_def], hf, hn, List.suffix_rfl, .inr (by simp [Ends]), by simp [written]⟩
  | cons t toks ih =>
    intro q jw st buf hf hs hn
    have ht := hs t (by simp)
    have hs' : ∀ u ∈ toks, Simple env u := fun u hu => hs u (by simp [hu])
    have go : ∀ (q' jw' : Bool), (∀ n, walk (n + 1) env none none q jw none st (t :: toks) buf =
        walk n env none none q' jw' none st toks (output st t buf)) →
        written env q st.defs.counter (t :: toks) = (match t.sym with | .comment _ => [] | s => [s]) ++ written env q' st.defs.counter toks →
        ∃ k st' rest buf', (∀ n, walk (n + k) env none none q jw none st (t :: toks) buf = .ok (st', rest, buf')) ∧ Fresh st' ∧
          NoEsc buf' ∧ rest <:+ t :: toks ∧ (rest.length < (t :: toks).length ∨ Ends (t :: toks)) ∧
          symsL buf' ++ written env false st'.defs.counter rest = symsL buf ++ written env q st.defs.counter (t :: toks) := by
      intro q' jw' h1 h2
      obtain ⟨o1, o2⟩ := output_fresh hf hn ht.2.1
      obtain ⟨k, st', rest, buf', g1, g2, g3, g4, g5, g6⟩ := ih (q := q') (jw := jw') (buf := output st t buf) hf hs' o1
      refine ⟨k + 1, st', rest, buf', fun n => ?_, g2, g3, g4.trans (List.suffix_cons _ _), .inl ?_, ?_⟩
      · rw [← Nat.add_assoc, h1, g1]
      · have := g4.length_le
        simp only [List.length_cons]
        omega
      · rw [g6, o2, h2, List.append_assoc]
    cases hq : t.sym with
    | word w =>
      have hr := ht.2.2.1 w hq
      rw [refused, not_or] at hr
      cases q with
      | true => exact go true false (fun n => by rw [walk.eq_def]; simp [hq, closeQuote]) (by simp [written, hq])
      | false =>
        by_cases hp : w ∈ placed
        · have hc : builtinGen.contains w = true := List.contains_iff_mem.2 hp
          obtain ⟨st1, buf1, u1, u2, u3, u4, u5⟩ := use_placed (rest := toks) hf hq hp ht hn
          obtain ⟨k, st', rest, buf', g1, g2, g3, g4, g5, g6⟩ := ih (q := false) (jw := false) u2 hs' u3
          refine ⟨k + 6, st', rest, buf', fun n => ?_, g2, g3, g4.trans (List.suffix_cons _ _), .inl ?_, ?_⟩
          · have e1 : n + (k + 6) = (n + k) + 5 + 1 := by omega
            have e2 : n + k + 5 = (n + 5) + k := by omega
            rw [e1, walk.eq_def]
            simp only [hq]
            rw [if_neg hr.1, if_neg hr.2, hf.key, hc, if_pos (by simp)]
            simp only [Option.getD_none, u1, closeQuote]
            rw [e2, g1]
          · have := g4.length_le
            simp only [List.length_cons]
            omega
          · rw [g6, u4, u5, List.append_assoc]
            congr 1
            simp only [written, hq, stands]
            simp only [placed, List.mem_cons, List.not_mem_nil, or_false] at hp
            rcases hp with rfl | rfl | rfl | rfl | rfl | rfl <;> simp [kws]
        · have hc : builtinGen.contains w = false := by
            have h3 : w ∉ builtinGen := hp
            simpa using h3
          refine go false false (fun n => ?_) ?_
          · rw [walk.eq_def]
            simp only [hq]
            rw [if_neg hr.1, if_neg hr.2, hf.key, hc, if_neg (by simp), closeQuote]
          · simp only [placed, List.mem_cons, List.not_mem_nil, or_false, not_or] at hp
            simp [written, hq, hp]
    | directive => exact absurd hq ht.1
    | escape => exact absurd hq ht.2.1
    | eoi =>
      refine ⟨1, st, t :: toks, buf, fun n => by rw [walk.eq_def]; simp [hq], hf, hn, List.suffix_rfl, .inr (by simp [Ends, hq]), ?_⟩
      simp [written, hq]
    | newline =>
      cases q with
      | true => exact go true false (fun n => by rw [walk.eq_def]; simp [hq, closeQuote]) (by simp [written, hq])
      | false =>
        obtain ⟨o1, o2⟩ := output_fresh hf hn ht.2.1
        refine ⟨1, st, toks, output st t buf, fun n => by rw [walk.eq_def]; simp [hq], hf, o1, List.suffix_cons _ _,
          .inl (by simp), ?_⟩
        rw [o2, hq]
        simp [written, hq]
    | dquote => exact go (!q) false (fun n => by rw [walk.eq_def]; simp [hq, closeQuote]) (by simp [written, hq])
    | space => exact go q jw (fun n => by rw [walk.eq_def]; simp [hq, closeQuote]) (by simp [written, hq])
    | tab => exact go q jw (fun n => by rw [walk.eq_def]; simp [hq, closeQuote]) (by simp [written, hq])
    | comment _ => exact go q false (fun n => by rw [walk.eq_def]; simp [hq, closeQuote]) (by simp [written, hq])
    | _ => exact go q false (fun n => by rw [walk.eq_def]; simp [hq, closeQuote]) (by simp [written, hq])

theorem skipWs_simple {st : St} (hf : Fresh st) {toks : List Tok} : ∀ {buf : List Out}, (∀ t ∈ toks, Simple env t) → NoEsc buf →
    NoEsc (skipWsOut st toks buf).2 ∧ (skipWsOut st toks buf).1 <:+ toks ∧ ((skipWsOut st toks buf).1.length < toks.length ∨
      (skipWsOut st toks buf).1 = toks) ∧
      symsL (skipWsOut st toks buf).2 ++ written env false st.defs.counter (skipWsOut st toks buf).1 =
        symsL buf ++ written env false st.defs.counter toks := by
  induction toks with
  | nil => intro buf _ hn; simp [skipWsOut, hn]
  | cons t toks ih =>
    intro buf hs hn
    rw [skipWsOut]
    split
    · rename_i hw
      obtain ⟨o1, o2⟩ := output_fresh hf hn (hs t (by simp)).2.1
      obtain ⟨i1, i2, i3, i4⟩ := ih (fun u hu => hs u (by simp [hu])) o1
      refine ⟨i1, i2.trans (List.suffix_cons _ _), .inl ?_, ?_⟩
      · have := i2.length_le
        simp only [List.length_cons]
        omega
      · rw [i4, o2, List.append_assoc]
        congr 1
        cases hq : t.sym <;> simp_all [Sym.isWs, written]
    · exact ⟨hn, List.suffix_rfl, .inr rfl, rfl⟩

theorem file_simple (m : Nat) : ∀ {toks : List Tok} {st : St} {buf : List Out}, toks.length ≤ m → Fresh st → (∀ t ∈ toks, Simple env t) →
    NoEsc buf → ∃ k st' rest buf', (∀ n, file (n + k) env st toks buf = .ok (st', rest, buf')) ∧ Fresh st' ∧
      symsL buf' = symsL buf ++ written env false st.defs.counter toks := by
  induction m with
  | zero =>
    intro toks st buf hl hf hs hn
    obtain rfl : toks = [] := by simpa using hl
    exact ⟨1, st, [], buf, fun n => by rw [file.eq_def], hf, by simp [written]⟩
  | succ m ih =>
    intro toks st buf hl hf hs hn
    cases toks with
    | nil => exact ⟨1, st, [], buf, fun n => by rw [file.eq_def], hf, by simp [written]⟩
    | cons t toks =>
      by_cases he : t.sym = .eoi
      · exact ⟨1, st, t :: toks, buf, fun n => by rw [file.eq_def]; simp [he], hf, by simp [written, he]⟩
      · obtain ⟨w1, w2, w3, w4⟩ := skipWs_simple (env := env) hf hs hn
        have hs1 : ∀ u ∈ (skipWsOut st (t :: toks) buf).1, Simple env u := fun u hu => hs u (w2.mem hu)
        obtain ⟨k, st1, rest, buf1, g1, g2, g3, g4, g5, g6⟩ := walk_simple (q := false) (jw := true) hf hs1 w1
        have hlen : rest.length ≤ m := by
          have l1 := g4.length_le
          simp only [List.length_cons] at hl w3
          rcases w3 with w3 | w3
          · omega
          · rw [w3] at g5 l1
            simp only [List.length_cons] at g5 l1
            rcases g5 with g5 | g5
            · omega
            · exact absurd (g5 t (by simp)) he
        obtain ⟨k2, st2, rest2, buf2, f1, f2, f3⟩ := ih (st := { st1 with pragma := st1.pragma.clearLine }) (buf := buf1) hlen
          ⟨g2.ifs, g2.global, g2.stack⟩ (fun u hu => hs1 u (g4.mem hu)) g3
        refine ⟨k + k2 + 3, st2, rest2, buf2, fun n => ?_, f2, by rw [f3]; exact g6.trans w4⟩
        have e1 : n + (k + k2 + 3) = ((n + k2 + 1) + k) + 1 + 1 := by omega
        have e2 : n + k2 + 1 + k + 1 = (n + k + 2) + k2 := by omega
        rw [e1, file.eq_def]
        simp only [he, if_false]
        rw [line.eq_def]
        simp only
        have hd : directive (n + k2 + 1 + k) env st (skipWsOut st (t :: toks) buf).1 (skipWsOut st (t :: toks) buf).2 =
            .ok (false, st, (skipWsOut st (t :: toks) buf).1, (skipWsOut st (t :: toks) buf).2) := by
          have e3 : n + k2 + 1 + k = (n + k2 + k) + 1 := by omega
          rw [e3, directive.eq_def]
          simp only
          split
          · rfl
          · rename_i h r hr
            rw [if_neg (hs1 h (by rw [hr]; simp)).1]
        rw [hd]
        simp only [hf.reading, if_true, g1]
        rw [e2, f1]

/-- C132. A file without `#` and `\` becomes its own text without comments, where each built-in macro outside of quotation marks is what it
stands for at its place: the number of its line, the path or name of its file, the number of uses of `__COUNTER__` before it (from 0 or
since the last `__COUNTER_RESET__`, as far as 65536 numbers go). -/
theorem C132_plain {toks : List Tok} (hl : env.load root = .ok toks) (hs : ∀ t ∈ toks, Simple env t) :
    ∃ k st buf, (∀ n, k ≤ n → run n env root = .ok (st, buf)) ∧ (Out.toksL buf).map Tok.sym = written env false 0 toks := by
  obtain ⟨k, st, rest, buf, h1, h2, h3⟩ := file_simple (env := env) toks.length (st := { files := [root] }) (buf := []) le_rfl
    ⟨rfl, rfl, rfl⟩ hs (by simp [NoEsc])
  refine ⟨k, st, buf, fun n hn => ?_, by simpa [symsL, Out.toksL] using h3⟩
  obtain ⟨i, rfl⟩ := Nat.exists_eq_add_of_le' hn
  rw [run, hl]
  simp only [h1]
  simp [IfStates.pop, h2.ifs]

/-! ### All files -/

/-- C132. Everything in the result is a token of a file that is read, or stands where a macro of such a file is used. A built-in macro remains
only behind a quotation mark. What is not written in a file is a quotation mark for `#`, or what a built-in macro stands for: the line and
the file are those of the use at the top, whatever macros the built-in came through. -/
theorem C132_stands (hu : Usual env root) {n : Nat} {st : St} {buf : List Out} (h : run n env root = .ok (st, buf)) :
    ∀ o ∈ buf, Stands env root o := (run_stands hu h).1

/-- A token at the place of a built-in macro is the macro behind a quotation mark, or was made for that macro. -/
theorem shown_at (ha : OnePlace env root) {p : Pos} {u k : Tok} {w : Text} (hs : Shown env root p u) (hk : Source env root k)
    (hw : k.sym = .word w) (hp : w ∈ placed) (he : u.pos = k.pos) :
    (u = k ∧ Quoted env root k) ∨ (Gen env root p u ∧ (u.sym = .dquote → w = kw "__FILE__")) := by
  rcases hs with ⟨h1, h2⟩ | hg
  · obtain rfl := ha _ _ h1 hk he
    exact .inl ⟨rfl, h2 _ hp hw⟩
  · refine .inr ⟨hg, fun hd => ?_⟩
    cases hg with
    | quote a b =>
      have := ha _ _ a hk he
      subst this
      rw [b] at hw
      cases hw
    | mark a b =>
      have := ha _ _ a hk he
      subst this
      rw [b] at hw
      cases hw
      rfl
    | line => cases hd
    | file => cases hd
    | name => cases hd
    | short => cases hd
    | counter => cases hd

/-- C132. Where a macro is used, a `__LINE__` it came through has become the number of the line of the use (or stands behind a quotation
mark). -/
theorem C132_line (hu : Usual env root) (ha : OnePlace env root) {n : Nat} {st : St} {buf : List Out} (h : run n env root = .ok (st, buf))
    {t : Tok} {l : List Out} (hm : Out.mac t l ∈ buf) {u k : Tok} (hul : u ∈ Out.toksL l) (hk : Source env root k)
    (hw : k.sym = .word (kw "__LINE__")) (he : u.pos = k.pos) :
    (u = k ∧ Quoted env root k) ∨ u.sym = .digit t.pos.start.line := by
  rcases shown_at ha ((C132_stands hu h _ hm).2 u hul) hk hw (by simp [placed]) he with h1 | ⟨h1, h2⟩
  · exact .inl h1
  · right
    cases h1 with
    | line => rfl
    | quote | mark => exact absurd (h2 rfl) (by decide +kernel)
    | file a b | name a b | short a b | counter a b =>
      have := ha _ _ a hk he
      subst this
      rw [hw, Sym.word.injEq] at b
      exact absurd b (by decide +kernel)

/-- C132. The same for `__FILE__`: a quotation mark or the path of the file of the use. -/
theorem C132_file (hu : Usual env root) (ha : OnePlace env root) {n : Nat} {st : St} {buf : List Out} (h : run n env root = .ok (st, buf))
    {t : Tok} {l : List Out} (hm : Out.mac t l ∈ buf) {u k : Tok} (hul : u ∈ Out.toksL l) (hk : Source env root k)
    (hw : k.sym = .word (kw "__FILE__")) (he : u.pos = k.pos) :
    (u = k ∧ Quoted env root k) ∨ u.sym = .dquote ∨ u.sym = .word (env.fileMacro t.pos.path) := by
  rcases shown_at ha ((C132_stands hu h _ hm).2 u hul) hk hw (by simp [placed]) he with h1 | ⟨h1, h2⟩
  · exact .inl h1
  · right
    cases h1 with
    | file => exact .inr rfl
    | quote | mark => exact .inl rfl
    | line a b | name a b | short a b | counter a b =>
      have := ha _ _ a hk he
      subst this
      rw [hw, Sym.word.injEq] at b
      exact absurd b (by decide +kernel)

/-- C132. The same for `__FILE_NAME__`. -/
theorem C132_name (hu : Usual env root) (ha : OnePlace env root) {n : Nat} {st : St} {buf : List Out} (h : run n env root = .ok (st, buf))
    {t : Tok} {l : List Out} (hm : Out.mac t l ∈ buf) {u k : Tok} (hul : u ∈ Out.toksL l) (hk : Source env root k)
    (hw : k.sym = .word (kw "__FILE_NAME__")) (he : u.pos = k.pos) :
    (u = k ∧ Quoted env root k) ∨ u.sym = .word (env.fileName t.pos.path) := by
  rcases shown_at ha ((C132_stands hu h _ hm).2 u hul) hk hw (by simp [placed]) he with h1 | ⟨h1, h2⟩
  · exact .inl h1
  · right
    cases h1 with
    | name => rfl
    | quote | mark => exact absurd (h2 rfl) (by decide +kernel)
    | line a b | file a b | short a b | counter a b =>
      have := ha _ _ a hk he
      subst this
      rw [hw, Sym.word.injEq] at b
      exact absurd b (by decide +kernel)

/-- C132. The same for `__FILE_SHORT__`. -/
theorem C132_short (hu : Usual env root) (ha : OnePlace env root) {n : Nat} {st : St} {buf : List Out} (h : run n env root = .ok (st, buf))
    {t : Tok} {l : List Out} (hm : Out.mac t l ∈ buf) {u k : Tok} (hul : u ∈ Out.toksL l) (hk : Source env root k)
    (hw : k.sym = .word (kw "__FILE_SHORT__")) (he : u.pos = k.pos) :
    (u = k ∧ Quoted env root k) ∨ u.sym = .word (Defines.shortName (env.fileName t.pos.path)) := by
  rcases shown_at ha ((C132_stands hu h _ hm).2 u hul) hk hw (by simp [placed]) he with h1 | ⟨h1, h2⟩
  · exact .inl h1
  · right
    cases h1 with
    | short => rfl
    | quote | mark => exact absurd (h2 rfl) (by decide +kernel)
    | line a b | file a b | name a b | counter a b =>
      have := ha _ _ a hk he
      subst this
      rw [hw, Sym.word.injEq] at b
      exact absurd b (by decide +kernel)

/-- C132. The short name is the name without its last extension. -/
theorem C132_short_dot {s e : Text} (h : '.' ∉ e) : Defines.shortName (s ++ '.' :: e) = s := by
  have : (e.reverse ++ '.' :: s.reverse).dropWhile (· != '.') = '.' :: s.reverse := by
    rw [List.dropWhile_append_of_pos]
    · simp
    · intro c hc
      simp only [List.mem_reverse] at hc
      simpa using fun (he : c = '.') => h (he ▸ hc)
  rw [Defines.shortName]
  simp [this]

/-- C132. Without `__COUNTER_RESET__` the numbers that uses of `__COUNTER__` become, in the order of the result, are ascending counts below
the number of all uses, shown as far as 65536 numbers go. -/
theorem C132_counter (hu : Usual env root) (hr : NoReset env root) {n : Nat} {st : St} {buf : List Out}
    (h : run n env root = .ok (st, buf)) :
    ∃ ns : List Nat, ns.Pairwise (· < ·) ∧ (∀ n ∈ ns, n < st.defs.counter) ∧ numbersL buf = ns.map (· % 65536) := by
  obtain ⟨_, p, ns, h1, h2, h3, h4⟩ := (run_stands hu h).2 hr
  obtain rfl : p = [] := by simpa using h1
  exact ⟨ns, h3, fun n hn => (h4 n hn).2, by simpa using h2⟩

/-- C132. So they are different and ascending if there are no more than 65536 uses. -/
theorem C132_distinct (hu : Usual env root) (hr : NoReset env root) {n : Nat} {st : St} {buf : List Out}
    (h : run n env root = .ok (st, buf)) (hc : st.defs.counter ≤ 65536) : (numbersL buf).Pairwise (· < ·) := by
  obtain ⟨ns, h1, h2, h3⟩ := C132_counter hu hr h
  have : ns.map (· % 65536) = ns := by
    conv_rhs => rw [← List.map_id ns]
    exact List.map_congr_left fun n hn => Nat.mod_eq_of_lt (by have := h2 n hn; omega)
  rw [h3, this]
  exact h1

/-- C132. `__FILE__` is the path in the game of a file of an addon whose prefix is that of the project and the folders of the addon. Missing:
other prefixes (`C132_violated_prefix`). -/
theorem C132_file_game_partial (main pre : Text) (folders rel : List Text) (h : ∀ s ∈ folders ++ rel, '/' ∉ s) :
    Defines.fileText (some (some main, pre)) ((folders ++ rel).flatMap ('/' :: ·)) =
      (main ++ '\\' :: (pre ++ folders.flatMap ('\\' :: ·))) ++ rel.flatMap ('\\' :: ·) := by
  have hm : ∀ l : List Text, (∀ s ∈ l, '/' ∉ s) →
      (l.flatMap ('/' :: ·)).map (fun c => if c = '/' then '\\' else c) = l.flatMap ('\\' :: ·) := by
    intro l hl
    induction l with
    | nil => rfl
    | cons s l ih =>
      have hs : s.map (fun c => if c = '/' then '\\' else c) = s := by
        conv_rhs => rw [← List.map_id s]
        refine List.map_congr_left fun c hc => ?_
        rw [if_neg (fun (he : c = '/') => hl s (by simp) (he ▸ hc))]
        rfl
      simp only [List.flatMap_cons, List.map_append, List.map_cons, if_true, hs]
      rw [ih fun u hu => hl u (by simp [hu])]
  simp only [Defines.fileText, hm _ h]
  simp

/-! ### Where it fails -/

/-- C132 is violated. A file whose name has no dot has no short name. -/
theorem C132_violated_short {name : Text} (h : '.' ∉ name) : Defines.shortName name = [] := by
  have : (name.reverse).dropWhile (· != '.') = [] := by
    rw [List.dropWhile_eq_nil_iff]
    intro c hc
    simp only [List.mem_reverse] at hc
    simpa using fun (he : c = '.') => h (he ▸ hc)
  rw [Defines.shortName, this]
  rfl

/-- C132 is violated. `__FILE__` does not know the prefix of the addon: it is always the prefix of the project and the path in the project,
so for an addon with another prefix it is not the path of the file in the game. -/
theorem C132_violated_prefix : ∃ (folders rel : List Text) (addonPrefix : Text), (∀ s ∈ folders ++ rel, '/' ∉ s) ∧
    ¬ addonPrefix <+: Defines.fileText (some (some (kw "z"), kw "abe")) ((folders ++ rel).flatMap ('/' :: ·)) :=
  ⟨[kw "addons", kw "main"], [kw "a.sqf"], kw "x\\other", by decide +kernel, by decide +kernel⟩

/-- C132 is violated. The name of the file is read on: if it is the name of a macro, `__FILE_NAME__` gives what that macro stands for. The file
`main` here has the name `main`. -/
theorem C132_violated_expanded :
    outText (run 60 (worldOf "#define main other\n__FILE_NAME__\n") (kw "main")) = some "other\n" := by decide +kernel

/-! ### Examples -/

namespace Ex

/-- A world with one file that uses the built-in macros. -/
def placedSrc : String :=
  "x = __LINE__;\n#define L __LINE__\n#define N(a) a __COUNTER__\nL N(__COUNTER__)\n__FILE__ \"__LINE__\" __COUNTER__ __FILE_NAME__\n"

end Ex
open Ex

example : outText (run 200 (worldOf placedSrc) (kw "main")) = some "x = 1;\n4 0 1\n\"main\" \"__LINE__\" 2 main\n" := by decide +kernel

/-- The tokens of that file. -/
def Ex.placedToks : List Tok := (tokenise ascii (kw "main") placedSrc.toList).getD []

theorem Ex.placed_load : (worldOf placedSrc).load (kw "main") = .ok placedToks := by decide +kernel

theorem Ex.read_worldOf {src : String} {f : Text} (h : Read (worldOf src) (kw "main") f) : f = kw "main" := by
  cases h with
  | root => rfl
  | incl h1 h2 => simp [worldOf] at h2

theorem Ex.source_placed {t : Tok} (h : Source (worldOf placedSrc) (kw "main") t) : t ∈ placedToks := by
  obtain ⟨f, all, h1, h2, h3⟩ := h
  rw [read_worldOf h1, placed_load] at h2
  obtain rfl := Except.ok.inj h2
  exact h3

/-- The conditions of the theorems hold of it. -/
theorem Ex.placed_usual : Usual (worldOf placedSrc) (kw "main") where
  places := by
    intro f all h1 h2 t ht
    rw [read_worldOf h1, placed_load] at h2
    obtain rfl := Except.ok.inj h2
    rw [read_worldOf h1]
    have key : ∀ t ∈ placedToks, t.pos.path = kw "main" := by decide +kernel
    exact key t ht
  defs := by
    intro f all pre h d ws nm l name h1 h2 hall hh hd hws hnm
    rw [read_worldOf h1, placed_load] at h2
    obtain rfl := Except.ok.inj h2
    have := mem_defsOf (pre := pre) (l := l) hh hd hws hnm
    rw [← hall] at this
    have key : ∀ x ∈ defsOf placedToks, (logical false x.2).all (fun t => decide (t.sym ≠ .directive)) = true := by decide +kernel
    have k2 := key _ this
    rw [NoDir, List.isChain_iff_getElem]
    intro i hi he
    have hm := List.getElem_mem (Nat.lt_of_succ_lt hi)
    have := List.all_eq_true.1 k2 _ (List.mem_filter.1 hm).1
    simp only [decide_eq_true_eq] at this
    exact absurd he this
  names := by
    intro f h
    rw [read_worldOf h]
    simp only [worldOf]
    decide +kernel

theorem Ex.placed_apart : OnePlace (worldOf placedSrc) (kw "main") := by
  intro t u ht hu he
  have key : ∀ t ∈ placedToks, ∀ u ∈ placedToks, t.pos = u.pos → t = u := by decide +kernel
  exact key t (source_placed ht) u (source_placed hu) he

theorem Ex.placed_noReset : NoReset (worldOf placedSrc) (kw "main") := by
  intro t ht
  have key : ∀ t ∈ placedToks, t.sym ≠ .word (kw "__COUNTER_RESET__") := by decide +kernel
  exact key t (source_placed ht)

example : ∃ st buf, run 200 (worldOf placedSrc) (kw "main") = .ok (st, buf) ∧ numbersL buf = [1, 2] ∧ st.defs.counter = 3 ∧
    (∃ t l, Out.mac t l ∈ buf ∧ t.sym = .word (kw "L") ∧ (Out.toksL l).map Tok.sym = [.digit 4]) := by
  have h : (match run 200 (worldOf placedSrc) (kw "main") with
      | .ok (st, buf) => decide (numbersL buf = [1, 2]) && decide (st.defs.counter = 3) && buf.any fun o => match o with
        | .mac t l => decide (t.sym = .word (kw "L")) && decide ((Out.toksL l).map Tok.sym = [.digit 4])
        | _ => false
      | .error _ => false) = true := by decide +kernel
  cases hr : run 200 (worldOf placedSrc) (kw "main") with
  | error e => simp [hr] at h
  | ok r =>
    obtain ⟨st, buf⟩ := r
    simp only [hr, Bool.and_eq_true, decide_eq_true_eq, List.any_eq_true] at h
    obtain ⟨⟨h1, h2⟩, o, h3, h4⟩ := h
    refine ⟨st, buf, rfl, h1, h2, ?_⟩
    cases o with
    | direct t => simp at h4
    | mac t l =>
      simp only [Bool.and_eq_true, decide_eq_true_eq] at h4
      exact ⟨t, l, h3, h4⟩

/-- A file without directives. -/
example : ∃ toks, (worldOf "a __COUNTER__ __LINE__\n\"__LINE__\" __COUNTER__ __FILE__ // x\n__COUNTER_RESET__ __COUNTER__\n").load (kw "main") =
      .ok toks ∧ (∀ t ∈ toks, Simple (worldOf "") t) ∧
      written (worldOf "") false 0 toks = [w "a", .space, .digit 0, .space, .digit 1, .newline, .dquote, w "__LINE__", .dquote, .space, .digit 1,
        .space, .dquote, w "main", .dquote, .space, .newline, .space, .digit 0, .newline] := by
  refine ⟨(tokenise ascii (kw "main") "a __COUNTER__ __LINE__\n\"__LINE__\" __COUNTER__ __FILE__ // x\n__COUNTER_RESET__ __COUNTER__\n".toList).getD [],
    by decide +kernel, ?_, by decide +kernel⟩
  intro t ht
  have key : ∀ t ∈ (tokenise ascii (kw "main")
      "a __COUNTER__ __LINE__\n\"__LINE__\" __COUNTER__ __FILE__ // x\n__COUNTER_RESET__ __COUNTER__\n".toList).getD [],
      t.sym ≠ .directive ∧ t.sym ≠ .escape ∧ (match t.sym with | .word w => decide (w = kw "__EXEC") || isUnsupportedBuiltin w | _ => false) = false ∧
      t.pos.path = kw "main" := by decide +kernel
  obtain ⟨k1, k2, k3, k4⟩ := key t ht
  refine ⟨k1, k2, fun w hw => ?_, fun w hw => ?_⟩
  · rw [hw] at k3
    simpa [refused] using k3
  · simp only [worldOf, k4] at hw
    have : w = kw "main" ∨ w = [] := by
      rcases hw with h | h
      · exact .inl h
      · exact .inr (h.trans (by decide +kernel))
    rcases this with rfl | rfl
    · exact ⟨fun h => absurd h (by unfold refused; decide +kernel), by decide +kernel⟩
    · exact ⟨fun h => absurd h (by unfold refused; decide +kernel), by decide +kernel⟩

/-- A number in an argument that is used twice. -/
example : outText (run 60 (worldOf "#define D(a) a a\nD(__COUNTER__) __COUNTER__\n") (kw "main")) = some "0 0 1\n" := by decide +kernel

end Verif.Preproc
