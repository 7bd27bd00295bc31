import Verif.Spec.Preproc
import Verif.Lib.PreprocFuel
/-!
One-line lemmas about the preprocessor model, used for the conditional compilation theorem.
-/
namespace Verif.Preproc
open Spec

/-- Processing the rest of a file ends with `r`. -/
def Runs (env : Env) (st : St) (toks : List Tok) (buf : List Out) (r : R) : Prop :=
  r ≠ .error .fuel ∧ ∃ n, file n env st toks buf = r

theorem Runs.of_line {env st toks buf st' toks' buf' r n} {t : Tok} {l : List Tok}
    (ht : toks = t :: l) (he : t.sym ≠ .eoi)
    (h : line n env st toks buf = .ok (st', toks', buf')) (hr : Runs env st' toks' buf' r) :
    Runs env st toks buf r := by
  obtain ⟨hne, m, hm⟩ := hr
  refine ⟨hne, max n m + 1, ?_⟩
  subst ht
  rw [file.eq_def]
  dsimp only
  rw [if_neg he, line_more (le_max_left n m) h (by simp)]
  exact file_more (le_max_right n m) hm hne

/-- The tokens that leave a trace in the output. -/
def vis (a : List Tok) : List Tok := a.filter fun t => match t.sym with
  | .comment _ => false
  | _ => true

theorem vis_sym (a : List Tok) : (vis a).map Tok.sym = visible (a.map Tok.sym) := by
  simp only [vis, visible, List.filter_map]
  rfl

@[simp] theorem vis_append (a b : List Tok) : vis (a ++ b) = vis a ++ vis b := by simp [vis]

/-- The output does not end in a backslash. -/
def NoEsc (buf : List Out) : Prop := buf.getLast?.bind Out.lastSym ≠ some .escape

theorem output_reading {st : St} (h : st.ifs.reading = true) {t : Tok} (ht : t.sym ≠ .newline)
    (buf : List Out) : output st t buf = buf ++ (vis [t]).map .direct := by
  rw [output, if_pos h]
  rcases t with ⟨s, p⟩
  cases s <;> simp_all [vis]

theorem output_passing {st : St} (h : st.ifs.reading = false) (t : Tok) (buf : List Out) :
    output st t buf = buf := by
  rw [output, if_neg (by simp [h])]

theorem output_newline {st : St} (h : st.ifs.reading = true) {t : Tok} (ht : t.sym = .newline)
    {buf : List Out} (hb : NoEsc buf) : output st t buf = buf ++ [.direct t] := by
  rw [output, if_pos h, ht]
  simp only
  rw [if_neg hb]

theorem blank_cons {s : Sym} {l : List Sym} : blank (s :: l) = true ↔ s.isWs = true ∧ blank l = true := by
  simp [blank]

theorem isWs_ne_newline {s : Sym} (h : s.isWs = true) : s ≠ .newline := by
  rintro rfl; simp [Sym.isWs] at h

theorem skipWs_blank {a : List Tok} (h : blank (a.map Tok.sym) = true) {t : Tok}
    (ht : t.sym.isWs = false) (l : List Tok) : skipWs (a ++ t :: l) = t :: l := by
  induction a with
  | nil => simp [skipWs, ht]
  | cons b a ih =>
    rw [List.map_cons, blank_cons] at h
    rw [List.cons_append, skipWs, if_pos h.1, ih h.2]

theorem skipWsOut_blank {st : St} {a : List Tok} (h : blank (a.map Tok.sym) = true) {t : Tok}
    (ht : t.sym.isWs = false) (l : List Tok) (buf : List Out) :
    skipWsOut st (a ++ t :: l) buf =
      (t :: l, if st.ifs.reading then buf ++ (vis a).map .direct else buf) := by
  induction a generalizing buf with
  | nil => simp [skipWsOut, ht, vis]
  | cons b a ih =>
    rw [List.map_cons, blank_cons] at h
    rw [List.cons_append, skipWsOut, if_pos h.1, ih h.2]
    by_cases hr : st.ifs.reading = true
    · rw [if_pos hr, if_pos hr, output_reading hr (isWs_ne_newline h.1)]
      rw [show b :: a = [b] ++ a from rfl, vis_append]
      simp
    · rw [if_neg hr, if_neg hr, output_passing (by simpa using hr)]

theorem expectNothing_blank {a : List Tok} (h : blank (a.map Tok.sym) = true) {t : Tok}
    (ht : t.sym = .newline) (l : List Tok) : expectNothing (a ++ t :: l) = .ok l := by
  induction a with
  | nil => simp [expectNothing, ht]
  | cons b a ih =>
    rw [List.map_cons, blank_cons] at h
    rw [List.cons_append, expectNothing, if_neg, if_pos h.1, ih h.2]
    rintro (h' | h') <;> rw [h'] at h <;> simp [Sym.isWs] at h

theorem skipLine_oneLine {a : List Tok} (h : ∀ t ∈ a, t.sym ≠ .newline) {t : Tok}
    (ht : t.sym = .newline) (l : List Tok) : skipLine (a ++ t :: l) = l := by
  induction a with
  | nil => simp [skipLine, ht]
  | cons b a ih =>
    rw [List.cons_append, skipLine, if_neg (h b (by simp)), ih (fun t ht => h t (by simp [ht]))]

theorem nextWord_blank {a : List Tok} (h : blank (a.map Tok.sym) = true) {t : Tok} {w : Text}
    (ht : t.sym = .word w) (l : List Tok) : nextWord (a ++ t :: l) = .ok (t, l) := by
  rw [nextWord, skipWs_blank h (by rw [ht]; rfl)]
  simp [currentWord, ht, Sym.isWord]

/-- A directive line. -/
theorem line_directive {env st n} {ind : List Tok} (hb : blank (ind.map Tok.sym) = true)
    {h c : Tok} (hh : h.sym = .directive) {w : Text} (hc : c.sym = .word w) {toks : List Tok}
    {buf : List Out} {st' toks' buf'}
    (hcmd : command n env st c toks
      (if st.ifs.reading then buf ++ (vis ind).map .direct else buf) = .ok (st', toks', buf')) :
    line (n + 2) env st (ind ++ h :: c :: toks) buf = .ok (st', toks', buf') := by
  rw [line.eq_def]
  dsimp only
  rw [skipWsOut_blank hb (by rw [hh]; rfl)]
  dsimp only
  rw [directive.eq_def]
  dsimp only
  rw [if_pos hh, if_pos (by rw [hc]; rfl), hcmd]

/-- A line that is no directive is emitted or skipped. -/
theorem line_text {env st n} {ind : List Tok} (hb : blank (ind.map Tok.sym) = true)
    {t : Tok} (hw : t.sym.isWs = false) (hd : t.sym ≠ .directive) {toks : List Tok}
    {buf : List Out} :
    line (n + 2) env st (ind ++ t :: toks) buf =
      if st.ifs.reading then
        match walk (n + 1) env none none false true none st (t :: toks)
          (buf ++ (vis ind).map .direct) with
        | .error e => .error e
        | .ok (st, toks, buf) => .ok ({ st with pragma := st.pragma.clearLine }, toks, buf)
      else .ok ({ st with pragma := st.pragma.clearLine }, skipLine (t :: toks), buf) := by
  rw [line.eq_def]
  dsimp only
  rw [skipWsOut_blank hb hw]
  dsimp only
  rw [directive.eq_def]
  dsimp only
  rw [if_neg hd]
  dsimp only
  by_cases h : st.ifs.reading = true
  · simp only [h, if_true]; rfl
  · simp only [h]; rfl

/-- The macro table contains exactly the macros of the specification. -/
def Agrees (e : Option Entry) : Option Def → Prop
  | none => e = none
  | some .unit => ∃ x, e = some x ∧ x.defn = .unit
  | some (.value b) => ∃ x l, e = some x ∧ x.defn = .value l ∧ l.map Tok.sym = b
  | some .func => ∃ x f, e = some x ∧ x.defn = .function f

/-- The macro table at file level agrees with the macros of the specification. -/
def Rep (d : Defines) (m : Macros) : Prop := d.stack = [] ∧ ∀ k, Agrees (d.global k) (m k)

theorem Rep.isSome {d m} (h : Rep d m) (k : Text) : (d.global k).isSome = (m k).isSome := by
  have := h.2 k
  revert this
  cases m k with
  | none => intro h; simp only [Agrees] at h; simp [h]
  | some x =>
    cases x <;> simp only [Agrees] <;> intro h
    · obtain ⟨x, h, _⟩ := h; simp [h]
    · obtain ⟨x, l, h, _⟩ := h; simp [h]
    · obtain ⟨x, l, h, _⟩ := h; simp [h]

theorem Rep.containsKey {d m} (h : Rep d m) (k : Text) : d.containsKey k = defined m k := by
  rw [Defines.containsKey, h.1, defined, h.isSome k]

/-- Walking over a text line without macros copies it. -/
theorem walk_plain {env st m} (hr : st.ifs.reading = true) (hrep : Rep st.defs m) {nl : Tok}
    (hnl : nl.sym = .newline) (rest : List Tok) (a : List Tok) :
    ∀ (q jw : Bool) (buf : List Out), oneLine (a.map Tok.sym) = true →
      (jw = true → firstSym (a.map Tok.sym) ≠ some .directive) →
      plain m q (a.map Tok.sym) = true →
      NoEsc (buf ++ (vis a).map .direct) →
      walk (a.length + 1) env none none q jw none st (a ++ nl :: rest) buf =
        .ok (st, rest, buf ++ (vis a).map .direct ++ [.direct nl]) := by
  induction a with
  | nil =>
    intro q jw buf _ _ hp he
    have hq : q = false := by simpa [plain] using hp
    subst hq
    have he' : NoEsc buf := by simpa [vis] using he
    rw [List.nil_append, walk.eq_def]
    simp only [hnl]
    rw [if_pos trivial, output_newline hr hnl he']
    simp [vis]
  | cons t a ih =>
    intro q jw buf ho hj hp he
    have ho' : (t.sym ≠ .newline ∧ t.sym ≠ .eoi) ∧ oneLine (a.map Tok.sym) = true := by
      simpa [oneLine] using ho
    have hbuf : buf ++ (vis (t :: a)).map Out.direct =
        output st t buf ++ (vis a).map Out.direct := by
      rw [output_reading hr ho'.1.1, show t :: a = [t] ++ a from rfl, vis_append]
      simp
    rw [hbuf] at he ⊢
    have key : ∀ q' jw', (jw' = true → firstSym (a.map Tok.sym) ≠ some .directive) →
        plain m q' (a.map Tok.sym) = true →
        walk (a.length + 1) env none none q' jw' none st (a ++ nl :: rest)
          (closeQuote st none (output st t buf)) =
        .ok (st, rest, output st t buf ++ (vis a).map .direct ++ [.direct nl]) :=
      fun q' jw' h1 h2 => ih q' jw' _ ho'.2 h1 h2 he
    rw [List.length_cons, List.cons_append, walk.eq_def]
    dsimp only
    obtain ⟨s, p⟩ := t
    simp only [List.map_cons] at hp hj ho'
    cases s
    case newline => simp at ho'
    case eoi => simp at ho'
    case word w =>
      cases q
      · simp only [plain, Bool.and_eq_true, Bool.not_eq_true', Option.isNone_iff_eq_none] at hp
        obtain ⟨⟨⟨h1, h2⟩, h3⟩, h4⟩ := hp
        have hx : w ≠ kw "__EXEC" := by
          rintro rfl; revert h2; decide +kernel
        have hc : st.defs.containsKey w = false := by
          rw [hrep.containsKey, defined, h1, h3]; rfl
        simp only
        rw [if_neg hx, if_neg (by simpa [isUnsupportedBuiltin] using h2), if_neg (by simp [hc])]
        exact key _ _ (by simp) h4
      · simp only [plain] at hp
        exact key _ _ (by simp) hp
    case directive =>
      have hf : jw = false := by
        cases jw with
        | false => rfl
        | true => exact absurd (by simp [firstSym, Sym.isWs]) (hj rfl)
      subst hf
      cases q
      · simp only [plain] at hp
        simp only
        rw [if_neg (by simp), if_neg (by simp)]
        exact key _ _ (by simp) hp
      · simp only [plain] at hp
        exact key _ _ (by simp) hp
    case dquote =>
      simp only [plain] at hp
      exact key _ _ (by simp) hp
    case space =>
      simp only [plain] at hp
      exact key _ _ (by simpa [firstSym, Sym.isWs] using hj) hp
    case tab =>
      simp only [plain] at hp
      exact key _ _ (by simpa [firstSym, Sym.isWs] using hj) hp
    all_goals
      simp only [plain] at hp
      exact key _ _ (by simp) hp

end Verif.Preproc
