import Verif.Model.Processed
import Verif.Spec.Processed
/-!
Lemmas for C33 and C34: what appending a token or a macro use does to the text and the source map.
-/
namespace Verif.Processed
open Verif.Preproc Spec

theorem sourceOf_some {read p path p' i} (h : sourceOf read p path = some (p', i)) :
    ∃ more, p' = { p with sources := p.sources ++ more } ∧ p'.sources[i]? = some path ∧
      (p.sources.Nodup → p'.sources.Nodup) := by
  unfold sourceOf at h
  split at h
  · rename_i j hj
    simp only [Option.some.injEq, Prod.mk.injEq] at h
    obtain ⟨rfl, rfl⟩ := h
    refine ⟨[], by simp, ?_, id⟩
    rw [List.findIdx?_eq_some_iff_getElem] at hj
    obtain ⟨hlt, h1, _⟩ := hj
    simp only [decide_eq_true_eq] at h1
    rw [List.getElem?_eq_getElem hlt, h1]
  · rename_i hj
    split at h
    · simp at h
    · simp only [Option.some.injEq, Prod.mk.injEq] at h
      obtain ⟨rfl, rfl⟩ := h
      refine ⟨[path], rfl, by simp, fun hn => ?_⟩
      rw [List.findIdx?_eq_none_iff] at hj
      refine List.nodup_append.2 ⟨hn, by simp, ?_⟩
      intro a ha b hb
      simp only [List.mem_singleton] at hb
      subst hb
      simpa using hj a ha

theorem quoteStack_eq (s : List Char) (t : Tok) : (quoteStack s t).reverse = openQuotes s.reverse t := by
  obtain rfl | ⟨s, c, rfl⟩ := s.eq_nil_or_concat
  · unfold quoteStack openQuotes
    cases t.sym <;> simp
  · simp only [List.concat_eq_append, List.reverse_append, List.reverse_cons, List.reverse_nil, List.nil_append,
      List.singleton_append]
    unfold quoteStack
    by_cases h1 : t.sym = .dquote
    · by_cases h2 : c = '"'
      · simp [openQuotes, h1, h2]
      · have : openQuotes (c :: s.reverse) t = '"' :: c :: s.reverse := by
          unfold openQuotes; split <;> simp_all
        simp [this, h1, h2]
    · by_cases h3 : t.sym = .squote
      · by_cases h2 : c = '\''
        · by_cases h4 : t.pos.start.offset = t.pos.stop.offset <;> simp [openQuotes, h3, h2, h4]
        · have : openQuotes (c :: s.reverse) t = '\'' :: c :: s.reverse := by
            unfold openQuotes; split <;> simp_all
          simp [this, h3, h2]
      · have : openQuotes (c :: s.reverse) t = c :: s.reverse := by
          unfold openQuotes; split <;> simp_all
        simp [this, h1, h3]

/-- The entry's range contains the offset. -/
def Mapping.has (x : Nat) (m : Mapping) : Bool := m.start.offset ≤ x && m.stop.offset > x

/-- What is found among the entries `ms` for a character at `x`. -/
structure Found (ms : List Mapping) (x : Nat) (ch : Ch) : Prop where
  last : ∃ m, (ms.filter (·.has x)).getLast? = some m ∧ m.token = ch.uses.getLastD ch.tok ∧
    (m.wasMacro = true ↔ ch.uses ≠ [])
  uses : ((ms.filter (·.has x)).filter (·.wasMacro)).map (·.token) = ch.uses
  own : ∃ m ∈ ms, m.has x = true ∧ m.wasMacro = false ∧ m.token = ch.tok

/-- What appending does to the state, given the characters it is to write. -/
structure Step (p p' : P) (l : List Ch) : Prop where
  output : p'.output = p.output ++ l.map (·.c)
  total : p'.total = p.total + l.length
  maps : ∃ ms, p'.mappings = p.mappings ++ ms ∧ (∀ m ∈ ms, p.total ≤ m.start.offset) ∧
    (∀ m ∈ ms, m.wasMacro = true → m.stop.offset ≤ p'.total) ∧
    ∀ i ch, l[i]? = some ch → Found ms (p.total + i) ch

theorem appendToken_step {read p t p'} (h : appendToken read p t = .ok p') :
    Step p p' (label p.stack.reverse (.direct t)).2 ∧ p'.stack.reverse = (label p.stack.reverse (.direct t)).1 := by
  simp only [label, ← quoteStack_eq]
  unfold appendToken at h
  split at h
  · simp at h
  rename_i p1 src hs
  obtain ⟨more, rfl, -, -⟩ := sourceOf_some hs
  dsimp only at h
  split at h
  · rename_i hn
    simp only [Except.ok.injEq] at h
    subst h
    have hw : written (quoteStack p.stack t).reverse t = ['\n'] := by simp [written, hn, Sym.text]
    rw [hw]
    refine ⟨⟨rfl, rfl, _, rfl, by simp, by simp, ?_⟩, rfl⟩
    intro i ch hi
    obtain _ | i := i
    · simp only [List.map_cons, List.map_nil, List.getElem?_cons_zero, Option.some.injEq] at hi
      subst hi
      refine ⟨⟨_, by simp [Mapping.has]; rfl, rfl, by simp⟩, by simp [Mapping.has], _, List.mem_singleton_self _,
        by simp [Mapping.has], rfl, rfl⟩
    · simp at hi
  · split at h
    · rename_i he
      simp only [Except.ok.injEq] at h
      subst h
      have hw : written (quoteStack p.stack t).reverse t = [] := by simp [written, he]
      rw [hw]
      exact ⟨⟨by simp, rfl, [], by simp, by simp, by simp, by simp⟩, rfl⟩
    · split at h
      · rename_i he
        simp only [Except.ok.injEq] at h
        subst h
        have hw : written (quoteStack p.stack t).reverse t = [] := by simp [written, he.1, he.2]
        rw [hw]
        exact ⟨⟨by simp, rfl, [], by simp, by simp, by simp, by simp⟩, rfl⟩
      · rename_i h1 h2
        simp only [Except.ok.injEq] at h
        subst h
        have hw : written (quoteStack p.stack t).reverse t = t.sym.text := by
          simp only [written, List.reverse_eq_nil_iff]; rw [if_neg h2]
        rw [hw]
        refine ⟨⟨by simp [Function.comp_def], by simp, _, rfl, by simp, by simp, ?_⟩, rfl⟩
        intro i ch hi
        simp only [List.getElem?_map, Option.map_eq_some_iff] at hi
        obtain ⟨c, hc, rfl⟩ := hi
        have hlt := (List.getElem?_eq_some_iff.1 hc).1
        have hh : Mapping.has (p.total + i) ⟨src, ⟨p.total, p.line, p.col⟩,
            ⟨p.total + t.sym.text.length + t.sym.text.length, p.line,
              p.col + t.sym.text.length + t.sym.text.length⟩, t, false⟩ = true := by
          simp [Mapping.has]; omega
        refine ⟨⟨_, by rw [List.filter_cons_of_pos hh]; rfl, rfl, by simp⟩, ?_, _, List.mem_singleton_self _, hh, rfl,
          rfl⟩
        rw [List.filter_cons_of_pos hh]
        simp

theorem Step.nil (p : P) : Step p p [] := ⟨by simp, by simp, [], by simp, by simp, by simp, by simp⟩

theorem Step.append {p p1 p2 l1 l2} (h1 : Step p p1 l1) (h2 : Step p1 p2 l2) : Step p p2 (l1 ++ l2) := by
  obtain ⟨o1, t1, m1, e1, s1, w1, f1⟩ := h1
  obtain ⟨o2, t2, m2, e2, s2, w2, f2⟩ := h2
  refine ⟨by simp [o2, o1], by simp [t2, t1]; omega, m1 ++ m2, by simp [e2, e1], ?_, ?_, ?_⟩
  · intro m hm
    rcases List.mem_append.1 hm with hm | hm
    · exact s1 m hm
    · have := s2 m hm; omega
  · intro m hm hw
    rcases List.mem_append.1 hm with hm | hm
    · have := w1 m hm hw; omega
    · exact w2 m hm hw
  · intro i ch hi
    by_cases hlt : i < l1.length
    · rw [List.getElem?_append_left hlt] at hi
      obtain ⟨hl, hu, m, hm, ho⟩ := f1 i ch hi
      have hnil : m2.filter (·.has (p.total + i)) = [] := by
        rw [List.filter_eq_nil_iff]
        intro m hm
        have := s2 m hm
        simp only [Mapping.has, Bool.and_eq_true, decide_eq_true_eq, not_and_or]
        left; omega
      refine ⟨?_, ?_, m, List.mem_append_left _ hm, ho⟩
      · rw [List.filter_append, hnil, List.append_nil]; exact hl
      · rw [List.filter_append, hnil, List.append_nil]; exact hu
    · rw [List.getElem?_append_right (by omega)] at hi
      have hx : p.total + i = p1.total + (i - l1.length) := by omega
      rw [hx]
      obtain ⟨⟨l, hl, hl'⟩, hu, m, hm, ho⟩ := f2 _ ch hi
      refine ⟨⟨l, ?_, hl'⟩, ?_, m, List.mem_append_right _ hm, ho⟩
      · rw [List.filter_append, List.getLast?_append, hl]; rfl
      · rw [List.filter_append, List.filter_append, List.map_append, hu]
        have : (m1.filter (·.has (p1.total + (i - l1.length)))).filter (·.wasMacro) = [] := by
          rw [List.filter_filter, List.filter_eq_nil_iff]
          intro m hm
          simp only [Mapping.has, Bool.and_eq_true, decide_eq_true_eq]
          rintro ⟨hw, -, h⟩
          have := w1 m hm hw
          omega
        rw [this]; rfl

mutual
theorem appendOut_step {read p p'} : ∀ (o : Out), appendOut read p o = .ok p' →
    Step p p' (label p.stack.reverse o).2 ∧ p'.stack.reverse = (label p.stack.reverse o).1
  | .direct t, h => by
    rw [appendOut] at h
    exact appendToken_step h
  | .mac r o, h => by
    rw [appendOut] at h
    split at h
    · simp at h
    rename_i p1 h1
    have ih := appendOutput_step o h1
    split at h
    · simp at h
    rename_i p2 src hs
    obtain ⟨more, rfl, -, -⟩ := sourceOf_some hs
    simp only [Except.ok.injEq] at h
    subst h
    simp only [label]
    refine ⟨?_, ih.2⟩
    obtain ⟨o1, t1, ms, e1, s1, w1, f1⟩ := ih.1
    refine ⟨by simp [o1, Function.comp_def], by simp [t1], ms ++ [_], by rw [e1, List.append_assoc], ?_, ?_, ?_⟩
    · intro m hm
      rcases List.mem_append.1 hm with hm | hm
      · exact s1 m hm
      · simp only [List.mem_singleton] at hm; subst hm; exact Nat.le_refl _
    · intro m hm hw
      rcases List.mem_append.1 hm with hm | hm
      · exact w1 m hm hw
      · simp only [List.mem_singleton] at hm; subst hm; exact Nat.le_refl _
    · intro i ch hi
      simp only [List.getElem?_map, Option.map_eq_some_iff] at hi
      obtain ⟨ch, hc, rfl⟩ := hi
      have hlt := (List.getElem?_eq_some_iff.1 hc).1
      obtain ⟨⟨l, hl, hl'⟩, hu, m, hm, ho⟩ := f1 i ch hc
      have hh : Mapping.has (p.total + i) ⟨src, ⟨p.total, p.line, p.col⟩, ⟨p1.total, p1.line, p1.col⟩, r, true⟩ = true := by
        simp [Mapping.has]; omega
      refine ⟨⟨⟨src, ⟨p.total, p.line, p.col⟩, ⟨p1.total, p1.line, p1.col⟩, r, true⟩, ?_, ?_, ?_⟩, ?_, m,
        List.mem_append_left _ hm, ho⟩
      · rw [List.filter_append, List.filter_cons_of_pos hh]
        simp only [List.filter_nil, List.getLast?_append, List.getLast?_singleton, Option.some_or]
      · simp
      · simp
      · rw [List.filter_append, List.filter_cons_of_pos hh, List.filter_append, List.map_append, hu]
        simp
theorem appendOutput_step {read p p'} : ∀ (l : List Out), appendOutput read p l = .ok p' →
    Step p p' (labels p.stack.reverse l).2 ∧ p'.stack.reverse = (labels p.stack.reverse l).1
  | [], h => by
    rw [appendOutput] at h
    simp only [Except.ok.injEq] at h
    subst h
    simp only [labels]
    exact ⟨Step.nil p, trivial⟩
  | o :: l, h => by
    rw [appendOutput] at h
    split at h
    · simp at h
    rename_i p1 h1
    have i1 := appendOut_step o h1
    have i2 := appendOutput_step l h
    simp only [labels, ← i1.2]
    exact ⟨i1.1.append i2.1, i2.2⟩
end

/-! ### Sources -/

/-- Every entry names its token's file, and no file is listed twice. -/
structure Srcs (p : P) : Prop where
  nodup : p.sources.Nodup
  ok : ∀ m ∈ p.mappings, p.sources[m.source]? = some m.token.pos.path

theorem Srcs.more {p more} (h : Srcs p) (hn : (p.sources ++ more).Nodup) :
    Srcs { p with sources := p.sources ++ more } := by
  refine ⟨hn, fun m hm => ?_⟩
  have := h.ok m hm
  exact (List.getElem?_append_left (List.getElem?_eq_some_iff.1 this).1).trans this

theorem Srcs.push {p p' m} (h : Srcs p) (hs : p'.sources = p.sources) (hm : p'.mappings = p.mappings ++ [m])
    (hi : p.sources[m.source]? = some m.token.pos.path) : Srcs p' := by
  refine ⟨hs ▸ h.nodup, fun x hx => ?_⟩
  rw [hm, List.mem_append, List.mem_singleton] at hx
  rw [hs]
  rcases hx with hx | rfl
  · exact h.ok x hx
  · exact hi

theorem appendToken_srcs {read p t p'} (hp : Srcs p) (h : appendToken read p t = .ok p') : Srcs p' := by
  unfold appendToken at h
  split at h
  · simp at h
  rename_i p1 src hs
  obtain ⟨more, rfl, hi, hn⟩ := sourceOf_some hs
  have hp1 := hp.more (hn hp.nodup)
  dsimp only at h
  split at h
  · simp only [Except.ok.injEq] at h
    subst h
    exact hp1.push rfl rfl hi
  · split at h
    · simp only [Except.ok.injEq] at h
      subst h
      exact ⟨hp1.nodup, hp1.ok⟩
    · split at h
      · simp only [Except.ok.injEq] at h
        subst h
        exact ⟨hp1.nodup, hp1.ok⟩
      · simp only [Except.ok.injEq] at h
        subst h
        exact hp1.push rfl rfl hi

mutual
theorem appendOut_srcs {read p p'} (hp : Srcs p) : ∀ (o : Out), appendOut read p o = .ok p' → Srcs p'
  | .direct t, h => by
    rw [appendOut] at h
    exact appendToken_srcs hp h
  | .mac r o, h => by
    rw [appendOut] at h
    split at h
    · simp at h
    rename_i p1 h1
    have ih := appendOutput_srcs hp o h1
    split at h
    · simp at h
    rename_i p2 src hs
    obtain ⟨more, rfl, hi, hn⟩ := sourceOf_some hs
    simp only [Except.ok.injEq] at h
    subst h
    exact (ih.more (hn ih.nodup)).push rfl rfl hi
theorem appendOutput_srcs {read p p'} (hp : Srcs p) : ∀ (l : List Out), appendOutput read p l = .ok p' → Srcs p'
  | [], h => by
    rw [appendOutput] at h
    simp only [Except.ok.injEq] at h
    exact h ▸ hp
  | o :: l, h => by
    rw [appendOutput] at h
    split at h
    · simp at h
    rename_i p1 h1
    exact appendOutput_srcs (appendOut_srcs hp o h1) l h
end

/-! ### Lines and columns -/

theorem lineOf_append (a b : Text) : lineOf (a ++ b) = lineOf a + lineOf b := List.count_append

theorem colOf_append {a b : Text} (h : '\n' ∉ b) : colOf (a ++ b) = colOf a + b.length := by
  unfold colOf
  rw [List.reverse_append, List.takeWhile_append_of_pos]
  · simp; omega
  · intro c hc
    simp only [ne_eq, decide_not, Bool.not_eq_eq_eq_not, Bool.not_true, decide_eq_false_iff_not]
    rintro rfl
    exact h (List.mem_reverse.1 hc)

theorem colOf_newline (a : Text) : colOf (a ++ ['\n']) = 0 := by
  simp [colOf]

/-- A recorded place is that of the offset in the text. -/
def At (s : Text) (l : LineCol) : Prop :=
  l.offset ≤ s.length ∧ l.line = lineOf (s.take l.offset) ∧ l.col = colOf (s.take l.offset)

theorem At.append {s l} (h : At s l) (t : Text) : At (s ++ t) l := by
  obtain ⟨h1, h2, h3⟩ := h
  refine ⟨by simp; omega, ?_, ?_⟩ <;> rw [List.take_append_of_le_length h1] <;> assumption

/-- Recorded places are those of the text. -/
structure Places (p : P) : Prop where
  total : p.total = p.output.length
  line : p.line = lineOf p.output
  col : p.col = colOf p.output
  start : ∀ m ∈ p.mappings, At p.output m.start
  stop : ∀ m ∈ p.mappings, m.wasMacro = true → At p.output m.stop

theorem Places.here {p} (h : Places p) : At p.output ⟨p.total, p.line, p.col⟩ := by
  refine ⟨by simp [h.total], ?_, ?_⟩ <;> simp [h.total, h.line, h.col]

theorem Places.congr {p p'} (h : Places p) (h1 : p'.output = p.output) (h2 : p'.total = p.total)
    (h3 : p'.line = p.line) (h4 : p'.col = p.col) (h5 : p'.mappings = p.mappings) : Places p' :=
  ⟨by rw [h1, h2, h.total], by rw [h1, h3, h.line], by rw [h1, h4, h.col], by rw [h1, h5]; exact h.start,
    by rw [h1, h5]; exact h.stop⟩

theorem appendToken_places {read p t p'} (hp : Places p) (hc : Clean (.direct t))
    (h : appendToken read p t = .ok p') : Places p' := by
  unfold appendToken at h
  split at h
  · simp at h
  rename_i p1 src hs
  obtain ⟨more, rfl, -, -⟩ := sourceOf_some hs
  dsimp only at h
  split at h
  · simp only [Except.ok.injEq] at h
    subst h
    refine ⟨by simp [hp.total], by simp [hp.line, lineOf_append]; rfl, (colOf_newline _).symm, ?_, ?_⟩
    · intro m hm
      simp only [List.mem_append, List.mem_singleton] at hm
      rcases hm with hm | rfl
      · exact (hp.start m hm).append _
      · exact hp.here.append _
    · intro m hm hw
      simp only [List.mem_append, List.mem_singleton] at hm
      rcases hm with hm | rfl
      · exact (hp.stop m hm hw).append _
      · simp at hw
  · rename_i hnl
    split at h
    · simp only [Except.ok.injEq] at h
      subst h
      exact hp.congr rfl rfl rfl rfl rfl
    · split at h
      · simp only [Except.ok.injEq] at h
        subst h
        exact hp.congr rfl rfl rfl rfl rfl
      · simp only [Except.ok.injEq] at h
        subst h
        have hno : '\n' ∉ t.sym.text := by rw [Clean] at hc; exact hc hnl
        refine ⟨by simp [hp.total], ?_, ?_, ?_, ?_⟩
        · simp only [lineOf_append, hp.line]
          rw [show lineOf t.sym.text = 0 from List.count_eq_zero.2 hno]; rfl
        · simp only [colOf_append hno, hp.col]
        · intro m hm
          simp only [List.mem_append, List.mem_singleton] at hm
          rcases hm with hm | rfl
          · exact (hp.start m hm).append _
          · exact hp.here.append _
        · intro m hm hw
          simp only [List.mem_append, List.mem_singleton] at hm
          rcases hm with hm | rfl
          · exact (hp.stop m hm hw).append _
          · simp at hw

mutual
theorem appendOut_places {read p p'} (hp : Places p) : ∀ (o : Out), Clean o → appendOut read p o = .ok p' → Places p'
  | .direct t, hc, h => by
    rw [appendOut] at h
    exact appendToken_places hp hc h
  | .mac r o, hc, h => by
    rw [appendOut] at h
    rw [Clean] at hc
    split at h
    · simp at h
    rename_i p1 h1
    have ih := appendOutput_places hp o hc h1
    have st := (appendOutput_step o h1).1
    split at h
    · simp at h
    rename_i p2 src hs
    obtain ⟨more, rfl, hi, hn⟩ := sourceOf_some hs
    simp only [Except.ok.injEq] at h
    subst h
    refine ⟨ih.total, ih.line, ih.col, ?_, ?_⟩
    · intro m hm
      simp only [List.mem_append, List.mem_singleton] at hm
      rcases hm with hm | rfl
      · exact ih.start m hm
      · have := hp.here.append ((labels p.stack.reverse o).2.map (·.c))
        rw [← st.output] at this
        exact this
    · intro m hm hw
      simp only [List.mem_append, List.mem_singleton] at hm
      rcases hm with hm | rfl
      · exact ih.stop m hm hw
      · exact ih.here
theorem appendOutput_places {read p p'} (hp : Places p) :
    ∀ (l : List Out), CleanL l → appendOutput read p l = .ok p' → Places p'
  | [], _, h => by
    rw [appendOutput] at h
    simp only [Except.ok.injEq] at h
    exact h ▸ hp
  | o :: l, hc, h => by
    rw [appendOutput] at h
    rw [CleanL] at hc
    split at h
    · simp at h
    rename_i p1 h1
    exact appendOutput_places (appendOut_places hp o hc.1 h1) l hc.2 h
end

/-! ### Failure -/

mutual
/-- The paths of the tokens of an element. -/
def paths : Out → List Text
  | .direct t => [t.pos.path]
  | .mac r o => r.pos.path :: pathsL o
/-- The paths of the tokens of a list of elements. -/
def pathsL : List Out → List Text
  | [] => []
  | o :: l => paths o ++ pathsL l
end

theorem sourceOf_ne_none {read p path} (h : (read path).isSome) : sourceOf read p path ≠ none := by
  unfold sourceOf
  split
  · simp
  · split
    · simp_all
    · simp

theorem appendToken_ok {read p t} (h : (read t.pos.path).isSome) : ∃ p', appendToken read p t = .ok p' := by
  unfold appendToken
  split
  · rename_i hs; exact absurd hs (sourceOf_ne_none h)
  · dsimp only
    split
    · exact ⟨_, rfl⟩
    · split
      · exact ⟨_, rfl⟩
      · split <;> exact ⟨_, rfl⟩

mutual
theorem appendOut_ok {read p} : ∀ (o : Out), (∀ x ∈ paths o, (read x).isSome) → ∃ p', appendOut read p o = .ok p'
  | .direct t, h => by
    rw [appendOut]
    exact appendToken_ok (h _ (by simp [paths]))
  | .mac r o, h => by
    rw [appendOut]
    obtain ⟨p1, h1⟩ := appendOutput_ok (read := read) (p := p) o fun x hx => h x (by simp [paths, hx])
    rw [h1]
    dsimp only
    split
    · rename_i hs; exact absurd hs (sourceOf_ne_none (h _ (by simp [paths])))
    · exact ⟨_, rfl⟩
theorem appendOutput_ok {read p} :
    ∀ (l : List Out), (∀ x ∈ pathsL l, (read x).isSome) → ∃ p', appendOutput read p l = .ok p'
  | [], _ => ⟨p, by rw [appendOutput]⟩
  | o :: l, h => by
    rw [appendOutput]
    obtain ⟨p1, h1⟩ := appendOut_ok (read := read) (p := p) o fun x hx => h x (by simp [pathsL, hx])
    rw [h1]
    exact appendOutput_ok l fun x hx => h x (by simp [pathsL, hx])
end

/-! ### Character spans -/

theorem bytesOf_append (a b : Text) : bytesOf (a ++ b) = bytesOf a ++ bytesOf b := List.flatMap_append

theorem length_bytesOf (s : Text) : (bytesOf s).length = (s.map Char.utf8Size).sum := by
  induction s with
  | nil => rfl
  | cons c s ih =>
    simp only [bytesOf, List.flatMap_cons, List.length_append, String.length_utf8EncodeChar, List.map_cons,
      List.sum_cons]
    simp only [bytesOf] at ih
    rw [ih]

theorem realOffset_eq (s : Text) (p n : Nat) : realOffset s p n = (bytesOf (s.take (n - p))).length := by
  induction s generalizing p with
  | nil => simp [realOffset, bytesOf]
  | cons c s ih =>
    rw [realOffset, ih]
    split
    · rename_i h
      obtain ⟨k, hk⟩ : ∃ k, n - p = k + 1 := ⟨n - p - 1, by omega⟩
      rw [hk, List.take_succ_cons, show n - (p + 1) = k by omega]
      simp [bytesOf]
    · rename_i h
      rw [show n - p = 0 by omega, show n - (p + 1) = 0 by omega]
      simp [bytesOf]

/-- The first byte of a character is never a continuation byte. -/
theorem encode_head (c : Char) : ∃ x l, String.utf8EncodeChar c = x :: l ∧ (x < 0x80 ∨ 0xC0 ≤ x) := by
  unfold String.utf8EncodeChar
  dsimp only
  split
  · refine ⟨_, _, rfl, Or.inl ?_⟩
    rw [UInt8.lt_iff_toNat_lt, UInt8.toNat_ofNat']
    show _ < 128
    omega
  · split
    · refine ⟨_, _, rfl, Or.inr ?_⟩
      rw [UInt8.le_iff_toNat_le, UInt8.toNat_ofNat']
      show 192 ≤ _
      omega
    · split
      · refine ⟨_, _, rfl, Or.inr ?_⟩
        rw [UInt8.le_iff_toNat_le, UInt8.toNat_ofNat']
        show 192 ≤ _
        omega
      · refine ⟨_, _, rfl, Or.inr ?_⟩
        rw [UInt8.le_iff_toNat_le, UInt8.toNat_ofNat']
        show 192 ≤ _
        omega

theorem isBoundary_append (a b : Text) : isBoundary (bytesOf (a ++ b)) (bytesOf a).length = true := by
  rw [bytesOf_append]
  cases b with
  | nil => simp [isBoundary, bytesOf]
  | cons c b =>
    obtain ⟨x, l, hx, hb⟩ := encode_head c
    have : (bytesOf a ++ bytesOf (c :: b))[(bytesOf a).length]? = some x := by
      rw [List.getElem?_append_right (Nat.le_refl _)]
      simp [bytesOf, hx]
    simp only [isBoundary, this, Option.any_some, Bool.or_eq_true, decide_eq_true_eq]
    tauto

theorem isBoundary_take (s : Text) (n : Nat) : isBoundary (bytesOf s) (bytesOf (s.take n)).length = true := by
  have := isBoundary_append (s.take n) (s.drop n)
  rwa [List.take_append_drop] at this

theorem bytesOf_length_pos {s : Text} (h : s ≠ []) : 0 < (bytesOf s).length := by
  obtain ⟨c, s, rfl⟩ := List.exists_cons_of_ne_nil h
  obtain ⟨x, l, hx, -⟩ := encode_head c
  simp [bytesOf, hx]

theorem bytesOf_take_lt {s : Text} {i j : Nat} (h : i < j) (hi : i < s.length) :
    (bytesOf (s.take i)).length < (bytesOf (s.take j)).length := by
  have : s.take j = s.take i ++ (s.take j).drop i := by
    conv => lhs; rw [← List.take_append_drop i (s.take j)]
    rw [List.take_take, Nat.min_eq_left (by omega)]
  rw [this, bytesOf_append, List.length_append]
  have hp := bytesOf_length_pos (s := (s.take j).drop i) (by
    intro h0
    have := congrArg List.length h0
    simp at this
    omega)
  omega

/-- Slicing between two character positions. -/
theorem slice_take {s : Text} {i j : Nat} (h : i ≤ j) :
    slice (bytesOf s) (bytesOf (s.take i)).length (bytesOf (s.take j)).length = .ok (bytesOf ((s.take j).drop i)) := by
  have e : s.take j = s.take i ++ (s.take j).drop i := by
    conv => lhs; rw [← List.take_append_drop i (s.take j)]
    rw [List.take_take, Nat.min_eq_left h]
  have el : (bytesOf (s.take j)).length = (bytesOf (s.take i)).length + (bytesOf ((s.take j).drop i)).length := by
    conv => lhs; rw [e]
    rw [bytesOf_append, List.length_append]
  rw [slice, if_pos ⟨by omega, isBoundary_take s i, isBoundary_take s j⟩]
  have es : s = s.take i ++ ((s.take j).drop i ++ s.drop j) := by
    rw [← List.append_assoc, ← e, List.take_append_drop]
  have eb : bytesOf s = bytesOf (s.take i) ++ (bytesOf ((s.take j).drop i) ++ bytesOf (s.drop j)) := by
    conv => lhs; rw [es]
    rw [bytesOf_append, bytesOf_append]
  rw [el, eb, List.drop_left, Nat.add_sub_cancel_left, List.take_left]

end Verif.Processed
