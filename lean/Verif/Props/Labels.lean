import Verif.Model.Labels
import Verif.Props.Processed
/-!
C103: where the codes that are found in the preprocessed text point to in the sources.
-/
namespace Verif.Labels
open Verif.Preproc Verif.Processed Verif.Processed.Spec

/-- What the project wrote for a character: the outermost macro use it comes from, or else its own token. -/
def writtenAs (ch : Ch) : Tok := (ch.uses.getLast?).getD ch.tok

theorem strLen_le (s : Text) : s.length ≤ strLen s := by
  unfold strLen
  rw [length_bytesOf]
  induction s with
  | nil => simp
  | cons c s ih =>
    have := Char.utf8Size_pos c
    simp only [List.length_cons, List.map_cons, List.sum_cons]
    omega

theorem length_origin {read out p} (h : new read out = .ok p) : (origin out).length = p.output.length := by
  rw [(C33_text h).1, List.length_map]

/-- The label between two characters. -/
theorem label_of {read out p} (h : new read out = .ok p) {a b : Nat} {x y : Ch}
    (hx : (origin out)[a]? = some x) (hy : (origin out)[b]? = some y) :
    fromCodeProcessed p a b =
      some ⟨(writtenAs x).pos.path, (writtenAs x).pos.start.offset, (writtenAs y).pos.start.offset⟩ := by
  have ha : a < p.output.length := by
    rw [← length_origin h]
    exact (List.getElem?_eq_some_iff.1 hx).1
  have hl := strLen_le p.output
  obtain ⟨m, hm, -, -, tm, -, sm⟩ := C33_mapping_correct h hx
  obtain ⟨n, hn, -, -, tn, -, -⟩ := C33_mapping_correct h hy
  unfold fromCodeProcessed
  rw [if_neg (by omega)]
  simp only [hm, hn, sm]
  rw [tm, tn]
  rfl

/-- **C103**. A code about characters `a` up to `b`, where `b` is still a character of the text, is always shown. Its
label is in the file of what was written for the first character, begins where that was written, and ends where the thing
that gave character `b` was written. -/
theorem C103_placed {read out p} (h : new read out = .ok p) {a b : Nat} (hab : a ≤ b) (hb : b < p.output.length) :
    ∃ x y, (origin out)[a]? = some x ∧ (origin out)[b]? = some y ∧ fromCodeProcessed p a b =
      some ⟨(writtenAs x).pos.path, (writtenAs x).pos.start.offset, (writtenAs y).pos.start.offset⟩ := by
  rw [← length_origin h] at hb
  have hx := List.getElem?_eq_getElem (l := origin out) (show a < _ by omega)
  have hy := List.getElem?_eq_getElem hb
  exact ⟨_, _, hx, hy, label_of h hx hy⟩

/-! ### Tokens of one file -/

/-- Tokens that were written one after the other in the file `path`, the first one at byte `off`. -/
def Follow (path : Text) : Nat → List Tok → Prop
  | _, [] => True
  | off, t :: l => t.pos.path = path ∧ t.pos.start.offset = off ∧ Follow path (off + strLen t.sym.text) l

/-- The text of tokens. -/
def texts (l : List Tok) : Text := l.flatMap (·.sym.text)

theorem texts_append (l m : List Tok) : texts (l ++ m) = texts l ++ texts m := List.flatMap_append

theorem texts_cons (t : Tok) (l : List Tok) : texts (t :: l) = t.sym.text ++ texts l := rfl

theorem strLen_append (a b : Text) : strLen (a ++ b) = strLen a + strLen b := by
  simp [strLen, bytesOf_append]

theorem Follow.at {path : Text} : ∀ {l : List Tok} {off : Nat} {t : Tok} {r : List Tok}, Follow path off (l ++ t :: r) →
    t.pos.path = path ∧ t.pos.start.offset = off + strLen (texts l)
  | [], off, t, r, h => ⟨h.1, by rw [h.2.1]; rfl⟩
  | u :: l, off, t, r, h => by
    obtain ⟨e1, e2⟩ := Follow.at (l := l) h.2.2
    refine ⟨e1, ?_⟩
    rw [e2, texts_cons, strLen_append]
    omega

theorem labels_direct : ∀ (l : List Tok) (q : List Char), (∀ t ∈ l, t.sym.text ≠ ['#', '#']) →
    (labels q (l.map .direct)).2 = l.flatMap fun t => t.sym.text.map (⟨·, t, []⟩)
  | [], _, _ => rfl
  | t :: l, q, h => by
    rw [List.map_cons, labels, List.flatMap_cons]
    show (label q (.direct t)).2 ++ (labels (label q (.direct t)).1 (l.map .direct)).2 = _
    rw [labels_direct l _ fun u hu => h u (List.mem_cons_of_mem _ hu)]
    congr 1
    rw [label, written, if_neg fun e => h t (List.mem_cons_self) e.1]

theorem origin_direct {l : List Tok} (h : ∀ t ∈ l, t.sym.text ≠ ['#', '#']) :
    origin (l.map .direct) = l.flatMap fun t => t.sym.text.map (⟨·, t, []⟩) := labels_direct l [] h

theorem length_chars (l : List Tok) :
    (l.flatMap fun t => t.sym.text.map (⟨·, t, []⟩ : Char → Ch)).length = (texts l).length := by
  simp [texts, List.length_flatMap]

/-- The character at which a token of the text begins. -/
theorem origin_at {l r : List Tok} {t : Tok} (h : ∀ u ∈ l ++ t :: r, u.sym.text ≠ ['#', '#']) (hn : t.sym.text ≠ []) :
    ∃ c, (origin ((l ++ t :: r).map .direct))[(texts l).length]? = some ⟨c, t, []⟩ := by
  rw [origin_direct h, List.flatMap_append, List.getElem?_append_right (by rw [length_chars]), length_chars,
    Nat.sub_self, List.flatMap_cons]
  cases e : t.sym.text with
  | nil => exact absurd e hn
  | cons c s => exact ⟨c, rfl⟩

theorem drop_take_bytes {α} (p m r : List α) : ((p ++ (m ++ r)).drop p.length).take m.length = m := by
  simp

/-- **C103**. Where the text comes from one file without macros, a code about some of its tokens, with another one after
them, is shown at exactly these tokens: the bytes of the file in the range of the label are the text of the span. -/
theorem C103_exact {read : Text → Option Text} {path before after : Text} {l m r : List Tok} {t : Tok} {p : P}
    (hd : ∀ u ∈ l ++ m ++ t :: r, u.sym.text ≠ ['#', '#']) (hn : ∀ u ∈ l ++ m ++ t :: r, u.sym.text ≠ [])
    (hp : Follow path (strLen before) (l ++ m ++ t :: r))
    (h : new read ((l ++ m ++ t :: r).map .direct) = .ok p) :
    ∃ i j, fromCodeProcessed p (texts l).length (texts (l ++ m)).length = some ⟨path, i, j⟩ ∧
      ((bytesOf (before ++ texts (l ++ m ++ t :: r) ++ after)).drop i).take (j - i) = bytesOf (texts m) ∧
      (p.output.take (texts (l ++ m)).length).drop (texts l).length = texts m := by
  obtain ⟨y, hy⟩ := origin_at hd (hn t (by simp))
  have ⟨e1, e2⟩ := hp.at
  have hout : p.output = texts (l ++ m ++ t :: r) := by
    rw [(C33_text h).1, origin_direct hd, texts, List.map_flatMap]
    congr 1
    funext u
    rw [List.map_map]
    exact List.map_id _
  have ht : (p.output.take (texts (l ++ m)).length).drop (texts l).length = texts m := by
    rw [hout, texts_append _ (t :: r), List.take_left', texts_append, List.drop_left']
    · rfl
    · rfl
  have hx : ∃ x, (origin ((l ++ m ++ t :: r).map .direct))[(texts l).length]? = some x ∧
      (writtenAs x).pos.path = path ∧ (writtenAs x).pos.start.offset = strLen before + strLen (texts l) := by
    cases m with
    | nil =>
      rw [List.append_nil] at hy e2
      refine ⟨_, by simpa using hy, ?_, ?_⟩
      · exact e1
      · exact e2
    | cons u m =>
      have er : l ++ u :: m ++ t :: r = l ++ u :: (m ++ t :: r) := by simp
      rw [er] at hd hn hp ⊢
      obtain ⟨x, hx⟩ := origin_at hd (hn u (by simp))
      exact ⟨_, hx, hp.at.1, hp.at.2⟩
  obtain ⟨x, hx, x1, x2⟩ := hx
  refine ⟨_, _, label_of h hx hy |>.trans (by rw [x1]), ?_, ht⟩
  show ((bytesOf _).drop (writtenAs x).pos.start.offset).take (t.pos.start.offset - (writtenAs x).pos.start.offset) = _
  rw [x2, e2, texts_append l m, strLen_append]
  have e3 : before ++ texts (l ++ m ++ t :: r) ++ after =
      (before ++ texts l) ++ (texts m ++ (texts (t :: r) ++ after)) := by
    simp [texts_append]
  have e4 : strLen before + strLen (texts l) = (bytesOf (before ++ texts l)).length := by
    rw [← strLen_append]; rfl
  have e5 : strLen before + (strLen (texts l) + strLen (texts m)) - (strLen before + strLen (texts l)) =
      (bytesOf (texts m)).length := by
    show _ = strLen (texts m)
    omega
  rw [e3, e5, e4, bytesOf_append (before ++ texts l), bytesOf_append (texts m)]
  exact drop_take_bytes _ _ _

/-! ### The end of the text -/

/-- **C103**. A code at the end of an ASCII text (`a..b` with `a` the length of the text) is shown at what was written
for the last character. -/
theorem C103_eof {read out p} (h : new read out = .ok p) (hne : p.output ≠ []) (ha : ∀ c ∈ p.output, c.utf8Size = 1)
    (b : Nat) : ∃ x, (origin out).getLast? = some x ∧ fromCodeProcessed p p.output.length b =
      some ⟨(writtenAs x).pos.path, (writtenAs x).pos.start.offset, (writtenAs x).pos.start.offset⟩ := by
  have hl : strLen p.output = p.output.length := by
    unfold strLen
    rw [length_bytesOf, List.map_congr_left (g := fun _ => 1) ha, List.map_const', List.sum_replicate_nat, Nat.mul_one]
  have hpos := List.length_pos_iff.2 hne
  have hx := List.getElem?_eq_getElem (l := origin out) (i := p.output.length - 1) (by rw [length_origin h]; omega)
  refine ⟨_, by rw [List.getLast?_eq_getElem?, length_origin h]; exact hx, ?_⟩
  rw [← label_of h hx hx]
  unfold fromCodeProcessed
  rw [if_pos hl.symm, if_neg (by omega), hl]

mutual
/-- The entry of a token reaches as far past the token as the token is long, that of a line break ends with it. This is
how far entries reach past the end of the text at most, after an element, if it was `r` before. -/
def reach (r : Nat) : Out → Nat
  | .direct t =>
    if t.sym = .newline then r - 1
    else if t.sym.text = ['#', '#'] then max r 2
    else max (r - t.sym.text.length) t.sym.text.length
  | .mac _ o => reachL r o
/-- The same for a list of elements. -/
def reachL (r : Nat) : List Out → Nat
  | [] => r
  | o :: l => reachL (reach r o) l
end

/-- No entry reaches more than `k` past the end of the text. -/
def Within (k : Nat) (p : P) : Prop := ∀ m ∈ p.mappings, m.stop.offset ≤ p.total + k

theorem appendToken_within {read p t p' k} (hp : Within k p) (h : appendToken read p t = .ok p') :
    Within (reach k (.direct t)) p' := by
  unfold appendToken at h
  split at h
  · simp at h
  rename_i p1 src hs
  obtain ⟨more, rfl, -⟩ := sourceOf_some hs
  dsimp only at h
  rw [reach]
  split at h
  · rename_i hn
    injection h with h
    subst h
    rw [if_pos hn]
    intro m hm
    rcases List.mem_append.1 hm with hm | hm
    · have := hp m hm
      show _ ≤ p.total + 1 + (k - 1)
      omega
    · rw [List.mem_singleton.1 hm]
      show p.total + 1 ≤ p.total + 1 + (k - 1)
      omega
  rename_i hn
  rw [if_neg hn]
  split at h
  · rename_i h0
    injection h with h
    subst h
    intro m hm
    have := hp m hm
    show _ ≤ p.total + _
    rw [h0, if_neg (by simp)]
    simp only [List.length_nil]
    omega
  split at h
  · rename_i hd
    injection h with h
    subst h
    rw [if_pos hd.1]
    intro m hm
    have := hp m hm
    show _ ≤ p.total + _
    omega
  · rename_i h0 hd
    injection h with h
    subst h
    intro m hm
    split
    · rename_i e
      have el : t.sym.text.length = 2 := by rw [e]; rfl
      show _ ≤ p.total + t.sym.text.length + _
      rcases List.mem_append.1 hm with hm | hm
      · have := hp m hm
        omega
      · rw [List.mem_singleton.1 hm]
        show p.total + t.sym.text.length + t.sym.text.length ≤ _
        omega
    · show _ ≤ p.total + t.sym.text.length + _
      rcases List.mem_append.1 hm with hm | hm
      · have := hp m hm
        omega
      · rw [List.mem_singleton.1 hm]
        show p.total + t.sym.text.length + t.sym.text.length ≤ _
        omega

mutual
theorem appendOut_within {read k p p'} (hp : Within k p) : ∀ (o : Out), appendOut read p o = .ok p' →
    Within (reach k o) p'
  | .direct t, h => by
    rw [appendOut] at h
    exact appendToken_within hp h
  | .mac r o, h => by
    rw [appendOut] at h
    split at h
    · simp at h
    rename_i p1 h1
    have w := appendOutput_within hp o h1
    split at h
    · simp at h
    rename_i p2 src hs
    obtain ⟨more, rfl, -⟩ := sourceOf_some hs
    injection h with h
    subst h
    rw [reach]
    intro m hm
    rcases List.mem_append.1 hm with hm | hm
    · exact w m hm
    · rw [List.mem_singleton.1 hm]
      exact Nat.le_add_right _ _
theorem appendOutput_within {read k p p'} (hp : Within k p) : ∀ (l : List Out), appendOutput read p l = .ok p' →
    Within (reachL k l) p'
  | [], h => by
    rw [appendOutput] at h
    injection h with h
    subst h
    rw [reachL]
    exact hp
  | o :: l, h => by
    rw [appendOutput] at h
    split at h
    · simp at h
    rename_i p1 h1
    rw [reachL]
    exact appendOutput_within (appendOut_within hp o h1) l h
end

theorem appendOutput_append {read} : ∀ {p p' : P} (l m : List Out), appendOutput read p (l ++ m) = .ok p' →
    ∃ p1, appendOutput read p l = .ok p1 ∧ appendOutput read p1 m = .ok p'
  | p, p', [], m, h => ⟨p, by rw [appendOutput], h⟩
  | p, p', o :: l, m, h => by
    rw [List.cons_append, appendOutput] at h
    rw [appendOutput]
    split at h
    · simp at h
    · exact appendOutput_append l m h

theorem silent {read out p} (hs : reachL 0 out = 0) (h : new read out = .ok p) {i : Nat} (hi : p.output.length ≤ i) :
    p.mappingAt i = none := by
  have w := appendOutput_within (k := 0) (p := {}) (fun _ hm => by cases hm) out h
  rw [hs] at w
  rw [← (C33_text h).2.1] at hi
  unfold P.mappingAt P.mappingsAt
  rw [List.getLast?_eq_none_iff, List.filter_eq_nil_iff]
  intro m hm
  have := w m hm
  simp only [Bool.and_eq_true, decide_eq_true_eq, not_and]
  omega

/-- **C103**, what does not hold of the code: a code about the text up to its very end has no diagnostic, and is not
shown, unless some token near the end is longer than what follows it. It is not where the text ends with `;` and a line
break. -/
theorem C103_silent_end {read out p} (hs : reachL 0 out = 0) (h : new read out = .ok p) {a b : Nat} (ha : a < p.output.length) (hb : p.output.length ≤ b) :
    fromCodeProcessed p a b = none := by
  have hl := strLen_le p.output
  unfold fromCodeProcessed
  rw [if_neg (by omega)]
  dsimp only
  rw [silent hs h hb]
  split <;> simp_all

/-- **C103**, what does not hold of the code: a code at the end of such a text is not shown if there is any character
outside of ASCII in the text. -/
theorem C103_silent_eof {read out p} (hs : reachL 0 out = 0) (h : new read out = .ok p) {c : Char} (hc : c ∈ p.output) (h1 : 1 < c.utf8Size) (b : Nat) :
    fromCodeProcessed p p.output.length b = none := by
  have hl : p.output.length < strLen p.output := by
    obtain ⟨u, v, e⟩ := List.append_of_mem hc
    have hu := strLen_le u
    have hv := strLen_le v
    have hcl : strLen (c :: v) = c.utf8Size + strLen v := by
      unfold strLen
      rw [length_bytesOf, length_bytesOf]
      simp
    rw [e, strLen_append, hcl]
    simp only [List.length_append, List.length_cons]
    omega
  unfold fromCodeProcessed
  rw [if_neg (by omega)]
  dsimp only
  rw [silent hs h (Nat.le_refl _)]

/-- A last token that writes something: the entry found behind the end of the text is its own. -/
theorem after_last {read out} {t : Tok} {p} (hn : t.sym ≠ .newline) (h0 : t.sym.text ≠ []) (hd : t.sym.text ≠ ['#', '#'])
    {q : P} (h : appendOutput read q (out ++ [.direct t]) = .ok p) :
    ∃ ms m, p.mappings = ms ++ [m] ∧ m.token = t ∧ m.start.offset ≤ p.total ∧ p.total < m.stop.offset := by
  obtain ⟨p1, -, h2⟩ := appendOutput_append _ _ h
  rw [appendOutput, appendOut] at h2
  split at h2
  · simp at h2
  rename_i p2 h3
  rw [appendOutput] at h2
  injection h2 with h2
  subst h2
  unfold appendToken at h3
  split at h3
  · simp at h3
  rename_i p4 src hs
  dsimp only at h3
  rw [if_neg hn, if_neg h0, if_neg fun e => hd e.1] at h3
  injection h3 with h3
  subst h3
  refine ⟨_, _, rfl, rfl, Nat.le_add_right _ _, ?_⟩
  have := List.length_pos_iff.2 h0
  show p4.total + t.sym.text.length < p4.total + t.sym.text.length + t.sym.text.length
  omega

/-- **C103**, what does not hold of the code: a label for text up to the very end does not cover the last token. It ends
where that token begins. -/
theorem C103_last_token {read out} {t : Tok} {p} (hn : t.sym ≠ .newline) (h0 : t.sym.text ≠ []) (hd : t.sym.text ≠ ['#', '#'])
    (h : new read (out ++ [.direct t]) = .ok p) {a : Nat} {x : Ch} (hx : (origin (out ++ [.direct t]))[a]? = some x) :
    fromCodeProcessed p a p.output.length =
      some ⟨(writtenAs x).pos.path, (writtenAs x).pos.start.offset, t.pos.start.offset⟩ := by
  have ha : a < p.output.length := by
    rw [← length_origin h]
    exact (List.getElem?_eq_some_iff.1 hx).1
  have hl := strLen_le p.output
  obtain ⟨s, hm, -, -, ts, -, ss⟩ := C33_mapping_correct h hx
  obtain ⟨ms, m, e, et, e1, e2⟩ := after_last hn h0 hd h
  have hend : p.mappingAt p.output.length = some m := by
    unfold P.mappingAt P.mappingsAt
    rw [← (C33_text h).2.1, e, List.filter_append, List.filter_cons_of_pos (by simp; omega)]
    simp
  unfold fromCodeProcessed
  rw [if_neg (by omega)]
  simp only [hm, hend, ss]
  rw [ts, et]
  rfl

/-- **C103**, what does not hold of the code: if the text ends with the use of a macro, a label for text up to the very
end ends at the place where the last token of the macro was defined, which may be in another file. -/
theorem C103_last_macro {read out o r} {t : Tok} {p} (hn : t.sym ≠ .newline) (h0 : t.sym.text ≠ []) (hd : t.sym.text ≠ ['#', '#'])
    (h : new read (out ++ [.mac r (o ++ [.direct t])]) = .ok p) {a : Nat} {x : Ch}
    (hx : (origin (out ++ [.mac r (o ++ [.direct t])]))[a]? = some x) :
    fromCodeProcessed p a p.output.length =
      some ⟨(writtenAs x).pos.path, (writtenAs x).pos.start.offset, t.pos.start.offset⟩ := by
  have ha : a < p.output.length := by
    rw [← length_origin h]
    exact (List.getElem?_eq_some_iff.1 hx).1
  have hl := strLen_le p.output
  obtain ⟨s, hm, -, -, ts, -, ss⟩ := C33_mapping_correct h hx
  obtain ⟨p1, -, h2⟩ := appendOutput_append _ _ h
  rw [appendOutput, appendOut] at h2
  split at h2
  · simp at h2
  rename_i p2 h3
  rw [appendOutput] at h2
  injection h2 with h2
  subst h2
  split at h3
  · simp at h3
  rename_i p5 h5
  split at h3
  · simp at h3
  rename_i p6 src hs
  obtain ⟨more, rfl, -⟩ := sourceOf_some hs
  obtain ⟨ms, m, e, et, e1, e2⟩ := after_last hn h0 hd h5
  injection h3 with h3
  have htot : p2.output.length = p5.total := by
    rw [← (C33_text h).2.1, ← h3]
  have hend : p2.mappingAt p2.output.length = some m := by
    unfold P.mappingAt P.mappingsAt
    rw [htot, ← h3]
    dsimp only
    rw [e, List.filter_append, List.filter_append, List.filter_cons_of_pos (by simp; omega),
      List.filter_cons_of_neg (by simp)]
    simp
  unfold fromCodeProcessed
  rw [if_neg (by omega)]
  simp only [hm, hend, ss]
  rw [ts, et]
  rfl

/-! ### Examples -/

/-- A token of the file `f` at a byte of it. -/
def tk (s : Sym) (n : Nat) : Tok := ⟨s, ⟨⟨n, 0, n⟩, ⟨n + strLen s.text, 0, n + strLen s.text⟩, ['f']⟩⟩

/-- The files that are read. -/
def rd : Text → Option Text := fun _ => some []

/-- The label for a span of some text. -/
def labelIn (out : List Out) (a b : Nat) : Option Label :=
  match new rd out with
  | .ok p => fromCodeProcessed p a b
  | .error _ => none

/-- `é ab c`, where the file begins with one more byte. -/
def word6 : List Tok :=
  [tk (.unicode ['é']) 1, tk .newline 3, tk (.word ['a', 'b']) 4, tk .newline 6, tk (.word ['c']) 7]

example : Follow ['f'] (strLen ['x']) word6 ∧ (∀ u ∈ word6, u.sym.text ≠ ['#', '#'] ∧ u.sym.text ≠ []) := by
  refine ⟨?_, by decide +kernel⟩
  simp only [word6, Follow]
  decide +kernel

/-- Tokens three and four. -/
example : labelIn (word6.map .direct) 2 5 = some ⟨['f'], 4, 7⟩ := by decide +kernel

/-- All of it: the label leaves out the last token. -/
example : labelIn (word6.map .direct) 0 6 = some ⟨['f'], 1, 7⟩ := by decide +kernel

/-- The end of an ASCII text, and of one with another character. -/
example : labelIn [.direct (tk (.word ['a']) 0), .direct (tk .newline 1)] 2 2 = some ⟨['f'], 1, 1⟩ := by decide +kernel
example : labelIn [.direct (tk (.unicode ['é']) 0), .direct (tk .newline 2)] 2 2 = none := by decide +kernel

/-- A text that ends with a macro: its last token is at byte 40, before the use at byte 90. -/
example : labelIn [.mac (tk (.word ['M']) 90) [.direct (tk (.word ['x', 'y']) 40)]] 0 2 = some ⟨['f'], 90, 40⟩ := by
  decide +kernel

/-- The text `é; ⏎`: nothing reaches past its end. -/
example : reachL 0 [.direct (tk (.unicode ['é']) 0), .direct (tk (.word [';']) 2), .direct (tk .space 3),
    .direct (tk .newline 4)] = 0 ∧ 1 < 'é'.utf8Size := by
  simp only [reachL, reach]
  decide +kernel

end Verif.Labels
