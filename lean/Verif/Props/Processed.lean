import Verif.Lib.Processed
/-!
C33: the source map of the preprocessed text. C34: text by character span.
-/
namespace Verif.Processed
open Verif.Preproc Spec

/-! ## C33 -/

theorem new_step {read out p} (h : new read out = .ok p) : Step {} p (origin out) := (appendOutput_step out h).1

theorem new_mappings {read out p} (h : new read out = .ok p) {i ch} (hi : (origin out)[i]? = some ch) :
    Found p.mappings i ch := by
  obtain ⟨-, -, ms, e, -, -, f⟩ := new_step h
  have := f i ch hi
  rw [e]
  simpa using this

/-- **C33**. For every character of the preprocessed text the lookup finds an entry whose range contains the
character's offset. It is the entry of the outermost macro use the character comes from if there is one, and
otherwise that of the very token that wrote the character; and it names the file of that token. -/
theorem C33_mapping_correct {read out p} (h : new read out = .ok p) {i : Nat} {ch : Ch}
    (hi : (origin out)[i]? = some ch) :
    ∃ m, p.mappingAt i = some m ∧ m.start.offset ≤ i ∧ i < m.stop.offset ∧
      m.token = (ch.uses.getLast?).getD ch.tok ∧ (m.wasMacro = true ↔ ch.uses ≠ []) ∧
      p.sources[m.source]? = some m.token.pos.path := by
  obtain ⟨⟨m, hm, h1, h2⟩, -, -⟩ := new_mappings h hi
  have hmem := List.mem_of_getLast? hm
  rw [List.mem_filter] at hmem
  have hs := (appendOutput_srcs (p := {}) ⟨List.nodup_nil, by simp⟩ out h).ok m hmem.1
  have hh := hmem.2
  simp only [Mapping.has, Bool.and_eq_true, decide_eq_true_eq] at hh
  exact ⟨m, hm, hh.1, hh.2, by rw [h1, List.getLastD_eq_getLast?], h2, hs⟩

/-- **C33**. The text is made of exactly the characters the tokens write, in order, and the lookup finds nothing
only beyond the end of the text. -/
theorem C33_text {read out p} (h : new read out = .ok p) :
    p.output = (origin out).map (·.c) ∧ p.total = p.output.length ∧
      ∀ i, p.mappingAt i = none → p.output.length ≤ i := by
  have st := new_step h
  have ho : p.output = (origin out).map (·.c) := by rw [st.output]; rfl
  refine ⟨ho, by rw [st.total, ho]; simp, fun i hi => ?_⟩
  by_contra hlt
  rw [ho, List.length_map, not_le] at hlt
  obtain ⟨m, hm, -⟩ := C33_mapping_correct h (List.getElem?_eq_getElem hlt)
  rw [hi] at hm
  simp at hm

/-- **C33**. Among all the entries at a character's offset, those that stand for macro uses are exactly the uses the
character comes from, the innermost first; and the token that wrote the character has an entry too. -/
theorem C33_macro_uses {read out p} (h : new read out = .ok p) {i : Nat} {ch : Ch}
    (hi : (origin out)[i]? = some ch) :
    ((p.mappingsAt i).filter (·.wasMacro)).map (·.token) = ch.uses ∧
      ∃ m ∈ p.mappingsAt i, m.wasMacro = false ∧ m.token = ch.tok := by
  obtain ⟨-, hu, m, hm, h1, h2, h3⟩ := new_mappings h hi
  exact ⟨hu, m, List.mem_filter.2 ⟨hm, h1⟩, h2, h3⟩

/-- **C33**. The line and the column recorded for the start of an entry are those of its offset in the text, provided
that only newline tokens have a newline in their text; for a macro use the same holds of its end. No file is listed
twice. -/
theorem C33_lines {read out p} (h : new read out = .ok p) (hc : CleanL out) :
    p.sources.Nodup ∧ ∀ m ∈ p.mappings,
      m.start.line = lineOf (p.output.take m.start.offset) ∧ m.start.col = colOf (p.output.take m.start.offset) ∧
      (m.wasMacro = true → m.stop.line = lineOf (p.output.take m.stop.offset) ∧
        m.stop.col = colOf (p.output.take m.stop.offset)) := by
  have hp := appendOutput_places (p := {}) ⟨rfl, rfl, rfl, by simp, by simp⟩ out hc h
  exact ⟨(appendOutput_srcs (p := {}) ⟨List.nodup_nil, by simp⟩ out h).nodup, fun m hm =>
    ⟨(hp.start m hm).2.1, (hp.start m hm).2.2, fun hw => (hp.stop m hm hw).2⟩⟩

/-- **C33**. Building the map never fails when the files of all tokens can be read. -/
theorem C33_total {read : Text → Option Text} {out} (h : ∀ x ∈ pathsL out, (read x).isSome) :
    ∃ p, new read out = .ok p := appendOutput_ok out h

/-- Two files, a macro use inside a macro use, a string with `##` in it, and `##` outside. -/
def sampleTok (s : Sym) (n : Nat) (path : String) : Tok := ⟨s, ⟨⟨n, 0, n⟩, ⟨n + 1, 0, n + 1⟩, path.toList⟩⟩

def sampleOut : List Out :=
  [.direct (sampleTok (.word ['a']) 0 "x"), .direct (sampleTok .newline 1 "x"),
   .mac (sampleTok (.word ['M']) 2 "x")
     [.direct (sampleTok (.word ['b', 'c']) 7 "y"), .direct (sampleTok .join 8 "y"),
      .mac (sampleTok (.word ['N']) 9 "y") [.direct (sampleTok (.word ['é']) 3 "y")]],
   .direct (sampleTok .dquote 4 "x"), .direct (sampleTok .join 5 "x"), .direct (sampleTok .dquote 6 "x")]

example : CleanL sampleOut := by
  simp [sampleOut, CleanL, Clean, sampleTok, Sym.text]

/-- What is looked up in a finished map. -/
def look {α} (out : List Out) (f : P → α) : Option α :=
  match new (fun _ => some []) out with
  | .ok p => some (f p)
  | .error _ => none

example : look sampleOut (·.output) = some "a\nbcé\"##\"".toList := by decide +kernel
example : look sampleOut (fun p => (p.mappingAt 4).map (·.token)) = some (some (sampleTok (.word ['M']) 2 "x")) := by
  decide +kernel
example : look sampleOut (fun p => ((p.mappingsAt 4).filter (·.wasMacro)).map (·.token)) =
    some [sampleTok (.word ['N']) 9 "y", sampleTok (.word ['M']) 2 "x"] := by decide +kernel
example : look sampleOut (fun p => (p.mappingAt 6).map (·.token)) = some (some (sampleTok .join 5 "x")) := by
  decide +kernel
example : look sampleOut (·.sources) = some ["x".toList, "y".toList] := by decide +kernel

/-- **C33**, what is not so: the list of all entries at an offset. For a text whose first token writes anything
but a newline and is followed by another token, the entries at the first character after the first token include the
first token, which did not write it. -/
theorem C33_mappings_overshoot {read : Text → Option Text} {t u : Tok} {rest : List Out} {p : P}
    (h : new read (.direct t :: .direct u :: rest) = .ok p) (ht : t.sym.text ≠ []) (hn : t.sym ≠ .newline)
    (hj : t.sym.text ≠ ['#', '#']) :
    ∃ m ∈ p.mappingsAt t.sym.text.length, m.token = t ∧ m.wasMacro = false := by
  unfold new at h
  rw [appendOutput, appendOut] at h
  split at h
  · simp at h
  rename_i p1 h1
  obtain ⟨ms, e⟩ : ∃ ms, p.mappings = p1.mappings ++ ms := by
    obtain ⟨-, -, ms, e, -⟩ := (appendOutput_step _ h).1
    exact ⟨ms, e⟩
  unfold appendToken at h1
  split at h1
  · simp at h1
  rename_i p2 src hs
  obtain ⟨more, rfl, -, -⟩ := sourceOf_some hs
  dsimp only at h1
  rw [if_neg hn, if_neg ht, if_neg (fun hh => hj hh.1)] at h1
  simp only [Except.ok.injEq] at h1
  subst h1
  have hpos := List.length_pos_iff.2 ht
  refine ⟨⟨src, ⟨0, 0, 0⟩, ⟨0 + t.sym.text.length + t.sym.text.length, 0,
    0 + t.sym.text.length + t.sym.text.length⟩, t, false⟩, List.mem_filter.2 ⟨?_, ?_⟩, rfl, rfl⟩
  · rw [e]; exact List.mem_append_left _ (List.mem_append_right _ (List.mem_singleton_self _))
  · simp; omega

example : look [.direct (sampleTok (.word ['a', 'b']) 0 "x"), .direct (sampleTok .lparen 2 "x")]
    (fun p => (p.mappingsAt 2).map (·.token.sym)) = some [.word ['a', 'b'], .lparen] := by decide +kernel

/-! ## C34 -/

/-- **C34**. Text taken by a span of characters is exactly the characters of the span that exist, as UTF-8; a
character is never split. It panics only for a span whose end lies before its start and before the end of the text. -/
theorem C34_extract (s : Text) (start stop : Nat) :
    extract s start stop =
      if start ≤ stop ∨ s.length ≤ stop then .ok (bytesOf ((s.take stop).drop start)) else .error .panic := by
  unfold extract
  split
  · rename_i h
    subst h
    rw [if_pos (Or.inl (Nat.le_refl _))]
    simp [bytesOf]
  rename_i hne
  rw [realOffset_eq, realOffset_eq, Nat.sub_zero, Nat.sub_zero]
  by_cases h : start ≤ stop
  · rw [if_pos (Or.inl h), slice_take h]
  · by_cases h2 : s.length ≤ stop
    · rw [if_pos (Or.inr h2)]
      have e1 : s.take start = s.take stop := by
        rw [List.take_of_length_le h2, List.take_of_length_le (by omega)]
      rw [e1, slice_take (Nat.le_refl _), List.drop_of_length_le (l := s.take stop) (by simp),
        List.drop_of_length_le (l := s.take stop) (by simp; omega)]
    · rw [if_neg (by omega), slice, if_neg]
      have := bytesOf_take_lt (s := s) (i := stop) (j := start) (by omega) (by omega)
      omega

/-- **C34**. Text taken from an offset on is exactly the characters from there on; it never panics. -/
theorem C34_extract_from (s : Text) (start : Nat) : extractFrom s start = .ok (bytesOf (s.drop start)) := by
  unfold extractFrom
  rw [realOffset_eq, Nat.sub_zero]
  by_cases h : start ≤ s.length
  · have := slice_take (s := s) h
    rwa [List.take_length] at this
  · have e : s.take start = s.take s.length := by
      rw [List.take_length, List.take_of_length_le (by omega)]
    rw [e]
    have := slice_take (s := s) (Nat.le_refl s.length)
    rw [List.take_length, List.drop_of_length_le (Nat.le_refl _)] at this
    rw [List.take_length, this, List.drop_of_length_le (by omega)]

/-- **C34**. The byte offset of a character is the number of bytes before it, for a text below 4 GiB; the characters
from there on are what the text holds from that byte on. -/
theorem C34_byte_offset (s : Text) (offset : Nat) (h : (bytesOf s).length < 2 ^ 32) :
    (bytesOf s).drop (byteOffset s offset).toNat = bytesOf (s.drop offset) ∧
      (byteOffset s offset).toNat = (bytesOf (s.take offset)).length := by
  have e : bytesOf s = bytesOf (s.take offset) ++ bytesOf (s.drop offset) := by
    rw [← bytesOf_append, List.take_append_drop]
  have hb : (byteOffset s offset).toNat = (bytesOf (s.take offset)).length := by
    unfold byteOffset
    rw [← length_bytesOf, UInt32.toNat_ofNat']
    have := congrArg List.length e
    rw [List.length_append] at this
    apply Nat.mod_eq_of_lt
    omega
  refine ⟨?_, hb⟩
  rw [hb]
  conv => lhs; rw [e]
  rw [List.drop_left]

example : extract "aé∀b".toList 1 3 = .ok (bytesOf "é∀".toList) := by decide +kernel
example : extract "aé∀b".toList 3 1 = .error .panic := by decide +kernel
example : extract "aé∀b".toList 9 7 = .ok [] := by decide +kernel
example : (byteOffset "aé∀b".toList 3).toNat = 6 := by decide +kernel

end Verif.Processed
