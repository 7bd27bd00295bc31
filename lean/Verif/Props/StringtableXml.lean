import Verif.Lib.StringtableXml
/-! C92 to C94: sorting stringtables. -/
namespace Verif.StringtableXml
open Verif.Prefix (trim lines)
open Verif.Stringtable (Lang)
open Spec

/-! ### C92: texts and names -/

/-- `>` written as an entity. -/
def Piece.written : Piece → Piece
  | .char c => if c = '>' then .entity "gt".toList else .char c
  | .entity n => .entity n

theorem singleAmp_plain {t : Text} (h : '&' ∉ t) (r : Text) : singleAmp (t ++ r) = t ++ singleAmp r := by
  induction t with
  | nil => rfl
  | cons c t ih =>
    simp only [List.mem_cons, not_or] at h
    rw [List.cons_append, singleAmp_cons (Ne.symm h.1), ih h.2]
    rfl

theorem singleAmp_gt (r : Text) : singleAmp (gtS ++ r) = gtS ++ singleAmp r := by
  show singleAmpFrom 0 ('&' :: ("gt;".toList ++ r)) = _
  rw [singleAmpFrom, if_neg]
  · show '&' :: singleAmp ("gt;".toList ++ r) = _
    rw [singleAmp_plain (by decide)]
    rfl
  · rintro ⟨x, hx⟩
    have := (List.cons.inj (List.cons.inj hx).2).1
    exact absurd this (by decide)

theorem escaped_append (a b : Text) : textEscape (minEscape (a ++ b)) = textEscape (minEscape a) ++ textEscape (minEscape b) := by
  simp [textEscape, minEscape]

theorem singleAmp_text {t : Text} (h : '<' ∉ t) (h' : '>' ∉ t) (r : Text) :
    singleAmp (textEscape (minEscape t) ++ r) = t ++ singleAmp r := by
  rw [textEscape_minEscape h h']
  induction t with
  | nil => rfl
  | cons c t ih =>
    simp only [List.mem_cons, not_or] at h h'
    by_cases hc : c = '&'
    · subst hc
      rw [serOf_cons_amp, List.append_assoc, singleAmp_amp, ih h.2 h'.2]
      rfl
    · rw [serOf_cons hc, List.cons_append, singleAmp_cons hc, ih h.2 h'.2]
      rfl

theorem singleAmp_pieces {ps : List Piece} (h : ∀ p ∈ ps, p.Ok) (r : Text) :
    singleAmp (textEscape (minEscape (shown ps)) ++ r) = shown (ps.map Piece.written) ++ singleAmp r := by
  induction ps generalizing r with
  | nil => rfl
  | cons p ps ih =>
    have hp := h p (by simp)
    have ih := fun r => ih (fun q hq => h q (by simp [hq])) r
    have e : shown (p :: ps) = p.show ++ shown ps := rfl
    have e' : shown ((p :: ps).map Piece.written) = (Piece.written p).show ++ shown (ps.map Piece.written) := rfl
    rw [e, e', escaped_append, List.append_assoc, List.append_assoc]
    cases p with
    | char c =>
      by_cases hc : c = '>'
      · subst hc
        show singleAmp (gtS ++ _) = gtS ++ _
        rw [singleAmp_gt, ih]
      · have hw : Piece.written (.char c) = .char c := by simp [Piece.written, hc]
        rw [hw, singleAmp_text, ih]
        · simpa [Piece.show] using Ne.symm hp.2
        · simpa [Piece.show] using Ne.symm hc
    | entity n =>
      show _ = Piece.show (.entity n) ++ _
      rw [singleAmp_text, ih]
      · simp only [Piece.show, List.cons_append, List.mem_cons, List.mem_append, not_or]
        exact ⟨by decide, hp.2.1, by decide, by simp⟩
      · simp only [Piece.show, List.cons_append, List.mem_cons, List.mem_append, not_or]
        exact ⟨by decide, hp.2.2.1, by decide, by simp⟩

/-- The lines of an element are lines of the file. -/
theorem element_mem {n : Nat} {a b : Text} {cs : List Text} {x : Text} (h : x ∈ cs) : x ∈ element n a b cs := by
  rw [element_cons (List.ne_nil_of_mem h)]
  simp [h]

mutual
theorem key_mem (e : Text) (n : Nat) {k : Key} : (p : Package) → k ∈ keysOf p → ∃ m, ∀ x ∈ keyLines m k, x ∈ packageLines e n p
  | .mk name ks cs, h => by
    unfold keysOf at h
    rcases List.mem_append.1 h with h | h
    · refine ⟨n + 1, fun x hx => ?_⟩
      unfold packageLines
      exact element_mem (List.mem_append_left _ (List.mem_flatMap.2 ⟨k, h, hx⟩))
    · obtain ⟨m, hm⟩ := keys_mem (n + 1) cs h
      refine ⟨m, fun x hx => ?_⟩
      unfold packageLines
      exact element_mem (List.mem_append_right _ (hm x hx))
theorem keys_mem (n : Nat) {k : Key} : (cs : List Package) → k ∈ keysOfAll cs →
    ∃ m, ∀ x ∈ keyLines m k, x ∈ containerLines n cs
  | [], h => by cases h
  | c :: cs, h => by
    unfold keysOfAll at h
    rcases List.mem_append.1 h with h | h
    · obtain ⟨m, hm⟩ := key_mem containerN n c h
      exact ⟨m, fun x hx => by unfold containerLines; exact List.mem_append_left _ (hm x hx)⟩
    · obtain ⟨m, hm⟩ := keys_mem n cs h
      exact ⟨m, fun x hx => by unfold containerLines; exact List.mem_append_right _ (hm x hx)⟩
end

theorem mem_lines {ls : List Text} {x : Text} (hx : x ∈ ls) (hn : '\n' ∉ x) (hr : x.getLast? ≠ some '\r') :
    x ∈ lines (joinWith '\n' ls ++ ['\n']) := by
  have hs : ∀ a : List Text, a ≠ [] → split '\n' (joinWith '\n' a) = a.flatMap (split '\n') := by
    intro a ha
    induction a with
    | nil => exact absurd rfl ha
    | cons p a ih =>
      cases a with
      | nil => simp [joinWith]
      | cons q a =>
        rw [joinWith, List.flatMap_cons, ← ih (by simp)]
        have : ∀ p r : Text, split '\n' (p ++ '\n' :: r) = split '\n' p ++ split '\n' r := by
          intro p r
          induction p with
          | nil => simp [split]
          | cons c p ihp =>
            rw [List.cons_append, split]
            by_cases hc : c = '\n'
            · rw [if_pos hc, ihp]; conv_rhs => rw [split, if_pos hc]
              rfl
            · rw [if_neg hc, ihp]; conv_rhs => rw [split, if_neg hc]
              cases hsp : split '\n' p with
              | nil => exact absurd hsp (split_ne_nil _ _)
              | cons u us => rfl
        exact this p _
  have hne : ls ≠ [] := List.ne_nil_of_mem hx
  have h1 : joinWith '\n' ls ++ ['\n'] = joinWith '\n' (ls ++ [[]]) := by
    rw [joinWith_append _ hne (by simp)]; rfl
  unfold lines
  rw [h1, hs _ (by simp), List.flatMap_append]
  have : [([] : Text)].flatMap (split '\n') = [[]] := rfl
  rw [this, List.reverse_append]
  simp only [List.reverse_singleton, List.singleton_append, if_true, List.reverse_reverse]
  refine List.mem_map.2 ⟨x, List.mem_flatMap.2 ⟨x, hx, ?_⟩, ?_⟩
  · rw [split_of_not_mem hn]; simp
  · unfold Verif.Prefix.stripCr; rw [if_neg hr]

theorem mem_written (cs : List Comment) {x : Text} {ls : List Text} (h : x ∈ ls) (b : Bool) (k : Option Text) :
    singleAmp x ++ ['\n'] <:+: writeLines cs b k ls := by
  induction ls generalizing b k with
  | nil => cases h
  | cons l ls ih =>
    rw [writeLines]
    rcases List.mem_cons.1 h with rfl | h
    · have aux : ∀ c s rest : Text, s ++ ['\n'] <:+: c ++ s ++ '\n' :: rest := fun c s rest => ⟨c, rest, by simp⟩
      exact aux _ _ _
    · have key : ∀ rest, singleAmp x ++ ['\n'] <:+: rest → ∀ pre : Text, singleAmp x ++ ['\n'] <:+: pre ++ '\n' :: rest := by
        rintro rest ⟨s, t, rfl⟩ pre
        exact ⟨pre ++ '\n' :: s, t, by simp⟩
      apply key
      split
      · exact ih h _ _
      · split
        · exact ih h _ _
        · exact ih h _ _

/-- A line of a key is written to the file. -/
theorem key_written (p : Project) {q : Package} (hq : q ∈ p.data.packages) {k : Key} (hk : k ∈ keysOf q) :
    ∃ n, ∀ x ∈ keyLines n k, '\n' ∉ x → x.getLast? ≠ some '\r' → singleAmp x ++ ['\n'] <:+: toWriter p := by
  obtain ⟨n, hn⟩ := key_mem packageN 1 q hk
  refine ⟨n, fun x hx h1 h2 => ?_⟩
  have hmem : x ∈ element 0 (projectNameS ++ attrEscape p.data.name ++ quoteS) endProjectS
      (p.data.packages.flatMap (packageLines packageN 1)) :=
    element_mem (List.mem_flatMap.2 ⟨q, hq, hn x hx⟩)
  have hl : x ∈ lines (serialize p.data ++ ['\n']) := mem_lines hmem h1 h2
  obtain ⟨s, t, hst⟩ := mem_written p.comments hl false none
  refine ⟨header ++ '\n' :: s, t, ?_⟩
  unfold toWriter
  rw [← hst]
  simp

theorem singleAmp_textLine (n : Nat) (l : Lang) {ps : List Piece} (h : ∀ p ∈ ps, p.Ok) :
    singleAmp (textLine n l (shown ps)) =
      spaces (4 * n) ++ ('<' :: elem l ++ '>' :: shown (ps.map Piece.written) ++ endTag (elem l)) := by
  have q := (elem_plain l).1
  have hi : '&' ∉ indent n := fun h => absurd (List.mem_replicate.1 h).2 (by decide)
  have h1 : '&' ∉ indent n ++ '<' :: elem l ++ ['>'] := by
    simp only [List.mem_append, List.mem_cons, not_or]
    exact ⟨⟨hi, by decide, q⟩, by decide, by simp⟩
  have h2 : '&' ∉ endS ++ elem l ++ ['>'] := by
    simp only [List.mem_append, List.mem_cons, not_or]
    exact ⟨⟨by decide, q⟩, by decide, by simp⟩
  have e : textLine n l (shown ps) = (indent n ++ '<' :: elem l ++ ['>']) ++
      (textEscape (minEscape (shown ps)) ++ (endS ++ elem l ++ ['>'])) := by
    simp [textLine, tag_elem]
  rw [e, singleAmp_plain h1, singleAmp_pieces h]
  have e2 := singleAmp_plain h2 []
  rw [List.append_nil] at e2
  rw [e2]
  simp [indent, spaces, singleAmp, singleAmpFrom, endTag]
  rfl

theorem newline_escape {t : Text} (h : '\n' ∉ t) : '\n' ∉ textEscape (minEscape t) := by
  have key : ∀ u : Text, '\n' ∉ u → '\n' ∉ textEscape u ∧ '\n' ∉ minEscape u := by
    intro u hu
    constructor
    · intro hx
      obtain ⟨c, hc, hx⟩ := List.mem_flatMap.1 hx
      have hcn : c ≠ '\n' := fun e => hu (e ▸ hc)
      split at hx
      · exact absurd hx (by decide)
      · split at hx
        · exact absurd hx (by decide)
        · split at hx
          · exact absurd hx (by decide)
          · exact hcn (List.mem_singleton.1 hx).symm
    · intro hx
      obtain ⟨c, hc, hx⟩ := List.mem_flatMap.1 hx
      have hcn : c ≠ '\n' := fun e => hu (e ▸ hc)
      split at hx
      · exact absurd hx (by decide)
      · split at hx
        · exact absurd hx (by decide)
        · exact hcn (List.mem_singleton.1 hx).symm
  exact (key _ (key t h).2).1

theorem langs_mem (l : Lang) : l ∈ langs := by cases l <;> decide

/-- C92: a text, with whatever entities it has, is written back as a text that says the same, in its element. (Only `>`
is written differently, as `&gt;`.) -/
theorem C92_texts (p : Project) (q : Package) (hq : q ∈ p.data.packages) (k : Key) (hk : k ∈ keysOf q) (l : Lang)
    (ps : List Piece) (hl : k.text l = some (shown ps)) (h : ∀ x ∈ ps, x.Ok) (hn : '\n' ∉ shown ps) :
    ∃ n, ∃ qs : List Piece, (∀ x ∈ qs, x.Ok) ∧
      (∀ ent : Text → Text, ent "gt".toList = [('>' : Char)] → meaning ent qs = meaning ent ps) ∧
      spaces n ++ ('<' :: elem l ++ '>' :: shown qs ++ endTag (elem l)) ++ ['\n'] <:+: toWriter p := by
  obtain ⟨n, hw⟩ := key_written p hq hk
  refine ⟨4 * (n + 1), ps.map Piece.written, ?_, ?_, ?_⟩
  · intro q hq
    obtain ⟨p, hp, rfl⟩ := List.mem_map.1 hq
    have := h p hp
    cases p with
    | char c =>
      by_cases hc : c = '>'
      · simp only [Piece.written, hc, if_true]
        exact ⟨by decide, by decide, by decide, by decide⟩
      · simpa only [Piece.written, hc, if_false] using this
    | entity m => exact this
  · intro ent hent
    unfold meaning
    rw [List.flatMap_map]
    apply List.flatMap_congr
    intro p _
    cases p with
    | char c =>
      by_cases hc : c = '>'
      · simp only [Piece.written, hc, if_true, Piece.meaning]
        exact hent
      · simp only [Piece.written, hc, if_false]
    | entity m => rfl
  · rw [← singleAmp_textLine (n + 1) l h]
    apply hw
    · unfold keyLines
      apply element_mem
      exact List.mem_filterMap.2 ⟨l, langs_mem l, by rw [hl]; rfl⟩
    · have hi : '\n' ∉ indent (n + 1) := fun h => absurd (List.mem_replicate.1 h).2 (by decide)
      have q1 : '\n' ∉ endS := by decide
      have q2 := (elem_plain l).2
      simp only [textLine, tag_elem, List.cons_append, List.append_assoc, List.mem_cons, List.mem_append, not_or]
      exact ⟨hi, by decide, q2, by decide, newline_escape hn, q1, q2, by decide, by simp⟩
    · unfold textLine
      rw [List.getLast?_append_of_ne_nil _ (by simp)]
      decide

/-! Texts over several lines. -/

theorem split_mem_chars {x : Char} : ∀ (s : Text) {y : Text}, y ∈ split x s → ∀ c ∈ y, c ∈ s
  | [], y, h, c, hc => by
    obtain rfl := List.mem_singleton.1 (h : y ∈ [([] : Text)])
    cases hc
  | a :: s, y, h, c, hc => by
    rw [split] at h
    by_cases ha : a = x
    · rw [if_pos ha] at h
      rcases List.mem_cons.1 h with rfl | h
      · cases hc
      · exact List.mem_cons_of_mem _ (split_mem_chars s h c hc)
    · rw [if_neg ha] at h
      cases hs : split x s with
      | nil => exact absurd hs (split_ne_nil _ _)
      | cons u us =>
        rw [hs] at h
        rcases List.mem_cons.1 h with rfl | h
        · rcases List.mem_cons.1 hc with rfl | hc
          · exact List.mem_cons_self
          · exact List.mem_cons_of_mem _ (split_mem_chars s (by rw [hs]; exact List.mem_cons_self) c hc)
        · exact List.mem_cons_of_mem _ (split_mem_chars s (by rw [hs]; exact List.mem_cons_of_mem _ h) c hc)

theorem split_tail {x : Char} {a : Text} (h : x ∉ a) (s : Text) : (split x (a ++ s)).tail = (split x s).tail := by
  induction a with
  | nil => rfl
  | cons c a ih =>
    simp only [List.mem_cons, not_or] at h
    rw [List.cons_append, split, if_neg (Ne.symm h.1)]
    cases hs : split x (a ++ s) with
    | nil => exact absurd hs (split_ne_nil _ _)
    | cons u us => rw [← ih h.2, hs]; rfl

/-- A line of a text with an end: a line of the text, or the last with the end. -/
theorem split_with_end {x : Char} {b : Text} (hb : x ∉ b) : ∀ (e : Text), ∀ y ∈ split x (e ++ b),
    (∀ c ∈ y, c ∈ e) ∨ ∃ u, (∀ c ∈ u, c ∈ e) ∧ y = u ++ b
  | [], y, h => by
    rw [List.nil_append, split_of_not_mem hb] at h
    obtain rfl := List.mem_singleton.1 h
    exact .inr ⟨[], by simp, rfl⟩
  | a :: e, y, h => by
    rw [List.cons_append, split] at h
    by_cases ha : a = x
    · rw [if_pos ha] at h
      rcases List.mem_cons.1 h with rfl | h
      · exact .inl (by simp)
      · rcases split_with_end hb e y h with h | ⟨u, hu, rfl⟩
        · exact .inl fun c hc => List.mem_cons_of_mem _ (h c hc)
        · exact .inr ⟨u, fun c hc => List.mem_cons_of_mem _ (hu c hc), rfl⟩
    · rw [if_neg ha] at h
      cases hs : split x (e ++ b) with
      | nil => exact absurd hs (split_ne_nil _ _)
      | cons v vs =>
        rw [hs] at h
        have ih := fun y hy => split_with_end hb e y (by rw [hs]; exact hy)
        rcases List.mem_cons.1 h with rfl | h
        · rcases ih v (by simp) with h | ⟨u, hu, rfl⟩
          · refine .inl fun c hc => ?_
            rcases List.mem_cons.1 hc with rfl | hc
            · exact List.mem_cons_self
            · exact List.mem_cons_of_mem _ (h c hc)
          · refine .inr ⟨a :: u, fun c hc => ?_, rfl⟩
            rcases List.mem_cons.1 hc with rfl | hc
            · exact List.mem_cons_self
            · exact List.mem_cons_of_mem _ (hu c hc)
        · rcases ih y (by simp [h]) with h | ⟨u, hu, rfl⟩
          · exact .inl fun c hc => List.mem_cons_of_mem _ (h c hc)
          · exact .inr ⟨u, fun c hc => List.mem_cons_of_mem _ (hu c hc), rfl⟩

/-- The lines of a piece stand together in the file. -/
theorem block_lines {ls : List Text} {x : Text} (hx : x ∈ ls) (hr : '\r' ∉ x) :
    split '\n' x <:+: lines (joinWith '\n' ls ++ ['\n']) := by
  have hs : ∀ a : List Text, a ≠ [] → split '\n' (joinWith '\n' a) = a.flatMap (split '\n') := by
    intro a ha
    induction a with
    | nil => exact absurd rfl ha
    | cons p a ih =>
      cases a with
      | nil => simp [joinWith]
      | cons q a =>
        rw [joinWith, List.flatMap_cons, ← ih (by simp)]
        have : ∀ p r : Text, split '\n' (p ++ '\n' :: r) = split '\n' p ++ split '\n' r := by
          intro p r
          induction p with
          | nil => simp [split]
          | cons c p ihp =>
            rw [List.cons_append, split]
            by_cases hc : c = '\n'
            · rw [if_pos hc, ihp]; conv_rhs => rw [split, if_pos hc]
              rfl
            · rw [if_neg hc, ihp]; conv_rhs => rw [split, if_neg hc]
              cases hsp : split '\n' p with
              | nil => exact absurd hsp (split_ne_nil _ _)
              | cons u us => rfl
        exact this p _
  have hne : ls ≠ [] := List.ne_nil_of_mem hx
  have h1 : joinWith '\n' ls ++ ['\n'] = joinWith '\n' (ls ++ [[]]) := by
    rw [joinWith_append _ hne (by simp)]; rfl
  unfold lines
  rw [h1, hs _ (by simp), List.flatMap_append]
  have : [([] : Text)].flatMap (split '\n') = [[]] := rfl
  rw [this, List.reverse_append]
  simp only [List.reverse_singleton, List.singleton_append, if_true, List.reverse_reverse]
  obtain ⟨a, b, rfl⟩ := List.append_of_mem hx
  rw [List.flatMap_append, List.flatMap_cons, List.map_append, List.map_append]
  have hid : (split '\n' x).map Verif.Prefix.stripCr = split '\n' x := by
    conv_rhs => rw [← List.map_id (split '\n' x)]
    apply List.map_congr_left
    intro y hy
    unfold Verif.Prefix.stripCr
    rw [if_neg]
    · rfl
    · intro h
      exact hr (split_mem_chars x hy _ (List.mem_of_getLast? h))
  rw [hid]
  exact ⟨_, _, by rw [List.append_assoc]⟩

theorem prefix_written (cs : List Comment) (xs : List Text) (h : ∀ y ∈ xs, ∀ k, commentsBefore cs k y = []) :
    ∀ (b : Bool) (k : Option Text) (rest : List Text),
      (xs.flatMap fun y => singleAmp y ++ ['\n']) <+: writeLines cs b k (xs ++ rest) := by
  induction xs with
  | nil => intro b k rest; exact List.nil_prefix
  | cons y xs ih =>
    intro b k rest
    rw [List.cons_append, writeLines, List.flatMap_cons]
    simp only [h y (by simp), List.nil_append, List.append_assoc, List.singleton_append]
    rw [List.prefix_append_right_inj, List.cons_prefix_cons]
    refine ⟨rfl, ?_⟩
    have ih := ih (fun z hz => h z (by simp [hz]))
    split
    · exact ih _ _ _
    · split
      · exact ih _ _ _
      · exact ih _ _ _

/-- Lines that stand together are written together, if no comment belongs between them. -/
theorem block_written (cs : List Comment) (x : Text) (xs : List Text) (h : ∀ y ∈ xs, ∀ k, commentsBefore cs k y = [])
    (rest : List Text) : ∀ (pre : List Text) (b : Bool) (k : Option Text),
      ((x :: xs).flatMap fun y => singleAmp y ++ ['\n']) <:+: writeLines cs b k (pre ++ (x :: xs ++ rest))
  | [], b, k => by
    rw [List.nil_append, List.cons_append, writeLines, List.flatMap_cons]
    have key : ∀ b k, (singleAmp x ++ ['\n'] ++ xs.flatMap fun y => singleAmp y ++ ['\n']) <:+:
        singleAmp x ++ '\n' :: writeLines cs b k (xs ++ rest) := by
      intro b k
      have := prefix_written cs xs h b k rest
      rw [List.append_assoc, List.singleton_append]
      exact ((List.prefix_append_right_inj _).2 (List.cons_prefix_cons.2 ⟨rfl, this⟩)).isInfix
    simp only [List.append_assoc]
    refine List.IsInfix.trans ?_ (List.suffix_append _ _).isInfix
    simp only [List.append_assoc] at key
    split
    · exact key _ _
    · split
      · exact key _ _
      · exact key _ _
  | p :: pre, b, k => by
    rw [List.cons_append, writeLines]
    have ih := block_written cs x xs h rest pre
    have key : ∀ r : Text, ((x :: xs).flatMap fun y => singleAmp y ++ ['\n']) <:+: r → ∀ a : Text,
        ((x :: xs).flatMap fun y => singleAmp y ++ ['\n']) <:+: a ++ '\n' :: r := by
      intro r hr a
      exact hr.trans ⟨a ++ ['\n'], [], by simp⟩
    apply key
    split
    · exact ih _ _
    · split
      · exact ih _ _
      · exact ih _ _

theorem prefix_before {p a b : Text} {x : Char} (hp : x ∉ p) (h : p <+: a ++ x :: b) : p <+: a := by
  obtain ⟨t, ht⟩ := h
  rcases List.append_eq_append_iff.1 ht with ⟨q, rfl, _⟩ | ⟨q, rfl, hq⟩
  · exact List.prefix_append _ _
  · cases q with
    | nil => simp
    | cons c q =>
      obtain rfl := (List.cons.inj hq).1
      exact absurd (by simp) hp

theorem singleAmpFrom_newline (b : Text) : ∀ (n : Nat) (a : Text), n ≤ a.length →
    singleAmpFrom n (a ++ '\n' :: b) = singleAmpFrom n a ++ '\n' :: singleAmp b
  | 0, [], _ => by
    show singleAmp ('\n' :: b) = _
    rw [singleAmp_cons (by decide)]
    rfl
  | n + 1, [], h => absurd h (by simp)
  | 0, c :: a, _ => by
    rw [List.cons_append, singleAmpFrom]
    conv_rhs => rw [singleAmpFrom]
    by_cases h : ampAmpS <+: c :: a
    · have h' : ampAmpS <+: c :: (a ++ '\n' :: b) := h.trans ⟨'\n' :: b, by simp⟩
      have hl : 8 ≤ a.length := by
        have := h.length_le
        simp only [List.length_cons] at this
        have e : ampAmpS.length = 9 := by decide
        omega
      rw [if_pos h, if_pos h', singleAmpFrom_newline b 8 a hl]
      rfl
    · have h' : ¬ ampAmpS <+: c :: (a ++ '\n' :: b) := by
        intro h'
        exact h (prefix_before (a := c :: a) (b := b) (x := '\n') (by decide) h')
      rw [if_neg h, if_neg h', singleAmpFrom_newline b 0 a (Nat.zero_le _)]
      rfl
  | n + 1, c :: a, h => by
    rw [List.cons_append, singleAmpFrom]
    conv_rhs => rw [singleAmpFrom]
    exact singleAmpFrom_newline b n a (by simpa using h)

theorem singleAmp_lines : ∀ ls : List Text, ls ≠ [] →
    (ls.flatMap fun y => singleAmp y ++ ['\n']) = singleAmp (joinWith '\n' ls) ++ ['\n']
  | [], h => absurd rfl h
  | [l], _ => by simp [joinWith]
  | l :: m :: ls, _ => by
    rw [List.flatMap_cons, singleAmp_lines (m :: ls) (by simp), joinWith]
    unfold singleAmp
    rw [singleAmpFrom_newline _ 0 l (Nat.zero_le _)]
    simp [singleAmp]

theorem char_escape {x : Char} (h1 : x ∉ ampS) (h2 : x ∉ ltS) (h3 : x ∉ gtS) {t : Text} (h : x ∉ t) :
    x ∉ textEscape (minEscape t) := by
  have key : ∀ u : Text, x ∉ u → x ∉ textEscape u ∧ x ∉ minEscape u := by
    intro u hu
    constructor
    · intro hx
      obtain ⟨c, hc, hx⟩ := List.mem_flatMap.1 hx
      have hcn : c ≠ x := fun e => hu (e ▸ hc)
      split at hx
      · exact h1 hx
      · split at hx
        · exact h2 hx
        · split at hx
          · exact h3 hx
          · exact hcn (List.mem_singleton.1 hx).symm
    · intro hx
      obtain ⟨c, hc, hx⟩ := List.mem_flatMap.1 hx
      have hcn : c ≠ x := fun e => hu (e ▸ hc)
      split at hx
      · exact h1 hx
      · split at hx
        · exact h2 hx
        · exact hcn (List.mem_singleton.1 hx).symm
  exact (key _ (key t h).2).1

theorem lt_escape (t : Text) : '<' ∉ textEscape t := by
  intro hx
  obtain ⟨c, hc, hx⟩ := List.mem_flatMap.1 hx
  split at hx
  · exact absurd hx (by decide)
  · split at hx
    · exact absurd hx (by decide)
    · split at hx
      · exact absurd hx (by decide)
      · rename_i h1 h2 _
        exact h2 (List.mem_singleton.1 hx).symm

theorem elem_chars (l : Lang) : '\r' ∉ elem l ∧ '<' ∉ elem l := by cases l <;> decide

/-- A comment before an element is not written between the lines of a text. -/
theorem no_comment {cs : List Comment} {l : Lang}
    (hc : ∀ c ∈ cs, c.after.head? = some '<' ∧ ¬ c.after <+: endTag (elem l)) {y e : Text} (he : '<' ∉ e)
    (hy : (∀ c ∈ y, c ∈ e) ∨ ∃ u, (∀ c ∈ u, c ∈ e) ∧ y = u ++ endTag (elem l)) (k : Option Text) :
    commentsBefore cs k y = [] := by
  unfold commentsBefore
  rw [List.flatMap_eq_nil_iff]
  intro c hm
  obtain ⟨h1, h2⟩ := hc c hm
  rw [if_neg]
  rintro ⟨hp, _⟩
  obtain ⟨w, w', hs, hw, hw'⟩ := trim_split y
  obtain ⟨r, hr⟩ : ∃ r, trim y = '<' :: r := by
    cases hca : c.after with
    | nil => rw [hca] at h1; cases h1
    | cons a as =>
      rw [hca] at h1 hp
      obtain rfl : a = '<' := Option.some.inj h1
      obtain ⟨t, ht⟩ := hp
      exact ⟨as ++ t, by rw [← ht]; rfl⟩
  have hlt : '<' ∈ y := by rw [hs, hr]; simp
  rcases hy with hy | ⟨u, hu, rfl⟩
  · exact he (hy _ hlt)
  · have hu' : '<' ∉ u := fun h => he (hu _ h)
    have hww : '<' ∉ w := fun h => absurd (hw _ h) (by decide)
    have e1 : u ++ '<' :: ('/' :: elem l ++ ['>']) = w ++ '<' :: (r ++ w') := by
      have e0 : endTag (elem l) = '<' :: ('/' :: elem l ++ ['>']) := rfl
      rw [← e0, hs, hr]
      simp
    have e2 : u = w ∧ '/' :: elem l ++ ['>'] = r ++ w' := by
      rcases List.append_eq_append_iff.1 e1 with ⟨a, ha, hb⟩ | ⟨a, ha, hb⟩
      · cases a with
        | nil => exact ⟨by simpa using ha.symm, (List.cons.inj hb).2⟩
        | cons d a =>
          obtain rfl := (List.cons.inj hb).1
          exact absurd (by rw [ha]; simp) hww
      · cases a with
        | nil => exact ⟨by simpa using ha, ((List.cons.inj hb).2).symm⟩
        | cons d a =>
          obtain rfl := (List.cons.inj hb).1
          exact absurd (by rw [ha]; simp) hu'
    have e3 : w' = [] := by
      by_contra hne
      have h3 : ('/' :: elem l ++ ['>']).getLast? = w'.getLast? := by
        rw [e2.2, List.getLast?_append_of_ne_nil _ hne]
      rw [List.getLast?_append_of_ne_nil _ (by simp)] at h3
      exact absurd (hw' _ (List.mem_of_getLast? h3.symm)) (by decide)
    apply h2
    rw [hr] at hp
    have : endTag (elem l) = '<' :: r := by
      show '<' :: ('/' :: elem l ++ ['>']) = _
      rw [e2.2, e3, List.append_nil]
    rw [this]
    exact hp

theorem pieces_written_ok {ps : List Piece} (h : ∀ x ∈ ps, x.Ok) : ∀ x ∈ ps.map Piece.written, x.Ok := by
  intro q hq
  obtain ⟨p, hp, rfl⟩ := List.mem_map.1 hq
  have := h p hp
  cases p with
  | char c =>
    by_cases hc : c = '>'
    · simp only [Piece.written, hc, if_true]
      exact ⟨by decide, by decide, by decide, by decide⟩
    · simpa only [Piece.written, hc, if_false] using this
  | entity m => exact this

theorem pieces_written_meaning (ps : List Piece) (ent : Text → Text) (hent : ent "gt".toList = [('>' : Char)]) :
    meaning ent (ps.map Piece.written) = meaning ent ps := by
  unfold meaning
  rw [List.flatMap_map]
  apply List.flatMap_congr
  intro p _
  cases p with
  | char c =>
    by_cases hc : c = '>'
    · simp only [Piece.written, hc, if_true, Piece.meaning]
      exact hent
    · simp only [Piece.written, hc, if_false]
  | entity m => rfl

/-- C92: the same for a text over several lines: it is written back over the same lines, with nothing between them, if the
comments of the file stand before elements (the line after each begins with `<` and is not the end of the text itself). -/
theorem C92_lines (p : Project) (q : Package) (hq : q ∈ p.data.packages) (k : Key) (hk : k ∈ keysOf q) (l : Lang)
    (ps : List Piece) (hl : k.text l = some (shown ps)) (h : ∀ x ∈ ps, x.Ok) (hr : '\r' ∉ shown ps)
    (hc : ∀ c ∈ p.comments, c.after.head? = some '<' ∧ ¬ c.after <+: endTag (elem l)) :
    ∃ n, ∃ qs : List Piece, (∀ x ∈ qs, x.Ok) ∧
      (∀ ent : Text → Text, ent "gt".toList = [('>' : Char)] → meaning ent qs = meaning ent ps) ∧
      spaces n ++ ('<' :: elem l ++ '>' :: shown qs ++ endTag (elem l)) ++ ['\n'] <:+: toWriter p := by
  obtain ⟨n, hn⟩ := key_mem packageN 1 q hk
  refine ⟨4 * (n + 1), ps.map Piece.written, pieces_written_ok h, pieces_written_meaning ps, ?_⟩
  rw [← singleAmp_textLine (n + 1) l h]
  have hx : textLine (n + 1) l (shown ps) ∈ keyLines n k := by
    unfold keyLines
    apply element_mem
    exact List.mem_filterMap.2 ⟨l, langs_mem l, by rw [hl]; rfl⟩
  have hmem : textLine (n + 1) l (shown ps) ∈ element 0 (projectNameS ++ attrEscape p.data.name ++ quoteS) endProjectS
      (p.data.packages.flatMap (packageLines packageN 1)) :=
    element_mem (List.mem_flatMap.2 ⟨q, hq, hn _ hx⟩)
  have e : textLine (n + 1) l (shown ps) = (indent (n + 1) ++ '<' :: elem l ++ ['>']) ++
      (textEscape (minEscape (shown ps)) ++ endTag (elem l)) := by
    simp [textLine, tag_elem, endTag]
    rfl
  have hindent : ∀ x : Char, x ≠ ' ' → x ∉ indent (n + 1) := fun x hx h => hx (List.mem_replicate.1 h).2
  have hcr : '\r' ∉ textLine (n + 1) l (shown ps) := by
    rw [e]
    have q1 : '\r' ∉ endS := by decide
    have q2 := (elem_chars l).1
    simp only [endTag, List.cons_append, List.append_assoc, List.mem_cons, List.mem_append, not_or]
    exact ⟨hindent _ (by decide), by decide, q2, by decide, by simp, char_escape (by decide) (by decide) (by decide) hr,
      q1, q2, by decide, by simp⟩
  have hb := block_lines hmem hcr
  have htail : ∀ y ∈ (split '\n' (textLine (n + 1) l (shown ps))).tail, ∀ k, commentsBefore p.comments k y = [] := by
    have hn1 : '\n' ∉ indent (n + 1) ++ '<' :: elem l ++ ['>'] := by
      simp only [List.cons_append, List.append_assoc, List.mem_cons, List.mem_append, not_or]
      exact ⟨hindent _ (by decide), by decide, (elem_plain l).2, by decide, by simp⟩
    have hn2 : '\n' ∉ endTag (elem l) := by
      simp only [endTag, List.append_assoc, List.mem_cons, List.mem_append, not_or]
      exact ⟨by decide, (elem_plain l).2, by decide, by simp⟩
    rw [e, split_tail hn1]
    intro y hy k
    exact no_comment hc (lt_escape _) (split_with_end hn2 _ y (List.mem_of_mem_tail hy)) k
  cases hsp : split '\n' (textLine (n + 1) l (shown ps)) with
  | nil => exact absurd hsp (split_ne_nil _ _)
  | cons x xs =>
    rw [hsp] at hb htail
    obtain ⟨pre, rest, hpr⟩ := hb
    have := block_written p.comments x xs htail rest pre false none
    rw [singleAmp_lines (x :: xs) (by simp), ← hsp, joinWith_split] at this
    rw [← List.append_assoc, hsp, hpr] at this
    obtain ⟨s, t, hst⟩ := this
    refine ⟨header ++ '\n' :: s, t, ?_⟩
    unfold toWriter
    show _ = header ++ '\n' :: writeLines p.comments false none (lines (serialize p.data ++ ['\n']))
    rw [show serialize p.data = joinWith '\n' _ from rfl, ← hst]
    simp

theorem attrEscape_append (a b : Text) : attrEscape (a ++ b) = attrEscape a ++ attrEscape b := by
  simp [attrEscape]

theorem attrEscape_line (a b : Text) (ha : PlainName a) (hb : PlainName b) (m : Text) :
    attrEscape (a ++ m ++ b) = a ++ attrEscape m ++ b := by
  rw [attrEscape_append, attrEscape_append, attrEscape_plain ha, attrEscape_plain hb]

/-- C92 is violated for identifiers (and so for names): one with `&amp;` in it is written back with a bare `&`, which is
not XML any more. -/
theorem C92_violated_amp (p : Project) (q : Package) (hq : q ∈ p.data.packages) (k : Key) (hk : k ∈ keysOf q)
    (a b : Text) (ha : PlainName a) (hb : PlainName b) (hid : k.id = a ++ "&amp;".toList ++ b) (l : Lang) (t : Text)
    (hl : k.text l = some t) :
    ∃ n, spaces n ++ "<Key ID=\"".toList ++ a ++ '&' :: b ++ "\">".toList ++ ['\n'] <:+: toWriter p := by
  obtain ⟨n, hw⟩ := key_written p hq hk
  refine ⟨4 * n, ?_⟩
  have hne : (langs.filterMap fun l => (k.text l).map (textLine (n + 1) l)) ≠ [] :=
    List.ne_nil_of_mem (a := textLine (n + 1) l t) (List.mem_filterMap.2 ⟨l, langs_mem l, by rw [hl]; rfl⟩)
  have hi : '&' ∉ indent n := fun h => absurd (List.mem_replicate.1 h).2 (by decide)
  have h1 : '&' ∉ indent n ++ keyIdS ++ a := by
    simp only [List.mem_append, not_or]
    exact ⟨⟨hi, by decide⟩, ha.1⟩
  have h2 : '&' ∉ b ++ quoteS := by
    simp only [List.mem_append, not_or]
    exact ⟨hb.1, by decide⟩
  have e : indent n ++ (keyIdS ++ (a ++ attrEscape "&amp;".toList ++ b) ++ quoteS) =
      (indent n ++ keyIdS ++ a) ++ (ampAmpS ++ (b ++ quoteS)) := by
    have : attrEscape "&amp;".toList = ampAmpS := by decide
    rw [this]
    simp
  have e2 := singleAmp_plain h2 []
  rw [List.append_nil] at e2
  have he : singleAmp (indent n ++ (keyIdS ++ attrEscape k.id ++ quoteS)) =
      spaces (4 * n) ++ "<Key ID=\"".toList ++ a ++ '&' :: b ++ "\">".toList := by
    rw [hid, attrEscape_line a b ha hb, e, singleAmp_plain h1, singleAmp_amp, e2]
    simp [indent, spaces, singleAmp, singleAmpFrom]
    rfl
  rw [← he]
  apply hw
  · unfold keyLines
    rw [element_cons hne]
    simp
  · have hi : '\n' ∉ indent n := fun h => absurd (List.mem_replicate.1 h).2 (by decide)
    rw [hid, attrEscape_line a b ha hb, e]
    have q1 := ha.2.2.2.2
    have q2 := hb.2.2.2.2
    simp only [List.mem_append, not_or]
    exact ⟨⟨⟨hi, by decide⟩, q1⟩, by decide, q2, by decide⟩
  · rw [← List.append_assoc, List.getLast?_append_of_ne_nil _ (by decide)]
    decide

def exKey (id text : Text) : Key := ⟨id, fun l => if l = .german then some text else none⟩
def exPackage (id text : Text) : Package := .mk "main".toList [] [.mk "inner".toList [exKey id text] []]
def exProject (id text : Text) : Project := ⟨⟨"P".toList, [exPackage id text]⟩, []⟩
def exPieces : List Piece := [.char '1', .entity "lt".toList, .char '2', .entity "amp".toList, .char '>']

theorem exPieces_ok : ∀ x ∈ exPieces, x.Ok := by
  intro x hx
  unfold exPieces at hx
  rcases List.mem_cons.1 hx with rfl | hx
  · exact ⟨by decide +kernel, by decide +kernel⟩
  rcases List.mem_cons.1 hx with rfl | hx
  · exact ⟨by decide +kernel, by decide +kernel, by decide +kernel, by decide +kernel⟩
  rcases List.mem_cons.1 hx with rfl | hx
  · exact ⟨by decide +kernel, by decide +kernel⟩
  rcases List.mem_cons.1 hx with rfl | hx
  · exact ⟨by decide +kernel, by decide +kernel, by decide +kernel, by decide +kernel⟩
  obtain rfl := List.mem_singleton.1 hx
  exact ⟨by decide +kernel, by decide +kernel⟩

example (id : Text) : ∃ n, ∃ qs : List Piece, (∀ x ∈ qs, x.Ok) ∧
    (∀ ent : Text → Text, ent "gt".toList = [('>' : Char)] → meaning ent qs = meaning ent exPieces) ∧
    spaces n ++ ('<' :: elem .german ++ '>' :: shown qs ++ endTag (elem .german)) ++ ['\n'] <:+:
      toWriter (exProject id (shown exPieces)) :=
  C92_texts _ (exPackage id (shown exPieces)) (List.mem_singleton.2 rfl) (exKey id (shown exPieces))
    (List.mem_append_right _ (List.mem_append_left _ (List.mem_append_left _ (List.mem_singleton.2 rfl)))) .german exPieces
    rfl exPieces_ok (by decide +kernel)

/-- A text over two lines, in a file with a comment before a key. -/
def exTwoLines : List Piece := [.char 'O', .entity "lt".toList, .char '\n', .char ' ', .char '2', .char '\n']
def exCommented : Project := { exProject "a".toList (shown exTwoLines) with
  comments := [⟨"<!-- c -->".toList, "<Key ID=\"a\">".toList, none⟩] }

theorem exTwoLines_ok : ∀ x ∈ exTwoLines, x.Ok := by
  intro x hx
  unfold exTwoLines at hx
  rcases List.mem_cons.1 hx with rfl | hx
  · exact ⟨by decide +kernel, by decide +kernel⟩
  rcases List.mem_cons.1 hx with rfl | hx
  · exact ⟨by decide +kernel, by decide +kernel, by decide +kernel, by decide +kernel⟩
  rcases List.mem_cons.1 hx with rfl | hx
  · exact ⟨by decide +kernel, by decide +kernel⟩
  rcases List.mem_cons.1 hx with rfl | hx
  · exact ⟨by decide +kernel, by decide +kernel⟩
  rcases List.mem_cons.1 hx with rfl | hx
  · exact ⟨by decide +kernel, by decide +kernel⟩
  obtain rfl := List.mem_singleton.1 hx
  exact ⟨by decide +kernel, by decide +kernel⟩

example : ∃ n, ∃ qs : List Piece, (∀ x ∈ qs, x.Ok) ∧
    (∀ ent : Text → Text, ent "gt".toList = [('>' : Char)] → meaning ent qs = meaning ent exTwoLines) ∧
    spaces n ++ ('<' :: elem .german ++ '>' :: shown qs ++ endTag (elem .german)) ++ ['\n'] <:+: toWriter exCommented :=
  C92_lines exCommented (exPackage "a".toList (shown exTwoLines)) (List.mem_singleton.2 rfl)
    (exKey "a".toList (shown exTwoLines))
    (List.mem_append_right _ (List.mem_append_left _ (List.mem_append_left _ (List.mem_singleton.2 rfl)))) .german exTwoLines
    rfl exTwoLines_ok (by decide +kernel) (by
      intro c hc
      obtain rfl := List.mem_singleton.1 hc
      exact ⟨by decide +kernel, by decide +kernel⟩)

/-- The condition on the comments is needed: one with a blank line after it is written into the text. -/
example : toWriter { exProject "a".toList "One\nTwo".toList with
      comments := [⟨"<!-- c -->".toList, [], some "<Key ID=\"a\">".toList⟩] } =
    "<?xml version=\"1.0\" encoding=\"utf-8\"?>
<Project name=\"P\">
    <Package name=\"main\">
        <Container name=\"inner\">
            <Key ID=\"a\">
                <!-- c -->
                <German>One
<!-- c -->
Two</German>
                <!-- c -->
            </Key>
        </Container>
    </Package>
</Project>
".toList := by decide +kernel

example (text : Text) : ∃ n, spaces n ++ "<Key ID=\"".toList ++ ['a'] ++ '&' :: ['b'] ++ "\">".toList ++ ['\n'] <:+:
    toWriter (exProject "a&amp;b".toList text) :=
  C92_violated_amp _ (exPackage "a&amp;b".toList text) (List.mem_singleton.2 rfl) (exKey "a&amp;b".toList text)
    (List.mem_append_right _ (List.mem_append_left _ (List.mem_append_left _ (List.mem_singleton.2 rfl)))) ['a'] ['b']
    (by unfold PlainName; decide +kernel) (by unfold PlainName; decide +kernel) rfl .german text rfl

example : toWriter (exProject "a&amp;b".toList "1&lt;2&amp;>".toList) =
    "<?xml version=\"1.0\" encoding=\"utf-8\"?>
<Project name=\"P\">
    <Package name=\"main\">
        <Container name=\"inner\">
            <Key ID=\"a&b\">
                <German>1&lt;2&amp;&gt;</German>
            </Key>
        </Container>
    </Package>
</Project>
".toList := by decide +kernel

/-! ### C93: comments -/

/-- C93: sorting keeps comments with their lines. If the file holds a document (read as such by the XML reader), the
sorted file consists of the same items, rearranged: the lines are those of the sorted document, and each line has the
same comments before it as in the file. No comment is lost and none is added. -/
theorem C93_comments_kept (parse : Text → Option Data) (onlyLang : Bool) (src : Text) (s : Source) (d : Doc)
    (hs : lines src = s.lines) (h : Holds s d) (hd : d.Ok) (hp : parse s.xml = some d.value) :
    ∃ items : List Item, items.Perm s.items ∧ items.map Item.line = (d.sorted onlyLang).lines ∧
      sortFile parse onlyLang src =
        some ("<?xml version=\"1.0\" encoding=\"utf-8\"?>\n".toList ++ items.flatMap Item.out) := by
  obtain ⟨items, h1, h2, h3⟩ := sort_holds (b := onlyLang) hs h hd hp
  refine ⟨items, h1, h2, ?_⟩
  rw [h3]
  have : header ++ ['\n'] = "<?xml version=\"1.0\" encoding=\"utf-8\"?>\n".toList := by decide
  rw [← this, List.append_assoc]
  rfl

/-- C93: a comment after the last line is lost: the file is sorted to the same text as without it. -/
theorem C93_lost_at_end (parse : Text → Option Data) (onlyLang : Bool) (src src' : Text) (s : Source) (d : Doc)
    (cs : List (List Text)) (hs : lines src = s.lines) (hs' : lines src' = s.lines ++ cs.flatten) (h : Holds s d)
    (hd : d.Ok) (hc : ∀ c ∈ cs, CommentOk c)
    (hp : parse (joinWith '\n' ((lines src').map doubleAmp)) = parse (joinWith '\n' ((lines src).map doubleAmp))) :
    sortFile parse onlyLang src' = sortFile parse onlyLang src := by
  have hk : Keyed none (s.items.map Item.line) := by rw [h.lines]; exact (doc_closed d).keyed
  have hr : ∀ i ∈ s.items, Readable i := fun i hi =>
    { raw := h.raw i hi, gap := h.gap i hi, comments := h.comments i hi,
      line := (doc_ok hd i.line (by rw [← h.lines]; exact List.mem_map_of_mem hi)).comment }
  have hcomm : comments src' = comments src := by
    unfold comments
    congr 1
    rw [hs', hs, List.foldl_append]
    by_cases hn : cs = []
    · subst hn; rfl
    · unfold Source.lines
      rw [List.foldl_append, List.foldl_append, read_heads _ _ h.head, read_items hr [] none hk,
        read_blanks _ _ h.tail, read_comments _ _ _ hc hn]
  unfold sortFile fromReader
  rw [hp, hcomm]

/-! A file with two keys out of order, with comments (one of them over two lines) before a key, a text and a closing
line. -/
def exDoc : Doc :=
  ⟨"P".toList, [.mk "main".toList
    [⟨"b".toList, [(.german, "Zwei &amp; drei".toList), (.english, "Two".toList)]⟩, ⟨"a".toList, [(.english, "One".toList)]⟩]
    []]⟩

def exItems : List Item :=
  [⟨[], [], "<Project name=\"P\">".toList, ⟨0, "<Project name=\"P\">".toList, none⟩⟩,
   ⟨[[]], [], " <Package name=\"main\">".toList, ⟨1, "<Package name=\"main\">".toList, none⟩⟩,
   ⟨[], [["  <!-- the second".toList, "   key -->".toList]], "  <Key ID=\"b\">".toList, ⟨2, "<Key ID=\"b\">".toList, none⟩⟩,
   ⟨[], [], "<German>Zwei &amp; drei</German>".toList,
     ⟨3, "<German>Zwei &amp; drei</German>".toList, some "<Key ID=\"b\">".toList⟩⟩,
   ⟨[], [["<!-- first -->".toList], ["<!-- language -->".toList]], "<English>Two</English>".toList,
     ⟨3, "<English>Two</English>".toList, some "<Key ID=\"b\">".toList⟩⟩,
   ⟨[], [["<!-- done -->".toList]], "  </Key>".toList, ⟨2, "</Key>".toList, some "<Key ID=\"b\">".toList⟩⟩,
   ⟨[], [], "  <Key ID=\"a\">".toList, ⟨2, "<Key ID=\"a\">".toList, none⟩⟩,
   ⟨[], [], "<English>One</English>".toList, ⟨3, "<English>One</English>".toList, some "<Key ID=\"a\">".toList⟩⟩,
   ⟨[], [], "  </Key>".toList, ⟨2, "</Key>".toList, some "<Key ID=\"a\">".toList⟩⟩,
   ⟨[], [], " </Package>".toList, ⟨1, "</Package>".toList, none⟩⟩,
   ⟨[], [], "</Project>".toList, ⟨0, "</Project>".toList, none⟩⟩]

def exSource : Source := ⟨["<?xml version=\"1.0\"?>".toList], exItems, [[]]⟩
def exText : Text := joinWith '\n' (exSource.lines ++ [[]])

def exParse : Text → Option Data := fun t =>
  if t = exSource.xml then some exDoc.value else some (exDoc.sorted false).value

theorem exHolds : Holds exSource exDoc where
  head := by decide +kernel
  lines := by decide +kernel
  raw := by decide +kernel
  gap := by decide +kernel
  tail := by decide +kernel
  comments := by
    have h1 : CommentOk ["  <!-- the second".toList, "   key -->".toList] :=
      ⟨⟨_, _, rfl, by decide +kernel, by decide +kernel⟩, ⟨["  <!-- the second".toList], _, rfl, by decide +kernel, by decide +kernel, by decide +kernel, by decide +kernel⟩⟩
    have h2 : CommentOk ["<!-- first -->".toList] := ⟨⟨_, _, rfl, by decide +kernel, by decide +kernel⟩, ⟨[], _, rfl, by decide +kernel, by decide +kernel, by decide +kernel, by decide +kernel⟩⟩
    have h3 : CommentOk ["<!-- language -->".toList] := ⟨⟨_, _, rfl, by decide +kernel, by decide +kernel⟩, ⟨[], _, rfl, by decide +kernel, by decide +kernel, by decide +kernel, by decide +kernel⟩⟩
    have h4 : CommentOk ["<!-- done -->".toList] := ⟨⟨_, _, rfl, by decide +kernel, by decide +kernel⟩, ⟨[], _, rfl, by decide +kernel, by decide +kernel, by decide +kernel, by decide +kernel⟩⟩
    intro i hi c hc
    have : c ∈ exItems.flatMap Item.comments := List.mem_flatMap.2 ⟨i, hi, hc⟩
    have e : exItems.flatMap Item.comments = [["  <!-- the second".toList, "   key -->".toList],
      ["<!-- first -->".toList], ["<!-- language -->".toList], ["<!-- done -->".toList]] := rfl
    rw [e] at this
    simp only [List.mem_cons, List.not_mem_nil, or_false] at this
    rcases this with rfl | rfl | rfl | rfl
    · exact h1
    · exact h2
    · exact h3
    · exact h4
  entity := by decide +kernel
  once := by decide +kernel

theorem exOk : exDoc.Ok where
  name := by unfold PlainName; decide +kernel
  some := by decide +kernel
  packages := by
    intro p hp
    obtain rfl : p = _ := List.mem_singleton.1 hp
    refine ⟨by unfold PlainName; decide +kernel, by simp, ?_, trivial⟩
    intro k hk
    simp only [List.mem_cons, List.not_mem_nil, or_false] at hk
    rcases hk with rfl | rfl
    · exact ⟨by unfold PlainName; decide +kernel, by decide +kernel, by decide +kernel, by unfold PlainText; decide +kernel⟩
    · exact ⟨by unfold PlainName; decide +kernel, by decide +kernel, by decide +kernel, by unfold PlainText; decide +kernel⟩

/-- The file as it is after sorting. -/
def exSorted : Text :=
  "<?xml version=\"1.0\" encoding=\"utf-8\"?>
<Project name=\"P\">
    <Package name=\"main\">
        <Key ID=\"a\">
            <English>One</English>
        </Key>
        <!-- the second
   key -->
        <Key ID=\"b\">
            <!-- first -->
<!-- language -->
            <English>Two</English>
            <German>Zwei &amp; drei</German>
            <!-- done -->
        </Key>
    </Package>
</Project>
".toList

example : ∃ items : List Item, items.Perm exItems ∧ items.map Item.line = (exDoc.sorted false).lines ∧
    sortFile exParse false exText = some ("<?xml version=\"1.0\" encoding=\"utf-8\"?>\n".toList ++ items.flatMap Item.out) :=
  C93_comments_kept exParse false exText exSource exDoc (by decide +kernel) exHolds exOk (if_pos rfl)

theorem exSort : sortFile exParse false exText = some exSorted := by decide +kernel

/-- After the last line, a comment is lost. -/
example : sortFile (fun _ => some exDoc.value) false (exText ++ "<!-- end\nof file -->\n".toList) = some exSorted := by
  rw [C93_lost_at_end (fun _ => some exDoc.value) false exText _ exSource exDoc [["<!-- end".toList, "of file -->".toList]]
    (by decide +kernel) (by decide +kernel) exHolds exOk ?_ rfl]
  · have e : sortFile (fun _ => some exDoc.value) false exText = sortFile exParse false exText := by
      have hx : joinWith '\n' ((lines exText).map doubleAmp) = exSource.xml := by
        have : lines exText = exSource.lines := by decide +kernel
        rw [this]
        rfl
      unfold sortFile fromReader
      rw [hx, exParse, if_pos rfl]
    rw [e, exSort]
  · intro c hc
    obtain rfl := List.mem_singleton.1 hc
    exact ⟨⟨_, _, rfl, by decide +kernel, by decide +kernel⟩, ⟨["<!-- end".toList], _, rfl, by decide +kernel, by decide +kernel, by decide +kernel, by decide +kernel⟩⟩

/-! #### The conditions are needed -/

/-- A document with one key and one text. -/
def oneDoc (text : Text) : Doc := ⟨"P".toList, [.mk "main".toList [⟨"a".toList, [(.english, text)]⟩] []]⟩

/-- A comment with a blank line after it is repeated before every line outside of the keys. -/
theorem C93_repeated_blank :
    sortFile (fun _ => some (oneDoc "One".toList).value) false
      "<Project name=\"P\">
<!-- c -->

    <Package name=\"main\">
        <Key ID=\"a\">
            <English>One</English>
        </Key>
    </Package>
</Project>
".toList = some
      "<?xml version=\"1.0\" encoding=\"utf-8\"?>
<!-- c -->
<Project name=\"P\">
    <!-- c -->
    <Package name=\"main\">
        <!-- c -->
        <Key ID=\"a\">
            <English>One</English>
        </Key>
        <!-- c -->
    </Package>
    <!-- c -->
</Project>
".toList := by decide +kernel

/-- A comment before a text with an entity in it is lost. -/
theorem C93_lost_entity :
    sortFile (fun _ => some (oneDoc "One &amp; two".toList).value) false
      "<Project name=\"P\">
    <Package name=\"main\">
        <Key ID=\"a\">
            <!-- c -->
            <English>One &amp; two</English>
        </Key>
    </Package>
</Project>
".toList = some
      "<?xml version=\"1.0\" encoding=\"utf-8\"?>
<Project name=\"P\">
    <Package name=\"main\">
        <Key ID=\"a\">
            <English>One &amp; two</English>
        </Key>
    </Package>
</Project>
".toList := by decide +kernel

/-- A comment before a line that occurs more than once is repeated before each. -/
theorem C93_repeated_line :
    sortFile (fun _ => some ⟨"P".toList, [.mk "x".toList [⟨"a".toList, fun l => if l = .english then some ['1'] else none⟩] [],
        .mk "y".toList [⟨"b".toList, fun l => if l = .english then some ['2'] else none⟩] []]⟩) false
      "<Project name=\"P\">
    <Package name=\"x\">
        <Key ID=\"a\">
            <English>1</English>
        </Key>
        <!-- end of x -->
    </Package>
    <Package name=\"y\">
        <Key ID=\"b\">
            <English>2</English>
        </Key>
    </Package>
</Project>
".toList = some
      "<?xml version=\"1.0\" encoding=\"utf-8\"?>
<Project name=\"P\">
    <Package name=\"x\">
        <Key ID=\"a\">
            <English>1</English>
        </Key>
        <!-- end of x -->
    </Package>
    <Package name=\"y\">
        <Key ID=\"b\">
            <English>2</English>
        </Key>
        <!-- end of x -->
    </Package>
</Project>
".toList := by decide +kernel

/-! ### C94: sorting twice, and the lint -/

/-- C94: sorting the sorted file again changes nothing (if the XML reader reads it as the sorted document). -/
theorem C94_twice (parse : Text → Option Data) (onlyLang : Bool) (src out : Text) (s : Source) (d : Doc)
    (hs : lines src = s.lines) (h : Holds s d) (hd : d.Ok) (hcr : ∀ l ∈ s.lines, l.getLast? ≠ some '\r')
    (hp : parse s.xml = some d.value) (hout : sortFile parse onlyLang src = some out)
    (hp' : parse (joinWith '\n' ((lines out).map fun l => l.flatMap fun c => if c = '&' then "&amp;".toList else [c])) =
      some (d.sorted onlyLang).value) :
    sortFile parse onlyLang out = some out :=
  sort_again hs h hd hcr hp hout hp'

def Unsorted.files : Unsorted → List Text
  | .path p => [p]
  | .paths ps => ps

/-- C94: the lint names exactly the stringtables the command would change (beyond white space at the ends of the file),
each once, in their order; up to three of them one by one, more than three in one report. Those that cannot be read are
reported as invalid. -/
theorem C94_lint_exact (parse : Text → Option Data) (onlyLang : Bool) (files : List (Text × Text)) :
    let reports := lint onlyLang (readAll parse files).1
    let changed := (files.filter fun f => (sortFile parse onlyLang f.2).any fun out => trim out ≠ trim f.2).map Prod.fst
    reports.flatMap Unsorted.files = changed ∧
    (changed.length ≤ 3 → reports.length = changed.length) ∧ (3 < changed.length → reports.length = 1) ∧
    (readAll parse files).2 = (files.filter fun f => (sortFile parse onlyLang f.2).isNone).map Prod.fst := by
  have hus : (((readAll parse files).1.filter fun x => unsorted onlyLang x.1 x.2.2).map fun x => x.2.1) =
      (files.filter fun f => (sortFile parse onlyLang f.2).any fun out => trim out ≠ trim f.2).map Prod.fst := by
    unfold readAll
    dsimp only
    induction files with
    | nil => rfl
    | cons f fs ih =>
      rw [List.filterMap_cons, List.filter_cons]
      cases hf : fromReader parse f.2 with
      | none =>
        have : sortFile parse onlyLang f.2 = none := by unfold sortFile; rw [hf]; rfl
        rw [this]
        simpa using ih
      | some p =>
        have : sortFile parse onlyLang f.2 = some (toWriter (p.arrange onlyLang)) := by unfold sortFile; rw [hf]; rfl
        rw [this]
        simp only [Option.map_some, Option.any_some, List.filter_cons]
        by_cases hu : trim (toWriter (p.arrange onlyLang)) = trim f.2
        · simp only [unsorted, hu]
          simpa [unsorted] using ih
        · simp only [unsorted, ne_eq, hu, not_false_eq_true, decide_true, if_true, List.map_cons]
          congr 1
  intro reports changed
  have hr : reports = if changed.length ≤ 3 then changed.map .path else [.paths changed] := by
    show lint _ _ = _
    unfold lint
    dsimp only
    rw [hus]
  refine ⟨?_, ?_, ?_, ?_⟩
  · rw [hr]
    split
    · rw [List.flatMap_map]
      simp [Unsorted.files]
    · simp [Unsorted.files]
  · intro h
    rw [hr, if_pos h, List.length_map]
  · intro h
    rw [hr, if_neg (by omega)]
    rfl
  · unfold readAll sortFile
    simp

/-- C94: a file that was just sorted is not named by the lint. -/
theorem C94_lint_quiet (parse : Text → Option Data) (onlyLang : Bool) (path : Text) (out : Text)
    (h : sortFile parse onlyLang out = some out) : lint onlyLang (readAll parse [(path, out)]).1 = [] := by
  have := (C94_lint_exact parse onlyLang [(path, out)]).2.1
  simp only [List.filter_cons, h] at this
  have hl := this (by simp)
  simpa using hl

/-- C94: the command sorts the files up to the first that cannot be read, and leaves that one and all after it as they
are. -/
theorem C94_command (parse : Text → Option Data) (onlyLang : Bool) (files : List (Text × Text)) :
    ∃ done left : List (Text × Text), files = done ++ left ∧
      (∀ f ∈ done, (sortFile parse onlyLang f.2).isSome) ∧ (∀ f ∈ left.head?, sortFile parse onlyLang f.2 = none) ∧
      sortAll parse onlyLang files =
        (done.map fun f => (f.1, (sortFile parse onlyLang f.2).getD [])) ++ left := by
  induction files with
  | nil => exact ⟨[], [], rfl, by simp, by simp, rfl⟩
  | cons f fs ih =>
    rw [sortAll]
    cases hf : sortFile parse onlyLang f.2 with
    | none => exact ⟨[], f :: fs, rfl, by simp, by simpa using hf, rfl⟩
    | some out =>
      obtain ⟨done, left, h1, h2, h3, h4⟩ := ih
      refine ⟨f :: done, left, by rw [h1]; rfl, ?_, h3, ?_⟩
      · intro g hg
        rcases List.mem_cons.1 hg with rfl | hg
        · rw [hf]; rfl
        · exact h2 g hg
      · rw [List.map_cons, hf, List.cons_append, ← h4]
        rfl

/-- C94: after the command, the lint names no file, if all can be read and what is written is sorted to itself (as in
`C94_twice`). -/
theorem C94_command_lint (parse : Text → Option Data) (onlyLang : Bool) (files : List (Text × Text))
    (h : ∀ f ∈ files, ∃ out, sortFile parse onlyLang f.2 = some out ∧ sortFile parse onlyLang out = some out) :
    lint onlyLang (readAll parse (sortAll parse onlyLang files)).1 = [] ∧
      (readAll parse (sortAll parse onlyLang files)).2 = [] := by
  have hs : ∀ f ∈ sortAll parse onlyLang files, sortFile parse onlyLang f.2 = some f.2 := by
    induction files with
    | nil => intro f hf; cases hf
    | cons g gs ih =>
      obtain ⟨out, h1, h2⟩ := h g (by simp)
      rw [sortAll, h1]
      intro f hf
      rcases List.mem_cons.1 hf with rfl | hf
      · exact h2
      · exact ih (fun x hx => h x (List.mem_cons_of_mem _ hx)) f hf
  have hl := C94_lint_exact parse onlyLang (sortAll parse onlyLang files)
  dsimp only at hl
  have e1 : ((sortAll parse onlyLang files).filter fun f =>
      (sortFile parse onlyLang f.2).any fun out => trim out ≠ trim f.2) = [] := by
    rw [List.filter_eq_nil_iff]
    intro f hf
    rw [hs f hf]
    simp
  have e2 : ((sortAll parse onlyLang files).filter fun f => (sortFile parse onlyLang f.2).isNone) = [] := by
    rw [List.filter_eq_nil_iff]
    intro f hf
    rw [hs f hf]
    simp
  rw [e1, e2] at hl
  obtain ⟨_, h2, _, h4⟩ := hl
  exact ⟨List.eq_nil_of_length_eq_zero (h2 (by simp)), h4⟩

theorem exAgain : sortFile exParse false exSorted = some exSorted :=
  C94_twice exParse false exText exSorted exSource exDoc (by decide +kernel) exHolds exOk (by decide +kernel) (if_pos rfl)
    exSort (if_neg (by decide +kernel))

def exFiles : List (Text × Text) := [("x".toList, exText), ("y".toList, exSorted)]

theorem exFiles_sorted (f : Text × Text) (hf : f ∈ exFiles) :
    ∃ out, sortFile exParse false f.2 = some out ∧ sortFile exParse false out = some out := by
  have key : ∀ (a b x y : Text), sortFile exParse false x = some y → sortFile exParse false y = some y →
      ∀ f ∈ [(a, x), (b, y)], ∃ out, sortFile exParse false f.2 = some out ∧ sortFile exParse false out = some out := by
    intro a b x y h1 h2 f hf
    rcases List.mem_cons.1 hf with rfl | h
    · exact ⟨y, h1, h2⟩
    · obtain rfl := List.mem_singleton.1 h
      exact ⟨y, h2, h2⟩
  exact key _ _ _ _ exSort exAgain f hf

example : lint false (readAll exParse (sortAll exParse false exFiles)).1 = [] :=
  (C94_command_lint exParse false exFiles exFiles_sorted).1

/-- The first file cannot be read: the second is not sorted. -/
example : sortAll (fun t => if t = [] then none else some exDoc.value) false [("x".toList, []), ("y".toList, exText)] =
    [("x".toList, []), ("y".toList, exText)] := by decide +kernel

/-- Only the file that is not sorted is named. -/
example : (lint false (readAll exParse exFiles).1).flatMap Unsorted.files = ["x".toList] := by
  have h := (C94_lint_exact exParse false exFiles).1
  rw [h]
  unfold exFiles
  rw [List.filter_cons_of_pos, List.filter_cons_of_neg, List.filter_nil]
  · rfl
  · rw [exAgain]; simp
  · rw [exSort]
    have : trim exSorted ≠ trim exText := by decide +kernel
    simpa using this

def smallParse : Text → Option Data := fun _ => some ⟨"P".toList, []⟩

example : lint false (readAll smallParse (List.replicate 4 ("x".toList, "<Project/>".toList))).1 =
    [.paths (List.replicate 4 "x".toList)] := by
  decide +kernel

example : lint false (readAll exParse [("y".toList, exSorted)]).1 = [] := C94_lint_quiet exParse false _ _ exAgain

end Verif.StringtableXml
