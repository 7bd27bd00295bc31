import Verif.Spec.Project
import Verif.Props.Prefix
import Mathlib.Data.List.TakeWhile
/-!
C88: the version of a project. C89: temporary folders.
-/
namespace Verif.Project
open Prefix

/-! ### White space -/

theorem trim_drop {a b : Text} (h : ∀ c ∈ a, isWs c = true) : trim (a ++ b) = trim b := by
  rw [trim, trim, List.dropWhile_append_of_pos h]

theorem trim_drop_end {a b : Text} (h : ∀ c ∈ b, isWs c = true) : trim (a ++ b) = trim a := by
  by_cases ha : ∀ c ∈ a, isWs c = true
  · have e1 : trim (a ++ b) = [] := by
      rw [trim, List.dropWhile_eq_nil_iff.2 (show ∀ c ∈ a ++ b, isWs c = true by
        intro c hc
        rcases List.mem_append.1 hc with h' | h'
        exacts [ha c h', h c h'])]
      rfl
    have e2 : trim a = [] := by
      rw [trim, List.dropWhile_eq_nil_iff.2 ha]
      rfl
    rw [e1, e2]
  · rw [trim, trim]
    have : (a ++ b).dropWhile isWs = a.dropWhile isWs ++ b := by
      have hne : a.dropWhile isWs ≠ [] := fun he => ha (List.dropWhile_eq_nil_iff.1 he)
      rw [List.dropWhile_append, if_neg (by simpa using hne)]
    rw [this, List.reverse_append, List.dropWhile_append_of_pos (by simpa using h)]

theorem trim_stripCr (l : Text) : trim (stripCr l) = trim l := by
  rw [stripCr]
  split
  · rename_i h
    have hne : l ≠ [] := by rintro rfl; simp at h
    have hl : l.getLast hne = '\r' := by rw [List.getLast?_eq_some_getLast hne] at h; exact Option.some.inj h
    conv_rhs => rw [← List.dropLast_concat_getLast hne, hl]
    rw [trim_drop_end]
    intro c hc
    rw [List.mem_singleton.1 hc]
    decide
  · rfl

/-- Trimming takes white space off both ends. -/
theorem trim_split (s : Text) : ∃ a b, s = a ++ trim s ++ b ∧ (∀ c ∈ a, isWs c = true) ∧ ∀ c ∈ b, isWs c = true := by
  refine ⟨s.takeWhile isWs, ((s.dropWhile isWs).reverse.takeWhile isWs).reverse, ?_, ?_, ?_⟩
  · rw [trim, List.append_assoc, ← List.reverse_append, List.takeWhile_append_dropWhile, List.reverse_reverse,
      List.takeWhile_append_dropWhile]
  · exact fun c hc => List.mem_takeWhile_imp hc
  · intro c hc
    exact List.mem_takeWhile_imp (List.mem_reverse.1 hc)

theorem find_lines {p : Text → Bool} (hp : p [] = false) (s : Text) :
    ((lines s).map trim).find? p = ((split '\n' s).map trim).find? p := by
  rw [lines]
  have hne := split_ne_nil '\n' s
  cases hr : (split '\n' s).reverse with
  | nil => exact absurd (List.reverse_eq_nil_iff.1 hr) hne
  | cons last init =>
    have hs : split '\n' s = init.reverse ++ [last] := by
      rw [← List.reverse_reverse (split '\n' s), hr, List.reverse_cons]
    dsimp only
    have hm : (init.reverse.map stripCr).map trim = init.reverse.map trim := by
      rw [List.map_map]
      exact List.map_congr_left fun l _ => trim_stripCr l
    rw [hs, List.map_append]
    split
    · rename_i h
      rw [hm, List.find?_append, h, List.map_singleton, show trim [] = [] from rfl]
      simp [hp]
    · rw [List.map_append, hm]

/-! ### The parts of a line -/

/-- A text that begins and ends with something else than white space stays whole. -/
theorem trim_keep {p b : Text} {x y : Char} (hx : p.head? = some x) (hx' : isWs x = false) (hy : p.getLast? = some y)
    (hy' : isWs y = false) : trim (p ++ b) = p ++ (b.reverse.dropWhile isWs).reverse := by
  obtain ⟨p', rfl⟩ : ∃ p', p = x :: p' := by
    cases p with
    | nil => simp at hx
    | cons a p => simp at hx; exact ⟨p, by rw [hx]⟩
  obtain ⟨q, hq⟩ : ∃ q, x :: p' = q ++ [y] := by
    refine ⟨(x :: p').dropLast, ?_⟩
    have := List.dropLast_concat_getLast (List.cons_ne_nil x p')
    rw [List.getLast?_eq_some_getLast (List.cons_ne_nil x p')] at hy
    rw [← Option.some.inj hy]
    exact this.symm
  rw [trim, List.cons_append, List.dropWhile_cons_of_neg (by simp [hx']), ← List.cons_append, List.reverse_append]
  rw [hq, List.reverse_append, List.reverse_singleton, List.singleton_append]
  by_cases hb : ∀ c ∈ b, isWs c = true
  · rw [List.dropWhile_append_of_pos (by simpa using hb), List.dropWhile_cons_of_neg (by simp [hy']),
      List.dropWhile_eq_nil_iff.2 (by simpa using hb)]
    simp
  · rw [List.dropWhile_append, if_neg (by
      intro h
      apply hb
      simpa using h)]
    simp

theorem head_define (c : Comp) (b : Text) : ("#define ".toList ++ c.text ++ b).head? = some '#' := rfl

theorem last_define (c : Comp) : ∃ y, ("#define ".toList ++ c.text).getLast? = some y ∧ isWs y = false := by
  cases c <;> exact ⟨_, rfl, by decide⟩

theorem begins_iff {c : Comp} {l : Text} :
    ("#define ".toList ++ c.text).isPrefixOf (trim l) = true ↔ Begins c l := by
  rw [List.isPrefixOf_iff_prefix]
  constructor
  · rintro ⟨x, hx⟩
    obtain ⟨a, b, hl, ha, -⟩ := trim_split l
    refine ⟨a, x ++ b, ha, ?_⟩
    conv_lhs => rw [hl, ← hx]
    simp only [List.append_assoc]
  · rintro ⟨a, b, ha, rfl⟩
    obtain ⟨y, hy, hy'⟩ := last_define c
    rw [List.append_assoc, List.append_assoc, trim_drop ha, ← List.append_assoc,
      trim_keep (by exact head_define c []) (by decide) hy hy']
    exact List.prefix_append _ _

theorem before_append {a b : Text} (h : '/' ∉ a) : beforeSlashes (a ++ b) = a ++ beforeSlashes b := by
  induction a with
  | nil => rfl
  | cons c a ih =>
    simp only [List.mem_cons, not_or] at h
    rw [List.cons_append, beforeSlashes.eq_def]
    split
    · rename_i heq; simp only [List.cons.injEq] at heq; exact absurd heq.1.symm h.1
    · rename_i c' s' _ heq
      simp only [List.cons.injEq] at heq
      obtain ⟨rfl, rfl⟩ := heq
      rw [ih h.2]; rfl
    · rename_i heq; simp at heq

theorem before_spec (s : Text) : ∃ rest, s = beforeSlashes s ++ rest ∧ (rest = [] ∨ ∃ t, rest = '/' :: '/' :: t) ∧
    ¬ (['/', '/'] <:+: beforeSlashes s) := by
  fun_induction beforeSlashes s with
  | case1 t => exact ⟨'/' :: '/' :: t, rfl, .inr ⟨t, rfl⟩, by simp⟩
  | case2 c s hc ih =>
    obtain ⟨rest, h1, h2, h3⟩ := ih
    refine ⟨rest, by rw [List.cons_append, ← h1], h2, ?_⟩
    rw [List.infix_cons_iff]
    rintro (h | h)
    · obtain ⟨t, ht⟩ := h
      simp only [List.cons_append, List.nil_append, List.cons.injEq] at ht
      obtain ⟨rfl, ht⟩ := ht
      rw [← ht] at h1
      exact hc (t ++ rest) rfl (by rw [h1]; rfl)
    · exact h3 h
  | case3 => exact ⟨[], rfl, .inl rfl, by simp⟩

theorem no_slashes_left {a b : Text} (ha : '/' ∉ a) (hb : ¬ (['/', '/'] <:+: b)) : ¬ (['/', '/'] <:+: a ++ b) := by
  induction a with
  | nil => exact hb
  | cons c a ih =>
    simp only [List.mem_cons, not_or] at ha
    rw [List.cons_append, List.infix_cons_iff]
    rintro (⟨t, h⟩ | h)
    · simp only [List.cons_append, List.cons.injEq] at h
      exact ha.1 h.1
    · exact ih ha.2 h

theorem no_slashes {a b c : Text} (ha : '/' ∉ a) (hc : '/' ∉ c) (hb : ¬ (['/', '/'] <:+: b)) :
    ¬ (['/', '/'] <:+: a ++ b ++ c) := by
  rw [List.append_assoc]
  apply no_slashes_left ha
  intro h
  rw [← List.reverse_infix, List.reverse_append] at h
  refine no_slashes_left (by simpa using hc) ?_ h
  intro h'
  exact hb (List.reverse_infix.1 h')

theorem lastWord_none {s : Text} : lastWord s = none ↔ ' ' ∉ s := by
  induction s with
  | nil => simp [lastWord]
  | cons c s ih =>
    rw [lastWord]
    split
    · rename_i w hw
      simp only [reduceCtorEq, false_iff, not_not]
      have : ' ' ∈ s := by
        by_contra hc
        rw [ih.2 hc] at hw
        simp at hw
      exact List.mem_cons_of_mem _ this
    · rename_i hn
      have := ih.1 hn
      split
      · rename_i hc; simp [hc]
      · rename_i hc; simp [this, Ne.symm hc]

theorem lastWord_some {s w : Text} : lastWord s = some w ↔ ∃ a, s = a ++ ' ' :: w ∧ ' ' ∉ w := by
  induction s with
  | nil => simp [lastWord]
  | cons c s ih =>
    rw [lastWord]
    split
    · rename_i w' hw
      rw [hw] at ih
      constructor
      · intro h
        obtain ⟨a, ha, hb⟩ := ih.1 h
        exact ⟨c :: a, by rw [ha]; rfl, hb⟩
      · rintro ⟨a, ha, hb⟩
        cases a with
        | nil =>
          simp only [List.nil_append, List.cons.injEq] at ha
          obtain ⟨-, rfl⟩ := ha
          rw [lastWord_none.2 hb] at hw
          simp at hw
        | cons x a =>
          simp only [List.cons_append, List.cons.injEq] at ha
          exact ih.2 ⟨a, ha.2, hb⟩
    · rename_i hn
      have := lastWord_none.1 hn
      split
      · rename_i hc
        subst hc
        constructor
        · intro h
          obtain rfl := Option.some.inj h
          exact ⟨[], rfl, this⟩
        · rintro ⟨a, ha, hb⟩
          cases a with
          | nil => simp at ha; rw [ha]
          | cons x a =>
            simp only [List.cons_append, List.cons.injEq] at ha
            exact absurd (ha.2 ▸ by simp) this
      · rename_i hc
        simp only [reduceCtorEq, false_iff, not_exists, not_and]
        rintro a ha
        cases a with
        | nil => simp at ha; exact absurd ha.1 hc
        | cons x a =>
          simp only [List.cons_append, List.cons.injEq] at ha
          exact absurd (ha.2 ▸ by simp) this

/-! ### Reading a file -/

theorem ws_slash {t : Text} (h : ∀ c ∈ t, isWs c = true) : '/' ∉ t := fun hm => absurd (h _ hm) (by decide)

theorem zeros_parse (z : Nat) (t : Text) : parseDigits 0 (List.replicate z '0' ++ t) = parseDigits 0 t := by
  induction z with
  | zero => rfl
  | succ z ih =>
    rw [List.replicate_succ, List.cons_append, parseDigits]
    exact ih

theorem parse_number {z n : Nat} (h : n < 2 ^ 32) : parseU32 (List.replicate z '0' ++ decimal n) = some n := by
  cases z with
  | zero => exact parseU32_decimal h
  | succ z =>
    rw [parseU32, show stripPlus (List.replicate (z + 1) '0' ++ decimal n) = List.replicate (z + 1) '0' ++ decimal n from rfl,
      if_neg (by simp), zeros_parse, parseDigits_decimal]
    dsimp only
    rw [if_pos h]

theorem decimal_char {n : Nat} {c : Char} (h : c ∈ decimal n) : isWs c = false ∧ c ≠ '/' ∧ c ≠ '\n' ∧ c ≠ ' ' := by
  obtain ⟨d, hd, rfl⟩ := decimal_mem h
  clear h
  revert d
  decide

/-- The value of a line that defines a part. -/
theorem extract_define {lead : Text} {c : Comp} {suffix gap : Text} {zeros n : Nat} {trail : Text} {comment : Option Text}
    (h : (Line.define lead c suffix gap zeros n trail comment).Ok) :
    Begins c (Line.define lead c suffix gap zeros n trail comment).text ∧
    lastWord (trim (beforeSlashes (trim (Line.define lead c suffix gap zeros n trail comment).text))) =
      some (List.replicate zeros '0' ++ decimal n) := by
  obtain ⟨h1, h2, h3, h4, h5, h6⟩ := h
  refine ⟨⟨lead, suffix ++ gap ++ ' ' :: List.replicate zeros '0' ++ decimal n ++ trail ++ commentText comment, fun x hx => (h1 x hx).1, by simp only [Line.text, List.append_assoc, List.cons_append]⟩, ?_⟩
  let M : Text := "#define ".toList ++ c.text ++ (suffix ++ gap ++ ' ' :: List.replicate zeros '0' ++ decimal n)
  let T : Text := trail ++ commentText comment
  have htext : (Line.define lead c suffix gap zeros n trail comment).text = lead ++ (M ++ T) := by
    simp only [Line.text, M, T, List.append_assoc, List.cons_append]
  obtain ⟨y, hy, hy'⟩ : ∃ y, M.getLast? = some y ∧ isWs y = false := by
    have hne := decimal_ne_nil n
    refine ⟨(decimal n).getLast hne, ?_, (decimal_char (List.getLast_mem hne)).1⟩
    simp only [M, ← List.append_assoc]
    rw [List.getLast?_append, List.getLast?_eq_some_getLast hne]
    rfl
  have hM : '/' ∉ M := by
    simp only [M, List.mem_append, List.mem_cons, List.mem_replicate]
    rintro ((hm | hm) | (((hm | hm) | hm | hm) | hm))
    · revert hm; decide
    · revert hm; cases c <;> decide
    · exact (h2 _ hm).2 rfl
    · exact absurd (h3 _ hm).1 (by decide)
    · revert hm; decide
    · exact absurd hm.2 (by decide)
    · exact (decimal_char hm).2.1 rfl
  have hT : ∃ ws, (∀ x ∈ ws, isWs x = true) ∧ beforeSlashes ((T.reverse.dropWhile isWs).reverse) = ws := by
    cases comment with
    | none =>
      refine ⟨[], by simp, ?_⟩
      have : T = trail := by simp [T, commentText]
      rw [this, List.dropWhile_eq_nil_iff.2 (by intro x hx; exact (h5 x (List.mem_reverse.1 hx)).1)]
      rfl
    | some t =>
      refine ⟨trail, fun x hx => (h5 x hx).1, ?_⟩
      have e : T = (trail ++ ['/']) ++ ['/'] ++ t := by simp [T, commentText]
      rw [e, List.reverse_append]
      have : (t.reverse ++ (trail ++ ['/'] ++ ['/']).reverse).dropWhile isWs =
          t.reverse.dropWhile isWs ++ (trail ++ ['/'] ++ ['/']).reverse := by
        by_cases hb : ∀ x ∈ t, isWs x = true
        · have hb' : ∀ x ∈ t.reverse, isWs x = true := by simpa using hb
          rw [List.dropWhile_append_of_pos hb', List.dropWhile_eq_nil_iff.2 hb',
            List.reverse_append, List.reverse_singleton, List.singleton_append,
            List.dropWhile_cons_of_neg (by decide)]
          rfl
        · rw [List.dropWhile_append, if_neg (by intro h; apply hb; simpa using h)]
      rw [this, List.reverse_append, List.reverse_reverse, List.append_assoc, List.append_assoc,
        before_append (ws_slash fun x hx => (h5 x hx).1)]
      simp [beforeSlashes]
  obtain ⟨ws, hws, hb⟩ := hT
  rw [htext, trim_drop (fun x hx => (h1 x hx).1), trim_keep (x := '#') rfl (by decide) hy hy', before_append hM, hb,
    trim_drop_end hws]
  have : trim M = M := by
    have := trim_keep (p := M) (b := []) (x := '#') rfl (by decide) hy hy'
    simpa using this
  rw [this, lastWord_some]
  refine ⟨"#define ".toList ++ c.text ++ (suffix ++ gap), by simp only [M, List.append_assoc, List.cons_append], ?_⟩
  simp only [List.mem_append, List.mem_replicate, not_or]
  exact ⟨fun h => absurd h.2 (by decide), fun hm => (decimal_char hm).2.2.2 rfl⟩

theorem begins_define {lead : Text} {c c' : Comp} {suffix gap : Text} {zeros n : Nat} {trail : Text} {comment : Option Text}
    (h : (Line.define lead c' suffix gap zeros n trail comment).Ok)
    (hb : Begins c (Line.define lead c' suffix gap zeros n trail comment).text) : c' = c := by
  obtain ⟨⟨a, b, ha, he⟩, -⟩ := extract_define h
  obtain ⟨a', b', ha', he'⟩ := hb
  rw [he] at he'
  have key : trim (a ++ "#define ".toList ++ c'.text ++ b) = trim (a' ++ "#define ".toList ++ c.text ++ b') := by rw [he']
  obtain ⟨y, hy, hy'⟩ := last_define c
  obtain ⟨z, hz, hz'⟩ := last_define c'
  rw [List.append_assoc, List.append_assoc, trim_drop ha, ← List.append_assoc,
    trim_keep (by exact head_define c' []) (by decide) hz hz', List.append_assoc a', List.append_assoc a', trim_drop ha',
    trim_keep (by exact head_define c []) (by decide) hy hy'] at key
  rw [List.append_assoc, List.append_assoc] at key
  have key := List.append_cancel_left key
  cases c' <;> cases c <;> first | rfl | (exfalso; revert key; simp [Comp.text])

/-- The first line that begins with a definition of a part. -/
theorem find_line {ls : List Line} (hok : ∀ l ∈ ls, l.Ok) (c : Comp) :
    (Silent c ls → ((ls.map Line.text).map trim).find? (fun l => ("#define ".toList ++ c.text).isPrefixOf l) = none) ∧
    ∀ n, Says c ls n → ∃ l, ((ls.map Line.text).map trim).find?
        (fun l => ("#define ".toList ++ c.text).isPrefixOf l) = some l ∧
      ∃ w, lastWord (trim (beforeSlashes l)) = some w ∧ parseU32 w = some n := by
  induction ls with
  | nil => exact ⟨fun _ => rfl, fun n h => by cases h⟩
  | cons l ls ih =>
    have ih := ih fun l hl => hok l (by simp [hl])
    have hl := hok l (by simp)
    have hskip : ¬ Begins c l.text → ((l :: ls).map Line.text |>.map trim).find?
        (fun l => ("#define ".toList ++ c.text).isPrefixOf l) = ((ls.map Line.text).map trim).find?
        (fun l => ("#define ".toList ++ c.text).isPrefixOf l) := by
      intro h
      rw [List.map_cons, List.map_cons, List.find?_cons_of_neg]
      rw [begins_iff]
      exact h
    constructor
    · intro hs
      have hs' : Silent c ls := fun lead c' suffix gap zeros n trail comment hm => hs _ _ _ _ _ _ _ _ (List.mem_cons_of_mem _ hm)
      rw [hskip, ih.1 hs']
      cases l with
      | other t =>
        rintro ⟨a, b, ha, he⟩
        refine hl.2 c a b ?_ he
        intro x hx
        refine ⟨ha x hx, ?_⟩
        rintro rfl
        apply hl.1
        have : t = a ++ "#define ".toList ++ c.text ++ b := he
        rw [this]
        simp [hx]
      | define lead c' suffix gap zeros n trail comment =>
        intro hb
        exact hs _ _ _ _ _ _ _ _ (List.mem_cons_self ..) (begins_define hl hb)
    · intro n hs
      cases hs with
      | here =>
        obtain ⟨h1, h2⟩ := extract_define hl
        refine ⟨_, ?_, _, h2, parse_number hl.2.2.2.1⟩
        rw [List.map_cons, List.map_cons, List.find?_cons_of_pos]
        rw [begins_iff]
        exact h1
      | other h =>
        rename_i t
        rw [hskip]
        · exact ih.2 n h
        · rintro ⟨a, b, ha, he⟩
          refine hl.2 c a b ?_ he
          intro x hx
          refine ⟨ha x hx, ?_⟩
          rintro rfl
          apply hl.1
          have : t = a ++ "#define ".toList ++ c.text ++ b := he
          rw [this]
          simp [hx]
      | skip hne h =>
        rw [hskip]
        · exact ih.2 n h
        · exact fun hb => hne (begins_define hl hb)

theorem text_newline {l : Line} (h : l.Ok) : '\n' ∉ l.text := by
  cases l with
  | other t => exact h.1
  | define lead c suffix gap zeros n trail comment =>
    obtain ⟨h1, h2, h3, h4, h5, h6⟩ := h
    simp only [Line.text, List.mem_append, List.mem_cons, List.mem_replicate]
    rintro ((((((((hm | hm) | hm) | hm) | hm) | hm | hm) | hm) | hm) | hm)
    · exact (h1 _ hm).2 rfl
    · revert hm; decide
    · revert hm; cases c <;> decide
    · exact absurd (h2 _ hm).1 (by decide)
    · exact (h3 _ hm).2 rfl
    · revert hm; decide
    · exact absurd hm.2 (by decide)
    · exact (decimal_char hm).2.2.1 rfl
    · exact (h5 _ hm).2 rfl
    · cases comment with
      | none => simp [commentText] at hm
      | some t =>
        simp only [commentText, List.mem_cons] at hm
        rcases hm with hm | hm | hm
        · revert hm; decide
        · revert hm; decide
        · exact h6 t rfl hm

theorem extract_file {ls : List Line} (hne : ls ≠ []) (hok : ∀ l ∈ ls, l.Ok) (c : Comp) :
    (Silent c ls → extract ((lines (joinWith '\n' (ls.map Line.text))).map trim) c = .error c.error) ∧
    ∀ n, Says c ls n → extract ((lines (joinWith '\n' (ls.map Line.text))).map trim) c = .ok n := by
  have hp : ("#define ".toList ++ c.text).isPrefixOf ([] : Text) = false := by cases c <;> rfl
  have hs : split '\n' (joinWith '\n' (ls.map Line.text)) = ls.map Line.text := by
    refine split_joinWith (by simpa using hne) ?_
    intro p hp
    obtain ⟨l, hl, rfl⟩ := List.mem_map.1 hp
    exact text_newline (hok l hl)
  obtain ⟨h1, h2⟩ := find_line hok c
  constructor
  · intro h
    rw [extract, find_lines hp, hs, h1 h]
  · intro n h
    obtain ⟨l, h3, w, h4, h5⟩ := h2 n h
    rw [extract, find_lines hp, hs, h3]
    dsimp only
    rw [h4]
    dsimp only
    rw [h5]

/-! ### C88 -/

/-- A file of lines that define parts and of other lines yields the version that the first line for each part says; if a
part other than the last is missing, that is reported. -/
theorem C88_file (ls : List Line) (hne : ls ≠ []) (hok : ∀ l ∈ ls, l.Ok) :
    (∀ a b c, Says .major ls a → Says .minor ls b → Says .patch ls c →
      (∀ d, Says .build ls d → fromScript (joinWith '\n' (ls.map Line.text)) = .ok ⟨a, b, c, some d, none⟩) ∧
      (Silent .build ls → fromScript (joinWith '\n' (ls.map Line.text)) = .ok ⟨a, b, c, none, none⟩)) ∧
    (Silent .major ls → fromScript (joinWith '\n' (ls.map Line.text)) = .error .expectedMajor) ∧
    (∀ a, Says .major ls a → Silent .minor ls → fromScript (joinWith '\n' (ls.map Line.text)) = .error .expectedMinor) ∧
    (∀ a b, Says .major ls a → Says .minor ls b → Silent .patch ls →
      fromScript (joinWith '\n' (ls.map Line.text)) = .error .expectedPatch) := by
  have h := extract_file hne hok
  refine ⟨fun a b c ha hb hc => ⟨fun d hd => ?_, fun hd => ?_⟩, fun ha => ?_, fun a ha hb => ?_, fun a b ha hb hc => ?_⟩
  · rw [fromScript]
    simp only [(h .major).2 a ha, (h .minor).2 b hb, (h .patch).2 c hc, (h .build).2 d hd]; rfl
  · rw [fromScript]
    simp only [(h .major).2 a ha, (h .minor).2 b hb, (h .patch).2 c hc, (h .build).1 hd]; rfl
  · rw [fromScript]
    simp only [(h .major).1 ha]; rfl
  · rw [fromScript]
    simp only [(h .major).2 a ha, (h .minor).1 hb]; rfl
  · rw [fromScript]
    simp only [(h .major).2 a ha, (h .minor).2 b hb, (h .patch).1 hc]; rfl

theorem extract_found {s : Text} {c : Comp} {n : Nat} (h : extract ((lines s).map trim) c = .ok n) : Found s c n := by
  have hp : ("#define ".toList ++ c.text).isPrefixOf ([] : Text) = false := by cases c <;> rfl
  rw [extract, find_lines hp] at h
  split at h
  · simp at h
  rename_i l hl
  split at h
  · simp at h
  rename_i w hw
  split at h
  · rename_i n' hn
    obtain rfl := Except.ok.inj h
    obtain ⟨a, hb, hc⟩ := lastWord_some.1 hw
    obtain ⟨hpl, pre', post', hs, hpre⟩ := List.find?_eq_some_iff_append.1 hl
    obtain ⟨pre, l1, hs1, rfl, hl1⟩ := List.map_eq_append_iff.1 hs
    obtain ⟨l0, post, rfl, rfl, rfl⟩ := List.map_eq_cons_iff.1 hl1
    refine ⟨pre, l0, post, hs1, ?_, begins_iff.1 hpl, ?_⟩
    · intro x hx hbx
      have := hpre (trim x) (List.mem_map_of_mem hx)
      rw [begins_iff.2 hbx] at this
      simp at this
    · obtain ⟨x, y, hx, hxw, hyw⟩ := trim_split l0
      obtain ⟨rest, hr, hr', hno⟩ := before_spec (trim l0)
      obtain ⟨p, q, hB, hpw, hqw⟩ := trim_split (beforeSlashes (trim l0))
      have hslash : ¬ (['/', '/'] <:+: (x ++ p ++ a) ++ ' ' :: w ++ q) := by
        have := no_slashes (ws_slash hxw) (by simp : '/' ∉ ([] : Text)) hno
        rw [hB, hb] at this
        simpa only [List.append_assoc, List.append_nil] using this
      have hl0 : l0 = (x ++ p ++ a) ++ ' ' :: w ++ q ++ (rest ++ y) := by
        conv_lhs => rw [hx, hr, hB, hb]
        simp only [List.append_assoc]
      rcases hr' with rfl | ⟨t, rfl⟩
      · refine ⟨x ++ p ++ a, w, q ++ y, [], by conv_lhs => rw [hl0]
                                               simp only [List.append_assoc, List.nil_append, List.append_nil], ?_,
          .inl rfl, ?_, hc, hn⟩
        · intro c hc
          rcases List.mem_append.1 hc with h' | h'
          exacts [hqw c h', hyw c h']
        · have := no_slashes (by simp : '/' ∉ ([] : Text)) (ws_slash hyw) hslash
          simpa only [List.append_assoc, List.nil_append] using this
      · exact ⟨x ++ p ++ a, w, q, '/' :: '/' :: t ++ y, hl0, hqw, .inr ⟨t ++ y, rfl⟩, hslash, hc, hn⟩
  · simp at h

/-- Whatever the file is: the parts of a version that is read stand in the file, each in the first line that begins with the
definition of the part. -/
theorem C88_only (s : Text) (v : Ver.Version) (h : fromScript s = .ok v) :
    Found s .major v.major ∧ Found s .minor v.minor ∧ Found s .patch v.patch ∧ (∀ b, v.build = some b → Found s .build b) ∧
      v.hash = none := by
  rw [fromScript] at h
  split at h
  · simp at h
  rename_i a ha
  split at h
  · simp at h
  rename_i b hb
  split at h
  · simp at h
  rename_i c hc
  obtain rfl := Except.ok.inj h
  refine ⟨extract_found ha, extract_found hb, extract_found hc, ?_, rfl⟩
  intro d hd
  dsimp only at hd
  cases he : extract ((lines s).map trim) .build with
  | error e => rw [he] at hd; simp [Except.toOption] at hd
  | ok d' =>
    rw [he] at hd
    simp only [Except.toOption, Option.some.injEq] at hd
    rw [← hd]
    exact extract_found he

/-- Backslashes are read as slashes. -/
def slashed (p : Text) : Text := p.map fun c => if c = '\\' then '/' else c

/-- The version that a project without numbers in its settings has is that of the file, by default
`addons/main/script_version.hpp`; behind it stand the first characters of the commit, eight by default. -/
theorem C88_from_file (f : Section) (files : Text → Option Text) (id : Text)
    (h1 : f.major = none) (h2 : f.minor = none) (h3 : f.patch = none) (hid : f.gitHash.getD 8 ≤ id.length) :
    ∃ c, config f = .ok c ∧
      (∀ s v, files (slashed (f.path.getD "addons/main/script_version.hpp".toList)) = some s → fromScript s = .ok v →
        get files (some id) c = .ok { v with hash := if f.gitHash = some 0 then none else some (id.take (f.gitHash.getD 8)) }) ∧
      (files (slashed (f.path.getD "addons/main/script_version.hpp".toList)) = none →
        get files (some id) c = .error (.version .unknownVersion)) := by
  refine ⟨⟨slashed (f.path.getD "addons/main/script_version.hpp".toList), none, f.gitHash.getD 8⟩, ?_, ?_, ?_⟩
  · rw [config]
    simp only [h1, h2, h3, Option.isSome_none, Option.isNone_none, Bool.or_self, Bool.false_and, Bool.and_false,
      Bool.false_eq_true, if_false]
    rfl
  · intro s v hs hv
    have hn : v.hash = none := (C88_only s v hv).2.2.2.2
    rw [get, internalGet]
    simp only [hs, hv]
    split
    · rename_i h0
      have : f.gitHash = some 0 := by
        cases hg : f.gitHash with
        | none => rw [hg] at h0; simp at h0
        | some g => rw [hg] at h0; simp at h0; rw [h0]
      rw [if_pos this, ← hn]
    · rename_i h0
      have : f.gitHash ≠ some 0 := by rintro he; rw [he] at h0; simp at h0
      rw [if_neg this]
  · intro hs
    rw [get, internalGet]
    simp only [hs]

/-- The numbers in the settings are the version, whatever is in the file. -/
theorem C88_from_settings (f : Section) (files : Text → Option Text) (id : Text) (a b c : Nat) (h1 : f.major = some a)
    (h2 : f.minor = some b) (h3 : f.patch = some c) (hp : f.path = none) (hid : f.gitHash.getD 8 ≤ id.length) :
    ∃ cfg, config f = .ok cfg ∧
      get files (some id) cfg =
        .ok ⟨a, b, c, f.build, if f.gitHash = some 0 then none else some (id.take (f.gitHash.getD 8))⟩ := by
  refine ⟨⟨slashed (f.path.getD "addons/main/script_version.hpp".toList), some (a, b, c, f.build), f.gitHash.getD 8⟩, ?_, ?_⟩
  · rw [config]
    simp only [h1, h2, h3, hp, Option.isSome_none, Option.isNone_some, Bool.and_false, Bool.false_and,
      Bool.false_eq_true, if_false]
    rfl
  · rw [get, internalGet]
    dsimp only
    split
    · rename_i h0
      have : f.gitHash = some 0 := by
        cases hg : f.gitHash with
        | none => rw [hg] at h0; simp at h0
        | some g => rw [hg] at h0; simp at h0; rw [h0]
      rw [if_pos this]
    · rename_i h0
      have : f.gitHash ≠ some 0 := by rintro he; rw [he] at h0; simp at h0
      rw [if_neg this]

/-- Numbers in the settings that are not complete are reported. -/
theorem C88_incomplete (f : Section) (h : f.major.isSome ∨ f.minor.isSome ∨ f.patch.isSome)
    (hm : f.major = none ∨ f.minor = none ∨ f.patch = none) : ∃ e, config f = .error e := by
  rw [config]
  split
  · exact ⟨_, rfl⟩
  split
  · exact ⟨_, rfl⟩
  rename_i h1 h2
  cases ha : f.major with
  | none => simp [ha] at h h2; simp [h2] at h
  | some a =>
    cases hb : f.minor with
    | none => exact ⟨_, rfl⟩
    | some b =>
      cases hc : f.patch with
      | none => exact ⟨_, rfl⟩
      | some c => simp [ha, hb, hc] at hm

/-- Without a commit there is no version unless the settings say that it is not to be used. -/
theorem C88_no_commit (files : Text → Option Text) (c : Config) :
    (c.gitHash ≠ 0 → ∀ v, get files none c ≠ .ok v) ∧ (c.gitHash = 0 → ∀ h, get files h c = internalGet files c) := by
  constructor
  · intro h v
    rw [get]
    split
    · simp
    · rw [if_neg h]; simp
  · intro h id
    rw [get]
    split
    · rename_i he; exact he.symm
    · rename_i he; rw [if_pos h]; exact he.symm

/-- The documentation says that numbers override a path and that the file is not used then, "even if a path is set". It is an
error. -/
theorem C88_violated_override (f : Section) (h : f.major.isSome ∨ f.minor.isSome ∨ f.patch.isSome) (hp : f.path.isSome) :
    config f = .error .conflict := by
  rw [config, if_pos (by rcases h with h | h | h <;> simp [h, hp])]

/-- Asking for more characters than the commit has aborts the program. -/
theorem C88_violated_hash (files : Text → Option Text) (id : Text) (c : Config) (v : Ver.Version)
    (hv : internalGet files c = .ok v) (hid : id.length < c.gitHash) : get files (some id) c = .error .panic := by
  rw [get, hv]
  dsimp only
  rw [if_neg (by omega), if_neg (by omega)]

/-- Of a file with a comment and a second definition: what is in the comment, or defined first, counts. A tab is not
understood. What follows a wrong number of a build is not reported. -/
theorem C88_violated_file :
    fromScript "/*\n#define MAJOR 1\n*/\n#define MAJOR 2\n#define MINOR 0\n#define PATCH 0".toList = .ok ⟨1, 0, 0, none, none⟩ ∧
    fromScript "#define MAJOR 1\n#undef MAJOR\n#define MAJOR 2\n#define MINOR 0\n#define PATCH 0".toList =
      .ok ⟨1, 0, 0, none, none⟩ ∧
    fromScript "#define\tMAJOR\t1\n#define MINOR 0\n#define PATCH 0".toList = .error .expectedMajor ∧
    fromScript "#define MAJOR 1\n#define MINOR 0\n#define PATCH 0\n#define BUILD 1a".toList = .ok ⟨1, 0, 0, none, none⟩ := by
  decide +kernel

/-! ### C89 -/

/-- A name that the temporary folder keeps as it is. -/
def Plain (t : Text) : Prop := t ≠ [] ∧ '_' ∉ t ∧ '\\' ∉ t ∧ '/' ∉ t

theorem map_joinWith {l : List Text} (h : ∀ t ∈ l, Plain t) :
    (joinWith '/' l).map (fun c => if c = '\\' ∨ c = '/' then '_' else c) = joinWith '_' l := by
  have hmap : ∀ t, Plain t → t.map (fun c => if c = '\\' ∨ c = '/' then '_' else c) = t := by
    intro t ht
    conv_rhs => rw [← List.map_id t]
    apply List.map_congr_left
    intro c hc
    rw [if_neg]
    · rfl
    · rintro (rfl | rfl)
      exacts [ht.2.2.1 hc, ht.2.2.2 hc]
  induction l with
  | nil => rfl
  | cons t l ih =>
    cases l with
    | nil => exact hmap t (h t (by simp))
    | cons u l =>
      rw [joinWith, joinWith, List.map_append, List.map_cons, hmap t (h t (by simp)), ih fun x hx => h x (by simp [hx])]
      rfl

theorem tmpName_plain {root : List Text} (h : ∀ t ∈ root.drop 2, Plain t) (h2 : 2 < root.length) :
    tmpName root = joinWith '_' (root.drop 2) ∧ tmpName root ≠ [] := by
  have e : tmpName root = joinWith '_' (root.drop 2) := map_joinWith h
  refine ⟨e, ?_⟩
  rw [e]
  cases hl : root.drop 2 with
  | nil => have := congrArg List.length hl; simp at this; omega
  | cons t l =>
    have ht := (h t (by rw [hl]; simp)).1
    cases l with
    | nil => exact ht
    | cons u l => rw [joinWith]; simp

/-- Opening a project leaves the temporary files of another one alone if both are at least three levels deep, below the same
two, and no name has an underscore or a separator in it; and it leaves the profile alone unless `profile` is all that is left of
its path. -/
theorem C89_apart (base r1 r2 : List Text) (w : List Text → Option Bytes) (h1 : ∀ t ∈ r1.drop 2, Plain t)
    (h2 : ∀ t ∈ r2.drop 2, Plain t) (l1 : 2 < r1.length) (l2 : 2 < r2.length) (ht : r1.take 2 = r2.take 2) (hne : r1 ≠ r2) :
    (∀ p, tmp base r2 <+: p → opened base r1 w p = w p) ∧
    (r1.drop 2 ≠ ["profile".toList] → ∀ p, profile base <+: p → opened base r1 w p = w p) := by
  obtain ⟨e1, n1⟩ := tmpName_plain h1 l1
  obtain ⟨e2, n2⟩ := tmpName_plain h2 l2
  have split_of : ∀ r : List Text, (∀ t ∈ r.drop 2, Plain t) → 2 < r.length → split '_' (joinWith '_' (r.drop 2)) = r.drop 2 := by
    intro r h hl
    refine split_joinWith ?_ fun t ht => (h t ht).2.1
    intro he
    have := congrArg List.length he
    simp at this
    omega
  have apart : ∀ (n1 n2 : Text) (p : List Text), n1 ≠ n2 → base ++ [n2] <+: p → ¬ (base ++ [n1] <+: p) := by
    rintro n1 n2 p hn ⟨x, rfl⟩ ⟨y, hy⟩
    rw [List.append_assoc, List.append_assoc] at hy
    have := List.append_cancel_left hy
    simp at this
    exact hn this.1
  have names : tmpName r1 ≠ tmpName r2 := by
    intro he
    rw [e1, e2] at he
    have := split_of r1 h1 l1
    rw [he, split_of r2 h2 l2] at this
    apply hne
    rw [← List.take_append_drop 2 r1, ← List.take_append_drop 2 r2, ht, this]
  constructor
  · intro p hp
    rw [tmp, if_neg n2] at hp
    rw [opened, tmp, if_neg n1, if_neg (apart _ _ p names hp)]
  · intro hpr p hp
    rw [opened, tmp, if_neg n1, if_neg]
    refine apart _ _ p ?_ hp
    intro he
    have := split_of r1 h1 l1
    rw [← e1, he] at this
    exact hpr (this.symm.trans (by decide +kernel))

/-- Opening a project touches nothing outside of the folder of the program among the temporary files. -/
theorem C89_inside (base root : List Text) (w : List Text → Option Bytes) (p : List Text) (h : ¬ (base <+: p)) :
    opened base root w p = w p := by
  rw [opened, if_neg]
  intro hp
  apply h
  rw [tmp] at hp
  split at hp
  · exact hp
  · exact (List.prefix_append _ _).trans hp

/-- Opening a project that is just below the root removes the temporary files of all projects and the profile. -/
theorem C89_violated_root (base : List Text) (r n : Text) (w : List Text → Option Bytes) (p : List Text) (h : base <+: p) :
    opened base [r, n] w p = none := by
  rw [opened, tmp, if_pos (show tmpName [r, n] = [] from rfl), if_pos h]

/-- Different projects share a temporary folder: `/home/me/my_mod` and `/home/me/my/mod`, and `/home/a/mod` and `/srv/a/mod`;
so opening one removes the files of the other. The project `/home/profile` has the folder of the profile. -/
theorem C89_violated_shared (base : List Text) :
    tmp base ["/".toList, "home".toList, "me".toList, "my_mod".toList] =
      tmp base ["/".toList, "home".toList, "me".toList, "my".toList, "mod".toList] ∧
    tmp base ["/".toList, "home".toList, "a".toList, "mod".toList] =
      tmp base ["/".toList, "srv".toList, "a".toList, "mod".toList] ∧
    tmp base ["/".toList, "home".toList, "profile".toList] = profile base := by
  refine ⟨?_, ?_, ?_⟩
  · rw [tmp, tmp, show tmpName ["/".toList, "home".toList, "me".toList, "my_mod".toList] = "me_my_mod".toList by decide +kernel,
      show tmpName ["/".toList, "home".toList, "me".toList, "my".toList, "mod".toList] = "me_my_mod".toList by decide +kernel]
  · rfl
  · rw [tmp, show tmpName ["/".toList, "home".toList, "profile".toList] = "profile".toList by decide +kernel,
      if_neg (by decide), profile]

/-! ### Examples -/

/-- A file as in the documentation, with other lines. -/
def sampleLines : List Line :=
  [.other "// version".toList, .define [] .major [] [] 0 3 [] none,
   .define " ".toList .minor [] " ".toList 1 7 "\t".toList (some " two digits".toList),
   .define [] .patch "LVL".toList [] 0 2 "\r".toList none, .other [], .define [] .build [] [] 0 69 [] none]

theorem sample_ok : ∀ l ∈ sampleLines, l.Ok := by
  have key : ∀ t : Text, (∀ c : Comp, ¬ ("#define ".toList ++ c.text).isPrefixOf (trim t) = true) →
      ∀ (c : Comp) (a b : Text), Blank a → t ≠ a ++ "#define ".toList ++ c.text ++ b := by
    intro t h c a b ha he
    exact h c (begins_iff.2 ⟨a, b, fun x hx => (ha x hx).1, he⟩)
  intro l hl
  simp only [sampleLines, List.mem_cons, List.not_mem_nil, or_false] at hl
  rcases hl with rfl | rfl | rfl | rfl | rfl | rfl
  · exact ⟨by decide +kernel, key _ (by intro c; cases c <;> decide +kernel)⟩
  · exact ⟨by unfold Blank; decide +kernel, by decide +kernel, by unfold Blank; decide +kernel, by decide, by unfold Blank; decide +kernel, by simp⟩
  · exact ⟨by unfold Blank; decide +kernel, by decide +kernel, by unfold Blank; decide +kernel, by decide, by unfold Blank; decide +kernel,
      by intro t ht; obtain rfl := Option.some.inj ht; decide +kernel⟩
  · exact ⟨by unfold Blank; decide +kernel, by decide +kernel, by unfold Blank; decide +kernel, by decide, by unfold Blank; decide +kernel, by simp⟩
  · exact ⟨by decide +kernel, key _ (by intro c; cases c <;> decide +kernel)⟩
  · exact ⟨by unfold Blank; decide +kernel, by decide +kernel, by unfold Blank; decide +kernel, by decide, by unfold Blank; decide +kernel, by simp⟩

example : fromScript (joinWith '\n' (sampleLines.map Line.text)) = .ok ⟨3, 7, 2, some 69, none⟩ :=
  ((C88_file sampleLines (by simp [sampleLines]) sample_ok).1 3 7 2 (.other .here) (.other (.skip (by decide) .here))
    (.other (.skip (by decide) (.skip (by decide) .here)))).1 69
    (.other (.skip (by decide) (.skip (by decide) (.skip (by decide) (.other .here)))))

example : fromScript "#define MAJOR 1 // x\n  #define MINOR 02\r\n#define PATCHLVL 3".toList = .ok ⟨1, 2, 3, none, none⟩ := by
  decide +kernel

/-- The settings are empty, as for most projects. -/
example : config ⟨none, none, none, none, none, none⟩ = .ok ⟨"addons/main/script_version.hpp".toList, none, 8⟩ := by decide +kernel

example : (config ⟨none, some 1, some 0, some 4, some 3, some 4⟩).toOption.bind (fun c =>
    (get (fun _ => none) (some "0123456789abcdef0123456789abcdef01234567".toList) c).toOption) =
    some ⟨1, 0, 4, some 3, some "0123".toList⟩ := by decide +kernel

example : (∀ t ∈ (["/".toList, "home".toList, "me".toList, "mod".toList] : List Text).drop 2, Plain t) ∧
    (∀ t ∈ (["/".toList, "home".toList, "me".toList, "other".toList] : List Text).drop 2, Plain t) := by
  unfold Plain; decide +kernel

end Verif.Project
