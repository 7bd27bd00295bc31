import Mathlib.Data.List.Basic
import Mathlib.Data.List.Induction
import Verif.Model.Reporting
/-! Properties C96 and C97: where reports point, and which are shown. -/
namespace Verif.Reporting
open Verif.Prefix (lines stripCr)
open Verif.Lints (Severity)

/-! ### Lines -/

theorem byteLen_append (a b : Text) : byteLen (a ++ b) = byteLen a + byteLen b := by
  induction a with
  | nil => simp [byteLen]
  | cons c a ih => simp [byteLen, ih]; omega

theorem utf8Size_pos (c : Char) : 0 < c.utf8Size := Char.utf8Size_pos c

/-- The lines as they stand in the text, each with its line end. -/
def closed (ls : List Text) : Text := ls.flatMap (· ++ ['\n'])

theorem split_append' (c : Char) (p r : Text) : split c (p ++ c :: r) = split c p ++ split c r := by
  induction p with
  | nil => simp [split]
  | cons d p ih =>
    rw [List.cons_append, split]
    by_cases hc : d = c
    · rw [if_pos hc, ih]; conv_rhs => rw [split, if_pos hc]
      rfl
    · rw [if_neg hc, ih]; conv_rhs => rw [split, if_neg hc]
      cases hsp : split c p with
      | nil => exact absurd hsp (split_ne_nil _ _)
      | cons u us => rfl

theorem split_closed (ls : List Text) (h : ∀ l ∈ ls, '\n' ∉ l) (r : Text) : split '\n' (closed ls ++ r) = ls ++ split '\n' r := by
  induction ls with
  | nil => rfl
  | cons l ls ih =>
    have : closed (l :: ls) ++ r = l ++ '\n' :: (closed ls ++ r) := by simp [closed]
    rw [this, split_append', ih (fun x hx => h x (List.mem_cons_of_mem _ hx)), split_of_not_mem (h l (by simp))]
    rfl

theorem mem_split {s : Text} {c d : Char} {p : Text} (hp : p ∈ split c s) (hd : d ∈ p) : d ∈ s := by
  induction s generalizing p with
  | nil => simp [split] at hp; subst hp; exact hd
  | cons e s ih =>
    rw [split] at hp
    split at hp
    · rcases List.mem_cons.1 hp with rfl | hp
      · cases hd
      · exact List.mem_cons_of_mem _ (ih hp hd)
    · cases hsp : split c s with
      | nil => exact absurd hsp (split_ne_nil _ _)
      | cons u us =>
        rw [hsp] at hp
        rcases List.mem_cons.1 hp with rfl | hp
        · rcases List.mem_cons.1 hd with rfl | hd
          · simp
          · exact List.mem_cons_of_mem _ (ih (by rw [hsp]; simp) hd)
        · exact List.mem_cons_of_mem _ (ih (by rw [hsp]; exact List.mem_cons_of_mem _ hp) hd)

theorem lines_noCr {s : Text} (h : '\r' ∉ s) :
    lines s = if (split '\n' s).getLast? = some [] then (split '\n' s).dropLast else split '\n' s := by
  obtain ⟨init, last, hs⟩ : ∃ init last, split '\n' s = init ++ [last] :=
    ⟨_, _, (List.dropLast_concat_getLast (split_ne_nil '\n' s)).symm⟩
  have hm : init.map stripCr = init := by
    conv_rhs => rw [← List.map_id init]
    apply List.map_congr_left
    intro p hp
    show stripCr p = p
    have : '\r' ∉ p := fun hr => h (mem_split (c := '\n') (by rw [hs]; exact List.mem_append_left _ hp) hr)
    unfold stripCr
    rw [if_neg]
    intro e
    exact this (List.mem_of_getLast? e)
  unfold lines
  rw [hs]
  simp only [List.reverse_append, List.reverse_singleton, List.singleton_append, List.reverse_reverse, hm]
  by_cases hl : last = []
  · subst hl; simp
  · simp [hl]

/-- Every text up to some point is closed lines and the beginning of a line. -/
theorem decompose (p : Text) : ∃ ls r, (∀ l ∈ ls, '\n' ∉ l) ∧ '\n' ∉ r ∧ p = closed ls ++ r ∧
    ls.length = p.count '\n' ∧ r = (p.reverse.takeWhile (· ≠ '\n')).reverse := by
  induction p using List.reverseRecOn with
  | nil => exact ⟨[], [], by simp, by simp, rfl, rfl, rfl⟩
  | append_singleton p c ih =>
    obtain ⟨ls, r, h1, h2, h3, h4, h5⟩ := ih
    by_cases hc : c = '\n'
    · subst hc
      refine ⟨ls ++ [r], [], ?_, by simp, ?_, ?_, ?_⟩
      · intro l hl
        rcases List.mem_append.1 hl with hl | hl
        · exact h1 l hl
        · rw [List.mem_singleton.1 hl]; exact h2
      · rw [h3]; simp [closed]
      · simp [h4]
      · simp
    · refine ⟨ls, r ++ [c], h1, ?_, ?_, ?_, ?_⟩
      · simp [h2, Ne.symm hc]
      · rw [h3]; simp
      · rw [List.count_append, h4, List.count_singleton]; simp [hc]
      · simp [hc, h5]

theorem scan_append (p : Nat) (a b : List Text) : scan p (a ++ b) = scan p a ++ scan (p + byteLen (closed a)) b := by
  induction a generalizing p with
  | nil => simp [scan, closed, byteLen]
  | cons l a ih =>
    have : byteLen (closed (l :: a)) = byteLen l + 1 + byteLen (closed a) := by
      have e : closed (l :: a) = l ++ ['\n'] ++ closed a := by simp [closed]
      have h1 : ('\n' : Char).utf8Size = 1 := by decide
      rw [e, byteLen_append, byteLen_append]
      simp [byteLen, h1]
    rw [List.cons_append, scan, scan, ih, this, List.cons_append]
    congr 3
    omega

theorem scan_lt (p : Nat) (a : List Text) : ∀ x ∈ scan p a, p ≤ x ∧ x < p + byteLen (closed a) := by
  induction a generalizing p with
  | nil => intro x hx; cases hx
  | cons l a ih =>
    have : byteLen (closed (l :: a)) = byteLen l + 1 + byteLen (closed a) := by
      have e : closed (l :: a) = l ++ ['\n'] ++ closed a := by simp [closed]
      have h1 : ('\n' : Char).utf8Size = 1 := by decide
      rw [e, byteLen_append, byteLen_append]
      simp [byteLen, h1]
    intro x hx
    rw [scan] at hx
    rcases List.mem_cons.1 hx with rfl | hx
    · omega
    · have := ih _ x hx; omega

theorem scan_ge (p : Nat) (a : List Text) : ∀ x ∈ scan p a, p ≤ x := fun x hx => (scan_lt p a x hx).1

theorem scan_length (p : Nat) (a : List Text) : (scan p a).length = a.length := by
  induction a generalizing p with
  | nil => rfl
  | cons l a ih => simp [scan, ih]

/-- The line of an index: the last start that is not behind it. -/
theorem lineIndex_of {s : Text} {A C : List Nat} {m b : Nat} (hs : lineStarts s = A ++ m :: C) (hA : ∀ x ∈ A, x < m)
    (hm : m ≤ b) (hC : ∀ x ∈ C, b < x) : lineIndex s b = some A.length := by
  unfold lineIndex
  rw [hs]
  by_cases hb : m = b
  · subst hb
    rw [if_pos (by simp), List.idxOf_append_of_notMem (fun hx => absurd (hA _ hx) (by omega))]
    simp
  · rw [if_neg]
    · have e : (A ++ m :: C).countP (· < b) = A.length + 1 := by
        rw [List.countP_append, List.countP_cons, List.countP_eq_length.2, List.countP_eq_zero.2]
        · simp; omega
        · intro x hx; have := hC x hx; simp; omega
        · intro x hx; have := hA x hx; simp; omega
      simp only [e]
      simp
    · intro hx
      rcases List.mem_append.1 hx with hx | hx
      · have := hA _ hx; omega
      · rcases List.mem_cons.1 hx with rfl | hx
        · exact hb rfl
        · have := hC _ hx; omega

/-! ### Columns -/

theorem ends_append (p : Nat) (a b : Text) : ends p (a ++ b) = ends p a ++ ends (p + byteLen a) b := by
  induction a generalizing p with
  | nil => simp [ends, byteLen]
  | cons c a ih => rw [List.cons_append, ends, ends, ih, List.cons_append, byteLen]; congr 3; omega

theorem ends_mem (p : Nat) (a : Text) : ∀ x ∈ ends p a, p < x ∧ x ≤ p + byteLen a := by
  induction a generalizing p with
  | nil => intro x hx; cases hx
  | cons c a ih =>
    intro x hx
    have := utf8Size_pos c
    rw [ends] at hx
    rw [byteLen]
    rcases List.mem_cons.1 hx with rfl | hx
    · omega
    · have := ih _ x hx; omega

/-- Between two places as many characters end as there are between them. -/
theorem count_ends (p : Nat) (r t : Text) :
    (List.range' p (byteLen r)).countP (fun i => (ends p (r ++ t)).contains (i + 1)) = r.length := by
  induction r generalizing p with
  | nil => rfl
  | cons c r ih =>
    have hc := utf8Size_pos c
    rw [byteLen, ← List.range'_append_1, List.countP_append, List.cons_append, ends]
    have e1 : (List.range' p c.utf8Size).countP (fun i => ((p + c.utf8Size) :: ends (p + c.utf8Size) (r ++ t)).contains (i + 1)) = 1 := by
      obtain ⟨n, hn⟩ : ∃ n, c.utf8Size = n + 1 := ⟨c.utf8Size - 1, by omega⟩
      rw [hn, List.range'_1_concat, List.countP_append]
      have z : (List.range' p n).countP (fun i => ((p + (n + 1)) :: ends (p + (n + 1)) (r ++ t)).contains (i + 1)) = 0 := by
        rw [List.countP_eq_zero]
        intro i hi
        have hi' := List.mem_range'_1.1 hi
        simp only [List.contains_eq_mem, List.mem_cons, decide_eq_true_eq, not_or]
        refine ⟨by omega, fun hx => ?_⟩
        have := ends_mem _ _ _ hx
        omega
      rw [z]
      simp [Nat.add_assoc]
    have e2 : (List.range' (p + c.utf8Size) (byteLen r)).countP
        (fun i => ((p + c.utf8Size) :: ends (p + c.utf8Size) (r ++ t)).contains (i + 1)) = r.length := by
      rw [← ih (p + c.utf8Size)]
      apply List.countP_congr
      intro i hi
      have hi' := List.mem_range'_1.1 hi
      simp only [List.contains_eq_mem, List.mem_cons, decide_eq_true_eq]
      constructor
      · rintro (h | h)
        · omega
        · exact h
      · exact Or.inr
    rw [e1, e2, List.length_cons]
    omega

theorem columnIndex_of (a r t : Text) (stop : Nat) (h : byteLen a + byteLen r ≤ stop) :
    columnIndex (a ++ r ++ t) (byteLen a, stop) (byteLen a + byteLen r) = r.length := by
  unfold columnIndex
  have e : min (byteLen a + byteLen r) (min stop (byteLen (a ++ r ++ t))) = byteLen a + byteLen r := by
    rw [byteLen_append, byteLen_append]; omega
  simp only [e, Nat.add_sub_cancel_left]
  rw [← count_ends (byteLen a) r t]
  apply List.countP_congr
  intro i hi
  have hi' := List.mem_range'_1.1 hi
  unfold boundary
  rw [List.append_assoc, ends_append 0 a (r ++ t), Nat.zero_add]
  simp only [List.contains_eq_mem, List.mem_append, Bool.or_eq_true, beq_iff_eq, decide_eq_true_eq]
  constructor
  · rintro (h | h | h)
    · omega
    · have := ends_mem _ _ _ h; omega
    · exact h
  · intro h; exact Or.inr (Or.inr h)

/-! ### C96: where reports point -/

/-- C96: the offset behind any beginning `p` of a file is shown as the line and column one gets to by going through `p`:
one more than the line ends, one more than the characters since the last. (Unless nothing follows a line end.) -/
theorem C96_line_column (p q : Text) (h : '\r' ∉ p ++ q) (hne : p ++ q ≠ []) (hq : q ≠ [] ∨ p.getLast? ≠ some '\n') :
    ∃ i, lineIndex (p ++ q) (byteLen p) = some i ∧ lineNumber i = p.count '\n' + 1 ∧
      columnNumber (p ++ q) i (byteLen p) = some ((p.reverse.takeWhile (· ≠ '\n')).length + 1) := by
  obtain ⟨ls, r, h1, h2, h3, h4, h5⟩ := decompose p
  -- the rest of the line
  obtain ⟨u, us, hu, hsp⟩ : ∃ u us, split '\n' q = u :: us ∧ split '\n' (r ++ q) = (r ++ u) :: us := by
    cases hsq : split '\n' q with
    | nil => exact absurd hsq (split_ne_nil _ _)
    | cons u us =>
      refine ⟨u, us, rfl, ?_⟩
      clear h5 h3
      induction r with
      | nil => exact hsq
      | cons c r ih =>
        have hc : c ≠ '\n' := fun e => h2 (by simp [e])
        rw [List.cons_append, split, if_neg hc, ih (fun e => h2 (List.mem_cons_of_mem _ e))]
        rfl
  have hs : split '\n' (p ++ q) = ls ++ (r ++ u) :: us := by
    rw [h3, List.append_assoc, split_closed ls h1, hsp]
  have hl : ∃ vs, lines (p ++ q) = ls ++ (r ++ u) :: vs := by
    rw [lines_noCr h, hs]
    split
    · rename_i hlast
      cases hus : us with
      | nil =>
        subst hus
        exfalso
        rw [List.getLast?_append_of_ne_nil _ (by simp)] at hlast
        have hru : r = [] ∧ u = [] := by simpa using hlast
        have hq0 : q = [] := by
          have := joinWith_split '\n' q
          rw [hu, hru.2] at this
          simpa [joinWith] using this.symm
        rcases hq with hq | hq
        · exact hq hq0
        · rw [h3, hru.1, List.append_nil] at hq hne
          cases hls : ls with
          | nil => subst hls; exact hne (by rw [hq0]; rfl)
          | cons x xs =>
            apply hq
            have : ls ≠ [] := by rw [hls]; simp
            rw [← List.dropLast_concat_getLast this]
            simp [closed]
      | cons v vs =>
        refine ⟨(v :: vs).dropLast, ?_⟩
        rw [List.dropLast_append_of_ne_nil (by simp), List.dropLast_cons_of_ne_nil (by simp)]
    · exact ⟨us, rfl⟩
  obtain ⟨vs, hl⟩ := hl
  have hst : lineStarts (p ++ q) = scan 0 ls ++ byteLen (closed ls) :: scan (byteLen (closed ls) + byteLen (r ++ u) + 1) vs := by
    unfold lineStarts
    rw [hl, scan_append, Nat.zero_add]
    rfl
  have hb : byteLen p = byteLen (closed ls) + byteLen r := by rw [h3, byteLen_append]
  refine ⟨ls.length, ?_, by rw [← h4]; rfl, ?_⟩
  · rw [lineIndex_of hst]
    · rw [scan_length]
    · intro x hx; have := scan_lt 0 ls x hx; omega
    · omega
    · intro x hx
      have := scan_ge _ _ x hx
      rw [byteLen_append] at this
      omega
  · have hlen : (lineStarts (p ++ q)).length = ls.length + 1 + vs.length := by
      rw [hst]; simp [scan_length]; omega
    have ha : lineStart (p ++ q) ls.length = some (byteLen (closed ls)) := by
      unfold lineStart
      rw [dif_pos (by omega)]
      simp only [hst]
      rw [List.getElem_append_right (by rw [scan_length])]
      simp [scan_length]
    have hb2 : ∃ n, lineStart (p ++ q) (ls.length + 1) = some n ∧ byteLen (closed ls) + byteLen r ≤ n := by
      unfold lineStart
      by_cases hv : ls.length + 1 < (lineStarts (p ++ q)).length
      · rw [dif_pos hv]
        refine ⟨_, rfl, ?_⟩
        have : (lineStarts (p ++ q))[ls.length + 1] ∈ scan (byteLen (closed ls) + byteLen (r ++ u) + 1) vs := by
          simp only [hst]
          rw [List.getElem_append_right (by rw [scan_length]; omega)]
          simp only [scan_length, Nat.add_sub_cancel_left, List.getElem_cons_succ]
          exact List.getElem_mem _
        have := scan_ge _ _ _ this
        rw [byteLen_append] at this
        omega
      · rw [dif_neg hv, if_pos (by omega)]
        exact ⟨_, rfl, by rw [byteLen_append, hb]; omega⟩
    obtain ⟨n, hn, hle⟩ := hb2
    unfold columnNumber lineRange
    rw [ha, hn, hb]
    simp only [Option.bind_eq_bind, Option.bind_some, Option.pure_def, Option.map_some, Option.some.injEq]
    rw [h3, columnIndex_of (closed ls) r q n hle]
    congr 1
    rw [← h3, h5, List.length_reverse]

/-- C96: behind a line end that is the last character, the last line is shown and a column behind its line end. -/
theorem C96_after_last (p : Text) (h : '\r' ∉ p) :
    ∃ i, lineIndex (p ++ ['\n']) (byteLen (p ++ ['\n'])) = some i ∧ lineNumber i = p.count '\n' + 1 ∧
      columnNumber (p ++ ['\n']) i (byteLen (p ++ ['\n'])) = some ((p.reverse.takeWhile (· ≠ '\n')).length + 2) := by
  obtain ⟨ls, r, h1, h2, h3, h4, h5⟩ := decompose p
  have hc : p ++ ['\n'] = closed (ls ++ [r]) := by rw [h3]; simp [closed]
  have hm : ∀ l ∈ ls ++ [r], '\n' ∉ l := by
    intro l hl
    rcases List.mem_append.1 hl with hl | hl
    · exact h1 l hl
    · rw [List.mem_singleton.1 hl]; exact h2
  have hs : split '\n' (p ++ ['\n']) = (ls ++ [r]) ++ [[]] := by
    have := split_closed (ls ++ [r]) hm []
    rw [List.append_nil, ← hc] at this
    rw [this]; rfl
  have hl : lines (p ++ ['\n']) = ls ++ [r] := by
    rw [lines_noCr (by simpa using h), hs]
    simp
  have hst : lineStarts (p ++ ['\n']) = scan 0 ls ++ byteLen (closed ls) :: [] := by
    unfold lineStarts
    rw [hl, scan_append, Nat.zero_add]
    rfl
  have h1n : ('\n' : Char).utf8Size = 1 := by decide
  have hb : byteLen (p ++ ['\n']) = byteLen (closed ls) + byteLen (r ++ ['\n']) := by
    rw [h3, List.append_assoc, byteLen_append]
  refine ⟨ls.length, ?_, by rw [← h4]; rfl, ?_⟩
  · rw [lineIndex_of hst]
    · rw [scan_length]
    · intro x hx; have := scan_lt 0 ls x hx; omega
    · omega
    · simp
  · have hlen : (lineStarts (p ++ ['\n'])).length = ls.length + 1 := by rw [hst]; simp [scan_length]
    have ha : lineStart (p ++ ['\n']) ls.length = some (byteLen (closed ls)) := by
      unfold lineStart
      rw [dif_pos (by omega)]
      simp only [hst]
      rw [List.getElem_append_right (by rw [scan_length])]
      simp [scan_length]
    have hn : lineStart (p ++ ['\n']) (ls.length + 1) = some (byteLen (p ++ ['\n'])) := by
      unfold lineStart
      rw [dif_neg (by omega), if_pos (by omega)]
    unfold columnNumber lineRange
    rw [ha, hn, hb]
    simp only [Option.bind_eq_bind, Option.bind_some, Option.pure_def, Option.map_some, Option.some.injEq]
    have e : p ++ ['\n'] = closed ls ++ (r ++ ['\n']) ++ [] := by rw [h3]; simp
    rw [e, columnIndex_of (closed ls) (r ++ ['\n']) [] _ (Nat.le_refl _), h5]
    simp

/-- C96: in an empty file there is no line to show: the program aborts. -/
theorem C96_empty (b : Nat) : lineIndex [] b = none := rfl

/-- Offset `b` is at the given line and column of the text. -/
def At (s : Text) (b line column : Nat) : Prop :=
  ∃ p q, s = p ++ q ∧ s ≠ [] ∧ (q ≠ [] ∨ p.getLast? ≠ some '\n') ∧ b = byteLen p ∧
    line = p.count '\n' + 1 ∧ column = (p.reverse.takeWhile (· ≠ '\n')).length + 1

theorem At.get {s : Text} {b line column : Nat} (h : At s b line column) (hr : '\r' ∉ s) :
    ∃ i, lineIndex s b = some i ∧ lineNumber i = line ∧ columnNumber s i b = some column := by
  obtain ⟨p, q, rfl, h1, h2, rfl, rfl, rfl⟩ := h
  exact C96_line_column p q hr h1 h2

/-- C96: an annotation gives the path of the file, and the lines and columns in the file (as it is read, without carriage
returns) at which the label begins and ends. -/
theorem C96_annotation (d : Diagnostic) (l : Label) (message : Text) (r1 c1 r2 c2 : Nat)
    (h1 : At (l.file.text.filter (· ≠ '\r')) l.start r1 c1) (h2 : At (l.file.text.filter (· ≠ '\r')) l.stop r2 c2) :
    annotate d l message = some ⟨l.file.path, r1, r2, c1, c2, level d.severity, message, d.message⟩ := by
  have hr : '\r' ∉ read l.file.text := by simp [read]
  obtain ⟨i, a1, a2, a3⟩ := At.get h1 hr
  obtain ⟨j, b1, b2, b3⟩ := At.get h2 hr
  have e1 : lineIndex (read l.file.text) l.start = some i := a1
  have e2 : lineIndex (read l.file.text) l.stop = some j := b1
  have e3 : columnNumber (read l.file.text) i l.start = some c1 := a3
  have e4 : columnNumber (read l.file.text) j l.stop = some c2 := b3
  unfold annotate
  simp [e1, e2, e3, e4, a2, b2]

/-- C96: a diagnostic has one annotation for each of its primary labels with a message, in their order. -/
theorem C96_annotations (d : Diagnostic) (as : List Annotation) (h : annotations d = some as) :
    List.Forall₂ (fun l a => ∃ m, l.message = some m ∧ annotate d l m = some a)
      (d.labels.filter fun l => l.primary ∧ l.message.isSome) as := by
  unfold annotations at h
  generalize d.labels = ls at h ⊢
  induction ls generalizing as with
  | nil =>
    simp at h
    subst h
    exact List.Forall₂.nil
  | cons l ls ih =>
    rw [List.filterMap_cons] at h
    by_cases hp : l.primary
    · cases hm : l.message with
      | none =>
        rw [List.filter_cons_of_neg (by simp [hm])]
        simp only [hp, hm, if_true, Option.map_none] at h
        exact ih as h
      | some m =>
        rw [List.filter_cons_of_pos (by simp [hm, hp])]
        simp only [hp, hm, if_true, Option.map_some, List.mapM_cons, id_eq, Option.bind_eq_bind] at h
        obtain ⟨a, ha, h⟩ := Option.bind_eq_some_iff.1 h
        obtain ⟨as', has, h⟩ := Option.bind_eq_some_iff.1 h
        obtain rfl : a :: as' = as := by simpa using h
        exact List.Forall₂.cons ⟨m, hm, ha⟩ (ih as' has)
    · rw [List.filter_cons_of_neg (by simp [hp])]
      simp only [hp, Bool.false_eq_true, if_false] at h
      exact ih as h

/-! ### C97: which reports are shown -/

/-- A code from an include folder: marked as such, or with labels, all of them in files of include folders. -/
def FromInclude (c : Code) : Prop :=
  c.isInclude = true ∨ ∃ d, c.diagnostic = some d ∧ d.labels ≠ [] ∧ ∀ l ∈ d.labels, l.file.isInclude = true

/-- Errors are always shown; the rest unless it comes from an include folder (and these are not asked for). -/
def Visible (withIncludes : Bool) (c : Code) : Prop :=
  c.severity = .error ∨
    (c.severity = .warning ∨ c.severity = .note ∨ c.severity = .help) ∧ (withIncludes = true ∨ ¬ FromInclude c)

theorem mem_filterCodes (codes : List Code) (s : Severity) (w : Bool) (c : Code) :
    c ∈ filterCodes codes s w ↔ c ∈ codes ∧ c.severity = s ∧ (w = true ∨ ¬ FromInclude c) := by
  unfold filterCodes FromInclude
  rw [List.mem_filter, List.mem_filter]
  cases w with
  | true => simp
  | false =>
    simp only [Bool.false_eq_true, if_false, false_or, decide_eq_true_eq, and_assoc]
    apply and_congr_right
    intro _
    apply and_congr_right
    intro _
    cases hd : c.diagnostic with
    | none => simp
    | some d =>
      simp only [Bool.and_eq_true, Bool.not_eq_true', Bool.or_eq_true, Option.some.injEq, exists_eq_left', not_or,
        Bool.not_eq_true, not_and, List.isEmpty_iff]
      apply and_congr_right
      intro _
      rw [List.all_eq_false]
      constructor
      · rintro (h | ⟨l, hl, hx⟩) hne hall
        · exact hne h
        · exact hx (hall l hl)
      · intro h
        by_cases hne : d.labels = []
        · exact Or.inl hne
        · have := h hne
          push Not at this
          exact Or.inr this

/-- The codes in the order they are written. -/
def listed (codes : List Code) (withIncludes : Bool) : List Code :=
  helps codes withIncludes ++ warnings codes withIncludes ++ errors codes

/-- C97: exactly the visible codes are written. -/
theorem C97_shown (codes : List Code) (withIncludes : Bool) (d : Diagnostic) :
    d ∈ shown codes withIncludes ↔ ∃ c ∈ codes, Visible withIncludes c ∧ c.diagnostic = some d := by
  unfold shown
  rw [List.mem_filterMap]
  apply exists_congr
  intro c
  unfold helps warnings errors Visible
  simp only [List.mem_append, mem_filterCodes]
  constructor
  · rintro ⟨(((⟨h1, h2, h3⟩ | ⟨h1, h2, h3⟩) | ⟨h1, h2, h3⟩) | ⟨h1, h2, h3⟩), hd⟩
    · exact ⟨h1, Or.inr ⟨Or.inr (Or.inr h2), h3⟩, hd⟩
    · exact ⟨h1, Or.inr ⟨Or.inr (Or.inl h2), h3⟩, hd⟩
    · exact ⟨h1, Or.inr ⟨Or.inl h2, h3⟩, hd⟩
    · exact ⟨h1, Or.inl h2, hd⟩
  · rintro ⟨h1, (h2 | ⟨h2 | h2 | h2, h3⟩), hd⟩
    · exact ⟨Or.inr ⟨h1, h2, Or.inl trivial⟩, hd⟩
    · exact ⟨Or.inl (Or.inr ⟨h1, h2, h3⟩), hd⟩
    · exact ⟨Or.inl (Or.inl (Or.inr ⟨h1, h2, h3⟩)), hd⟩
    · exact ⟨Or.inl (Or.inl (Or.inl ⟨h1, h2, h3⟩)), hd⟩

theorem filter_filterCodes (codes : List Code) (s t : Severity) (w : Bool) :
    (filterCodes codes s w).filter (fun c => c.severity = t) = if s = t then filterCodes codes s w else [] := by
  split
  · rename_i h
    subst h
    rw [List.filter_eq_self]
    intro c hc
    simpa using ((mem_filterCodes codes s w c).1 hc).2.1
  · rename_i h
    rw [List.filter_eq_nil_iff]
    intro c hc hs
    exact h (((mem_filterCodes codes s w c).1 hc).2.1.symm.trans (by simpa using hs))

open Classical in
/-- C97: they are written with the errors last (help, notes, warnings, errors), those of one severity in the order they
were reported, and each as often as it was. -/
theorem C97_order (codes : List Code) (withIncludes : Bool) :
    shown codes withIncludes = (listed codes withIncludes).filterMap Code.diagnostic ∧
    (listed codes withIncludes).Pairwise (fun a b => a.severity.rank ≤ b.severity.rank) ∧
    ∀ s, (listed codes withIncludes).filter (fun c => c.severity = s) =
      codes.filter (fun c => c.severity = s ∧ Visible withIncludes c) := by
  have hsev : ∀ s w c, c ∈ filterCodes codes s w → c.severity = s := fun s w c h => ((mem_filterCodes codes s w c).1 h).2.1
  have hpw : ∀ s w, (filterCodes codes s w).Pairwise (fun a b => a.severity.rank ≤ b.severity.rank) := by
    intro s w
    rw [List.pairwise_iff_forall_sublist]
    intro a b hab
    have ha := hab.subset (List.mem_cons_self)
    have hb := hab.subset (List.mem_cons_of_mem _ List.mem_cons_self)
    rw [hsev s w a ha, hsev s w b hb]
  have hvis : ∀ s w, s ≠ .bug → (s = .error → w = true) → filterCodes codes s w =
      codes.filter (fun c => c.severity = s ∧ Visible (if s = .error then withIncludes else w) c) := by
    intro s w hb he
    unfold filterCodes
    rw [List.filter_filter]
    apply List.filter_congr
    intro c hc
    rw [Bool.eq_iff_iff]
    have key := mem_filterCodes codes s w c
    unfold filterCodes at key
    rw [List.mem_filter, List.mem_filter] at key
    simp only [hc, true_and] at key
    rw [Bool.and_eq_true, and_comm]
    refine key.trans ?_
    rw [decide_eq_true_eq]
    apply and_congr_right
    intro hs
    unfold Visible
    cases s with
    | error => simp [hs, he rfl]
    | bug => exact absurd rfl hb
    | warning => simp [hs]
    | note => simp [hs]
    | help => simp [hs]
  refine ⟨rfl, ?_, ?_⟩
  · unfold listed helps warnings errors
    rw [List.pairwise_append, List.pairwise_append, List.pairwise_append]
    refine ⟨⟨⟨hpw _ _, hpw _ _, ?_⟩, hpw _ _, ?_⟩, hpw _ _, ?_⟩
    · intro a ha b hb
      rw [hsev _ _ a ha, hsev _ _ b hb]; decide
    · intro a ha b hb
      rw [hsev _ _ b hb]
      rcases List.mem_append.1 ha with ha | ha
      · rw [hsev _ _ a ha]; decide
      · rw [hsev _ _ a ha]; decide
    · intro a ha b hb
      rw [hsev _ _ b hb]
      rcases List.mem_append.1 ha with ha | ha
      · rcases List.mem_append.1 ha with ha | ha
        · rw [hsev _ _ a ha]; decide
        · rw [hsev _ _ a ha]; decide
      · rw [hsev _ _ a ha]; decide
  · intro s
    unfold listed helps warnings errors
    rw [List.filter_append, List.filter_append, List.filter_append, filter_filterCodes, filter_filterCodes,
      filter_filterCodes, filter_filterCodes]
    cases s with
    | bug =>
      simp only [reduceCtorEq, if_false, List.append_nil]
      symm
      rw [List.filter_eq_nil_iff]
      intro c _ h
      obtain ⟨h1, h2⟩ := of_decide_eq_true h
      unfold Visible at h2
      rw [h1] at h2
      simp at h2
    | error => simpa using hvis .error true (by decide) (fun _ => rfl)
    | warning => simpa using hvis .warning withIncludes (by decide) (by simp)
    | note => simpa using hvis .note withIncludes (by decide) (by simp)
    | help => simpa using hvis .help withIncludes (by decide) (by simp)

/-- C97: a command that fails for its reports shows an error (if it can be shown at all), includes or not. -/
theorem C97_failed (codes : List Code) : failed codes = true ↔ ∃ c ∈ codes, c.severity = .error := by
  unfold failed errors
  rw [Bool.not_eq_true', ← Bool.not_eq_true, List.isEmpty_iff, List.eq_nil_iff_forall_not_mem]
  simp [mem_filterCodes]

/-! #### Annotations -/

/-- C97: the annotations are those of the codes shown without includes, one after the other. -/
theorem C97_ci (codes : List Code) (t : Text) (h : ciAnnotations codes = some t) :
    ∃ as : List (List Annotation), (shown codes false).mapM annotations = some as ∧
      t = (as.flatten.map Annotation.line).flatten := by
  unfold ciAnnotations at h
  obtain ⟨as, ha, h⟩ := Option.bind_eq_some_iff.1 h
  refine ⟨as, ha, ?_⟩
  rw [← List.flatMap_def]
  exact (Option.some.inj h).symm

def Annotation.fields (a : Annotation) : List Text :=
  [decimal a.startLine, decimal a.endLine, decimal a.startColumn, decimal a.endColumn,
    a.level.text, a.title, a.message, a.path]

theorem split_bars {fs : List Text} (h : ∀ f ∈ fs, '|' ∉ f) (hne : fs ≠ []) :
    split '|' (List.intercalate "||".toList fs) = fs.intersperse [] := by
  have hb : "||".toList = ['|', '|'] := rfl
  rw [hb]
  induction fs with
  | nil => exact absurd rfl hne
  | cons f fs ih =>
    cases fs with
    | nil => simpa [List.intercalate] using split_of_not_mem (h f (by simp))
    | cons g gs =>
      have e : List.intercalate ['|', '|'] (f :: g :: gs) = f ++ '|' :: ([] ++ '|' :: List.intercalate ['|', '|'] (g :: gs)) := by
        simp [List.intercalate, List.intersperse]
      rw [e, split_append', split_append', ih (fun x hx => h x (List.mem_cons_of_mem _ hx)) (by simp),
        split_of_not_mem (h f (by simp))]
      simp [split, List.intersperse]

theorem decimal_bar (n : Nat) : '|' ∉ decimal n ∧ '\n' ∉ decimal n := by
  constructor
  · intro h
    obtain ⟨d, hd, e⟩ := decimal_mem h
    exact absurd e.symm ((by decide : ∀ d < 10, digitChar d ≠ '|') d hd)
  · intro h
    obtain ⟨d, hd, e⟩ := decimal_mem h
    exact absurd e.symm ((by decide : ∀ d < 10, digitChar d ≠ '\n') d hd)

/-- C97: an annotation is one line, which can be taken apart again, unless its message, its title or the path has a line
end or a vertical bar in it. -/
theorem C97_line (a : Annotation) (h : ∀ f ∈ [a.title, a.message, a.path], '|' ∉ f ∧ '\n' ∉ f) :
    ∃ t, a.line = t ++ ['\n'] ∧ '\n' ∉ t ∧ split '|' t = a.fields.intersperse [] := by
  have hl : '|' ∉ a.level.text ∧ '\n' ∉ a.level.text := by cases a.level <;> decide
  have hf : ∀ f ∈ a.fields, '|' ∉ f ∧ '\n' ∉ f := by
    intro f hf
    unfold Annotation.fields at hf
    simp only [List.mem_cons, List.not_mem_nil, or_false] at hf
    rcases hf with rfl | rfl | rfl | rfl | rfl | rfl | rfl | rfl
    · exact decimal_bar _
    · exact decimal_bar _
    · exact decimal_bar _
    · exact decimal_bar _
    · exact hl
    · exact h _ (by simp)
    · exact h _ (by simp)
    · exact h _ (by simp)
  have hs := split_bars (fs := a.fields) (fun f hx => (hf f hx).1) (by simp [Annotation.fields])
  refine ⟨List.intercalate "||".toList a.fields, rfl, ?_, hs⟩
  · have : ∀ fs : List Text, (∀ f ∈ fs, '\n' ∉ f) → '\n' ∉ List.intercalate "||".toList fs := by
      intro fs
      have hb : "||".toList = ['|', '|'] := rfl
      rw [hb]
      induction fs with
      | nil => intro _; simp [List.intercalate]
      | cons f fs ih =>
        intro h
        cases fs with
        | nil => simpa [List.intercalate] using h f (by simp)
        | cons g gs =>
          have e : List.intercalate ['|', '|'] (f :: g :: gs) = f ++ '|' :: '|' :: List.intercalate ['|', '|'] (g :: gs) := by
            simp [List.intercalate, List.intersperse]
          rw [e]
          simp only [List.mem_append, List.mem_cons, not_or]
          exact ⟨h f (by simp), by decide, by decide, ih (fun x hx => h x (List.mem_cons_of_mem _ hx))⟩
    exact this _ fun f hx => (hf f hx).2

/-! ### Non-vacuity -/

/-- The `ß` in the second line: its first byte is at offset 6, its end at 8. -/
example : At "ab;\nx äß;\n".toList 6 2 3 ∧ At "ab;\nx äß;\n".toList 8 2 4 :=
  ⟨⟨"ab;\nx ".toList, "äß;\n".toList, by decide, by decide, Or.inl (by decide), by decide, by decide, by decide⟩,
   ⟨"ab;\nx ä".toList, "ß;\n".toList, by decide, by decide, Or.inl (by decide), by decide, by decide, by decide⟩⟩

def exFile : File := ⟨"/addons/a/x.sqf".toList, "ab;\r\nx äß;\r\n".toList, false⟩
def exLabel : Label := ⟨true, some "here".toList, exFile, 6, 8⟩
def exDiag : Diagnostic := ⟨.warning, "odd".toList, [exLabel, { exLabel with primary := false }]⟩

example : annotate exDiag exLabel "here".toList =
    some ⟨"/addons/a/x.sqf".toList, 2, 2, 3, 4, .warning, "here".toList, "odd".toList⟩ :=
  C96_annotation exDiag exLabel "here".toList 2 3 2 4
    ⟨"ab;\nx ".toList, "äß;\n".toList, by decide, by decide, Or.inl (by decide), by decide, by decide, by decide⟩
    ⟨"ab;\nx ä".toList, "ß;\n".toList, by decide, by decide, Or.inl (by decide), by decide, by decide, by decide⟩

example : annotations exDiag = some [⟨"/addons/a/x.sqf".toList, 2, 2, 3, 4, .warning, "here".toList, "odd".toList⟩] := by
  decide +kernel

/-- An error in an include is shown, a warning there is not. -/
example : shown [⟨.error, true, some exDiag⟩, ⟨.warning, true, some exDiag⟩] false = [exDiag] := rfl

example : failed [⟨.warning, false, some exDiag⟩] = false := rfl

def exAnnotation : Annotation := ⟨"/addons/a/x.sqf".toList, 2, 2, 3, 4, .warning, "here".toList, "odd".toList⟩

example : ∃ t, exAnnotation.line = t ++ ['\n'] ∧ '\n' ∉ t ∧ split '|' t = exAnnotation.fields.intersperse [] :=
  C97_line exAnnotation (by decide)

end Verif.Reporting
