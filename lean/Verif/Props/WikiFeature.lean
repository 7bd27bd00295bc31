import Verif.Model.WikiFeature
import Verif.Props.WikiCode
import Verif.Spec.WikiFeature
/-!
C142: feature boxes in the description of a command, as the language server shows them.
-/
namespace Verif.WikiFeature
open Verif.ProjectFile (replaceAll replaceFrom)
open Verif.Prefix (isWs)
open Verif.WikiFeatureSpec

theorem lazy_head {f : Text → List (List Text × Text)} {s : Text} {r : List Text × Text} {rs : List (List Text × Text)}
    (hf : f s = r :: rs) : ∀ {k acc : Text}, k ≠ [] → (∀ a b, k = a ++ b → a ≠ [] → b ≠ [] → f (b ++ s) = []) →
    (lazyFrom f acc (k ++ s)).head? = some ((acc ++ k) :: r.1, r.2)
  | [], _, h, _ => absurd rfl h
  | [c], acc, _, _ => by simp [lazyFrom, hf]
  | c :: d :: k, acc, _, h => by
    have h0 : f (d :: k ++ s) = [] := h [c] (d :: k) rfl (by simp) (by simp)
    rw [List.cons_append, lazyFrom, h0]
    have ih := lazy_head hf (k := d :: k) (acc := acc ++ [c]) (by simp)
      fun a b e ha hb => h (c :: a) b (by rw [e]; rfl) (by simp) hb
    simpa using ih

theorem greedy_none {f : Text → List (List Text × Text)} : ∀ {s acc : Text},
    (∀ a b, s = a ++ b → a ≠ [] → f b = []) → greedyFrom f acc s = []
  | [], _, _ => rfl
  | c :: s, acc, h => by
    rw [greedyFrom, h [c] s rfl (by simp), greedy_none fun a b e ha => h (c :: a) b (by rw [e]; rfl) (by simp)]
    rfl

theorem greedy_head {f : Text → List (List Text × Text)} {s : Text} {r : List Text × Text}
    {rs : List (List Text × Text)} (hf : f s = r :: rs) (hs : ∀ a b, s = a ++ b → a ≠ [] → f b = []) :
    ∀ {k acc : Text}, k ≠ [] → (greedyFrom f acc (k ++ s)).head? = some ((acc ++ k) :: r.1, r.2)
  | [], _, h => absurd rfl h
  | [c], acc, _ => by simp [greedyFrom, greedy_none hs, hf]
  | c :: d :: k, acc, _ => by
    have ih := greedy_head hf hs (k := d :: k) (acc := acc ++ [c]) (by simp)
    rw [List.cons_append, greedyFrom, List.head?_append, ih]
    simp

/-- An end of a box needs a brace. -/
theorem end_none {b : Text} (h : '}' ∉ b) : all [char '}', char '}'] b = [] := by
  cases b with
  | nil => rfl
  | cons c b =>
    rw [List.mem_cons, not_or] at h
    simp [all, char, Ne.symm h.1]

theorem lazyFrom_none {f : Text → List (List Text × Text)} (hf : ∀ t, '}' ∉ t → f t = []) : ∀ {s acc : Text},
    '}' ∉ s → lazyFrom f acc s = []
  | [], _, _ => rfl
  | c :: s, acc, h => by
    rw [List.mem_cons, not_or] at h
    rw [lazyFrom, hf s h.2, lazyFrom_none hf h.2]; rfl

theorem greedyFrom_none {f : Text → List (List Text × Text)} (hf : ∀ t, '}' ∉ t → f t = []) : ∀ {s acc : Text},
    '}' ∉ s → greedyFrom f acc s = []
  | [], _, _ => rfl
  | c :: s, acc, h => by
    rw [List.mem_cons, not_or] at h
    rw [greedyFrom, hf s h.2, greedyFrom_none hf h.2]; rfl

theorem all_step {i : Item} {is : List Item} (h : ∀ t, '}' ∉ t → all is t = []) : ∀ t, '}' ∉ t → all (i :: is) t = [] := by
  intro t ht
  cases i with
  | one p =>
    cases t with
    | nil => rfl
    | cons c t =>
      rw [List.mem_cons, not_or] at ht
      rw [all]
      simp [h t ht.2]
  | blank =>
    cases t with
    | nil => exact h [] ht
    | cons c t =>
      have h1 := h _ ht
      rw [List.mem_cons, not_or] at ht
      rw [all]
      simp [h t ht.2, h1]
  | lazy => exact lazyFrom_none h ht
  | greedy => exact greedyFrom_none h ht

theorem box_none : ∀ t, '}' ∉ t → all box t = [] := by
  unfold box
  iterate 18 apply all_step
  exact fun t ht => end_none ht

theorem find_none : ∀ {w : Text}, '}' ∉ w → find 0 w = []
  | [], _ => rfl
  | c :: w, h => by
    rw [find, box_none _ h]
    rw [List.mem_cons, not_or] at h
    exact find_none h.2

/-- What the match of a box is. -/
theorem box_head {kind text w : Text} (hk : kind ≠ []) (hk' : ∀ c ∈ kind, c ≠ '|' ∧ isWs c = false) (ht : text ≠ [])
    (ht' : ∀ c, text.head? = some c → isWs c = false) (hw : '}' ∉ w) :
    (all box (['{', '{', 'F', 'e', 'a', 't', 'u', 'r', 'e', '|'] ++ (kind ++ ('|' :: (text ++ ('}' :: '}' :: w)))))).head?
      = some ([kind, text], w) := by
  have hF : isWs 'F' = false := by decide
  have hb : isWs '|' = false := by decide
  have hg : (all [.greedy, char '}', char '}'] (text ++ ('}' :: '}' :: w))).head? = some ([text], w) := by
    have := greedy_head (f := all [char '}', char '}']) (s := '}' :: '}' :: w) (r := ([], w)) (rs := [])
      (by simp [all, char]) (by
        intro a b e ha
        cases a with
        | nil => exact absurd rfl ha
        | cons x a =>
          cases a with
          | nil =>
            simp only [List.cons_append, List.nil_append, List.cons.injEq] at e
            rw [← e.2]
            cases w with
            | nil => rfl
            | cons y w =>
              rw [List.mem_cons, not_or] at hw
              simp [all, char, Ne.symm hw.1]
          | cons y a =>
            simp only [List.cons_append, List.cons.injEq] at e
            apply end_none
            intro hm
            exact hw (by rw [e.2.2]; simp [hm])) (k := text) (acc := []) ht
    simpa [all] using this
  obtain ⟨r, rs, hr⟩ : ∃ r rs, all [.greedy, char '}', char '}'] (text ++ ('}' :: '}' :: w)) = r :: rs := by
    cases e : all [.greedy, char '}', char '}'] (text ++ ('}' :: '}' :: w)) with
    | nil => rw [e] at hg; simp at hg
    | cons r rs => exact ⟨r, rs, rfl⟩
  have hr' : r = ([text], w) := by rw [hr] at hg; simpa using hg
  subst hr'
  have hbar : all [.blank, char '|', .blank, .greedy, char '}', char '}'] ('|' :: (text ++ ('}' :: '}' :: w)))
      = ([text], w) :: rs := by
    cases text with
    | nil => exact absurd rfl ht
    | cons c text =>
      have hc := ht' c rfl
      rw [List.cons_append] at hr
      rw [all]
      simp only [hb, Bool.false_eq_true, if_false, List.nil_append]
      rw [char, all]
      simp only [decide_true, if_true, List.cons_append]
      rw [all]
      simp only [hc, Bool.false_eq_true, if_false, List.nil_append]
      exact hr
  have hl := lazy_head hbar (k := kind) (acc := []) hk (by
    intro a b e _ hbne
    cases b with
    | nil => exact absurd rfl hbne
    | cons c b =>
      have := hk' c (by rw [e]; simp)
      rw [List.cons_append, all]
      simp only [this.2, Bool.false_eq_true, if_false, List.nil_append]
      rw [char, all]
      simp [this.1])
  have hl2 : (all [.blank, .lazy, .blank, char '|', .blank, .greedy, char '}', char '}']
      (kind ++ ('|' :: (text ++ ('}' :: '}' :: w))))).head? = some ([kind, text], w) := by
    cases kind with
    | nil => exact absurd rfl hk
    | cons c kind =>
      have hc := (hk' c (by simp)).2
      rw [List.cons_append] at hl ⊢
      rw [all]
      simp only [hc, Bool.false_eq_true, if_false, List.nil_append]
      rw [all]
      simpa using hl
  generalize kind ++ ('|' :: (text ++ ('}' :: '}' :: w))) = z at hl2
  have h1 : all box (['{', '{', 'F', 'e', 'a', 't', 'u', 'r', 'e', '|'] ++ z)
      = all [.blank, .lazy, .blank, char '|', .blank, .greedy, char '}', char '}'] z := by
    have e1 : 'F'.toLower = 'f' := by decide
    have e2 : 'e'.toLower = 'e' := by decide
    have e3 : 'a'.toLower = 'a' := by decide
    have e4 : 't'.toLower = 't' := by decide
    have e5 : 'u'.toLower = 'u' := by decide
    have e6 : 'r'.toLower = 'r' := by decide
    generalize hi : [Item.blank, .lazy, .blank, char '|', .blank, .greedy, char '}', char '}'] = is
    have : box = [char '{', char '{', .blank, letter 'f', letter 'e', letter 'a', letter 't', letter 'u', letter 'r',
        letter 'e', .blank, char '|'] ++ is := by rw [← hi]; rfl
    rw [this]
    simp [all, char, letter, hF, hb, e1, e2, e3, e4, e5, e6]
  rw [h1, hl2]

/-- A box begins with two braces. -/
theorem box_begin {s : Text} (h : ∀ r, s ≠ '{' :: '{' :: r) : all box s = [] := by
  unfold box
  cases s with
  | nil => rfl
  | cons c s =>
    rw [char, all]
    by_cases hc : c = '{'
    · subst hc
      cases s with
      | nil => rfl
      | cons d s =>
        have hd : d ≠ '{' := fun e => h s (by rw [e])
        simp only [decide_true, if_true]
        rw [all]
        simp [hd]
    · simp [hc]

theorem find_before {pre : Text} (h : '{' ∉ pre) (s : Text) : find 0 (pre ++ s) = find 0 s := by
  induction pre with
  | nil => rfl
  | cons c pre ih =>
    rw [List.mem_cons, not_or] at h
    rw [List.cons_append, find, box_begin (by intro r e; exact h.1 (List.cons.inj e).1.symm)]
    exact ih h.2

theorem find_skip (s : Text) : ∀ (t : Text), find t.length (t ++ s) = find 0 s
  | [] => rfl
  | _ :: t => by simpa [find] using find_skip s t

theorem replace_absent {pat rep : Text} (hp : '}' ∈ pat) : ∀ {w : Text}, '}' ∉ w → replaceFrom pat rep 0 w = w
  | [], _ => rfl
  | c :: w, h => by
    have hn : pat.isPrefixOf (c :: w) = false := by
      rw [Bool.eq_false_iff]
      intro e
      exact h ((List.isPrefixOf_iff_prefix.1 e).subset hp)
    rw [List.mem_cons, not_or] at h
    rw [replaceFrom, hn, replace_absent hp h.2]
    rfl

/-- **C142.** What is shown for a box, if no brace is closed behind what is taken for its end: that is the last pair of
closing braces of the description. -/
theorem C142_written {upper : Char → Text} {pre kind text w : Text} (hpre : '{' ∉ pre) (hk : kind ≠ [])
    (hk' : ∀ c ∈ kind, c ≠ '|' ∧ isWs c = false) (ht : text ≠ []) (ht' : ∀ c, text.head? = some c → isWs c = false)
    (hw : '}' ∉ w) :
    markdownFeature upper (pre ++ source kind text ++ w) = pre ++ heading upper kind text ++ w := by
  have e : source kind text ++ w
      = ['{', '{', 'F', 'e', 'a', 't', 'u', 'r', 'e', '|'] ++ (kind ++ ('|' :: (text ++ ('}' :: '}' :: w)))) := by
    simp [source]
  have hb := box_head hk hk' ht ht' hw
  rw [← e] at hb
  obtain ⟨q, hq⟩ : ∃ q, source kind text = '{' :: q := ⟨_, rfl⟩
  have hfind : find 0 (source kind text ++ w) = [(source kind text, [kind, text])] := by
    rw [hq, List.cons_append] at hb ⊢
    rw [find, hb]
    have hl : ('{' :: (q ++ w)).length - w.length = q.length + 1 := by simp; omega
    simp only [hl]
    have ht1 : List.take (q.length + 1) ('{' :: (q ++ w)) = '{' :: q := by simp
    rw [ht1, Nat.add_sub_cancel, find_skip, find_none hw]
  have hput : put upper [kind, text] = heading upper kind text := by
    cases kind with
    | nil => exact absurd rfl hk
    | cons c k => simp [put, heading, capital]
  have hmem : '}' ∈ source kind text := by simp [source]
  rw [markdownFeature, List.append_assoc, find_before hpre, hfind]
  simp only [List.foldl_cons, List.foldl_nil, replaceAll]
  rw [hput]
  have h1 := WikiLinks.replaceFrom_clear (op := ['{']) (p := q) (rep := heading upper kind text)
    (source kind text ++ w) (WikiLinks.Clear.of_not_mem (o := '{') hpre)
  have e1 : (['{'] ++ q : Text) = source kind text := hq.symm
  rw [e1] at h1
  rw [h1]
  have h2 : replaceFrom (source kind text) (heading upper kind text) 0 (source kind text ++ w)
      = heading upper kind text ++ w := by
    have hp := WikiLinks.isPrefixOf_append (source kind text) w
    generalize heading upper kind text = rep at *
    generalize source kind text = m at *
    subst hq
    rw [List.cons_append] at hp ⊢
    rw [replaceFrom, if_pos hp]
    simp only [List.length_cons, Nat.add_sub_cancel]
    rw [WikiLinks.replaceFrom_skip, replace_absent hmem hw]
  rw [h2, List.append_assoc]

/-- **C142 (partial).** A description with one box, before which no brace is opened and behind which none is closed,
is shown with the box as a heading and its text, all else as it is. Missing: other templates and boxes behind it, for which
it is false (`C142_violated_behind`), and blanks around the parts of the box. -/
theorem C142_box_partial {upper : Char → Text} {pre kind text w : Text} (hpre : '{' ∉ pre) (hk : kind ≠ [])
    (hk' : ∀ c ∈ kind, c ≠ '|' ∧ isWs c = false) (ht : text ≠ []) (ht' : ∀ c, text.head? = some c → isWs c = false)
    (_ : ∀ a b, text ≠ a ++ ['}', '}'] ++ b) (hw : '}' ∉ w) :
    markdownFeature upper (pre ++ source kind text ++ w) = pre ++ heading upper kind text ++ w :=
  C142_written hpre hk hk' ht ht' hw

/-- **C142 is violated.** With a template anywhere behind the box, the closing braces of the box are shown and those of the
template are lost. -/
theorem C142_violated_behind {upper : Char → Text} {pre kind text z tmpl w : Text} (hpre : '{' ∉ pre) (hk : kind ≠ [])
    (hk' : ∀ c ∈ kind, c ≠ '|' ∧ isWs c = false) (ht : text ≠ []) (ht' : ∀ c, text.head? = some c → isWs c = false)
    (hw : '}' ∉ w) :
    markdownFeature upper (pre ++ source kind text ++ z ++ (['{', '{'] ++ tmpl ++ ['}', '}']) ++ w)
      = pre ++ heading upper kind text ++ ['}', '}'] ++ z ++ (['{', '{'] ++ tmpl) ++ w := by
  have h := C142_written (upper := upper) (text := text ++ ['}', '}'] ++ z ++ ['{', '{'] ++ tmpl) hpre hk hk'
    (by simp) (by
      intro c hc
      cases text with
      | nil => exact absurd rfl ht
      | cons d t => exact ht' c (by simpa using hc)) hw
  simpa [source, heading] using h

theorem find_noDouble : ∀ {t : Text}, WikiCodeSpec.NoDouble '{' t → find 0 t = []
  | [], _ => rfl
  | c :: t, h => by
    rw [find, box_begin (fun r e => h [] r e)]
    exact find_noDouble (WikiLinks.Code.NoDouble.tail h)

/-- A text without two opening braces in a row has no feature box: what C141 asks of `feature`. -/
theorem feature_noDouble (upper : Char → Text) {t : Text} (h : WikiCodeSpec.NoDouble '{' t) :
    markdownFeature upper t = t := by
  rw [markdownFeature, find_noDouble h]; rfl

/-- **C141 (partial)** for all of `markdown`. -/
theorem C141_markdown_partial (upper : Char → Text) (name : Text) {ps : List WikiCodeSpec.Piece}
    (h : ∀ q ∈ ps, q.Ok) (hflat : ∀ q ∈ ps, q.Flat) :
    WikiLinks.markdown (markdownFeature upper) name (ps.flatMap WikiCodeSpec.Piece.source)
      = ps.flatMap WikiCodeSpec.Piece.shown :=
  WikiLinks.C141_code_partial (fun _ ht => feature_noDouble upper ht) name h hflat

example : markdownFeature (fun c => [c.toUpper]) "A. {{Feature|warning|Do not.}} B".toList
    = "A. ### Warning\nDo not. B".toList := by
  have := C142_box_partial (upper := fun c => [c.toUpper]) (pre := "A. ".toList) (kind := "warning".toList)
    (text := "Do not.".toList) (w := " B".toList) (by decide +kernel) (by decide +kernel) (by decide +kernel)
    (by decide +kernel) (by intro c hc; have : c = 'D' := by simpa using hc.symm
                            subst this; decide)
    (by
      intro a b e
      have : '}' ∈ "Do not.".toList := by rw [e]; simp
      exact absurd this (by decide +kernel)) (by decide +kernel)
  exact Eq.trans (congrArg _ (by decide +kernel)) (this.trans (by decide +kernel))

example : markdownFeature (fun c => [c.toUpper]) "{{Feature|warning|Do not.}} See {{Link|west}}.".toList
    = "### Warning\nDo not.}} See {{Link|west.".toList := by
  have := C142_violated_behind (upper := fun c => [c.toUpper]) (pre := []) (kind := "warning".toList)
    (text := "Do not.".toList) (z := " See ".toList) (tmpl := "Link|west".toList) (w := ".".toList) (by simp)
    (by decide +kernel) (by decide +kernel) (by decide +kernel)
    (by intro c hc; have : c = 'D' := by simpa using hc.symm
        subst this; decide) (by decide +kernel)
  exact Eq.trans (congrArg _ (by decide +kernel)) (this.trans (by decide +kernel))

end Verif.WikiFeature
