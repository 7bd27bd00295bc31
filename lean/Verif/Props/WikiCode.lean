import Verif.Props.WikiLinks
import Verif.Spec.WikiCode
/-!
C141: code in the description of a command, as the language server shows it.
-/
namespace Verif.WikiLinks
namespace Code
open Verif.WikiCodeSpec

theorem NoDouble.tail {o c : Char} {t : Text} (h : NoDouble o (c :: t)) : NoDouble o t :=
  fun a b e => h (c :: a) b (by rw [e]; rfl)

theorem NoDouble.of_not_mem {o : Char} {t : Text} (h : o ∉ t) : NoDouble o t :=
  fun a b e => h (by simp [e])

/-- Text without a doubled character, before another one. -/
theorem quiet_before {o d : Char} (hd : d ≠ o) {u : Text} (hu : Quiet o (d :: u)) : ∀ {t : Text}, NoDouble o t →
    Quiet o (t ++ d :: u)
  | [], _ => hu
  | c :: t, h => by
    refine ⟨fun hc => ?_, quiet_before hd hu (NoDouble.tail h)⟩
    subst hc
    cases t with
    | nil => exact ⟨d, u, rfl, hd⟩
    | cons e t =>
      refine ⟨e, t ++ d :: u, rfl, fun he => ?_⟩
      subst he
      exact h [] t rfl

theorem Quiet.append {o : Char} : ∀ {t u : Text}, Quiet o t → Quiet o u → Quiet o (t ++ u)
  | [], _, _, h => h
  | c :: t, u, h, hu => by
    refine ⟨fun hc => ?_, Quiet.append h.2 hu⟩
    obtain ⟨d, r, rfl, hd⟩ := h.1 hc
    exact ⟨d, r ++ u, rfl, hd⟩

theorem Quiet.noDouble {o : Char} : ∀ {t : Text}, Quiet o t → NoDouble o t
  | [], _, a, b, e => by simp at e
  | c :: t, h, a, b, e => by
    cases a with
    | nil =>
      simp only [List.nil_append, List.cons.injEq] at e
      obtain ⟨d, r, e', hd⟩ := h.1 e.1
      rw [e.2] at e'
      exact hd (by simpa using (List.cons.inj e').1.symm)
    | cons x a =>
      simp only [List.cons_append, List.cons.injEq] at e
      exact Quiet.noDouble h.2 a b e.2

theorem pass_clear {m : Mark} {t : Text} (h : Clear m.op t) : pass m t = t := by
  have := find_clear (m := m) [] h
  rw [List.append_nil] at this
  rw [pass, this]
  rfl

theorem known_inline : Known inlineCode := ⟨by simp [inlineCode]⟩
theorem known_block : Known blockCode := ⟨by simp [blockCode]⟩
theorem known_hl : Known highlight := ⟨by simp [highlight]⟩

theorem clear_close_inline : Clear inlineCode.op ['<', '/', 's', 'q', 'f', '>'] := by
  refine ⟨fun s => by simp [inlineCode, List.isPrefixOf], ?_⟩
  exact Clear.of_not_mem (o := '<') (by decide)

theorem clear_close_block : Clear blockCode.op ['<', '/', 's', 'q', 'f', '>'] := by
  refine ⟨fun s => by simp [blockCode, List.isPrefixOf], ?_⟩
  exact Clear.of_not_mem (o := '<') (by decide)

theorem clear_open_inline : Clear inlineCode.op ['<', 's', 'q', 'f', '>'] := by
  refine ⟨fun s => by simp [inlineCode, List.isPrefixOf], ?_⟩
  exact Clear.of_not_mem (o := '<') (by decide)

theorem clear_inline {t : Text} (h : '<' ∉ t) : Clear inlineCode.op t := Clear.of_not_mem (o := '<') h
theorem clear_block {t : Text} (h : '<' ∉ t) : Clear blockCode.op t := Clear.of_not_mem (o := '<') h
theorem clear_hl {t : Text} (h : Quiet '{' t) : Clear highlight.op t := Clear.of_quiet (o := '{') h

theorem TagFree.tail {c : Char} {t : Text} (h : TagFree (c :: t)) : TagFree t :=
  fun a d b e => h (c :: a) d b (by rw [e]; rfl)

/-- Code without tags, before another character. -/
theorem clear_before {op u : Text} {d : Char} (hd : d ≠ 's') (hu : Clear ('<' :: 's' :: op) (d :: u)) :
    ∀ {t : Text}, TagFree t → Clear ('<' :: 's' :: op) (t ++ d :: u)
  | [], _ => hu
  | c :: t, h => by
    refine ⟨fun s => ?_, clear_before hd hu (TagFree.tail h)⟩
    by_cases hc : '<' = c
    · subst hc
      cases t with
      | nil => simp [List.isPrefixOf, hd.symm]
      | cons e t => simp [List.isPrefixOf, (h [] e t rfl).1.symm]
    · simp [List.isPrefixOf, hc]

theorem ends_code : ∀ {t : Text}, TagFree t → Ends ['<', '/', 's', 'q', 'f', '>'] t
  | [], _ => trivial
  | c :: t, h => by
    refine ⟨fun s => ?_, ends_code (TagFree.tail h)⟩
    by_cases hc : '<' = c
    · subst hc
      cases t with
      | nil => simp [List.isPrefixOf]
      | cons e t => simp [List.isPrefixOf, (h [] e t rfl).2.symm]
    · simp [List.isPrefixOf, hc]

/-- What the three passes see. -/
def first : Piece → Part
  | .plain t => .inl t
  | .inline c => .inr c
  | .block c => .inl (Piece.block c).source
  | .hl c => .inl (Piece.hl c).source

def second : Piece → Part
  | .plain t => .inl t
  | .inline c => .inl (Piece.inline c).shown
  | .block c => .inr c
  | .hl c => .inl (Piece.hl c).source

def third : Piece → Part
  | .plain t => .inl t
  | .inline c => .inl (Piece.inline c).shown
  | .block c => .inl (Piece.block c).shown
  | .hl c => .inr c

theorem first_fine {q : Piece} (h : q.Ok) : Fine inlineCode (first q) := by
  cases q with
  | plain t => exact clear_inline h.1
  | inline c =>
    refine ⟨h.1, ends_code h.2.1, .inl rfl, ?_, ?_⟩
    · have e : (inlineCode.op ++ c ++ inlineCode.cl).tail
          = ['s', 'q', 'f', ' ', 'i', 'n', 'l', 'i', 'n', 'e', '>'] ++ (c ++ ['<', '/', 's', 'q', 'f', '>']) := rfl
      rw [e]
      exact Clear.append (clear_inline (by decide)) (clear_before (by decide) clear_close_inline h.2.1)
    · exact Clear.append (t := ['`']) (clear_inline (by decide)) (clear_before (by decide) (clear_inline (by decide)) h.2.1)
  | block c =>
    exact Clear.append (t := ['<', 's', 'q', 'f', '>']) clear_open_inline (clear_before (by decide) clear_close_inline h.2.1)
  | hl c => exact clear_inline (by simp [Piece.source, h.2.1])

theorem second_fine {q : Piece} (h : q.Ok) : Fine blockCode (second q) := by
  cases q with
  | plain t => exact clear_block h.1
  | inline c =>
    exact Clear.append (t := ['`']) (clear_block (by decide)) (clear_before (by decide) (clear_block (by decide)) h.2.1)
  | block c =>
    refine ⟨h.1, ends_code h.2.1, .inl rfl, ?_, ?_⟩
    · have e : (blockCode.op ++ c ++ blockCode.cl).tail
          = ['s', 'q', 'f', '>'] ++ (c ++ ['<', '/', 's', 'q', 'f', '>']) := rfl
      rw [e]
      exact Clear.append (clear_block (by decide)) (clear_before (by decide) clear_close_block h.2.1)
    · show Clear blockCode.op (['`', '`', '`', 's', 'q', 'f', '\n'] ++ c ++ ['\n', '`', '`', '`'])
      rw [List.append_assoc]
      exact Clear.append (clear_block (by decide)) (clear_before (by decide) (clear_block (by decide)) h.2.1)
  | hl c => exact clear_block (by simp [Piece.source, h.2.1])

theorem quiet_inline {o : Char} (ho : o ≠ '`') {c : Text} (h : NoDouble o c) : Quiet o (['`'] ++ c ++ ['`']) :=
  Quiet.append (t := ['`']) (.of_not_mem (by simp [ho])) (quiet_before ho.symm (.of_not_mem (by simp [ho])) h)

theorem quiet_block {o : Char} (ho : o ∉ ['`', 's', 'q', 'f', '\n']) {c : Text} (h : NoDouble o c) :
    Quiet o (['`', '`', '`', 's', 'q', 'f', '\n'] ++ c ++ ['\n', '`', '`', '`']) := by
  simp only [List.mem_cons, List.not_mem_nil, or_false, not_or] at ho
  rw [List.append_assoc]
  refine Quiet.append (.of_not_mem (by simp [ho])) (quiet_before (Ne.symm ho.2.2.2.2) (.of_not_mem (by simp [ho])) h)

theorem third_fine {q : Piece} (h : q.Ok) : Fine highlight (third q) := by
  cases q with
  | plain t => exact clear_hl (.of_not_mem h.2.1)
  | inline c => exact clear_hl (quiet_inline (by decide) h.2.2)
  | block c => exact clear_hl (quiet_block (by decide) h.2.2)
  | hl c =>
    obtain ⟨h1, h2, h3, h4, h5⟩ := h
    exact inside_twice (o := '{') (k := '}') rfl rfl (by decide) (by decide) h1 h3 h4 (.inr h5)
      (.of_not_mem (by simp [highlight, h3]))

theorem render_first : ∀ (ps : List Piece), render inlineCode [] (ps.map first) = ps.flatMap Piece.source
  | [] => rfl
  | q :: ps => by
    have ih := render_first ps
    rw [List.map_cons, List.flatMap_cons, ← ih]
    cases q <;> rfl

theorem final_first : ∀ (ps : List Piece), final inlineCode (ps.map first) = render blockCode [] (ps.map second)
  | [] => rfl
  | q :: ps => by
    have ih := final_first ps
    rw [List.map_cons, List.map_cons]
    cases q <;> simp only [first, second, final, render, ih] <;> rfl

theorem final_second : ∀ (ps : List Piece), final blockCode (ps.map second) = render highlight [] (ps.map third)
  | [] => rfl
  | q :: ps => by
    have ih := final_second ps
    rw [List.map_cons, List.map_cons]
    cases q <;> simp only [second, third, final, render, ih] <;> rfl

theorem final_third : ∀ (ps : List Piece), final highlight (ps.map third) = ps.flatMap Piece.shown
  | [] => rfl
  | q :: ps => by
    have ih := final_third ps
    rw [List.map_cons, List.flatMap_cons, ← ih]
    cases q <;> rfl

/-- Code is written between the marks of Markdown. -/
theorem code_shown {ps : List Piece} (h : ∀ q ∈ ps, q.Ok) :
    markdownCode (ps.flatMap Piece.source) = ps.flatMap Piece.shown := by
  have fine : ∀ {m : Mark} {f : Piece → Part}, (∀ q : Piece, q.Ok → Fine m (f q)) →
      ∀ p ∈ ps.map f, Fine m p := by
    intro m f hf p hp
    obtain ⟨q, hq, rfl⟩ := List.mem_map.1 hp
    exact hf q (h q hq)
  rw [markdownCode, ← render_first, pass_render known_inline (fine fun _ => first_fine), final_first,
    pass_render known_block (fine fun _ => second_fine), final_second,
    pass_render known_hl (fine fun _ => third_fine), final_third]

theorem shown_quiet {q : Piece} (h : q.Ok) : Quiet '{' q.shown := by
  cases q with
  | plain t => exact .of_not_mem h.2.1
  | inline c => exact quiet_inline (by decide) h.2.2
  | block c => exact quiet_block (by decide) h.2.2
  | hl c => exact quiet_inline (by decide) (NoDouble.of_not_mem h.2.2.1)

theorem shown_flat {q : Piece} (h : q.Ok) (hf : q.Flat) : Quiet '[' q.shown := by
  cases q with
  | plain t => exact .of_not_mem h.2.2
  | inline c => exact quiet_inline (by decide) hf
  | block c => exact quiet_block (by decide) hf
  | hl c => exact quiet_inline (by decide) hf

theorem quiet_flatMap {o : Char} : ∀ {ps : List Piece}, (∀ q ∈ ps, Quiet o q.shown) → Quiet o (ps.flatMap Piece.shown)
  | [], _ => trivial
  | q :: ps, h => by
    rw [List.flatMap_cons]
    exact Quiet.append (h q (by simp)) (quiet_flatMap fun p hp => h p (by simp [hp]))

end Code
open Verif.WikiCodeSpec

/-- **C141 (partial).** The code of a description is shown as it is written, if it has no two opening brackets in a row.
`feature` is what the program does for feature boxes; a text without `{{` has none. Missing: arrays that begin with an
array, for which it is false (`C141_violated_array`), and code with `<s`, `</` or `{{`. -/
theorem C141_code_partial {feature : Text → Text} (hf : ∀ t, NoDouble '{' t → feature t = t) (name : Text)
    {ps : List WikiCodeSpec.Piece} (h : ∀ q ∈ ps, q.Ok) (hflat : ∀ q ∈ ps, q.Flat) :
    markdown feature name (ps.flatMap WikiCodeSpec.Piece.source) = ps.flatMap WikiCodeSpec.Piece.shown := by
  have h1 : Quiet '{' (ps.flatMap WikiCodeSpec.Piece.shown) := Code.quiet_flatMap fun q hq => Code.shown_quiet (h q hq)
  have h2 : Quiet '[' (ps.flatMap WikiCodeSpec.Piece.shown) :=
    Code.quiet_flatMap fun q hq => Code.shown_flat (h q hq) (hflat q hq)
  rw [markdown, Code.code_shown h, hf _ (Code.Quiet.noDouble h1), markdownLinks,
    Code.pass_clear (m := square) (Clear.of_quiet (o := '[') h2),
    Code.pass_clear (m := curly name) (Clear.of_quiet (o := '{') h1)]

/-- **C141 is violated.** An array that begins with an array is taken for a link of the wiki: in place of the code `[[x]]`
a link to the page `x` is shown. -/
theorem C141_violated_array {feature : Text → Text} (hf : ∀ t, NoDouble '{' t → feature t = t) (name : Text)
    {before after : List WikiCodeSpec.Piece} {a x b : Text}
    (h : ∀ q ∈ before ++ [WikiCodeSpec.Piece.block (a ++ ['[', '['] ++ x ++ [']', ']'] ++ b)] ++ after, q.Ok)
    (hb : ∀ q ∈ before, q.Flat) (ha : ∀ q ∈ after, q.Flat) (ha' : '[' ∉ a) (hb' : '[' ∉ b)
    (hne : x ≠ []) (hx : WikiLinksSpec.Simple x) :
    markdown feature name
        ((before ++ [WikiCodeSpec.Piece.block (a ++ ['[', '['] ++ x ++ [']', ']'] ++ b)] ++ after).flatMap WikiCodeSpec.Piece.source)
      = before.flatMap WikiCodeSpec.Piece.shown
        ++ (WikiCodeSpec.Piece.block (a ++ ['['] ++ x ++ [']', '('] ++ WikiLinksSpec.base ++ x ++ [')'] ++ b)).shown
        ++ after.flatMap WikiCodeSpec.Piece.shown := by
  have hs := Simple.not_mem hx
  have q1 : Quiet '{' ((before ++ [WikiCodeSpec.Piece.block (a ++ ['[', '['] ++ x ++ [']', ']'] ++ b)] ++ after).flatMap
      WikiCodeSpec.Piece.shown) := Code.quiet_flatMap fun q hq => Code.shown_quiet (h q hq)
  rw [markdown, Code.code_shown h, hf _ (Code.Quiet.noDouble q1), markdownLinks]
  have hB : Quiet '[' (before.flatMap WikiCodeSpec.Piece.shown) :=
    Code.quiet_flatMap fun q hq => Code.shown_flat (h q (by simp [hq])) (hb q hq)
  have hA : Quiet '[' (after.flatMap WikiCodeSpec.Piece.shown) :=
    Code.quiet_flatMap fun q hq => Code.shown_flat (h q (by simp [hq])) (ha q hq)
  have hB2 : Quiet '{' (before.flatMap WikiCodeSpec.Piece.shown) :=
    Code.quiet_flatMap fun q hq => Code.shown_quiet (h q (by simp [hq]))
  have hA2 : Quiet '{' (after.flatMap WikiCodeSpec.Piece.shown) :=
    Code.quiet_flatMap fun q hq => Code.shown_quiet (h q (by simp [hq]))
  have hok : NoDouble '{' (a ++ ['[', '['] ++ x ++ [']', ']'] ++ b) :=
    (h (.block (a ++ ['[', '['] ++ x ++ [']', ']'] ++ b)) (by simp)).2.2
  have hda : NoDouble '{' a := fun u v e => hok u (v ++ ['[', '['] ++ x ++ [']', ']'] ++ b) (by rw [e]; simp)
  have hdb : NoDouble '{' b := fun u v e => hok (a ++ ['[', '['] ++ x ++ [']', ']'] ++ u) v (by rw [e]; simp)
  let t1 : Text := before.flatMap WikiCodeSpec.Piece.shown ++ (['`', '`', '`', 's', 'q', 'f', '\n'] ++ a)
  let t2 : Text := b ++ ['\n', '`', '`', '`'] ++ after.flatMap WikiCodeSpec.Piece.shown
  have e : (before ++ [WikiCodeSpec.Piece.block (a ++ ['[', '['] ++ x ++ [']', ']'] ++ b)] ++ after).flatMap
      WikiCodeSpec.Piece.shown = render square [] [.inl t1, .inr x, .inl t2] := by
    simp [render, t1, t2, WikiCodeSpec.Piece.shown, square_op, square_cl]
  have f1 : Quiet '[' t1 := Code.Quiet.append hB (.of_not_mem (by simp [ha']))
  have f2 : Quiet '[' t2 := Code.Quiet.append (.of_not_mem (by simp [hb'])) hA
  have fx : Fine square (.inr x) := WikiLinks.first_fine (q := .page x) ⟨hne, hx⟩
  have hpass : pass square (render square [] [.inl t1, .inr x, .inl t2]) = final square [.inl t1, .inr x, .inl t2] := by
    apply pass_render known_square
    intro p hp
    simp only [List.mem_cons, List.not_mem_nil, or_false] at hp
    rcases hp with rfl | rfl | rfl
    · exact Clear.of_quiet (o := '[') f1
    · exact fx
    · exact Clear.of_quiet (o := '[') f2
  have e2 : final square [.inl t1, .inr x, .inl t2]
      = before.flatMap WikiCodeSpec.Piece.shown
        ++ (WikiCodeSpec.Piece.block (a ++ ['['] ++ x ++ [']', '('] ++ WikiLinksSpec.base ++ x ++ [')'] ++ b)).shown
        ++ after.flatMap WikiCodeSpec.Piece.shown := by
    simp [final, t1, t2, WikiCodeSpec.Piece.shown, put_page (hs '|' (by decide)), mdLink, wiki_eq]
  have hw : '{' ∉ WikiLinksSpec.base := wiki_curly
  have hx' : '{' ∉ x := hs '{' (by decide)
  rw [e, hpass, ← e2]
  apply Code.pass_clear
  apply Clear.of_quiet (o := '{')
  have e3 : final square [.inl t1, .inr x, .inl t2]
      = before.flatMap WikiCodeSpec.Piece.shown ++ (['`', '`', '`', 's', 'q', 'f', '\n'] ++ (a ++ '[' ::
        (x ++ [']', '('] ++ WikiLinksSpec.base ++ x ++ [')'] ++ (b ++ '\n' :: ['`', '`', '`']))))
        ++ after.flatMap WikiCodeSpec.Piece.shown := by
    rw [e2]; simp [WikiCodeSpec.Piece.shown]
  rw [e3]
  refine Code.Quiet.append (Code.Quiet.append hB2 (Code.Quiet.append (.of_not_mem (by decide)) ?_)) hA2
  refine Code.quiet_before (by decide) ?_ hda
  refine ⟨fun h => absurd h (by decide), ?_⟩
  refine Code.Quiet.append (.of_not_mem (by simp [hw, hx'])) ?_
  exact Code.quiet_before (by decide) (.of_not_mem (by decide)) hdb

/-- What the program does for feature boxes when there is none. -/
example : ∀ t, NoDouble '{' t → (id : Text → Text) t = t := fun _ _ => rfl

theorem Code.tagFree_of {t : Text} (h : ('<', 's') ∉ t.zip t.tail) (h' : ('<', '/') ∉ t.zip t.tail) : TagFree t := by
  rintro a d b rfl
  have : ('<', d) ∈ (a ++ '<' :: d :: b).zip (a ++ '<' :: d :: b).tail := by
    clear h h'
    induction a with
    | nil => simp
    | cons c a ih =>
      cases a with
      | nil => simp
      | cons e a => simp only [List.cons_append, List.tail_cons, List.zip_cons_cons] at ih ⊢; exact List.mem_cons_of_mem _ ih
  exact ⟨fun e => h (e ▸ this), fun e => h' (e ▸ this)⟩

theorem Code.noDouble_of {o : Char} {t : Text} (h : (o, o) ∉ t.zip t.tail) : NoDouble o t := by
  rintro a b rfl
  have : (o, o) ∈ (a ++ o :: o :: b).zip (a ++ o :: o :: b).tail := by
    clear h
    induction a with
    | nil => simp
    | cons c a ih =>
      cases a with
      | nil => simp
      | cons d a => simp only [List.cons_append, List.tail_cons, List.zip_cons_cons] at ih ⊢; exact List.mem_cons_of_mem _ ih
  exact h this

example : markdown id "set".toList "Use <sqf inline>_a set [0, 1]</sqf>, {{hl|now}}:<sqf>\n_a < 1</sqf>".toList
    = "Use `_a set [0, 1]`, `now`:```sqf\n\n_a < 1\n```".toList := by
  have := C141_code_partial (feature := id) (fun _ _ => rfl) "set".toList
    (ps := [.plain "Use ".toList, .inline "_a set [0, 1]".toList, .plain ", ".toList, .hl "now".toList,
      .plain ":".toList, .block "\n_a < 1".toList])
    (by
      intro q hq
      simp only [List.mem_cons, List.not_mem_nil, or_false] at hq
      rcases hq with rfl | rfl | rfl | rfl | rfl | rfl
      · exact ⟨by decide +kernel, by decide +kernel, by decide +kernel⟩
      · exact ⟨by decide +kernel, Code.tagFree_of (by decide +kernel) (by decide +kernel), Code.noDouble_of (by decide +kernel)⟩
      · exact ⟨by decide +kernel, by decide +kernel, by decide +kernel⟩
      · exact ⟨by decide +kernel, by decide +kernel, by decide +kernel, by decide +kernel, by decide +kernel⟩
      · exact ⟨by decide +kernel, by decide +kernel, by decide +kernel⟩
      · exact ⟨by decide +kernel, Code.tagFree_of (by decide +kernel) (by decide +kernel), Code.noDouble_of (by decide +kernel)⟩)
    (by
      intro q hq
      simp only [List.mem_cons, List.not_mem_nil, or_false] at hq
      rcases hq with rfl | rfl | rfl | rfl | rfl | rfl
      · trivial
      · exact Code.noDouble_of (by decide +kernel)
      · trivial
      · exact Code.noDouble_of (by decide +kernel)
      · trivial
      · exact Code.noDouble_of (by decide +kernel))
  exact Eq.trans (congrArg _ (by decide +kernel)) (this.trans (by decide +kernel))

example : markdown id "set".toList "<sqf>_a = [[1, 2]];</sqf>".toList
    = "```sqf\n_a = [1, 2](https://community.bistudio.com/wiki/1, 2);\n```".toList := by
  have := C141_violated_array (feature := id) (fun _ _ => rfl) "set".toList (before := []) (after := [])
    (a := "_a = ".toList) (x := "1, 2".toList) (b := ";".toList)
    (by
      intro q hq
      simp only [List.nil_append, List.append_nil, List.mem_cons, List.not_mem_nil, or_false] at hq
      subst hq
      exact ⟨by decide +kernel, Code.tagFree_of (by decide +kernel) (by decide +kernel), Code.noDouble_of (by decide +kernel)⟩)
    (by simp) (by simp) (by decide +kernel) (by decide +kernel) (by decide +kernel) (by decide +kernel)
  exact Eq.trans (congrArg _ (by decide +kernel)) (this.trans (by decide +kernel))

end Verif.WikiLinks
