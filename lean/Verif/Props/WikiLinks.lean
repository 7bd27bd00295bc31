import Verif.Model.WikiLinks
import Verif.Spec.WikiLinks
/-!
C140: the links in the description of a command, as the language server shows it.
-/
namespace Verif.WikiLinks
open Verif.ProjectFile (replaceAll replaceFrom)
open Verif.WikiLinksSpec

/-- Each `o` is followed by another character. -/
def Quiet (o : Char) : Text → Prop
  | [] => True
  | c :: s => (c = o → ∃ d r, s = d :: r ∧ d ≠ o) ∧ Quiet o s

theorem Quiet.of_not_mem {o : Char} : ∀ {t : Text}, o ∉ t → Quiet o t
  | [], _ => trivial
  | c :: s, h => by
    rw [List.mem_cons, not_or] at h
    exact ⟨fun hc => absurd hc.symm h.1, Quiet.of_not_mem h.2⟩

theorem Quiet.cons_of {o : Char} {t : Text} (hne : t ≠ []) (h : o ∉ t) : Quiet o (o :: t) := by
  refine ⟨fun _ => ?_, .of_not_mem h⟩
  cases t with
  | nil => exact absurd rfl hne
  | cons d r => exact ⟨d, r, rfl, fun hd => h (by simp [hd])⟩

/-- A mark begins nowhere in the text, whatever follows. -/
def Clear (op : Text) : Text → Prop
  | [] => True
  | c :: t => (∀ s, op.isPrefixOf (c :: (t ++ s)) = false) ∧ Clear op t

theorem Clear.of_not_mem {o : Char} {op : Text} : ∀ {t : Text}, o ∉ t → Clear (o :: op) t
  | [], _ => trivial
  | c :: t, h => by
    rw [List.mem_cons, not_or] at h
    exact ⟨fun s => by simp [List.isPrefixOf, h.1], Clear.of_not_mem h.2⟩

theorem Clear.of_quiet {o : Char} {op : Text} : ∀ {t : Text}, Quiet o t → Clear (o :: o :: op) t
  | [], _ => trivial
  | c :: t, h => by
    refine ⟨fun s => ?_, Clear.of_quiet h.2⟩
    by_cases hc : c = o
    · obtain ⟨d, r, rfl, hd⟩ := h.1 hc
      have : ¬ o = d := fun h => hd h.symm
      simp [List.isPrefixOf, this]
    · have : ¬ o = c := fun h => hc h.symm
      simp [List.isPrefixOf, this]

theorem Clear.append {op : Text} : ∀ {t u : Text}, Clear op t → Clear op u → Clear op (t ++ u)
  | [], _, _, h => h
  | c :: t, u, h, hu => by
    refine ⟨fun s => ?_, Clear.append h.2 hu⟩
    have := h.1 (u ++ s)
    rw [← List.append_assoc] at this
    exact this

/-- The end of a mark is nowhere before the end, whatever follows. -/
def Ends (cl : Text) : Text → Prop
  | [] => True
  | c :: t => (∀ s, cl.isPrefixOf (c :: (t ++ (cl ++ s))) = false) ∧ Ends cl t

theorem Ends.of_not_mem {k : Char} {r : Text} : ∀ {t : Text}, k ∉ t → Ends (k :: r) t
  | [], _ => trivial
  | c :: t, h => by
    rw [List.mem_cons, not_or] at h
    exact ⟨fun s => by simp [List.isPrefixOf, h.1], Ends.of_not_mem h.2⟩

/-- What is known of a mark. -/
structure Known (m : Mark) : Prop where
  op : m.op ≠ []

/-- What a mark may stand around. -/
structure Inside (m : Mark) (x : Text) : Prop where
  ne : x ≠ []
  hk : Ends m.cl x
  nl : m.multi = true ∨ '\n' ∉ x
  rest : Clear m.op (m.op ++ x ++ m.cl).tail
  put : Clear m.op (m.put x)

theorem isPrefixOf_append (a b : Text) : a.isPrefixOf (a ++ b) = true := by
  rw [List.isPrefixOf_iff_prefix]; exact List.prefix_append a b

theorem not_prefix_longer {a b s : Text} (h : a.isPrefixOf s = false) : (a ++ b).isPrefixOf s = false := by
  rw [Bool.eq_false_iff] at h ⊢
  intro h'
  rw [List.isPrefixOf_iff_prefix] at h'
  exact h (List.isPrefixOf_iff_prefix.2 ((List.prefix_append a b).trans h'))

theorem replaceFrom_clear {op p rep : Text} (s : Text) : ∀ {t : Text}, Clear op t →
    replaceFrom (op ++ p) rep 0 (t ++ s) = t ++ replaceFrom (op ++ p) rep 0 s
  | [], _ => rfl
  | c :: t, h => by
    rw [List.cons_append, replaceFrom, not_prefix_longer (h.1 s)]
    simp [replaceFrom_clear s h.2]

theorem replaceFrom_skip {pat rep : Text} (s : Text) : ∀ (t : Text),
    replaceFrom pat rep t.length (t ++ s) = replaceFrom pat rep 0 s
  | [] => rfl
  | _ :: t => by simpa [replaceFrom] using replaceFrom_skip s t

theorem find_clear {m : Mark} (s : Text) : ∀ {t : Text}, Clear m.op t → find m 0 (t ++ s) = find m 0 s
  | [], _ => rfl
  | c :: t, h => by
    rw [List.cons_append, find, h.1 s]
    simpa using find_clear s h.2

theorem find_skip {m : Mark} (s : Text) : ∀ (t : Text), find m t.length (t ++ s) = find m 0 s
  | [] => rfl
  | _ :: t => by simpa [find] using find_skip s t

theorem upTo_of {multi : Bool} {cl : Text} (s : Text) : ∀ {x : Text}, Ends cl x → (multi = true ∨ '\n' ∉ x) →
    upTo multi cl (x ++ (cl ++ s)) = some x
  | [], _, _ => by
    have h := isPrefixOf_append cl s
    rw [List.nil_append]
    cases e : cl ++ s with
    | nil => rw [e] at h; rw [upTo, if_pos h]
    | cons c t => rw [e] at h; rw [upTo, if_pos h]
  | c :: x, hk, hn => by
    have h1 : ¬ (c = '\n' ∧ multi = false) := by
      rintro ⟨rfl, h⟩
      rcases hn with hn | hn
      · simp [h] at hn
      · exact hn (by simp)
    have h2 : multi = true ∨ '\n' ∉ x := hn.imp id fun h h' => h (by simp [h'])
    rw [List.cons_append, upTo, if_neg (by simp [hk.1 s]), if_neg h1, upTo_of s hk.2 h2]
    rfl

theorem group_of {multi : Bool} {cl : Text} (s : Text) {x : Text} (hne : x ≠ []) (hk : Ends cl x)
    (hn : multi = true ∨ '\n' ∉ x) : group multi cl (x ++ (cl ++ s)) = some x := by
  cases x with
  | nil => exact absurd rfl hne
  | cons c x =>
    have h1 : ¬ (c = '\n' ∧ multi = false) := by
      rintro ⟨rfl, h⟩
      rcases hn with hn | hn
      · simp [h] at hn
      · exact hn (by simp)
    have h2 : multi = true ∨ '\n' ∉ x := hn.imp id fun h h' => h (by simp [h'])
    rw [List.cons_append, group, if_neg h1, upTo_of s hk.2 h2]
    rfl

theorem same_of_prefix {cl : Text} : ∀ {x y s : Text}, Ends cl x → Ends cl y →
    (x ++ cl) <+: (y ++ (cl ++ s)) → x = y
  | [], [], _, _, _, _ => rfl
  | [], c :: y, s, _, hy, h => by
    have := hy.1 s
    rw [Bool.eq_false_iff] at this
    exact absurd (List.isPrefixOf_iff_prefix.2 (by simpa using h)) this
  | c :: x, [], s, hx, _, h => by
    obtain ⟨w, hw⟩ := h
    have := hx.1 w
    rw [Bool.eq_false_iff] at this
    refine absurd (List.isPrefixOf_iff_prefix.2 ⟨s, ?_⟩) this
    simpa using hw.symm
  | c :: x, d :: y, s, hx, hy, h => by
    rw [List.cons_append, List.cons_append, List.cons_prefix_cons] at h
    rw [h.1, same_of_prefix hx.2 hy.2 h.2]

section
variable {m : Mark}

theorem whole (hm : Known m) (x : Text) : ∃ o, m.op ++ x ++ m.cl = o :: (m.op ++ x ++ m.cl).tail := by
  cases e : m.op with
  | nil => exact absurd e hm.op
  | cons o r => exact ⟨o, rfl⟩

theorem find_mark (hm : Known m) {x : Text} (hx : Inside m x) (s : Text) :
    find m 0 ((m.op ++ x ++ m.cl) ++ s) = x :: find m 0 s := by
  obtain ⟨o, e⟩ := whole hm x
  have hp : m.op.isPrefixOf ((m.op ++ x ++ m.cl) ++ s) = true := by
    rw [List.append_assoc, List.append_assoc]; exact isPrefixOf_append _ _
  have hd : ((m.op ++ x ++ m.cl) ++ s).drop m.op.length = x ++ (m.cl ++ s) := by
    rw [List.append_assoc, List.append_assoc, List.drop_left]
  have hl : m.op.length + x.length + m.cl.length - 1 = (m.op ++ x ++ m.cl).tail.length := by
    simp; omega
  rw [e, List.cons_append] at hp hd
  rw [e, List.cons_append, find, if_pos hp, hd, group_of s hx.ne hx.hk hx.nl]
  simp only [hl, find_skip]

theorem replace_same (hm : Known m) (x rep s : Text) :
    replaceFrom (m.op ++ x ++ m.cl) rep 0 ((m.op ++ x ++ m.cl) ++ s)
      = rep ++ replaceFrom (m.op ++ x ++ m.cl) rep 0 s := by
  obtain ⟨o, e⟩ := whole hm x
  generalize (m.op ++ x ++ m.cl).tail = q at e
  rw [e, List.cons_append, replaceFrom, if_pos (by simpa using isPrefixOf_append (o :: q) s)]
  simp [replaceFrom_skip]

theorem replace_other (hm : Known m) {x y : Text} (hx : Ends m.cl x) (hy : Inside m y) (hne : x ≠ y)
    (rep s : Text) :
    replaceFrom (m.op ++ x ++ m.cl) rep 0 ((m.op ++ y ++ m.cl) ++ s)
      = (m.op ++ y ++ m.cl) ++ replaceFrom (m.op ++ x ++ m.cl) rep 0 s := by
  obtain ⟨o, e⟩ := whole hm y
  have hnp : (m.op ++ x ++ m.cl).isPrefixOf ((m.op ++ y ++ m.cl) ++ s) = false := by
    rw [Bool.eq_false_iff]
    intro h
    rw [List.isPrefixOf_iff_prefix, List.append_assoc, List.append_assoc, List.append_assoc,
      List.prefix_append_right_inj] at h
    exact hne (same_of_prefix hx hy.hk h)
  have hc := hy.rest
  generalize (m.op ++ y ++ m.cl).tail = q at e hc
  rw [e, List.cons_append] at hnp ⊢
  rw [replaceFrom, hnp, List.append_assoc, replaceFrom_clear s hc]
  simp

/-- A text in pieces: what is no mark, and what stands in a mark. -/
abbrev Part := Text ⊕ Text

/-- The text when the marks around the texts of `D` have been replaced. -/
def render (m : Mark) (D : List Text) : List Part → Text
  | [] => []
  | .inl t :: ps => t ++ render m D ps
  | .inr x :: ps => (if x ∈ D then m.put x else m.op ++ x ++ m.cl) ++ render m D ps

/-- What stands in the marks. -/
def names : List Part → List Text
  | [] => []
  | .inl _ :: ps => names ps
  | .inr x :: ps => x :: names ps

/-- The text when all marks have been replaced. -/
def final (m : Mark) : List Part → Text
  | [] => []
  | .inl t :: ps => t ++ final m ps
  | .inr x :: ps => m.put x ++ final m ps

/-- Parts that a pass understands. -/
def Fine (m : Mark) : Part → Prop
  | .inl t => Clear m.op t
  | .inr x => Inside m x

theorem find_render (hm : Known m) : ∀ {ps : List Part}, (∀ p ∈ ps, Fine m p) →
    find m 0 (render m [] ps) = names ps
  | [], _ => rfl
  | .inl t :: ps, h => by
    have h1 : Clear m.op t := h (.inl t) (by simp)
    rw [render, find_clear _ h1, names, find_render hm fun p hp => h p (by simp [hp])]
  | .inr x :: ps, h => by
    have h1 : Inside m x := h (.inr x) (by simp)
    rw [render, if_neg (by simp), find_mark hm h1, names, find_render hm fun p hp => h p (by simp [hp])]

theorem replace_render (hm : Known m) {x : Text} (hx : Ends m.cl x) (D : List Text) : ∀ {ps : List Part},
    (∀ p ∈ ps, Fine m p) →
    replaceAll (m.op ++ x ++ m.cl) (m.put x) (render m D ps) = render m (x :: D) ps
  | [], _ => rfl
  | .inl t :: ps, h => by
    have h1 : Clear m.op t := h (.inl t) (by simp)
    have ih := replace_render hm hx D (ps := ps) fun p hp => h p (by simp [hp])
    rw [replaceAll] at ih ⊢
    rw [render, render, List.append_assoc, replaceFrom_clear _ h1, ← List.append_assoc, ih]
  | .inr y :: ps, h => by
    have h1 : Inside m y := h (.inr y) (by simp)
    have ih := replace_render hm hx D (ps := ps) fun p hp => h p (by simp [hp])
    rw [replaceAll] at ih ⊢
    rw [render, render]
    by_cases hD : y ∈ D
    · rw [if_pos hD, if_pos (by simp [hD]), List.append_assoc m.op, replaceFrom_clear _ h1.put, ← List.append_assoc m.op, ih]
    · rw [if_neg hD]
      by_cases hxy : x = y
      · subst hxy
        rw [if_pos (by simp), replace_same hm, ih]
      · rw [if_neg (by simp [hD, Ne.symm hxy]), replace_other hm hx h1 hxy, ih]

theorem foldl_render (hm : Known m) {ps : List Part} (h : ∀ p ∈ ps, Fine m p) : ∀ (L D : List Text),
    (∀ x ∈ L, Ends m.cl x) →
    ∃ E, (∀ x, x ∈ E ↔ x ∈ L ∨ x ∈ D) ∧
      L.foldl (fun t x => replaceAll (m.op ++ x ++ m.cl) (m.put x) t) (render m D ps) = render m E ps
  | [], D, _ => ⟨D, by simp, rfl⟩
  | x :: L, D, hL => by
    obtain ⟨E, hE, e⟩ := foldl_render hm h L (x :: D) fun y hy => hL y (by simp [hy])
    refine ⟨E, fun y => ?_, ?_⟩
    · rw [hE]; simp only [List.mem_cons]; tauto
    · rw [List.foldl_cons, replace_render hm (hL x (by simp)) D h, e]

theorem render_all {E : List Text} : ∀ {ps : List Part}, (∀ x ∈ names ps, x ∈ E) → render m E ps = final m ps
  | [], _ => rfl
  | .inl t :: ps, h => by rw [render, final, render_all (ps := ps) h]
  | .inr x :: ps, h => by
    rw [render, final, if_pos (h x (by simp [names])), render_all fun y hy => h y (by simp [names, hy])]

theorem names_mem : ∀ {ps : List Part} {x : Text}, x ∈ names ps → .inr x ∈ ps
  | .inl _ :: ps, x, h => List.mem_cons_of_mem _ (names_mem (ps := ps) h)
  | .inr y :: ps, x, h => by
    rw [names, List.mem_cons] at h
    rcases h with rfl | h
    · simp
    · exact List.mem_cons_of_mem _ (names_mem h)

/-- One pass replaces each mark by what is written for it, and leaves the rest. -/
theorem pass_render (hm : Known m) {ps : List Part} (h : ∀ p ∈ ps, Fine m p) :
    pass m (render m [] ps) = final m ps := by
  obtain ⟨E, hE, e⟩ := foldl_render hm h (names ps) [] fun x hx => (h _ (names_mem hx) : Inside m x).hk
  rw [pass, find_render hm h, e]
  exact render_all fun x hx => (hE x).2 (.inl hx)

end

theorem known_square : Known square := ⟨by simp [square]⟩

theorem known_curly (name : Text) : Known (curly name) := ⟨by simp [curly]⟩

/-- What may stand in a mark that begins with two like characters. -/
theorem inside_twice {m : Mark} {o k : Char} {r c : Text} (hop : m.op = o :: o :: r) (hcl : m.cl = k :: c)
    (hr : o ∉ r) (hc : o ∉ k :: c) {x : Text} (hne : x ≠ []) (ho : o ∉ x) (hk : k ∉ x)
    (hn : m.multi = true ∨ '\n' ∉ x) (hput : Quiet o (m.put x)) : Inside m x := by
  refine ⟨hne, hcl ▸ Ends.of_not_mem hk, hn, ?_, ?_⟩
  · have e : (m.op ++ x ++ m.cl).tail = o :: (r ++ x ++ m.cl) := by rw [hop]; rfl
    rw [e, hop]
    apply Clear.of_quiet
    apply Quiet.cons_of
    · simp [hne]
    · rw [hcl]
      simp only [List.mem_append, not_or]
      exact ⟨⟨hr, ho⟩, hc⟩
  · rw [hop]
    exact Clear.of_quiet hput

theorem inside_square {x : Text} (hne : x ≠ []) (ho : '[' ∉ x) (hk : ']' ∉ x) (hn : '\n' ∉ x)
    (hput : Quiet '[' (square.put x)) : Inside square x :=
  inside_twice rfl rfl (by decide) (by decide) hne ho hk (.inr hn) hput

theorem inside_curly {name x : Text} (hne : x ≠ []) (ho : '{' ∉ x) (hk : '}' ∉ x) (hn : '\n' ∉ x)
    (hput : Quiet '{' ((curly name).put x)) : Inside (curly name) x :=
  inside_twice rfl rfl (by decide) (by decide) hne ho hk (.inr hn) hput

/-- What the first pass sees. -/
def first : Piece → Part
  | .plain t => .inl t
  | .page p => .inr p
  | .named p t => .inr (p ++ '|' :: t)
  | .section h => .inl (Piece.section h).source
  | .template p => .inl (Piece.template p).source

/-- What the second pass sees. -/
def second : Piece → Part
  | .plain t => .inl t
  | .page p => .inl (square.put p)
  | .named p t => .inl (square.put (p ++ '|' :: t))
  | .section h => .inr ('#' :: h)
  | .template p => .inr p

theorem Simple.not_mem {t : Text} (h : Simple t) (c : Char) (hc : c ∈ (['[', ']', '{', '}', '|', '\n'] : Text)) : c ∉ t :=
  fun hm => h c hm hc

theorem not_mem_underscored {c : Char} (hc : c ≠ '_') {t : Text} (h : c ∉ t) : c ∉ underscored t := by
  rw [underscored, List.mem_map]
  rintro ⟨d, hd, e⟩
  split at e
  · exact hc e.symm
  · exact h (e ▸ hd)

theorem put_page {p : Text} (h : '|' ∉ p) : square.put p = mdLink p (wiki ++ p) := by
  simp [square, split_of_not_mem h]

theorem put_named {p t : Text} (hp : '|' ∉ p) (ht : '|' ∉ t) :
    square.put (p ++ '|' :: t) = mdLink t (wiki ++ underscored p) := by
  simp [square, split_append hp, split_of_not_mem ht]

theorem quiet_mdLink {t u : Text} (ht : '[' ∉ t) (hu : '[' ∉ u) : Quiet '[' (mdLink t u) := by
  have : mdLink t u = '[' :: (t ++ [']', '('] ++ u ++ [')']) := by simp [mdLink]
  rw [this]
  apply Quiet.cons_of
  · simp
  · simp [ht, hu]

theorem curly_mdLink {t u : Text} (ht : '{' ∉ t) (hu : '{' ∉ u) : Quiet '{' (mdLink t u) :=
  .of_not_mem (by simp [mdLink, ht, hu])

theorem wiki_eq : wiki = base := rfl
theorem wiki_square : '[' ∉ wiki := by decide +kernel
theorem wiki_curly : '{' ∉ wiki := by decide +kernel

theorem first_fine {q : Piece} (h : q.Ok) : Fine square (first q) := by
  cases q with
  | plain t => exact .of_not_mem (o := '[') h.1
  | page p =>
    have hs := Simple.not_mem h.2
    refine inside_square (h.1) (hs _ (by decide)) (hs _ (by decide)) (hs _ (by decide)) ?_
    rw [put_page (hs _ (by decide))]
    exact quiet_mdLink (hs _ (by decide)) (by simp [wiki_square, hs '[' (by decide)])
  | named p t =>
    have hp := Simple.not_mem h.1
    have ht := Simple.not_mem h.2
    refine inside_square (by simp) ?_ ?_ ?_ ?_
    · simp [hp '[' (by decide), ht '[' (by decide)]
    · simp [hp ']' (by decide), ht ']' (by decide)]
    · simp [hp '\n' (by decide), ht '\n' (by decide)]
    · rw [put_named (hp _ (by decide)) (ht _ (by decide))]
      refine quiet_mdLink (ht _ (by decide)) ?_
      simp [wiki_square, not_mem_underscored (c := '[') (by decide) (hp '[' (by decide))]
  | «section» t =>
    have ht := Simple.not_mem h.1
    exact .of_not_mem (o := '[') (by simp [Piece.source, ht '[' (by decide)])
  | template p =>
    have hs := Simple.not_mem h.2.1
    exact .of_not_mem (o := '[') (by simp [Piece.source, hs '[' (by decide)])

theorem second_fine {name : Text} (hn : '{' ∉ name) {q : Piece} (h : q.Ok) : Fine (curly name) (second q) := by
  cases q with
  | plain t => exact .of_not_mem (o := '{') h.2
  | page p =>
    have hs := Simple.not_mem h.2
    refine Clear.of_quiet (o := '{') (?_ : Quiet '{' (square.put p))
    rw [put_page (hs _ (by decide))]
    exact curly_mdLink (hs _ (by decide)) (by simp [wiki_curly, hs '{' (by decide)])
  | named p t =>
    have hp := Simple.not_mem h.1
    have ht := Simple.not_mem h.2
    refine Clear.of_quiet (o := '{') (?_ : Quiet '{' (square.put (p ++ '|' :: t)))
    rw [put_named (hp _ (by decide)) (ht _ (by decide))]
    refine curly_mdLink (ht _ (by decide)) ?_
    simp [wiki_curly, not_mem_underscored (c := '{') (by decide) (hp '{' (by decide))]
  | «section» t =>
    have ht := Simple.not_mem h.1
    refine inside_curly (by simp) (by simp [ht '{' (by decide)]) (by simp [ht '}' (by decide)])
      (by simp [ht '\n' (by decide)]) ?_
    have : (curly name).put ('#' :: t)
        = mdLink (('#' :: t).dropWhile (· = '#')) (wiki ++ underscored name ++ underscored ('#' :: t)) := by
      simp [curly]
    rw [this]
    refine curly_mdLink ?_ ?_
    · exact fun hm => (by simp [ht '{' (by decide)] : '{' ∉ '#' :: t) ((List.dropWhile_sublist _).subset hm)
    · have h1 := not_mem_underscored (c := '{') (by decide) hn
      have h2 := not_mem_underscored (c := '{') (t := '#' :: t) (by decide) (by simp [ht '{' (by decide)])
      simp [wiki_curly, h1, h2]
  | template p =>
    have hs := Simple.not_mem h.2.1
    refine inside_curly h.1 (hs _ (by decide)) (hs _ (by decide)) (hs _ (by decide)) ?_
    have : (curly name).put p = mdLink p (wiki ++ p) := by simp [curly, h.2.2]
    rw [this]
    exact curly_mdLink (hs _ (by decide)) (by simp [wiki_curly, hs '{' (by decide)])

theorem square_op : square.op = ['[', '['] := rfl
theorem square_cl : square.cl = [']', ']'] := rfl
theorem curly_op (name : Text) : (curly name).op = ['{', '{', 'L', 'i', 'n', 'k', '|'] := rfl
theorem curly_cl (name : Text) : (curly name).cl = ['}', '}'] := rfl

theorem render_first : ∀ (ps : List Piece), render square [] (ps.map first) = ps.flatMap Piece.source
  | [] => rfl
  | q :: ps => by
    have ih := render_first ps
    cases q <;> simp [first, render, ih, Piece.source, square_op, square_cl]

theorem final_first (name : Text) : ∀ (ps : List Piece),
    final square (ps.map first) = render (curly name) [] (ps.map second)
  | [] => rfl
  | q :: ps => by
    have ih := final_first name ps
    cases q <;> simp [first, second, final, render, ih, Piece.source, curly_op, curly_cl]

theorem final_second {name : Text} : ∀ {ps : List Piece}, (∀ q ∈ ps, q.Ok) →
    final (curly name) (ps.map second) = ps.flatMap (Piece.asIs name)
  | [], _ => rfl
  | q :: ps, h => by
    have ih := final_second (name := name) (ps := ps) fun q hq => h q (by simp [hq])
    have hq := h q (by simp)
    rw [List.map_cons, List.flatMap_cons, ← ih]
    cases q with
    | plain t => rfl
    | page p => simp [second, final, put_page (Simple.not_mem hq.2 '|' (by decide)), Piece.asIs, mdLink, wiki_eq]
    | named p t =>
      simp [second, final, put_named (Simple.not_mem hq.1 '|' (by decide)) (Simple.not_mem hq.2 '|' (by decide)),
        Piece.asIs, Piece.shown, address, mdLink, wiki_eq, underscored]
    | «section» t =>
      have : ('#' :: t).dropWhile (· = '#') = t := by
        cases t with
        | nil => rfl
        | cons c t =>
          have : c ≠ '#' := fun e => hq.2 (by simp [e])
          simp [List.dropWhile, this]
      simp [second, final, curly, this, Piece.asIs, Piece.shown, address, mdLink, wiki_eq, underscored]
    | template p => simp [second, final, curly, hq.2.2, Piece.asIs, mdLink, wiki_eq]

/-- **C140.** What is shown for any description that is made of text and links, however many there are and however
often one is repeated: the text as it is and for each link one link, in their order. -/
theorem C140_written {name : Text} (hn : '{' ∉ name) {ps : List Piece} (h : ∀ q ∈ ps, q.Ok) :
    markdownLinks name (ps.flatMap Piece.source) = ps.flatMap (Piece.asIs name) := by
  have h1 : ∀ p ∈ ps.map first, Fine square p := by
    intro p hp
    obtain ⟨q, hq, rfl⟩ := List.mem_map.1 hp
    exact first_fine (h q hq)
  have h2 : ∀ p ∈ ps.map second, Fine (curly name) p := by
    intro p hp
    obtain ⟨q, hq, rfl⟩ := List.mem_map.1 hp
    exact second_fine hn (h q hq)
  rw [markdownLinks, ← render_first, pass_render known_square h1, final_first name,
    pass_render (known_curly name) h2, final_second h]

theorem address_of_spaceless {p : Text} (h : ' ' ∉ p) :
    address p = base ++ p := by
  rw [address]
  congr 1
  conv => rhs; rw [← List.map_id p]
  refine List.map_congr_left fun c hc => ?_
  have hne : c ≠ ' ' := fun e => h (e ▸ hc)
  rw [if_neg hne]; rfl

theorem not_mem_address (p : Text) : ' ' ∉ address p := by
  rw [address, List.mem_append, not_or]
  refine ⟨by decide +kernel, ?_⟩
  rw [List.mem_map]
  rintro ⟨c, _, e⟩
  split at e
  · exact absurd e (by decide)
  · contradiction

theorem asIs_of_spaceless {name : Text} {q : Piece} (h : q.Spaceless) : q.asIs name = q.shown name := by
  cases q with
  | page p => simp [Piece.asIs, Piece.shown, address_of_spaceless h]
  | template p => simp [Piece.asIs, Piece.shown, address_of_spaceless h]
  | _ => rfl

/-- **C140 (partial).** Each link of a description leads to the page of the wiki, if titles that are shown as they are
have no spaces. Missing: titles with spaces, for which it is false (`C140_violated_space`). -/
theorem C140_links_partial {name : Text} (hn : '{' ∉ name) {ps : List Piece} (h : ∀ q ∈ ps, q.Ok)
    (hs : ∀ q ∈ ps, q.Spaceless) :
    markdownLinks name (ps.flatMap Piece.source) = ps.flatMap (Piece.shown name) := by
  rw [C140_written hn h]
  rw [List.flatMap_def, List.flatMap_def, List.map_congr_left fun q hq => asIs_of_spaceless (hs q hq)]

/-- **C140 is violated.** Wherever in a description a page with a space in its title is linked to by its title alone,
the address has the space, which no address of a page of the wiki has (and Markdown does not read it as a link). -/
theorem C140_violated_space {name : Text} (hn : '{' ∉ name) {before after : List Piece} {title : Text}
    (h : ∀ q ∈ before ++ [Piece.page title] ++ after, q.Ok) (hsp : ' ' ∈ title) :
    ∃ a b, markdownLinks name ((before ++ [Piece.page title] ++ after).flatMap Piece.source)
        = a ++ ['['] ++ title ++ [']', '('] ++ base ++ title ++ [')'] ++ b ∧
      a = before.flatMap (Piece.asIs name) ∧ b = after.flatMap (Piece.asIs name) ∧
      ∀ page, address page ≠ base ++ title := by
  refine ⟨_, _, ?_, rfl, rfl, fun page e => ?_⟩
  · rw [C140_written hn h]
    simp [Piece.asIs]
  · exact not_mem_address page (e ▸ List.mem_append_right _ hsp)

/-- Two links to one page, one with a text and one to a section. -/
def sample : List Piece :=
  [.plain "set it to ".toList, .page "nil".toList, .plain " (see ".toList, .section "Example 5".toList,
    .plain "), or ".toList, .page "nil".toList, .named ":Category:Scripting Commands".toList "all".toList,
    .template "west".toList]

instance (t : Text) : Decidable (Simple t) := inferInstanceAs (Decidable (∀ c ∈ t, c ∉ (['[', ']', '{', '}', '|', '\n'] : Text)))

instance : (q : Piece) → Decidable q.Ok
  | .plain t => inferInstanceAs (Decidable ('[' ∉ t ∧ '{' ∉ t))
  | .page p => inferInstanceAs (Decidable (p ≠ [] ∧ Simple p))
  | .named p t => inferInstanceAs (Decidable (Simple p ∧ Simple t))
  | .section h => inferInstanceAs (Decidable (Simple h ∧ h.head? ≠ some '#'))
  | .template p => inferInstanceAs (Decidable (p ≠ [] ∧ Simple p ∧ p.head? ≠ some '#'))

instance : (q : Piece) → Decidable q.Spaceless
  | .plain _ => inferInstanceAs (Decidable True)
  | .page p => inferInstanceAs (Decidable (' ' ∉ p))
  | .named _ _ => inferInstanceAs (Decidable True)
  | .section _ => inferInstanceAs (Decidable True)
  | .template p => inferInstanceAs (Decidable (' ' ∉ p))

example : markdownLinks "set Variable".toList (sample.flatMap Piece.source)
    = sample.flatMap (Piece.shown "set Variable".toList) :=
  C140_links_partial (by decide) (by decide +kernel) (by decide +kernel)

example : sample.flatMap (Piece.shown "setVariable".toList)
    = ("set it to [nil](https://community.bistudio.com/wiki/nil) (see [Example 5](https://community.bistudio.com/wiki/"
        ++ "setVariable#Example_5)), or [nil](https://community.bistudio.com/wiki/nil)[all](https://community.bistudio."
        ++ "com/wiki/:Category:Scripting_Commands)[west](https://community.bistudio.com/wiki/west)").toList := by
  decide +kernel

example := C140_violated_space (name := "units".toList) (by decide) (before := [.plain "in ".toList])
  (after := [.plain " only".toList]) (title := "Arma 3".toList) (by decide +kernel) (by decide)

/-- The tests of the program. -/
example : markdownLinks "setVariable".toList "See {{Link|#Example 5}}".toList
    = "See [Example 5](https://community.bistudio.com/wiki/setVariable#Example_5)".toList := by decide +kernel

example : markdownLinks "setVariable".toList "[[createLocation|scripted]]".toList
    = "[scripted](https://community.bistudio.com/wiki/createLocation)".toList := by decide +kernel

end Verif.WikiLinks
