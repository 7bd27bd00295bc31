import Mathlib.Data.List.Destutter
import Verif.Spec.StringtableXml
/-! Lemmas for `Verif.Props.StringtableXml`. -/
namespace Verif.StringtableXml
open Verif.Prefix (trim lines isWs stripCr)
open Verif.Stringtable (Lang)
open Spec

/-! ### Escaping -/

/-- A line as the serializer writes it. -/
def serOf (t : Text) : Text := t.flatMap fun c => if c = '&' then ampAmpS else [c]

theorem serOf_append (a b : Text) : serOf (a ++ b) = serOf a ++ serOf b := by simp [serOf]

theorem serOf_cons_amp (t : Text) : serOf ('&' :: t) = ampAmpS ++ serOf t := rfl

theorem serOf_cons {c : Char} (h : c ≠ '&') (t : Text) : serOf (c :: t) = c :: serOf t := by
  simp [serOf, h]

theorem serOf_plain {t : Text} (h : '&' ∉ t) : serOf t = t := by
  induction t with
  | nil => rfl
  | cons c t ih =>
    simp only [List.mem_cons, not_or] at h
    rw [serOf_cons (Ne.symm h.1), ih h.2]

theorem textEscape_minEscape {t : Text} (h1 : '<' ∉ t) (h2 : '>' ∉ t) : textEscape (minEscape t) = serOf t := by
  induction t with
  | nil => rfl
  | cons c t ih =>
    simp only [List.mem_cons, not_or] at h1 h2
    have hc : textEscape (minEscape (c :: t)) =
        textEscape (if c = '&' then ampS else if c = '<' then ltS else [c]) ++
          textEscape (minEscape t) := by
      simp [textEscape, minEscape]
    rw [hc, ih h1.2 h2.2]
    by_cases hA : c = '&'
    · subst hA; rfl
    · rw [serOf_cons hA, if_neg hA, if_neg (Ne.symm h1.1)]
      simp [textEscape, hA, Ne.symm h1.1, Ne.symm h2.1]

theorem attrEscape_plain {t : Text} (h : PlainName t) : attrEscape t = t := by
  obtain ⟨h1, h2, h3, h4, h5⟩ := h
  induction t with
  | nil => rfl
  | cons c t ih =>
    simp only [List.mem_cons, not_or] at h1 h2 h3 h4
    have hc : attrEscape (c :: t) = c :: attrEscape t := by
      simp [attrEscape, Ne.symm h1.1, Ne.symm h2.1, Ne.symm h3.1, Ne.symm h4.1]
    rw [hc, ih h1.2 h2.2 h3.2 h4.2 fun hn => by simp [hn] at h5]

theorem singleAmp_cons {c : Char} (h : c ≠ '&') (t : Text) : singleAmp (c :: t) = c :: singleAmp t := by
  unfold singleAmp
  rw [singleAmpFrom, if_neg]
  rintro ⟨r, hr⟩
  exact h (List.cons.inj hr).1.symm

theorem singleAmp_amp (t : Text) : singleAmp (ampAmpS ++ t) = '&' :: singleAmp t := by
  show singleAmpFrom 0 ('&' :: ("amp;amp;".toList ++ t)) = _
  rw [singleAmpFrom, if_pos ⟨t, rfl⟩]
  rfl

theorem singleAmp_serOf (t : Text) : singleAmp (serOf t) = t := by
  induction t with
  | nil => rfl
  | cons c t ih =>
    by_cases h : c = '&'
    · subst h; rw [serOf_cons_amp, singleAmp_amp, ih]
    · rw [serOf_cons h, singleAmp_cons h, ih]

theorem prefix_serOf {p t : Text} (h : '&' ∉ p) : p <+: serOf t ↔ p <+: t := by
  induction p generalizing t with
  | nil => simp
  | cons a p ih =>
    simp only [List.mem_cons, not_or] at h
    cases t with
    | nil => simp [serOf]
    | cons c t =>
      by_cases hc : c = '&'
      · subst hc
        rw [serOf_cons_amp]
        constructor
        · rintro ⟨r, hr⟩
          exact absurd (List.cons.inj hr).1 (Ne.symm h.1)
        · rintro ⟨r, hr⟩
          exact absurd (List.cons.inj hr).1 (Ne.symm h.1)
      · rw [serOf_cons hc, List.cons_prefix_cons, List.cons_prefix_cons, ih h.2]

/-! ### Trimming -/

theorem dropWhile_nil_iff {t : Text} : t.dropWhile isWs = [] ↔ ∀ c ∈ t, isWs c = true := by
  induction t with
  | nil => simp
  | cons c t ih =>
    rw [List.dropWhile_cons]
    by_cases h : isWs c = true
    · simp [h, ih]
    · simp [h]

theorem dropWhile_ws {w t : Text} (hw : ∀ c ∈ w, isWs c = true) (ht : ∀ c, t.head? = some c → isWs c = false) :
    (w ++ t).dropWhile isWs = t := by
  induction w with
  | nil =>
    cases t with
    | nil => rfl
    | cons c t => simp [ht c rfl]
  | cons c w ih =>
    rw [List.cons_append, List.dropWhile_cons, if_pos (hw c (by simp))]
    exact ih fun x hx => hw x (by simp [hx])

theorem takeWhile_ws {w t : Text} (hw : ∀ c ∈ w, isWs c = true) (ht : ∀ c, t.head? = some c → isWs c = false) :
    (w ++ t).takeWhile isWs = w := by
  induction w with
  | nil =>
    cases t with
    | nil => rfl
    | cons c t => simp [ht c rfl]
  | cons c w ih =>
    rw [List.cons_append, List.takeWhile_cons, if_pos (hw c (by simp)), ih fun x hx => hw x (by simp [hx])]

/-- Text that begins and ends with characters that are not white space. -/
structure Tight (t : Text) : Prop where
  head : ∀ c, t.head? = some c → isWs c = false
  last : ∀ c, t.getLast? = some c → isWs c = false

theorem trim_pad {w t w' : Text} (hw : ∀ c ∈ w, isWs c = true) (ht : Tight t) (hw' : ∀ c ∈ w', isWs c = true) :
    trim (w ++ t ++ w') = t := by
  rcases List.eq_nil_or_concat t with rfl | ⟨u, x, rfl⟩
  · have : (w ++ [] ++ w').dropWhile isWs = [] := by
      rw [dropWhile_nil_iff]
      intro c hc
      simp only [List.append_nil, List.mem_append] at hc
      exact hc.elim (hw c) (hw' c)
    unfold trim
    rw [this]
    rfl
  · unfold trim
    rw [List.append_assoc, dropWhile_ws hw, List.reverse_append, dropWhile_ws, List.reverse_reverse]
    · simpa using hw'
    · intro c hc
      apply ht.last
      simpa [List.head?_reverse] using hc
    · intro c hc
      apply ht.head
      cases u <;> simpa using hc

theorem trim_tight (s : Text) : Tight (trim s) := by
  have key : ∀ (l : Text) c, (l.dropWhile isWs).head? = some c → isWs c = false := by
    intro l c h
    have := List.head?_dropWhile_not isWs l
    rw [h] at this
    simpa using this
  constructor
  · intro c hc
    unfold trim at hc
    generalize hd : s.dropWhile isWs = d at hc
    have hk := key s
    rw [hd] at hk
    rw [List.head?_reverse] at hc
    cases d with
    | nil => simp at hc
    | cons x d =>
      have hx : isWs x = false := hk x rfl
      have : (x :: d).reverse.dropWhile isWs ≠ [] := by
        intro he
        rw [dropWhile_nil_iff] at he
        have := he x (by simp)
        rw [hx] at this
        cases this
      obtain ⟨w, hw⟩ := List.dropWhile_suffix (l := (x :: d).reverse) isWs
      have hl : ((x :: d).reverse.dropWhile isWs).getLast? = (x :: d).reverse.getLast? := by
        conv_rhs => rw [← hw]
        rw [List.getLast?_append_of_ne_nil _ this]
      rw [hl, List.getLast?_reverse] at hc
      exact hk c hc
  · intro c hc
    unfold trim at hc
    rw [List.getLast?_reverse] at hc
    exact key _ _ hc

/-! ### Elements and keys -/

theorem elem_facts (l : Lang) : ∃ a b s, elem l = a :: b :: s ∧ a ≠ '/' ∧ a ≠ '!' ∧ a ≠ '?' ∧ (a = 'K' → b ≠ 'e') := by
  cases l <;> exact ⟨_, _, _, rfl, by decide, by decide, by decide, by decide⟩

theorem elem_plain (l : Lang) : '&' ∉ elem l ∧ '\n' ∉ elem l := by
  cases l <;> exact ⟨by decide, by decide⟩

theorem tag_elem (l : Lang) : tag l = elem l := by cases l <;> rfl

theorem langs_table : table.map Prod.fst = langs := rfl

theorem mem_table (l : Lang) : l ∈ table.map Prod.fst := by cases l <;> decide

theorem nodup_table : (table.map Prod.fst).Nodup := by decide

/-- What the lines of a document have in common. -/
structure LineOk (l : Line) : Prop where
  head : l.text.head? = some '<'
  last : l.text.getLast? = some '>'
  newline : '\n' ∉ l.text
  comment : ¬ openS <+: l.text
  key : keyS <+: l.text → '&' ∉ l.text

/-- The key that is open after a line. -/
def next (k : Option Text) (t : Text) : Option Text :=
  if keyS <+: t then some t else if endKeyS <+: t then none else k

/-- The key that is open after the lines. -/
def final (k : Option Text) (ls : List Line) : Option Text := ls.foldl (fun k l => next k l.text) k

/-- Each line says the key that is open before it. -/
def Keyed : Option Text → List Line → Prop
  | _, [] => True
  | k, l :: ls => l.key = k ∧ Keyed (next k l.text) ls

theorem final_append (k : Option Text) (a b : List Line) : final k (a ++ b) = final (final k a) b := by
  simp [final]

theorem Keyed.append {k : Option Text} {a b : List Line} (ha : Keyed k a) (hb : Keyed (final k a) b) :
    Keyed k (a ++ b) := by
  induction a generalizing k with
  | nil => exact hb
  | cons l a ih => exact ⟨ha.1, ih ha.2 hb⟩

/-- Lines that leave no key open, begun with none open. -/
structure Closed (ls : List Line) : Prop where
  keyed : Keyed none ls
  final : final none ls = none

theorem Closed.append {a b : List Line} (ha : Closed a) (hb : Closed b) : Closed (a ++ b) :=
  ⟨ha.keyed.append (by rw [ha.final]; exact hb.keyed), by rw [final_append, ha.final, hb.final]⟩

theorem Closed.nil : Closed [] := ⟨trivial, rfl⟩

theorem Closed.flatMap {α : Type} {f : α → List Line} {xs : List α} (h : ∀ x ∈ xs, Closed (f x)) :
    Closed (xs.flatMap f) := by
  induction xs with
  | nil => exact Closed.nil
  | cons x xs ih =>
    rw [List.flatMap_cons]
    exact (h x (by simp)).append (ih fun y hy => h y (by simp [hy]))

theorem Closed.single {l : Line} (hk : l.key = none) (h1 : ¬ keyS <+: l.text) : Closed [l] := by
  have : next none l.text = none := by
    unfold next
    rw [if_neg h1]
    split <;> rfl
  exact ⟨⟨hk, trivial⟩, this⟩

theorem not_key {a b : Char} {s : Text} (h : a = 'K' → b ≠ 'e') : ¬ keyS <+: '<' :: a :: b :: s := by
  rintro ⟨r, hr⟩
  have h1 := List.cons.inj hr
  have h2 := List.cons.inj h1.2
  have h3 := List.cons.inj h2.2
  exact h h2.1.symm h3.1.symm

theorem not_key1 {a : Char} {s : Text} (h : a ≠ 'K') : ¬ keyS <+: '<' :: a :: s := by
  rintro ⟨r, hr⟩
  have h1 := List.cons.inj hr
  have h2 := List.cons.inj h1.2
  exact h h2.1.symm

theorem not_end {a : Char} {s : Text} (h : a ≠ '/') : ¬ endS <+: '<' :: a :: s := by
  rintro ⟨r, hr⟩
  have h1 := List.cons.inj hr
  have h2 := List.cons.inj h1.2
  exact h h2.1.symm

theorem not_endKey {a : Char} {s : Text} (h : a ≠ '/') : ¬ endKeyS <+: '<' :: a :: s := by
  rintro ⟨r, hr⟩
  have h1 := List.cons.inj hr
  have h2 := List.cons.inj h1.2
  exact h h2.1.symm

theorem not_open {a : Char} {s : Text} (h : a ≠ '!') : ¬ openS <+: '<' :: a :: s := by
  rintro ⟨r, hr⟩
  have h1 := List.cons.inj hr
  have h2 := List.cons.inj h1.2
  exact h h2.1.symm

/-- The line of a text. -/
def textOf (t : Lang × Text) : Text := '<' :: elem t.1 ++ '>' :: t.2 ++ endTag (elem t.1)

theorem textOf_next (k : Option Text) (t : Lang × Text) : next k (textOf t) = k := by
  obtain ⟨a, b, s, he, h1, h2, h3, h4⟩ := elem_facts t.1
  have e1 : ¬ keyS <+: textOf t := by unfold textOf; rw [he]; exact not_key h4
  have e2 : ¬ endKeyS <+: textOf t := by unfold textOf; rw [he]; exact not_endKey h1
  unfold next
  rw [if_neg e1, if_neg e2]

theorem key_texts (k : Option Text) (n : Nat) (ts : List (Lang × Text)) :
    Keyed k (ts.map fun t => (⟨n, textOf t, k⟩ : Line)) ∧ final k (ts.map fun t => (⟨n, textOf t, k⟩ : Line)) = k := by
  induction ts with
  | nil => exact ⟨trivial, rfl⟩
  | cons t ts ih =>
    refine ⟨⟨rfl, ?_⟩, ?_⟩
    · show Keyed (next k (textOf t)) _
      rw [textOf_next]; exact ih.1
    · show final (next k (textOf t)) _ = _
      rw [textOf_next]; exact ih.2

theorem start_next (k : SKey) : next none k.start = some k.start := by
  unfold next
  rw [if_pos]
  exact ⟨_, rfl⟩

theorem key_closed (n : Nat) (k : SKey) : Closed (k.lines n) := by
  have h := key_texts (some k.start) (n + 1) k.texts
  have he : next (some k.start) (endTag Spec.keyN) = none := by
    unfold next
    rw [if_neg, if_pos]
    · exact ⟨[], rfl⟩
    · exact not_key (a := '/') (by decide)
  constructor
  · refine ⟨rfl, ?_⟩
    show Keyed (next none k.start) (_ ++ _)
    rw [start_next]
    refine h.1.append ?_
    rw [h.2]
    exact ⟨rfl, trivial⟩
  · show final (next none k.start) (_ ++ _) = none
    rw [start_next, final_append]
    have h2 := h.2
    unfold textOf at h2
    rw [h2]
    exact he

mutual
theorem package_closed (e : Text) (h1 : ∀ s, ¬ keyS <+: '<' :: e ++ s) (n : Nat) :
    (p : SPackage) → Closed (p.lines e n)
  | .mk name ks cs => by
    unfold SPackage.lines
    have hk : Closed (ks.flatMap (SKey.lines (n + 1))) := Closed.flatMap fun k _ => key_closed _ k
    have hc := containers_closed (n + 1) cs
    have := (Closed.single (l := ⟨n, startTag e Spec.nameN name, none⟩) rfl
      (by unfold startTag; simpa using h1 _)).append ((hk.append hc).append
      (Closed.single (l := ⟨n, endTag e, none⟩) rfl (not_key1 (a := '/') (by decide))))
    simpa using this
theorem containers_closed (n : Nat) : (cs : List SPackage) → Closed (linesOf n cs)
  | [] => Closed.nil
  | c :: cs => by
    unfold linesOf
    exact (package_closed Spec.containerN (fun s => not_key1 (a := 'C') (by decide)) n c).append (containers_closed n cs)
end

theorem doc_closed (d : Doc) : Closed d.lines := by
  unfold Doc.lines
  have h : Closed (d.packages.flatMap (SPackage.lines Spec.packageN 1)) :=
    Closed.flatMap fun p _ => package_closed Spec.packageN (fun s => not_key1 (a := 'P') (by decide)) 1 p
  have := (Closed.single (l := ⟨0, startTag projectN Spec.nameN d.name, none⟩) rfl
      (not_key1 (a := 'P') (by decide))).append (h.append
      (Closed.single (l := ⟨0, endTag projectN, none⟩) rfl (not_key1 (a := '/') (by decide))))
  simpa using this

/-! ### All lines of a document -/

theorem startTag_last (e a v : Text) : (startTag e a v).getLast? = some '>' := by
  unfold startTag
  rw [List.getLast?_append_of_ne_nil _ (by decide)]
  rfl

theorem endTag_last (e : Text) : (endTag e).getLast? = some '>' := by
  unfold endTag
  rw [List.getLast?_append_of_ne_nil _ (by decide)]
  rfl

theorem startTag_plain {e a v : Text} (he : '&' ∉ e) (ha : '&' ∉ a) (hv : '&' ∉ v) : '&' ∉ startTag e a v := by
  have q1 : '&' ∉ Spec.eqS := by decide
  have q2 : '&' ∉ Spec.quoteS := by decide
  simp only [startTag, List.cons_append, List.append_assoc, List.mem_cons, List.mem_append, not_or]
  exact ⟨by decide, he, by decide, ha, q1, hv, q2⟩

theorem startTag_ok {e a v : Text} (n : Nat) (k : Option Text) (he : '\n' ∉ e) (h1 : ∀ s, ¬ openS <+: '<' :: e ++ s)
    (ha : '\n' ∉ a) (hv : '\n' ∉ v) (hk : '&' ∉ startTag e a v) : LineOk ⟨n, startTag e a v, k⟩ where
  head := rfl
  last := startTag_last e a v
  newline := by
    have q1 : '\n' ∉ Spec.eqS := by decide
    have q2 : '\n' ∉ Spec.quoteS := by decide
    simp only [startTag, List.cons_append, List.append_assoc, List.mem_cons, List.mem_append, not_or]
    exact ⟨by decide, he, by decide, ha, q1, hv, q2⟩
  comment := by
    have := h1 (' ' :: a ++ Spec.eqS ++ v ++ Spec.quoteS)
    simpa [startTag] using this
  key := fun _ => hk

theorem endTag_ok {e : Text} (n : Nat) (k : Option Text) (he : '\n' ∉ e) : LineOk ⟨n, endTag e, k⟩ where
  head := rfl
  last := endTag_last e
  newline := by
    have q1 : '\n' ∉ Spec.endS := by decide
    simp only [endTag, List.mem_append, List.mem_singleton, not_or]
    exact ⟨⟨q1, he⟩, by decide⟩
  comment := not_open (a := '/') (by decide)
  key := fun h => absurd h (not_key1 (a := '/') (by decide))

theorem textOf_ok {t : Lang × Text} (n : Nat) (k : Option Text) (h : PlainText t.2) : LineOk ⟨n, textOf t, k⟩ where
  head := rfl
  last := by
    show (textOf t).getLast? = _
    unfold textOf
    rw [List.getLast?_append_of_ne_nil _ (by simp [endTag]), endTag_last]
  newline := by
    have q1 : '\n' ∉ Spec.endS := by decide
    have q2 := (elem_plain t.1).2
    have q3 := h.2.2
    simp only [textOf, endTag, List.cons_append, List.append_assoc, List.mem_cons, List.mem_append, not_or]
    exact ⟨by decide, q2, by decide, q3, q1, q2, by decide, by simp⟩
  comment := by
    obtain ⟨a, b, s, he, h1, h2, h3, h4⟩ := elem_facts t.1
    show ¬ openS <+: textOf t
    unfold textOf
    rw [he]
    exact not_open h2
  key := by
    obtain ⟨a, b, s, he, h1, h2, h3, h4⟩ := elem_facts t.1
    show keyS <+: textOf t → _
    intro h
    unfold textOf at h
    rw [he] at h
    exact absurd h (not_key h4)

theorem key_ok {k : SKey} (h : k.Ok) (n : Nat) : ∀ l ∈ k.lines n, LineOk l := by
  intro l hl
  simp only [SKey.lines, List.cons_append, List.mem_cons, List.mem_append, List.mem_map] at hl
  rcases hl with rfl | ⟨t, ht, rfl⟩ | rfl | hl
  · exact startTag_ok n _ (by decide) (fun s => not_open (a := 'K') (by decide)) (by decide) h.id.2.2.2.2
      (startTag_plain (by decide) (by decide) h.id.1)
  · exact textOf_ok _ _ (h.texts t ht)
  · exact endTag_ok _ _ (by decide)
  · cases hl

mutual
theorem package_ok (e : Text) (he : '\n' ∉ e) (he' : '&' ∉ e) (h1 : ∀ s, ¬ openS <+: '<' :: e ++ s) (n : Nat) :
    (p : SPackage) → p.Ok → ∀ l ∈ p.lines e n, LineOk l
  | .mk name ks cs, h => by
    unfold SPackage.Ok at h
    intro l hl
    unfold SPackage.lines at hl
    simp only [List.cons_append, List.mem_cons, List.mem_append, List.mem_flatMap] at hl
    rcases hl with rfl | (⟨k, hk, hl⟩ | hl) | rfl | hl
    · exact startTag_ok n _ he h1 (by decide) h.1.2.2.2.2 (startTag_plain he' (by decide) h.1.1)
    · exact key_ok (h.2.2.1 k hk) _ l hl
    · exact containers_ok (n + 1) cs h.2.2.2 l hl
    · exact endTag_ok _ _ he
    · cases hl
theorem containers_ok (n : Nat) : (cs : List SPackage) → okAll cs → ∀ l ∈ linesOf n cs, LineOk l
  | [], _ => by intro l hl; cases hl
  | c :: cs, h => by
    unfold okAll at h
    unfold linesOf
    intro l hl
    rcases List.mem_append.1 hl with hl | hl
    · exact package_ok Spec.containerN (by decide) (by decide) (fun s => not_open (a := 'C') (by decide)) n c h.1 l hl
    · exact containers_ok n cs h.2 l hl
end

theorem doc_ok {d : Doc} (h : d.Ok) : ∀ l ∈ d.lines, LineOk l := by
  intro l hl
  unfold Doc.lines at hl
  simp only [List.cons_append, List.mem_cons, List.mem_append, List.mem_flatMap] at hl
  rcases hl with rfl | ⟨p, hp, hl⟩ | rfl | hl
  · exact startTag_ok 0 _ (by decide) (fun s => not_open (a := 'P') (by decide)) (by decide) h.name.2.2.2.2
      (startTag_plain (by decide) (by decide) h.name.1)
  · exact package_ok Spec.packageN (by decide) (by decide) (fun s => not_open (a := 'P') (by decide)) 1 p (h.packages p hp) l hl
  · exact endTag_ok _ _ (by decide)
  · cases hl

/-! ### The serializer writes the lines -/

/-- A line of the document as the serializer writes it. -/
def ser (l : Line) : Text := indent l.depth ++ serOf l.text

theorem filter_lang {ts : List (Lang × Text)} (h : (ts.map Prod.fst).Nodup) (l : Lang) :
    (ts.filter fun t => t.1 = l) = ((ts.lookup l).map fun t => (l, t)).toList := by
  induction ts with
  | nil => rfl
  | cons t ts ih =>
    obtain ⟨a, b⟩ := t
    simp only [List.map_cons, List.nodup_cons] at h
    by_cases e : a = l
    · subst e
      have : (ts.filter fun t => decide (t.1 = a)) = [] := by
        rw [List.filter_eq_nil_iff]
        intro t ht he
        exact h.1 (List.mem_map.2 ⟨t, ht, by simpa using he⟩)
      simp [this]
    · have e' : (l == a) = false := by simpa using fun x => e x.symm
      simp [e, ih h.2, List.lookup, e']

theorem flatMap_filter (ts : List (Lang × Text)) : ∀ ks : List Lang, ks.Nodup →
    (ks.flatMap fun l => ts.filter fun t => t.1 = l).Perm (ts.filter fun t => t.1 ∈ ks)
  | [], _ => by simp
  | k :: ks, h => by
    have hk := List.nodup_cons.1 h
    rw [List.flatMap_cons]
    have h1 := List.filter_append_perm (fun t : Lang × Text => decide (t.1 = k)) (ts.filter fun t => t.1 ∈ k :: ks)
    refine List.Perm.trans (List.Perm.append ?_ ((flatMap_filter ts ks hk.2).trans ?_)) h1
    · rw [List.filter_filter]
      refine (List.filter_congr fun t _ => ?_) ▸ List.Perm.refl _
      by_cases e : t.1 = k <;> simp [e]
    · rw [List.filter_filter]
      refine (List.filter_congr fun t _ => ?_) ▸ List.Perm.refl _
      by_cases e : t.1 = k
      · simp [e, hk.1]
      · simp [e]

theorem perm_sorted {k : SKey} : k.sorted.texts.Perm k.texts := by
  have h1 : k.sorted.texts = (table.map Prod.fst).flatMap fun l => k.texts.filter fun t => t.1 = l := by
    unfold SKey.sorted
    rw [List.flatMap_map]
  rw [h1]
  refine (flatMap_filter k.texts _ nodup_table).trans ?_
  rw [List.filter_eq_self.2]
  intro t _
  simpa using mem_table t.1

theorem lookup_perm {a b : List (Lang × Text)} (h : (a.map Prod.fst).Nodup) (hp : b.Perm a) (l : Lang) :
    b.lookup l = a.lookup l := by
  have h' : (b.map Prod.fst).Nodup := (hp.map Prod.fst).nodup_iff.2 h
  have h1 := filter_lang h l
  have h2 := filter_lang h' l
  have h3 := hp.filter (fun t => decide (t.1 = l))
  rw [h1, h2] at h3
  cases ha : a.lookup l <;> cases hb : b.lookup l <;> rw [ha, hb] at h3 <;> simp at h3 ⊢
  exact h3

theorem lookup_sorted {k : SKey} (h : (k.texts.map Prod.fst).Nodup) : k.sorted.value = k.value := by
  unfold SKey.value
  congr 1
  funext l
  exact lookup_perm h perm_sorted l

theorem sorted_sorted {k : SKey} (h : (k.texts.map Prod.fst).Nodup) : k.sorted.sorted = k.sorted := by
  show SKey.mk _ _ = SKey.mk _ _
  congr 1
  apply List.flatMap_congr
  intro x _
  have h' : (k.sorted.texts.map Prod.fst).Nodup := (perm_sorted.map Prod.fst).nodup_iff.2 h
  rw [filter_lang h', filter_lang h, lookup_perm h perm_sorted]

theorem texts_sorted {k : SKey} (h : (k.texts.map Prod.fst).Nodup) (f : Lang → Text → α) :
    (langs.filterMap fun l => (k.value.text l).map (f l)) = k.sorted.texts.map fun t => f t.1 t.2 := by
  rw [← langs_table]
  unfold SKey.sorted SKey.value
  dsimp only
  generalize table = tb
  induction tb with
  | nil => rfl
  | cons x tb ih =>
    rw [List.flatMap_cons, List.map_append, ← ih, filter_lang h, List.map_cons]
    cases hx : k.texts.lookup x.1 with
    | none => simp [hx]
    | some t => simp [hx]

theorem ser_plain (l : Line) (h : '&' ∉ l.text) : ser l = indent l.depth ++ l.text := by
  unfold ser; rw [serOf_plain h]

theorem endTag_plain {e : Text} (he : '&' ∉ e) : '&' ∉ endTag e := by
  have q1 : '&' ∉ Spec.endS := by decide
  simp only [endTag, List.mem_append, List.mem_singleton, not_or]
  exact ⟨⟨q1, he⟩, by decide⟩

theorem textLine_ser (n : Nat) (k : Option Text) {t : Lang × Text} (h : PlainText t.2) :
    textLine n t.1 t.2 = ser ⟨n, textOf t, k⟩ := by
  unfold textLine ser textOf
  have q := (elem_plain t.1).1
  rw [textEscape_minEscape h.1 h.2.1, tag_elem, serOf_append, serOf_append, serOf_plain (endTag_plain q)]
  rw [serOf_cons (t := t.2) (by decide : '>' ≠ '&')]
  rw [serOf_plain (t := '<' :: elem t.1) (by simp [q])]
  simp [endTag]
  rfl

theorem element_cons {n : Nat} {a b : Text} {cs : List Text} (h : cs ≠ []) :
    element n a b cs = (indent n ++ a) :: cs ++ [indent n ++ b] := by
  unfold element; rw [if_neg h]

theorem keyLines_ser {k : SKey} (h : k.Ok) (n : Nat) : keyLines n k.value = (k.sorted.lines n).map ser := by
  unfold keyLines
  rw [texts_sorted h.once, element_cons]
  · have h1 : ('&' : Char) ∉ k.sorted.start := startTag_plain (by decide) (by decide) h.id.1
    have h2 : ('&' : Char) ∉ endTag Spec.keyN := endTag_plain (by decide)
    simp only [SKey.lines, List.map_cons, List.map_append, List.map_map, List.map_nil]
    rw [ser_plain _ h1, ser_plain _ h2]
    have h3 : k.value.id = k.id := rfl
    rw [h3, attrEscape_plain h.id]
    congr 1
    congr 1
    apply List.map_congr_left
    intro t ht
    exact textLine_ser _ _ (h.texts t (perm_sorted.mem_iff.1 ht))
  · intro he
    rw [List.map_eq_nil_iff] at he
    have := perm_sorted (k := k)
    rw [he] at this
    exact h.some this.symm.eq_nil

theorem Spec.SKey.Ok.sorted {k : SKey} (h : k.Ok) : k.sorted.Ok where
  id := h.id
  some := fun he => h.some (by have := perm_sorted (k := k); rw [he] at this; exact this.symm.eq_nil)
  once := (perm_sorted.map Prod.fst).nodup_iff.2 h.once
  texts := fun t ht => h.texts t (perm_sorted.mem_iff.1 ht)

theorem linesOf_ne {n : Nat} {cs : List SPackage} (h : cs ≠ []) : linesOf n cs ≠ [] := by
  cases cs with
  | nil => exact absurd rfl h
  | cons c cs =>
    cases c
    simp [linesOf, SPackage.lines]

theorem keys_ne {n : Nat} {ks : List SKey} (h : ks ≠ []) : ks.flatMap (SKey.lines n) ≠ [] := by
  cases ks with
  | nil => exact absurd rfl h
  | cons k ks => simp [SKey.lines]

theorem sortedOf_ne {b : Bool} {cs : List SPackage} (h : cs ≠ []) : sortedOf b cs ≠ [] := by
  cases cs with
  | nil => exact absurd rfl h
  | cons c cs => simp [sortedOf]

mutual
theorem packageLines_ser (e e' : Text) (hee : e' = e) (he : '&' ∉ e) (n : Nat) :
    (p : SPackage) → p.Ok → packageLines e' n p.value = ((p.sorted true).lines e n).map ser
  | .mk name ks cs, h => by
    subst hee
    unfold SPackage.Ok at h
    unfold SPackage.value packageLines SPackage.sorted SPackage.lines
    have h1 : ('&' : Char) ∉ startTag e' Spec.nameN name := startTag_plain he (by decide) h.1.1
    have h2 : ('&' : Char) ∉ endTag e' := endTag_plain he
    have h3 : (ks.map SKey.value).flatMap (keyLines (n + 1)) =
        (((if true then ks else ks.insertionSort (fun a b => a.id ≤ b.id)).map SKey.sorted).flatMap
          (SKey.lines (n + 1))).map ser := by
      rw [if_pos rfl, List.flatMap_map, List.flatMap_map, List.map_flatMap]
      exact List.flatMap_congr fun k hk => keyLines_ser (h.2.2.1 k hk) _
    rw [h3, containerLines_ser (n + 1) cs h.2.2.2, attrEscape_plain h.1, element_cons]
    · simp only [List.map_cons, List.map_append, List.map_nil]
      rw [ser_plain _ h1, ser_plain _ h2]
      simp only [startTag, endTag, List.cons_append, List.append_assoc]
      rfl
    · rw [← List.map_append]
      intro hn
      rw [List.map_eq_nil_iff, List.append_eq_nil_iff] at hn
      rcases h.2.1 with hk | hc
      · refine keys_ne (n := n + 1) (ks := (if true then ks else ks.insertionSort (fun a b => a.id ≤ b.id)).map
          SKey.sorted) ?_ hn.1
        simpa using hk
      · exact linesOf_ne (sortedOf_ne hc) hn.2
theorem containerLines_ser (n : Nat) : (cs : List SPackage) → okAll cs →
    containerLines n (valuesOf cs) = (linesOf n (sortedOf true cs)).map ser
  | [], _ => rfl
  | c :: cs, h => by
    unfold okAll at h
    unfold valuesOf containerLines sortedOf linesOf
    rw [List.map_append, packageLines_ser Spec.containerN containerN rfl (by decide) n c h.1,
      containerLines_ser n cs h.2]
end

theorem serialize_ser {d : Doc} (h : d.Ok) : serialize d.value = joinWith '\n' ((d.sorted true).lines.map ser) := by
  unfold serialize
  have h1 : ('&' : Char) ∉ startTag projectN Spec.nameN d.name := startTag_plain (by decide) (by decide) h.name.1
  have h2 : ('&' : Char) ∉ endTag projectN := endTag_plain (by decide)
  have h3 : d.value.packages.flatMap (packageLines packageN 1) =
      ((d.packages.map (SPackage.sorted true)).flatMap (SPackage.lines Spec.packageN 1)).map ser := by
    unfold Doc.value
    rw [List.flatMap_map, List.flatMap_map, List.map_flatMap]
    exact List.flatMap_congr fun p hp => packageLines_ser Spec.packageN packageN rfl (by decide) 1 p (h.packages p hp)
  rw [h3, element_cons]
  · congr 1
    unfold Doc.lines Doc.sorted
    simp only [List.map_cons, List.map_append, List.map_nil, if_true]
    rw [ser_plain _ h1, ser_plain _ h2]
    have : d.value.name = d.name := rfl
    rw [this, attrEscape_plain h.name]
    rfl
  · intro hn
    rw [List.map_eq_nil_iff, List.flatMap_eq_nil_iff] at hn
    cases hp : d.packages with
    | nil => exact h.some hp
    | cons p ps =>
      have := hn (p.sorted true) (by simp [hp])
      cases p
      simp [SPackage.sorted, SPackage.lines] at this

/-! ### Sorting -/

theorem textLe_iff (a b : Text) : textLe a b = true ↔ a ≤ b := by
  induction a generalizing b with
  | nil => simp [textLe]
  | cons x a ih =>
    cases b with
    | nil => simp [textLe]
    | cons y b =>
      rw [textLe, List.cons_le_cons_iff, Bool.or_eq_true, Bool.and_eq_true, decide_eq_true_eq, beq_iff_eq, ih b]
      rfl

theorem valuesOf_eq (cs : List SPackage) : valuesOf cs = cs.map SPackage.value := by
  induction cs with
  | nil => rfl
  | cons c cs ih => simp [valuesOf, ih]

theorem sortedOf_eq (b : Bool) (cs : List SPackage) : sortedOf b cs = cs.map (SPackage.sorted b) := by
  induction cs with
  | nil => rfl
  | cons c cs ih => simp [sortedOf, ih]

theorem linesOf_eq (n : Nat) (cs : List SPackage) : linesOf n cs = cs.flatMap (SPackage.lines Spec.containerN n) := by
  induction cs with
  | nil => rfl
  | cons c cs ih => simp [linesOf, ih]

theorem okAll_iff (cs : List SPackage) : okAll cs ↔ ∀ c ∈ cs, c.Ok := by
  induction cs with
  | nil => simp [okAll]
  | cons c cs ih => simp [okAll, ih]

mutual
theorem value_sorted : (p : SPackage) → p.Ok → (p.sorted false).value = sortPackage p.value
  | .mk n ks cs, h => by
    unfold SPackage.Ok at h
    unfold SPackage.sorted SPackage.value sortPackage
    rw [values_sorted cs h.2.2.2]
    congr 1
    simp only [Bool.false_eq_true, if_false]
    rw [List.map_map]
    unfold sortKeys
    rw [← List.map_insertionSort (r := fun a b : SKey => a.id ≤ b.id)
      (s := fun a b : Key => textLe a.id b.id = true) (f := SKey.value)]
    · apply List.map_congr_left
      intro k hk
      exact lookup_sorted (h.2.2.1 k ((List.perm_insertionSort _ ks).mem_iff.1 hk)).once
    · intro a _ b _
      exact (textLe_iff a.id b.id).symm
theorem values_sorted : (cs : List SPackage) → okAll cs →
    valuesOf (sortedOf false cs) = sortContainers (valuesOf cs)
  | [], _ => rfl
  | c :: cs, h => by
    unfold okAll at h
    unfold sortedOf valuesOf sortContainers
    rw [value_sorted c h.1, values_sorted cs h.2]
end

mutual
theorem value_sorted_true : (p : SPackage) → p.Ok → (p.sorted true).value = p.value
  | .mk n ks cs, h => by
    unfold SPackage.Ok at h
    unfold SPackage.sorted SPackage.value
    rw [values_sorted_true cs h.2.2.2]
    congr 1
    simp only [if_true, List.map_map]
    apply List.map_congr_left
    intro k hk
    exact lookup_sorted (h.2.2.1 k hk).once
theorem values_sorted_true : (cs : List SPackage) → okAll cs → valuesOf (sortedOf true cs) = valuesOf cs
  | [], _ => rfl
  | c :: cs, h => by
    unfold okAll at h
    unfold sortedOf valuesOf
    rw [value_sorted_true c h.1, values_sorted_true cs h.2]
end

theorem value_name (p : SPackage) : p.value.name = p.name := by cases p; rfl
theorem sorted_name (b : Bool) (p : SPackage) : (p.sorted b).name = p.name := by cases p; rfl

theorem doc_value_sorted {d : Doc} (h : d.Ok) : (d.sorted false).value = d.value.sort := by
  unfold Doc.sorted Doc.value Data.sort
  simp only [Bool.false_eq_true, if_false]
  congr 1
  rw [List.map_map]
  have := List.map_insertionSort (r := fun a b : SPackage => a.name ≤ b.name)
    (s := fun a b : Package => textLe a.name b.name = true) (f := SPackage.value) d.packages (by
      intro a _ b _
      rw [value_name, value_name]
      exact (textLe_iff a.name b.name).symm)
  rw [← this, List.map_map]
  apply List.map_congr_left
  intro p hp
  exact value_sorted p (h.packages p ((List.perm_insertionSort _ _).mem_iff.1 hp))

theorem doc_value_sorted_true {d : Doc} (h : d.Ok) : (d.sorted true).value = d.value := by
  unfold Doc.sorted Doc.value
  simp only [if_true, List.map_map]
  congr 1
  exact List.map_congr_left fun p hp => value_sorted_true p (h.packages p hp)

mutual
theorem ok_sorted (b : Bool) : (p : SPackage) → p.Ok → (p.sorted b).Ok
  | .mk n ks cs, h => by
    unfold SPackage.Ok at h
    unfold SPackage.sorted SPackage.Ok
    have hp : (if b then ks else ks.insertionSort (fun a b => a.id ≤ b.id)).Perm ks := by
      cases b
      · exact List.perm_insertionSort _ _
      · exact List.Perm.refl _
    refine ⟨h.1, ?_, ?_, oks_sorted b cs h.2.2.2⟩
    · rcases h.2.1 with hk | hc
      · left
        intro he
        rw [List.map_eq_nil_iff] at he
        rw [he] at hp
        exact hk hp.symm.eq_nil
      · exact Or.inr (sortedOf_ne hc)
    · intro k hk
      obtain ⟨k', hk', rfl⟩ := List.mem_map.1 hk
      exact (h.2.2.1 k' (hp.mem_iff.1 hk')).sorted
theorem oks_sorted (b : Bool) : (cs : List SPackage) → okAll cs → okAll (sortedOf b cs)
  | [], _ => trivial
  | c :: cs, h => by
    unfold okAll at h
    unfold sortedOf okAll
    exact ⟨ok_sorted b c h.1, oks_sorted b cs h.2⟩
end

theorem perm_packages (b : Bool) (d : Doc) :
    (if b then d.packages else d.packages.insertionSort (fun a b => a.name ≤ b.name)).Perm d.packages := by
  cases b
  · exact List.perm_insertionSort _ _
  · exact List.Perm.refl _

theorem doc_ok_sorted (b : Bool) {d : Doc} (h : d.Ok) : (d.sorted b).Ok where
  name := h.name
  some := by
    intro he
    rw [Doc.sorted, List.map_eq_nil_iff] at he
    have := perm_packages b d
    rw [he] at this
    exact h.some this.symm.eq_nil
  packages := by
    intro p hp
    obtain ⟨q, hq, rfl⟩ := List.mem_map.1 hp
    exact ok_sorted b q (h.packages q ((perm_packages b d).mem_iff.1 hq))

theorem perm_flatMap {α β : Type} {f g : α → List β} {xs : List α} (h : ∀ x ∈ xs, (f x).Perm (g x)) :
    (xs.flatMap f).Perm (xs.flatMap g) := by
  induction xs with
  | nil => exact List.Perm.refl _
  | cons x xs ih =>
    rw [List.flatMap_cons, List.flatMap_cons]
    exact (h x (by simp)).append (ih fun y hy => h y (by simp [hy]))

theorem key_perm (k : SKey) (n : Nat) : (k.sorted.lines n).Perm (k.lines n) := by
  unfold SKey.lines
  exact (((perm_sorted.map _).append_right _).cons _)

mutual
theorem package_perm (b : Bool) (e : Text) (n : Nat) : (p : SPackage) → ((p.sorted b).lines e n).Perm (p.lines e n)
  | .mk name ks cs => by
    unfold SPackage.sorted SPackage.lines
    refine List.Perm.cons _ (List.Perm.append_right _ (List.Perm.append ?_ (containers_perm b (n + 1) cs)))
    rw [List.flatMap_map]
    refine List.Perm.trans (perm_flatMap fun k _ => key_perm k (n + 1)) (List.Perm.flatMap_right _ ?_)
    cases b
    · exact List.perm_insertionSort _ _
    · exact List.Perm.refl _
theorem containers_perm (b : Bool) (n : Nat) : (cs : List SPackage) → (linesOf n (sortedOf b cs)).Perm (linesOf n cs)
  | [] => List.Perm.refl _
  | c :: cs => by
    unfold sortedOf linesOf
    exact (package_perm b Spec.containerN n c).append (containers_perm b n cs)
end

theorem doc_perm (b : Bool) (d : Doc) : (d.sorted b).lines.Perm d.lines := by
  unfold Doc.lines
  refine List.Perm.cons _ (List.Perm.append_right _ ?_)
  unfold Doc.sorted
  dsimp only
  rw [List.flatMap_map]
  exact List.Perm.trans (perm_flatMap fun p _ => package_perm b Spec.packageN 1 p)
    (List.Perm.flatMap_right _ (perm_packages b d))

/-! ### Sorting again -/

theorem sorted_ids (ks : List SKey) :
    ((ks.insertionSort (fun a b => a.id ≤ b.id)).map SKey.sorted).insertionSort (fun a b => a.id ≤ b.id) =
      (ks.insertionSort (fun a b => a.id ≤ b.id)).map SKey.sorted := by
  rw [← List.map_insertionSort (r := fun a b : SKey => a.id ≤ b.id) (s := fun a b : SKey => a.id ≤ b.id)
    (f := SKey.sorted)]
  · congr 1
    apply List.Pairwise.insertionSort_eq
    have : Std.Total (fun a b : SKey => a.id ≤ b.id) := ⟨fun a b => List.le_total a.id b.id⟩
    have : IsTrans SKey (fun a b : SKey => a.id ≤ b.id) := ⟨fun a b c h1 h2 => List.le_trans h1 h2⟩
    exact List.pairwise_insertionSort _ _
  · intro a _ b _
    exact Iff.rfl

mutual
theorem package_sorted_sorted (b c : Bool) (hbc : c = true ∨ b = c) :
    (p : SPackage) → p.Ok → (p.sorted b).sorted c = p.sorted b
  | .mk n ks cs, h => by
    unfold SPackage.Ok at h
    simp only [SPackage.sorted]
    rw [containers_sorted_sorted b c hbc cs h.2.2.2]
    congr 1
    have h1 : ((if b then ks else ks.insertionSort (fun a b => a.id ≤ b.id)).map SKey.sorted).map SKey.sorted =
        (if b then ks else ks.insertionSort (fun a b => a.id ≤ b.id)).map SKey.sorted := by
      rw [List.map_map]
      apply List.map_congr_left
      intro k hk
      refine sorted_sorted (h.2.2.1 k ?_).once
      cases b
      · exact (List.perm_insertionSort _ _).mem_iff.1 hk
      · exact hk
    cases c
    · have hb : b = false := by simpa using hbc
      subst hb
      simp only [Bool.false_eq_true, if_false] at h1 ⊢
      rw [sorted_ids, h1]
    · simpa only [if_true] using h1
theorem containers_sorted_sorted (b c : Bool) (hbc : c = true ∨ b = c) :
    (cs : List SPackage) → okAll cs → sortedOf c (sortedOf b cs) = sortedOf b cs
  | [], _ => rfl
  | d :: cs, h => by
    unfold okAll at h
    show (d.sorted b).sorted c :: sortedOf c (sortedOf b cs) = d.sorted b :: sortedOf b cs
    rw [package_sorted_sorted b c hbc d h.1, containers_sorted_sorted b c hbc cs h.2]
end

theorem doc_sorted_sorted (b c : Bool) (hbc : c = true ∨ b = c) {d : Doc} (h : d.Ok) :
    (d.sorted b).sorted c = d.sorted b := by
  unfold Doc.sorted
  dsimp only
  congr 1
  have h1 : ((if b then d.packages else d.packages.insertionSort (fun a b => a.name ≤ b.name)).map
      (SPackage.sorted b)).map (SPackage.sorted c) =
      (if b then d.packages else d.packages.insertionSort (fun a b => a.name ≤ b.name)).map (SPackage.sorted b) := by
    rw [List.map_map]
    apply List.map_congr_left
    intro p hp
    exact package_sorted_sorted b c hbc p (h.packages p ((perm_packages b d).mem_iff.1 hp))
  cases c
  · have hb : b = false := by simpa using hbc
    subst hb
    simp only [Bool.false_eq_true, if_false] at h1 ⊢
    rw [← List.map_insertionSort (r := fun a b : SPackage => a.name ≤ b.name)
      (s := fun a b : SPackage => a.name ≤ b.name) (f := SPackage.sorted false)]
    · rw [List.Pairwise.insertionSort_eq, h1]
      have : Std.Total (fun a b : SPackage => a.name ≤ b.name) := ⟨fun a b => List.le_total a.name b.name⟩
      have : IsTrans SPackage (fun a b : SPackage => a.name ≤ b.name) := ⟨fun a b c h1 h2 => List.le_trans h1 h2⟩
      exact List.pairwise_insertionSort _ _
    · intro a _ b _
      rw [sorted_name, sorted_name]
  · simp only [if_true]
    exact h1

/-! ### Reading comments -/

theorem joinWith_cons (c : Char) (l : Text) (ls : List Text) :
    joinWith c (l :: ls) = l ++ ls.flatMap (fun x => c :: x) := by
  induction ls generalizing l with
  | nil => simp [joinWith]
  | cons m ls ih => rw [joinWith, ih]; simp

theorem joinWith_append (c : Char) {a b : List Text} (ha : a ≠ []) (hb : b ≠ []) :
    joinWith c (a ++ b) = joinWith c a ++ c :: joinWith c b := by
  cases a with
  | nil => exact absurd rfl ha
  | cons x a =>
    cases b with
    | nil => exact absurd rfl hb
    | cons y b =>
      rw [List.cons_append, joinWith_cons, joinWith_cons, joinWith_cons]
      simp

theorem not_prefix_nil {p : Text} (h : p ≠ []) : ¬ p <+: [] := fun hp => h (List.prefix_nil.1 hp)

/-- A line that is neither a comment nor the start or end of a key, with no comment before it. -/
theorem read_plain (cs : List Comment) (k : Option Text) {l : Text} (h1 : ¬ openS <+: trim l)
    (h2 : ¬ keyS <+: trim l) (h3 : ¬ endKeyS <+: trim l) :
    Reading.line ⟨[], false, cs, k⟩ l = ⟨[], false, cs, k⟩ := by
  simp [Reading.line, Reading.newLine, Reading.openComment, Reading.attach, Reading.collect, Reading.track, h1, h2, h3]

theorem read_blank (cs : List Comment) (k : Option Text) {l : Text} (h : trim l = []) :
    Reading.line ⟨[], false, cs, k⟩ l = ⟨[], false, cs, k⟩ := by
  apply read_plain <;> rw [h] <;> exact not_prefix_nil (by decide)

theorem read_blanks (cs : List Comment) (k : Option Text) {ls : List Text} (h : ∀ l ∈ ls, trim l = []) :
    ls.foldl Reading.line ⟨[], false, cs, k⟩ = ⟨[], false, cs, k⟩ := by
  induction ls with
  | nil => rfl
  | cons l ls ih =>
    rw [List.foldl_cons, read_blank cs k (h l (by simp)), ih fun x hx => h x (by simp [hx])]

theorem read_heads (cs : List Comment) (k : Option Text) {ls : List Text} (h : ∀ l ∈ ls, Spec.xmlS <+: trim l) :
    ls.foldl Reading.line ⟨[], false, cs, k⟩ = ⟨[], false, cs, k⟩ := by
  induction ls with
  | nil => rfl
  | cons l ls ih =>
    obtain ⟨r, hr⟩ := h l (by simp)
    rw [List.foldl_cons, read_plain cs k, ih fun x hx => h x (by simp [hx])]
    · rw [← hr]; exact not_open (a := '?') (by decide)
    · rw [← hr]; exact not_key1 (a := '?') (by decide)
    · rw [← hr]; exact not_endKey (a := '?') (by decide)

/-- The lines of a comment after the first. -/
theorem read_rest (B : Text) (cs : List Comment) (k : Option Text) (init : List Text) (last : Text)
    (hi : ∀ x ∈ init, ¬ openS <+: trim x ∧ ¬ closeS <:+ trim x) (h1 : ¬ openS <+: trim last)
    (h2 : closeS <:+ trim last) (h3 : ¬ keyS <+: trim last) (h4 : ¬ endKeyS <+: trim last) :
    (init ++ [last]).foldl Reading.line ⟨B, true, cs, k⟩ =
      ⟨B ++ (init ++ [last]).flatMap (fun x => '\n' :: x), false, cs, k⟩ := by
  induction init generalizing B with
  | nil =>
    simp [Reading.line, Reading.newLine, Reading.openComment, Reading.attach, Reading.collect, Reading.track, h1, h2,
      h3, h4]
  | cons x init ih =>
    have hx := hi x (by simp)
    have : Reading.line ⟨B, true, cs, k⟩ x = ⟨B ++ '\n' :: x, true, cs, k⟩ := by
      simp [Reading.line, Reading.newLine, Reading.openComment, Reading.attach, Reading.collect, Reading.track, hx.1,
        hx.2]
    rw [List.cons_append, List.foldl_cons, this, ih _ fun y hy => hi y (by simp [hy])]
    simp

theorem not_key_open {t : Text} (h : openS <+: t) : ¬ keyS <+: t ∧ ¬ endKeyS <+: t := by
  obtain ⟨r, rfl⟩ := h
  exact ⟨not_key1 (a := '!') (by decide), not_endKey (a := '!') (by decide)⟩

theorem read_comment (B : Text) (cs : List Comment) (k : Option Text) {c : List Text} (h : CommentOk c) :
    c.foldl Reading.line ⟨B, false, cs, k⟩ =
      ⟨(if B = [] then [] else B ++ ['\n']) ++ joinWith '\n' c, false, cs, k⟩ := by
  obtain ⟨l, ls, rfl, ho, hn⟩ := h.opens
  obtain ⟨init, last, he, hc, hi, h3, h4⟩ := h.closes
  have ho' : openS <+: trim l := ho
  rcases List.eq_nil_or_concat ls with rfl | ⟨us, u, rfl⟩
  · have : init = [] ∧ last = l := by
      cases init with
      | nil => simpa using he.symm
      | cons a b => simp at he
    obtain ⟨rfl, rfl⟩ := this
    have hc' : closeS <:+ trim last := hc
    have hk := not_key_open ho'
    simp [Reading.line, Reading.newLine, Reading.openComment, Reading.attach, Reading.collect, Reading.track, ho', hc',
      hk, joinWith]
  · have : init = l :: us ∧ last = u := by
      have he' : (l :: us) ++ [u] = init ++ [last] := by simpa using he
      have := List.append_inj' he' rfl
      exact ⟨this.1.symm, by simpa using this.2.symm⟩
    obtain ⟨rfl, rfl⟩ := this
    have hl : ¬ closeS <:+ trim l := hi l (by simp)
    have h0 : Reading.line ⟨B, false, cs, k⟩ l =
        ⟨(if B = [] then [] else B ++ ['\n']) ++ l, true, cs, k⟩ := by
      simp [Reading.line, Reading.newLine, Reading.openComment, Reading.attach, Reading.collect, Reading.track, ho', hl]
    rw [List.foldl_cons, h0, List.concat_eq_append, read_rest _ _ _ _ _ _ (hn last (by simp)) hc h3 h4, joinWith_cons]
    · simp
    · intro x hx
      exact ⟨hn x (by simp [hx]), hi x (by simp [hx])⟩

theorem comment_ne {c : List Text} (h : CommentOk c) : c ≠ [] ∧ joinWith '\n' c ≠ [] := by
  obtain ⟨l, ls, rfl, ho, _⟩ := h.opens
  refine ⟨by simp, ?_⟩
  rw [joinWith_cons]
  intro he
  have : l = [] := (List.append_eq_nil_iff.1 he).1
  subst this
  exact not_prefix_nil (by decide) ho

theorem read_comments (B : Text) (cs : List Comment) (k : Option Text) {bs : List (List Text)}
    (h : ∀ c ∈ bs, CommentOk c) (hne : bs ≠ []) :
    bs.flatten.foldl Reading.line ⟨B, false, cs, k⟩ =
      ⟨(if B = [] then [] else B ++ ['\n']) ++ joinWith '\n' bs.flatten, false, cs, k⟩ := by
  induction bs generalizing B with
  | nil => exact absurd rfl hne
  | cons c bs ih =>
    have hc := h c (by simp)
    rw [List.flatten_cons, List.foldl_append, read_comment B cs k hc]
    by_cases hb : bs = []
    · subst hb; simp
    · have hb' : bs.flatten ≠ [] := by
        cases bs with
        | nil => exact absurd rfl hb
        | cons d ds =>
          have := (comment_ne (h d (by simp))).1
          simp [this]
      rw [ih _ (fun x hx => h x (by simp [hx])) hb, joinWith_append _ (comment_ne hc).1 hb', if_neg]
      · simp
      · simp [(comment_ne hc).2]

/-- The comment that is kept for an item. -/
def kept (i : Item) : List Comment :=
  if i.comments = [] then [] else [⟨trim (joinWith '\n' i.comments.flatten), i.line.text, i.line.key⟩]

/-- What is needed of an item to read it. -/
structure Readable (i : Item) : Prop where
  raw : trim i.raw = i.line.text
  gap : ∀ l ∈ i.gap, trim l = []
  comments : ∀ c ∈ i.comments, CommentOk c
  line : ¬ openS <+: i.line.text

theorem read_item (cs : List Comment) {i : Item} (h : Readable i) :
    i.lines.foldl Reading.line ⟨[], false, cs, i.line.key⟩ =
      ⟨[], false, cs ++ kept i, next i.line.key i.line.text⟩ := by
  unfold Item.lines kept
  rw [List.foldl_append, List.foldl_append, read_blanks _ _ h.gap]
  by_cases hc : i.comments = []
  · rw [hc]
    simp only [List.flatten_nil, List.foldl_nil, List.foldl_cons, if_true, List.append_nil]
    unfold next
    by_cases h1 : keyS <+: i.line.text
    · simp [Reading.line, Reading.newLine, Reading.openComment, Reading.attach, Reading.collect, Reading.track, h.raw,
        h.line, h1]
    · by_cases h2 : endKeyS <+: i.line.text
      · simp [Reading.line, Reading.newLine, Reading.openComment, Reading.attach, Reading.collect, Reading.track, h.raw,
          h.line, h1, h2]
      · simp [Reading.line, Reading.newLine, Reading.openComment, Reading.attach, Reading.collect, Reading.track, h.raw,
          h.line, h1, h2]
  · rw [read_comments _ _ _ h.comments hc, if_pos rfl, List.nil_append, if_neg hc]
    have hne : joinWith '\n' i.comments.flatten ≠ [] := by
      cases hi : i.comments with
      | nil => exact absurd hi hc
      | cons d ds =>
        have hd := comment_ne (h.comments d (by simp [hi]))
        obtain ⟨x, xs, hx⟩ := List.exists_cons_of_ne_nil hd.1
        have hj := hd.2
        rw [List.flatten_cons]
        rw [hx] at hj ⊢
        rw [joinWith_cons] at hj
        rw [List.cons_append, joinWith_cons, List.flatMap_append, ← List.append_assoc]
        intro he
        exact hj (List.append_eq_nil_iff.1 he).1
    simp only [List.foldl_cons, List.foldl_nil]
    unfold next
    by_cases h1 : keyS <+: i.line.text
    · simp [Reading.line, Reading.newLine, Reading.openComment, Reading.attach, Reading.collect, Reading.track, h.raw,
        h.line, h1, hne]
    · by_cases h2 : endKeyS <+: i.line.text
      · simp [Reading.line, Reading.newLine, Reading.openComment, Reading.attach, Reading.collect, Reading.track, h.raw,
          h.line, h1, h2, hne]
      · simp [Reading.line, Reading.newLine, Reading.openComment, Reading.attach, Reading.collect, Reading.track, h.raw,
          h.line, h1, h2, hne]

theorem read_items {is : List Item} (h : ∀ i ∈ is, Readable i) (cs : List Comment) (k : Option Text)
    (hk : Keyed k (is.map Item.line)) :
    (is.flatMap Item.lines).foldl Reading.line ⟨[], false, cs, k⟩ =
      ⟨[], false, cs ++ is.flatMap kept, final k (is.map Item.line)⟩ := by
  induction is generalizing cs k with
  | nil => simp [final]
  | cons i is ih =>
    obtain ⟨hk1, hk2⟩ := hk
    rw [List.flatMap_cons, List.foldl_append]
    subst hk1
    rw [read_item cs (h i (by simp)), ih (fun j hj => h j (by simp [hj])) _ _ hk2]
    simp [final]

theorem read_source {s : Source} {d : Doc} (h : Holds s d) (hd : d.Ok) :
    (s.lines.foldl Reading.line ⟨[], false, [], none⟩).comments = s.items.flatMap kept := by
  have hr : ∀ i ∈ s.items, Readable i := fun i hi =>
    { raw := h.raw i hi, gap := h.gap i hi, comments := h.comments i hi,
      line := (doc_ok hd i.line (by rw [← h.lines]; exact List.mem_map_of_mem hi)).comment }
  have hk : Keyed none (s.items.map Item.line) := by rw [h.lines]; exact (doc_closed d).keyed
  unfold Source.lines
  rw [List.foldl_append, List.foldl_append, read_heads _ _ h.head, read_items hr [] none hk, read_blanks _ _ h.tail]
  simp

/-! ### Writing -/

theorem indent_ws (n : Nat) : ∀ c ∈ indent n, isWs c = true := by
  intro c hc
  rw [(List.mem_replicate.1 hc).2]
  rfl

theorem LineOk.tight {l : Line} (h : LineOk l) : Tight l.text where
  head := by
    intro c hc
    rw [h.head] at hc
    cases hc
    rfl
  last := by
    intro c hc
    rw [h.last] at hc
    cases hc
    rfl

theorem serOf_head {t : Text} (h : t.head? = some '<') : (serOf t).head? = some '<' := by
  cases t with
  | nil => cases h
  | cons c t =>
    have : c = '<' := by simpa using h
    subst this
    rw [serOf_cons (by decide)]
    rfl

theorem serOf_last {t : Text} (h : t.getLast? = some '>') : (serOf t).getLast? = some '>' := by
  rcases List.eq_nil_or_concat t with rfl | ⟨u, c, rfl⟩
  · cases h
  · have : c = '>' := by simpa using h
    subst this
    rw [List.concat_eq_append, serOf_append, serOf_plain (t := ['>']) (by decide)]
    simp

theorem LineOk.serTight {l : Line} (h : LineOk l) : Tight (serOf l.text) where
  head := by
    intro c hc
    rw [serOf_head h.head] at hc
    cases hc
    rfl
  last := by
    intro c hc
    rw [serOf_last h.last] at hc
    cases hc
    rfl

theorem trim_ser {l : Line} (h : LineOk l) : trim (ser l) = serOf l.text := by
  have := trim_pad (w := indent l.depth) (w' := []) (indent_ws _) h.serTight (by simp)
  simpa [ser] using this

theorem ser_column {l : Line} (h : LineOk l) : (ser l).takeWhile isWs = indent l.depth :=
  takeWhile_ws (indent_ws _) h.serTight.head

theorem singleAmp_ser (l : Line) : singleAmp (ser l) = indent l.depth ++ l.text := by
  have hi : '&' ∉ indent l.depth := fun h => absurd (List.mem_replicate.1 h).2 (by decide)
  have : ser l = serOf (indent l.depth ++ l.text) := by
    rw [serOf_append, serOf_plain hi]; rfl
  rw [this, singleAmp_serOf]

/-- A line with the comments before it. -/
def written (cs : List Comment) (l : Line) : Text :=
  commentsBefore cs l.key (ser l) ++ (indent l.depth ++ l.text) ++ ['\n']

theorem write_lines (cs : List Comment) {ls : List Line} (h : ∀ l ∈ ls, LineOk l) (clear : Bool) (k : Option Text)
    (hk : Keyed (if clear then none else k) ls) : writeLines cs clear k (ls.map ser) = ls.flatMap (written cs) := by
  induction ls generalizing clear k with
  | nil => rfl
  | cons l ls ih =>
    obtain ⟨hk1, hk2⟩ := hk
    have hl := h l (by simp)
    have hls : ∀ x ∈ ls, LineOk x := fun x hx => h x (by simp [hx])
    rw [List.map_cons, writeLines, List.flatMap_cons]
    rw [← hk1, singleAmp_ser, trim_ser hl]
    rw [← hk1] at hk2
    have e1 : keyS <+: serOf l.text ↔ keyS <+: l.text := prefix_serOf (by decide)
    have e2 : endKeyS <+: serOf l.text ↔ endKeyS <+: l.text := prefix_serOf (by decide)
    have rest : (if keyS <+: serOf l.text then writeLines cs false (some (serOf l.text)) (ls.map ser)
       else if endKeyS <+: serOf l.text then writeLines cs true l.key (ls.map ser)
       else writeLines cs false l.key (ls.map ser)) = ls.flatMap (written cs) := by
      unfold next at hk2
      by_cases h1 : keyS <+: l.text
      · rw [if_pos (e1.2 h1)]
        rw [if_pos h1] at hk2
        rw [serOf_plain (hl.key h1)]
        exact ih hls false _ hk2
      · rw [if_neg (fun x => h1 (e1.1 x))]
        rw [if_neg h1] at hk2
        by_cases h2 : endKeyS <+: l.text
        · rw [if_pos (e2.2 h2)]
          rw [if_pos h2] at hk2
          exact ih hls true _ hk2
        · rw [if_neg (fun x => h2 (e2.1 x))]
          rw [if_neg h2] at hk2
          exact ih hls false _ hk2
    rw [rest]
    simp [written]

theorem lines_join {ls : List Text} (hne : ls ≠ []) (h : ∀ l ∈ ls, '\n' ∉ l) (hr : ∀ l ∈ ls, l.getLast? ≠ some '\r') :
    lines (joinWith '\n' ls ++ ['\n']) = ls := by
  have h1 : joinWith '\n' ls ++ ['\n'] = joinWith '\n' (ls ++ [[]]) := by
    rw [joinWith_append _ hne (by simp)]; rfl
  have h2 : split '\n' (joinWith '\n' ls ++ ['\n']) = ls ++ [[]] := by
    rw [h1, split_joinWith (by simp)]
    intro p hp
    rcases List.mem_append.1 hp with hp | hp
    · exact h p hp
    · rw [List.mem_singleton.1 hp]; simp
  unfold lines
  rw [h2]
  simp only [List.reverse_append, List.reverse_singleton, List.singleton_append, if_true, List.reverse_reverse]
  conv_rhs => rw [← List.map_id ls]
  apply List.map_congr_left
  intro l hl
  unfold stripCr
  rw [if_neg (hr l hl)]
  rfl

theorem serOf_newline {t : Text} (h : '\n' ∉ t) : '\n' ∉ serOf t := by
  induction t with
  | nil => exact h
  | cons c t ih =>
    simp only [List.mem_cons, not_or] at h
    by_cases hc : c = '&'
    · subst hc
      rw [serOf_cons_amp, List.mem_append]
      rintro (hn | hn)
      · exact absurd hn (by decide)
      · exact ih h.2 hn
    · rw [serOf_cons hc, List.mem_cons, not_or]
      exact ⟨h.1, ih h.2⟩

theorem lines_serialize {d : Doc} (hd : d.Ok) (hb : (d.sorted true) = d) :
    lines (serialize d.value ++ ['\n']) = d.lines.map ser := by
  rw [serialize_ser hd, hb]
  apply lines_join
  · simp [Doc.lines]
  · intro l hl
    obtain ⟨x, hx, rfl⟩ := List.mem_map.1 hl
    have hi : '\n' ∉ indent x.depth := fun h => absurd (List.mem_replicate.1 h).2 (by decide)
    simp only [ser, List.mem_append, not_or]
    exact ⟨hi, serOf_newline (doc_ok hd x hx).newline⟩
  · intro l hl
    obtain ⟨x, hx, rfl⟩ := List.mem_map.1 hl
    have hx' := serOf_last (doc_ok hd x hx).last
    have hne : serOf x.text ≠ [] := by intro h; rw [h] at hx'; cases hx'
    unfold ser
    rw [List.getLast?_append_of_ne_nil _ hne, hx']
    decide

/-! ### The comments of a file, sorted and without repetitions -/

theorem mem_destutter' {α : Type} [DecidableEq α] (a x : α) (l : List α) (h : x = a ∨ x ∈ l) :
    x ∈ l.destutter' (· ≠ ·) a := by
  induction l generalizing a with
  | nil => rw [List.destutter'_nil]; simpa using h
  | cons b l ih =>
    rw [List.destutter']
    by_cases hab : a ≠ b
    · rw [if_pos hab]
      rcases h with rfl | h
      · simp
      · rw [List.mem_cons] at h
        exact List.mem_cons_of_mem _ (ih b h)
    · rw [if_neg hab]
      have hab : a = b := not_not.1 hab
      subst hab
      refine ih a ?_
      rcases h with h | h
      · exact Or.inl h
      · exact List.mem_cons.1 h

theorem mem_tidy {c : Comment} {cs : List Comment} (h : c ∈ cs) : c ∈ tidy cs := by
  unfold tidy
  have h' := (List.perm_insertionSort (fun a b => commentLe a b = true) cs).mem_iff.2 h
  generalize cs.insertionSort (fun a b => commentLe a b = true) = l at h' ⊢
  cases l with
  | nil => cases h'
  | cons a l => exact mem_destutter' a c l (List.mem_cons.1 h')

/-- If at most one comment is as wanted, that is the one found. -/
theorem filter_tidy (P : Comment → Bool) {cs : List Comment} (h : (cs.filter P).length ≤ 1) :
    (tidy cs).filter P = cs.filter P := by
  have hp := (List.perm_insertionSort (fun a b => commentLe a b = true) cs).filter P
  have hs : ((tidy cs).filter P).Sublist ((cs.insertionSort (fun a b => commentLe a b = true)).filter P) :=
    (List.destutter_sublist (· ≠ ·) _).filter P
  cases hf : cs.filter P with
  | nil =>
    rw [hf] at hp
    rw [hp.eq_nil] at hs
    exact List.sublist_nil.1 hs
  | cons a r =>
    rw [hf] at h hp
    have : r = [] := by
      cases r with
      | nil => rfl
      | cons x y => simp at h
    subst this
    rw [List.perm_singleton.1 hp] at hs
    have ha : a ∈ (tidy cs).filter P := by
      have : a ∈ cs.filter P := by rw [hf]; simp
      rw [List.mem_filter] at this ⊢
      exact ⟨mem_tidy this.1, this.2⟩
    rcases List.sublist_singleton.1 hs with h0 | h0
    · rw [h0] at ha; cases ha
    · exact h0

theorem commentsBefore_filter (cs : List Comment) (k : Option Text) (l : Text) :
    commentsBefore cs k l = (cs.filter fun c => c.after <+: trim l ∧ k = c.key).flatMap fun c =>
      l.takeWhile isWs ++ (if endS <+: trim l then fourS else []) ++ c.before ++ ['\n'] := by
  unfold commentsBefore
  induction cs with
  | nil => rfl
  | cons c cs ih =>
    rw [List.flatMap_cons, ih, List.filter_cons]
    by_cases h : c.after <+: trim l ∧ k = c.key
    · rw [if_pos h, if_pos (decide_eq_true h), List.flatMap_cons]
    · rw [if_neg h, if_neg (fun x => h (of_decide_eq_true x))]
      rfl

theorem perm_lift {α β : Type} (f : α → β) {xs : List α} {ys : List β} (h : (xs.map f).Perm ys) :
    ∃ xs' : List α, xs'.Perm xs ∧ xs'.map f = ys := by
  induction ys generalizing xs with
  | nil =>
    have : xs = [] := List.map_eq_nil_iff.1 h.eq_nil
    exact ⟨[], by rw [this], rfl⟩
  | cons y ys ih =>
    have hy : y ∈ xs.map f := h.mem_iff.2 (by simp)
    obtain ⟨x, hx, rfl⟩ := List.mem_map.1 hy
    obtain ⟨a, b, rfl⟩ := List.append_of_mem hx
    have hp : (a ++ x :: b).Perm (x :: (a ++ b)) := List.perm_middle
    have h2 : ((a ++ b).map f).Perm ys := by
      have := (hp.map f).symm.trans h
      exact List.Perm.cons_inv this
    obtain ⟨zs, hz1, hz2⟩ := ih h2
    exact ⟨x :: zs, (hz1.cons x).trans hp.symm, by simp [hz2]⟩

/-- The item with a comment is the only one its comment can go to. -/
theorem filter_kept {s : Source} {d : Doc} (h : Holds s d) {i : Item} (hi : i ∈ s.items) :
    ((s.items.flatMap kept).filter fun c => c.after <+: serOf i.line.text ∧ i.line.key = c.key) = kept i := by
  have uniq : ∀ j ∈ s.items, j.comments ≠ [] → j.line.text <+: serOf i.line.text → i.line.key = j.line.key → j = i := by
    intro j hj hc h1 h2
    have h1' : j.line.text <+: i.line.text := (prefix_serOf (h.entity j hj hc)).1 h1
    have ho := h.once j hj hc
    rw [List.countP_eq_length_filter] at ho
    obtain ⟨x, hx⟩ := List.length_eq_one_iff.1 ho
    have hji : i ∈ s.items.filter (fun k => decide (j.line.text <+: k.line.text ∧ j.line.key = k.line.key)) :=
      List.mem_filter.2 ⟨hi, decide_eq_true ⟨h1', h2.symm⟩⟩
    have hjj : j ∈ s.items.filter (fun k => decide (j.line.text <+: k.line.text ∧ j.line.key = k.line.key)) :=
      List.mem_filter.2 ⟨hj, decide_eq_true ⟨List.prefix_refl _, rfl⟩⟩
    rw [hx] at hji hjj
    rw [List.mem_singleton.1 hji, List.mem_singleton.1 hjj]
  have drop : ∀ j ∈ s.items, j ≠ i →
      ((kept j).filter fun c => decide (c.after <+: serOf i.line.text ∧ i.line.key = c.key)) = [] := by
    intro j hj hne
    unfold kept
    by_cases hc : j.comments = []
    · rw [if_pos hc]; rfl
    · rw [if_neg hc, List.filter_cons, if_neg]
      · rfl
      · intro hx
        have hx := of_decide_eq_true hx
        exact hne (uniq j hj hc hx.1 hx.2)
  rw [List.filter_flatMap]
  by_cases hc : i.comments = []
  · have hk : kept i = [] := by unfold kept; rw [if_pos hc]
    rw [hk, List.flatMap_eq_nil_iff]
    intro j hj
    by_cases hji : j = i
    · rw [hji, hk]; rfl
    · exact drop j hj hji
  · obtain ⟨a, b, hab⟩ := List.append_of_mem hi
    have hself : decide (i.line.text <+: i.line.text ∧ i.line.key = i.line.key) = true := by simp
    have ho := h.once i hi hc
    rw [hab, List.countP_append, List.countP_cons, if_pos hself] at ho
    have ha : ∀ j ∈ a, j ≠ i := by
      rintro j hj rfl
      have : 0 < a.countP (fun k => decide (j.line.text <+: k.line.text ∧ j.line.key = k.line.key)) :=
        List.countP_pos_iff.2 ⟨j, hj, hself⟩
      omega
    have hb : ∀ j ∈ b, j ≠ i := by
      rintro j hj rfl
      have : 0 < b.countP (fun k => decide (j.line.text <+: k.line.text ∧ j.line.key = k.line.key)) :=
        List.countP_pos_iff.2 ⟨j, hj, hself⟩
      omega
    have za : a.flatMap (fun j => (kept j).filter fun c =>
        decide (c.after <+: serOf i.line.text ∧ i.line.key = c.key)) = [] :=
      List.flatMap_eq_nil_iff.2 fun j hj => drop j (by rw [hab]; simp [hj]) (ha j hj)
    have zb : b.flatMap (fun j => (kept j).filter fun c =>
        decide (c.after <+: serOf i.line.text ∧ i.line.key = c.key)) = [] :=
      List.flatMap_eq_nil_iff.2 fun j hj => drop j (by rw [hab]; simp [hj]) (hb j hj)
    rw [hab, List.flatMap_append, List.flatMap_cons, za, zb, List.nil_append, List.append_nil]
    unfold kept
    rw [if_neg hc, List.filter_cons, if_pos]
    · rfl
    · exact decide_eq_true ⟨(prefix_serOf (h.entity i hi hc)).2 (List.prefix_refl _), rfl⟩

theorem written_out {s : Source} {d : Doc} (h : Holds s d) (hd : d.Ok) {i : Item} (hi : i ∈ s.items) :
    written (tidy (s.items.flatMap kept)) i.line = i.out := by
  have hl : LineOk i.line := doc_ok hd i.line (by rw [← h.lines]; exact List.mem_map_of_mem hi)
  have hf := filter_kept h hi
  unfold written Item.out
  rw [commentsBefore_filter, trim_ser hl, ser_column hl, filter_tidy, hf]
  · unfold kept
    have e : endS <+: serOf i.line.text ↔ Spec.endS <+: i.line.text := prefix_serOf (by decide)
    by_cases hc : i.comments = []
    · rw [if_pos hc, if_pos hc]
      simp [indent, spaces]
    · rw [if_neg hc, if_neg hc]
      by_cases he : Spec.endS <+: i.line.text
      · rw [if_pos he, if_pos (e.2 he)]
        simp [indent, spaces]
        rfl
      · rw [if_neg he, if_neg fun x => he (e.1 x)]
        simp [indent, spaces]
  · rw [hf]
    unfold kept
    split <;> simp

theorem arrange_value (b : Bool) {d : Doc} (h : d.Ok) (cs : List Comment) :
    Project.arrange b ⟨d.value, cs⟩ = ⟨(d.sorted b).value, cs⟩ := by
  cases b
  · simp only [Project.arrange, Bool.false_eq_true, if_false]
    rw [doc_value_sorted h]
  · simp only [Project.arrange, if_true]
    rw [doc_value_sorted_true h]

theorem xml_eq {s : Source} {src : Text} (h : lines src = s.lines) :
    joinWith '\n' ((lines src).map doubleAmp) = s.xml := by
  rw [h]; rfl

theorem sort_holds {parse : Text → Option Data} {b : Bool} {src : Text} {s : Source} {d : Doc} (hs : lines src = s.lines)
    (h : Holds s d) (hd : d.Ok) (hp : parse s.xml = some d.value) :
    ∃ items : List Item, items.Perm s.items ∧ items.map Item.line = (d.sorted b).lines ∧
      sortFile parse b src = some (header ++ '\n' :: items.flatMap Item.out) := by
  have hperm : (s.items.map Item.line).Perm (d.sorted b).lines := by
    rw [h.lines]; exact (doc_perm b d).symm
  obtain ⟨items, h1, h2⟩ := perm_lift Item.line hperm
  refine ⟨items, h1, h2, ?_⟩
  have hc : comments src = tidy (s.items.flatMap kept) := by
    unfold comments
    rw [hs, read_source h hd]
  have hs' := doc_ok_sorted b hd
  unfold sortFile fromReader
  rw [xml_eq hs, hp, hc]
  simp only [Option.map_some]
  rw [arrange_value b hd]
  unfold toWriter
  dsimp only
  rw [lines_serialize hs' (doc_sorted_sorted b true (Or.inl rfl) hd),
    write_lines _ (doc_ok hs') false none (doc_closed _).keyed, ← h2, List.flatMap_map]
  congr 3
  apply List.flatMap_congr
  intro i hi
  exact written_out h hd (h1.mem_iff.1 hi)

/-! ### Reading what was written -/

theorem mem_takeWhile_ws {c : Char} {t : Text} (h : c ∈ t.takeWhile isWs) : isWs c = true := by
  induction t with
  | nil => cases h
  | cons a t ih =>
    rw [List.takeWhile_cons] at h
    by_cases ha : isWs a = true
    · rw [if_pos ha, List.mem_cons] at h
      rcases h with rfl | h
      · exact ha
      · exact ih h
    · rw [if_neg ha] at h; cases h

/-- A text is its white space, what is left of it after trimming, and white space. -/
theorem trim_split (u : Text) : ∃ w w', u = w ++ trim u ++ w' ∧ (∀ c ∈ w, isWs c = true) ∧ (∀ c ∈ w', isWs c = true) := by
  refine ⟨u.takeWhile isWs, (((u.dropWhile isWs).reverse).takeWhile isWs).reverse, ?_, ?_, ?_⟩
  · unfold trim
    rw [List.append_assoc, ← List.reverse_append, List.takeWhile_append_dropWhile, List.reverse_reverse,
      List.takeWhile_append_dropWhile]
  · intro c hc
    exact mem_takeWhile_ws hc
  · intro c hc
    exact mem_takeWhile_ws (List.mem_reverse.1 hc)

theorem tight_append {a m b : Text} (ha : a ≠ []) (hb : b ≠ []) (h1 : Tight a) (h2 : Tight b) : Tight (a ++ m ++ b) where
  head := by
    intro c hc
    rw [List.append_assoc, List.head?_append_of_ne_nil _ ha] at hc
    exact h1.head c hc
  last := by
    intro c hc
    rw [List.getLast?_append_of_ne_nil _ hb] at hc
    exact h2.last c hc

/-- A line that `lines` gives back. -/
def Line1 (x : Text) : Prop := '\n' ∉ x ∧ x.getLast? ≠ some '\r'

theorem tight_cr {t : Text} (h : Tight t) : t.getLast? ≠ some '\r' := fun he => absurd (h.last _ he) (by decide)

/-- Comments put on another column are the same lines up to white space at both ends. -/
theorem trim_lines {pre : Text} (hpre : ∀ c ∈ pre, isWs c = true) (hpn : '\n' ∉ pre) {l : Text} {ls : List Text}
    {us : List Text} {u : Text} (he : l :: ls = us ++ [u]) (hl : trim l ≠ []) (hu : trim u ≠ [])
    (h1 : ∀ x ∈ l :: ls, Line1 x) :
    ∃ fl : List Text, fl.map trim = (l :: ls).map trim ∧
      joinWith '\n' fl = pre ++ trim (joinWith '\n' (l :: ls)) ∧ ∀ x ∈ fl, Line1 x := by
  obtain ⟨w, w', hw, hw1, hw2⟩ := trim_split l
  obtain ⟨v, v', hv, hv1, hv2⟩ := trim_split u
  have tl := trim_tight l
  have tu := trim_tight u
  have nl : '\n' ∉ l := (h1 l (by simp)).1
  have nu : '\n' ∉ u := (h1 u (by rw [he]; simp)).1
  have ntl : '\n' ∉ trim l ∧ '\n' ∉ w' := by
    rw [hw] at nl; simp only [List.mem_append, not_or] at nl; exact ⟨nl.1.2, nl.2⟩
  have ntu : '\n' ∉ trim u ∧ '\n' ∉ v := by
    rw [hv] at nu; simp only [List.mem_append, not_or] at nu; exact ⟨nu.1.2, nu.1.1⟩
  cases us with
  | nil =>
    obtain ⟨rfl, rfl⟩ : l = u ∧ ls = [] := by simpa using he
    refine ⟨[pre ++ trim l], ?_, ?_, ?_⟩
    · have := trim_pad (w' := []) hpre tl (by simp)
      simpa using this
    · simp [joinWith]
    · intro x hx
      rw [List.mem_singleton.1 hx]
      refine ⟨by simp [hpn, ntl.1], ?_⟩
      rw [List.getLast?_append_of_ne_nil _ hl]
      exact tight_cr tl
  | cons a mid =>
    obtain ⟨rfl, rfl⟩ : l = a ∧ ls = mid ++ [u] := by simpa using he
    refine ⟨(pre ++ trim l ++ w') :: mid ++ [v ++ trim u], ?_, ?_, ?_⟩
    · have e1 := trim_pad hpre tl hw2
      have e2 := trim_pad (w' := []) hv1 tu (by simp)
      rw [List.append_nil] at e2
      rw [List.map_append, List.map_cons, e1]
      simp [e2]
    · have ej : joinWith '\n' (l :: (mid ++ [u])) =
          w ++ (trim l ++ (w' ++ mid.flatMap (fun x => '\n' :: x) ++ '\n' :: v) ++ trim u) ++ v' := by
        rw [joinWith_cons]
        conv_lhs => rw [hw, hv]
        simp
      rw [ej, trim_pad hw1 (tight_append hl hu tl tu) hv2, List.cons_append, joinWith_cons]
      simp
    · intro x hx
      simp only [List.cons_append, List.mem_cons, List.mem_append, List.not_mem_nil, or_false] at hx
      rcases hx with rfl | hx | rfl
      · refine ⟨by simp [hpn, ntl.1, ntl.2], ?_⟩
        have hr := (h1 l (by simp)).2
        rw [hw] at hr
        have hne : trim l ++ w' ≠ [] := by simp [hl]
        rw [List.append_assoc, List.getLast?_append_of_ne_nil _ hne] at hr ⊢
        exact hr
      · exact h1 x (by simp [hx])
      · refine ⟨by simp [ntu.1, ntu.2], ?_⟩
        rw [List.getLast?_append_of_ne_nil _ hu]
        exact tight_cr tu

/-- A flat list of lines, put into the shape of another. -/
theorem reshape {f : Text → Text} (bs : List (List Text)) (fl : List Text) (h : fl.map f = bs.flatten.map f) :
    ∃ cs : List (List Text), cs.flatten = fl ∧ cs.map (List.map f) = bs.map (List.map f) := by
  induction bs generalizing fl with
  | nil =>
    have : fl = [] := by simpa using h
    exact ⟨[], by simp [this], rfl⟩
  | cons b bs ih =>
    rw [List.flatten_cons, List.map_append] at h
    obtain ⟨x, y, rfl, hx, hy⟩ := List.map_eq_append_iff.1 h
    obtain ⟨cs, h1, h2⟩ := ih y hy
    exact ⟨x :: cs, by simp [h1], by simp [hx, h2]⟩

theorem commentOk_trim {c c' : List Text} (h : c'.map trim = c.map trim) (hc : CommentOk c) : CommentOk c' := by
  obtain ⟨l, ls, rfl, ho, hn⟩ := hc.opens
  obtain ⟨us, u, he, hu, hus, hk1, hk2⟩ := hc.closes
  constructor
  · rw [List.map_cons] at h
    obtain ⟨l', ls', rfl, h1, h2⟩ := List.map_eq_cons_iff.1 h
    refine ⟨l', ls', rfl, by rw [h1]; exact ho, ?_⟩
    intro x hx
    have : trim x ∈ ls.map trim := by rw [← h2]; exact List.mem_map_of_mem hx
    obtain ⟨y, hy, hyx⟩ := List.mem_map.1 this
    rw [← hyx]
    exact hn y hy
  · rw [he, List.map_append] at h
    obtain ⟨us', r, rfl, h1, h2⟩ := List.map_eq_append_iff.1 h
    obtain ⟨u', r', rfl, h3, h4⟩ := List.map_eq_cons_iff.1 h2
    have : r' = [] := by simpa using h4
    subst this
    refine ⟨us', u', rfl, by rw [h3]; exact hu, ?_, by rw [h3]; exact hk1, by rw [h3]; exact hk2⟩
    intro x hx
    have : trim x ∈ us.map trim := by rw [← h1]; exact List.mem_map_of_mem hx
    obtain ⟨y, hy, hyx⟩ := List.mem_map.1 this
    rw [← hyx]
    exact hus y hy

/-- The lines an item is written as. -/
theorem out_lines {i : Item} (hc : ∀ c ∈ i.comments, CommentOk c) (hl : LineOk i.line)
    (h1 : ∀ x ∈ i.comments.flatten, Line1 x) :
    ∃ j : Item, j.line = i.line ∧ kept j = kept i ∧ Readable j ∧ i.out = joinWith '\n' j.lines ++ ['\n'] ∧
      ∀ x ∈ j.lines, Line1 x := by
  have hsp : ∀ n, ∀ c ∈ spaces n, isWs c = true := by
    intro n c hc; rw [(List.mem_replicate.1 hc).2]; rfl
  have hsn : ∀ n, '\n' ∉ spaces n := fun n h => absurd (List.mem_replicate.1 h).2 (by decide)
  have htx : i.line.text ≠ [] := by intro h; have := hl.head; rw [h] at this; cases this
  have hraw : Line1 (spaces (4 * i.line.depth) ++ i.line.text) := by
    refine ⟨by simp [hsn, hl.newline], ?_⟩
    rw [List.getLast?_append_of_ne_nil _ htx, hl.last]
    decide
  have hrawt : trim (spaces (4 * i.line.depth) ++ i.line.text) = i.line.text := by
    have := trim_pad (w' := []) (hsp (4 * i.line.depth)) hl.tight (by simp)
    simpa using this
  by_cases hn : i.comments = []
  · refine ⟨⟨[], [], spaces (4 * i.line.depth) ++ i.line.text, i.line⟩, rfl, ?_, ?_, ?_, ?_⟩
    · simp [kept, hn]
    · exact ⟨hrawt, by simp, by simp, hl.comment⟩
    · simp [Item.out, hn, Item.lines, joinWith]
    · intro x hx
      simp only [Item.lines, List.flatten_nil, List.append_nil, List.nil_append, List.mem_singleton] at hx
      rw [hx]; exact hraw
  · generalize hpre : spaces (4 * i.line.depth) ++ (if Spec.endS <+: i.line.text then spaces 4 else []) = pre
    have hpw : ∀ c ∈ pre, isWs c = true := by
      rw [← hpre]
      intro c hc
      rcases List.mem_append.1 hc with h | h
      · exact hsp _ c h
      · split at h
        · exact hsp _ c h
        · cases h
    have hpn : '\n' ∉ pre := fun h => by
      rw [← hpre] at h
      rcases List.mem_append.1 h with h | h
      · exact hsn _ h
      · split at h
        · exact hsn _ h
        · cases h
    -- the first and the last line of the comments
    obtain ⟨l, ls, hfl, hlt⟩ : ∃ l ls, i.comments.flatten = l :: ls ∧ trim l ≠ [] := by
      cases hi : i.comments with
      | nil => exact absurd hi hn
      | cons c cs =>
        obtain ⟨l, ls, rfl, ho, _⟩ := (hc c (by simp [hi])).opens
        refine ⟨l, ls ++ cs.flatten, by simp, ?_⟩
        intro h
        rw [h] at ho
        exact not_prefix_nil (by decide) ho
    obtain ⟨us, u, hfu, hut⟩ : ∃ us u, i.comments.flatten = us ++ [u] ∧ trim u ≠ [] := by
      rcases List.eq_nil_or_concat i.comments with hi | ⟨cs, c, hi⟩
      · exact absurd hi hn
      · obtain ⟨us, u, rfl, ho, _⟩ := (hc c (by simp [hi])).closes
        refine ⟨cs.flatten ++ us, u, by simp [hi], ?_⟩
        intro h
        rw [h] at ho
        have := List.suffix_nil.1 ho
        exact absurd this (by decide)
    rw [hfl] at hfu h1
    obtain ⟨fl, e1, e2, e3⟩ := trim_lines hpw hpn hfu hlt hut h1
    rw [← hfl] at e1 e2
    obtain ⟨bs, hb1, hb2⟩ := reshape i.comments fl e1
    have hbn : bs ≠ [] := by
      intro h
      rw [h] at hb2
      exact hn (List.map_eq_nil_iff.1 hb2.symm)
    refine ⟨⟨[], bs, spaces (4 * i.line.depth) ++ i.line.text, i.line⟩, rfl, ?_, ?_, ?_, ?_⟩
    · unfold kept
      rw [if_neg hn, if_neg hbn]
      dsimp only
      rw [hb1, e2]
      have := trim_pad (w' := []) hpw (trim_tight (joinWith '\n' i.comments.flatten)) (by simp)
      rw [List.append_nil] at this
      rw [this]
    · refine ⟨hrawt, by simp, ?_, hl.comment⟩
      intro c hcb
      dsimp only at hcb
      have : c.map trim ∈ i.comments.map (List.map trim) := by rw [← hb2]; exact List.mem_map_of_mem hcb
      obtain ⟨c0, hc0, hce⟩ := List.mem_map.1 this
      exact commentOk_trim hce.symm (hc c0 hc0)
    · unfold Item.out Item.lines
      rw [if_neg hn, hpre]
      dsimp only
      have hfn : bs.flatten ≠ [] := by
        rw [hb1]; intro h; rw [h, hfl] at e1; cases e1
      rw [List.nil_append, joinWith_append _ hfn (by simp), hb1, e2]
      simp [joinWith]
    · intro x hx
      simp only [Item.lines, hb1, List.nil_append, List.mem_append, List.mem_singleton] at hx
      rcases hx with hx | rfl
      · exact e3 x hx
      · exact hraw

/-- The lines of the items, one after the other. -/
theorem outs_lines {is : List Item} (h : ∀ i ∈ is, (∀ c ∈ i.comments, CommentOk c) ∧ LineOk i.line ∧
    ∀ x ∈ i.comments.flatten, Line1 x) :
    ∃ js : List Item, js.map Item.line = is.map Item.line ∧ js.flatMap kept = is.flatMap kept ∧
      (∀ j ∈ js, Readable j) ∧ is.flatMap Item.out = js.flatMap (fun j => joinWith '\n' j.lines ++ ['\n']) ∧
      ∀ j ∈ js, ∀ x ∈ j.lines, Line1 x := by
  induction is with
  | nil => exact ⟨[], rfl, rfl, by simp, rfl, by simp⟩
  | cons i is ih =>
    obtain ⟨js, h1, h2, h3, h4, h5⟩ := ih fun x hx => h x (by simp [hx])
    obtain ⟨hc, hl, hx⟩ := h i (by simp)
    obtain ⟨j, g1, g2, g3, g4, g5⟩ := out_lines hc hl hx
    refine ⟨j :: js, by simp [h1, g1], by simp [h2, g2], ?_, by simp [h4, g4], ?_⟩
    · intro y hy
      rcases List.mem_cons.1 hy with rfl | hy
      · exact g3
      · exact h3 y hy
    · intro y hy
      rcases List.mem_cons.1 hy with rfl | hy
      · exact g5
      · exact h5 y hy

theorem join_flat (js : List Item) (h0 : Text) :
    h0 ++ '\n' :: js.flatMap (fun j => joinWith '\n' j.lines ++ ['\n']) =
      joinWith '\n' (h0 :: js.flatMap Item.lines) ++ ['\n'] := by
  have key : ∀ ls : List Text, ls ≠ [] → '\n' :: joinWith '\n' ls = ls.flatMap (fun x => '\n' :: x) := by
    intro ls hne
    cases ls with
    | nil => exact absurd rfl hne
    | cons l ls => rw [joinWith_cons]; simp
  rw [joinWith_cons, List.append_assoc]
  congr 1
  induction js with
  | nil => rfl
  | cons j js ih =>
    rw [List.flatMap_cons, List.flatMap_cons, List.flatMap_append, ← key j.lines (by simp [Item.lines])]
    rw [List.append_assoc (bs := List.flatMap _ _), ← ih]
    simp

theorem lines_newline (src : Text) : ∀ l ∈ lines src, '\n' ∉ l := by
  have hstrip : ∀ l : Text, '\n' ∉ l → '\n' ∉ stripCr l := by
    intro l hl
    unfold stripCr
    split
    · exact fun h => hl ((List.dropLast_sublist l).subset h)
    · exact hl
  intro l hl
  have hp := split_pieces (c := '\n') (s := src)
  unfold lines at hl
  cases hr : (split '\n' src).reverse with
  | nil => rw [hr] at hl; cases hl
  | cons last rest =>
    rw [hr] at hl
    dsimp only at hl
    have hmem : ∀ x, x = last ∨ x ∈ rest → '\n' ∉ x := by
      intro x hx
      apply hp
      rw [← List.mem_reverse, hr]
      exact List.mem_cons.2 hx
    have hmap : ∀ x ∈ rest.reverse.map stripCr, '\n' ∉ x := by
      intro x hx
      obtain ⟨y, hy, rfl⟩ := List.mem_map.1 hx
      exact hstrip y (hmem y (Or.inr (List.mem_reverse.1 hy)))
    split at hl
    · exact hmap l hl
    · rcases List.mem_append.1 hl with hl | hl
      · exact hmap l hl
      · exact hmem l (Or.inl (List.mem_singleton.1 hl))

theorem sort_again {parse : Text → Option Data} {b : Bool} {src out : Text} {s : Source} {d : Doc}
    (hs : lines src = s.lines) (h : Holds s d) (hd : d.Ok) (hcr : ∀ l ∈ s.lines, l.getLast? ≠ some '\r')
    (hp : parse s.xml = some d.value) (hout : sortFile parse b src = some out)
    (hp' : parse (joinWith '\n' ((lines out).map doubleAmp)) = some (d.sorted b).value) :
    sortFile parse b out = some out := by
  obtain ⟨items, h1, h2, h3⟩ := sort_holds (b := b) hs h hd hp
  rw [hout, Option.some.injEq] at h3
  have hs' := doc_ok_sorted b hd
  have hnl : ∀ l ∈ s.lines, '\n' ∉ l := by
    rw [← hs]; exact lines_newline src
  have hdo := doc_ok hs'
  -- the file again, as items
  have hh : Holds ⟨[], items, []⟩ (d.sorted b) :=
    { head := by simp
      lines := h2
      raw := fun i hi => h.raw i (h1.mem_iff.1 hi)
      gap := fun i hi => h.gap i (h1.mem_iff.1 hi)
      tail := by simp
      comments := fun i hi => h.comments i (h1.mem_iff.1 hi)
      entity := fun i hi => h.entity i (h1.mem_iff.1 hi)
      once := fun i hi hc => by rw [h1.countP_eq]; exact h.once i (h1.mem_iff.1 hi) hc }
  obtain ⟨js, g1, g2, g3, g4, g5⟩ := outs_lines (is := items) (by
    intro i hi
    refine ⟨hh.comments i hi, hdo i.line (by rw [← h2]; exact List.mem_map_of_mem hi), ?_⟩
    intro x hx
    have hx' : x ∈ s.lines := by
      unfold Source.lines
      refine List.mem_append_left _ (List.mem_append_right _ (List.mem_flatMap.2 ⟨i, h1.mem_iff.1 hi, ?_⟩))
      unfold Item.lines
      exact List.mem_append_left _ (List.mem_append_right _ hx)
    exact ⟨hnl x hx', hcr x hx'⟩)
  have hlines : lines out = header :: js.flatMap Item.lines := by
    rw [h3, g4, join_flat, lines_join (by simp)]
    · intro l hl
      rcases List.mem_cons.1 hl with rfl | hl
      · decide
      · obtain ⟨j, hj, hl⟩ := List.mem_flatMap.1 hl
        exact (g5 j hj l hl).1
    · intro l hl
      rcases List.mem_cons.1 hl with rfl | hl
      · decide
      · obtain ⟨j, hj, hl⟩ := List.mem_flatMap.1 hl
        exact (g5 j hj l hl).2
  have hc : comments out = tidy (items.flatMap kept) := by
    unfold comments
    rw [hlines, List.foldl_cons]
    have hx : Reading.line ⟨[], false, [], none⟩ header = ⟨[], false, [], none⟩ :=
      read_plain [] none (by decide) (by decide) (by decide)
    rw [hx, read_items g3 [] none (by rw [g1, h2]; exact (doc_closed _).keyed), g2]
    rfl
  unfold sortFile fromReader
  rw [hp', hc]
  simp only [Option.map_some]
  rw [arrange_value b hs', doc_sorted_sorted b b (Or.inr rfl) hd]
  unfold toWriter
  dsimp only
  rw [lines_serialize hs' (doc_sorted_sorted b true (Or.inl rfl) hd),
    write_lines _ (doc_ok hs') false none (doc_closed _).keyed, ← h2, List.flatMap_map, h3]
  congr 3
  apply List.flatMap_congr
  intro i hi
  exact written_out hh hs' hi

end Verif.StringtableXml
