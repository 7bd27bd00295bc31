import Verif.Lib.CaseFix
/-!
C42: what the tool that fixes letter case changes.

Specification. `Rewritten` says that a text comes from another by putting, for some of its words, the name the table has
for them. `scan` is what the characters of a program are: code, strings in double or single quotes, comments.
-/
namespace Verif.CaseFix

/-- Some words of the text are replaced by what the table says, everything else stays. A word is as long as it goes:
`after` tells whether a character of a word is before it. -/
inductive Rewritten (cmd : Table) : (after : Bool) → Text → Text → Prop
  | nil {b} : Rewritten cmd b [] []
  | keep {b c t u} : Rewritten cmd (isWord c) t u → Rewritten cmd b (c :: t) (c :: u)
  | word {w n t u} : w ≠ [] → (∀ c ∈ w, isWord c = true) → (∀ c, t.head? = some c → isWord c = false) →
      cmd w = some n → Rewritten cmd true t u → Rewritten cmd false (w ++ t) (n ++ u)

inductive Label
  | code | string | quoted | comment
  deriving DecidableEq, Repr

inductive Where
  | code | string | quoted | line | block
  deriving DecidableEq, Repr

/-- What the characters of a program are. -/
def scan : Where → Text → List Label
  | _, [] => []
  | .code, '/' :: '/' :: t => .comment :: .comment :: scan .line t
  | .code, '/' :: '*' :: t => .comment :: .comment :: scan .block t
  | .code, c :: t =>
    if c = '"' then .string :: scan .string t
    else if c = '\'' then .quoted :: scan .quoted t
    else .code :: scan .code t
  | .string, c :: t => .string :: scan (if c = '"' then .code else .string) t
  | .quoted, c :: t => .quoted :: scan (if c = '\'' then .code else .quoted) t
  | .line, c :: t => if c = '\n' then .code :: scan .code t else .comment :: scan .line t
  | .block, '*' :: '/' :: t => .comment :: .comment :: scan .code t
  | .block, _ :: t => .comment :: scan .block t

/-- The spellings at which the tool and the language do not agree about comments. -/
def Clean (t : Text) : Prop :=
  ¬ "/*/".toList <:+: t ∧ ¬ "*//".toList <:+: t ∧ ¬ "*/*".toList <:+: t ∧ Label.quoted ∉ scan .code t

/-- The words before an opening bracket. -/
def Called (t w : Text) : Prop :=
  ∃ a b, t = a ++ w ++ '(' :: b ∧ w ≠ [] ∧ (∀ c ∈ w, isWord c = true) ∧ ∀ c, a.getLast? = some c → isWord c = false

/-! ### Case only -/

theorem rewritten_word_keep {cmd : Table} {t u : Text} : ∀ {w : Text} {b : Bool}, w ≠ [] → (∀ c ∈ w, isWord c = true) →
    Rewritten cmd true t u → Rewritten cmd b (w ++ t) (w ++ u)
  | [c], b, _, h, hr => by
    have := h c (List.mem_cons_self ..)
    exact .keep (by rw [this]; exact hr)
  | c :: d :: w, b, _, h, hr => .keep (rewritten_word_keep (by simp) (fun x hx => h x (List.mem_cons_of_mem _ hx)) hr)

theorem rewritten_word {cmd : Table} {t u w v : Text} (hw : w ≠ []) (h : ∀ c ∈ w, isWord c = true)
    (ht : ∀ c, t.head? = some c → isWord c = false) (hv : v = w ∨ v = replace cmd w) (hr : Rewritten cmd true t u) :
    Rewritten cmd false (w ++ t) (v ++ u) := by
  rcases hv with rfl | rfl
  · exact rewritten_word_keep hw h hr
  · unfold replace
    cases hc : cmd w with
    | none => exact rewritten_word_keep hw h hr
    | some n => exact .word hw h ht hc hr

theorem written_or (cmd : Table) (w : Text) : written cmd w = w ∨ written cmd w = replace cmd w := by
  unfold written
  split
  · exact Or.inl rfl
  · exact Or.inr rfl

/-- The tool only replaces words, and only by the names the table has for them. -/
theorem C42_only_names {cmd : Table} (hT : CaseTable cmd) (t : Text) : Rewritten cmd false t (fix cmd t) := by
  obtain ⟨ts, h, rfl⟩ := lex_exists t
  rw [fix_eq hT h]
  have key : ∀ ts M prev, WF ts → (WF ts → Rewritten cmd false (unlex ts) (unlex (pass cmd M prev ts)) ∧
      (noWord ts → Rewritten cmd true (unlex ts) (unlex (pass cmd M prev ts)))) := by
    apply pass_induction cmd fun _ _ ts us => (WF ts → Rewritten cmd false (unlex ts) (unlex us) ∧
      (noWord ts → Rewritten cmd true (unlex ts) (unlex us)))
    · intro M prev _
      exact ⟨.nil, fun _ => .nil⟩
    · intro M prev x ts ih h
      have : ∀ b, Rewritten cmd b (x :: unlex ts) (x :: unlex (pass cmd (after M prev x) (some x) ts)) := by
        intro b
        exact .keep (by rw [h.1]; exact (ih h.2).1)
      exact ⟨this _, fun _ => this _⟩
    · intro M prev w h
      refine ⟨rewritten_word h.1 h.2.1 (by simp [unlex]) ?_ .nil, fun e => e.elim⟩
      split <;> simp
    · intro M prev w ts hm ih h
      refine ⟨rewritten_word h.1 h.2.1 ?_ (written_or cmd w) (.keep ?_), fun e => e.elim⟩
      · intro c hc
        simp only [unlex, List.head?_cons, Option.some.injEq] at hc
        rw [← hc]
        rfl
      · rw [show isWord '(' = false from rfl]
        exact (ih h.2.2.2.2).1
    · intro M prev w x ts _ ih h
      refine ⟨rewritten_word h.1 h.2.1 ?_ ?_ (.keep ?_), fun e => e.elim⟩
      · intro c hc
        simp only [unlex, List.head?_cons, Option.some.injEq] at hc
        rw [← hc]
        exact h.2.2.2.1
      · split <;> simp
      · rw [h.2.2.2.1]
        exact (ih h.2.2.2.2).1
  exact (key ts {} none h h).1

theorem rewritten_same {cmd : Table} (hT : CaseTable cmd) {b : Bool} {t u : Text} (h : Rewritten cmd b t u) :
    SameButCase t u := by
  unfold SameButCase
  induction h with
  | nil => rfl
  | keep _ ih => rw [List.map_cons, List.map_cons, ih]
  | word _ _ _ hc _ ih => rw [List.map_append, List.map_append, ih, hT.same _ _ hc]

/-- Nothing changes but the case of letters. -/
theorem C42_same_but_case {cmd : Table} (hT : CaseTable cmd) (t : Text) : SameButCase t (fix cmd t) :=
  rewritten_same hT (C42_only_names hT t)

/-! ### Twice -/

theorem called_append {p t w : Text} (hp : ∀ c, p.getLast? = some c → isWord c = false) (h : Called t w) :
    Called (p ++ t) w := by
  obtain ⟨a, b, rfl, h1, h2, h3⟩ := h
  refine ⟨p ++ a, b, by simp, h1, h2, ?_⟩
  intro c hc
  rw [List.getLast?_append] at hc
  cases ha : a.getLast? with
  | none => rw [ha] at hc; exact hp c (by simpa using hc)
  | some y => rw [ha] at hc; exact h3 c (by rw [ha]; simpa using hc)

theorem after_rel {M M' : Mode} (hq : M'.q = M.q) (hc : M'.c = M.c) (hm : M.m = true → M'.m = true) (prev : Option Char)
    (x : Char) : (after M' prev x).q = (after M prev x).q ∧ (after M' prev x).c = (after M prev x).c ∧
      ((after M prev x).m = true → (after M' prev x).m = true) := by
  obtain ⟨q, c, m⟩ := M
  obtain ⟨q', c', m'⟩ := M'
  dsimp only at hq hc hm
  subst hq hc
  unfold after
  dsimp only
  split
  · exact ⟨rfl, rfl, hm⟩
  · split
    · split <;> exact ⟨rfl, rfl, hm⟩
    · split
      · split <;> exact ⟨rfl, rfl, hm⟩
      · split
        · split <;> exact ⟨rfl, rfl, hm⟩
        · split
          · split <;> exact ⟨rfl, rfl, hm⟩
          · split
            · split
              · exact ⟨rfl, rfl, by simp⟩
              · exact ⟨rfl, rfl, by simp_all⟩
            · split
              · exact ⟨rfl, rfl, by simp_all⟩
              · exact ⟨rfl, rfl, hm⟩

theorem code_rel {M M' : Mode} (hq : M'.q = M.q) (hc : M'.c = M.c) (hm : M.m = true → M'.m = true) (h : M'.code) :
    M.code := by
  refine ⟨hq ▸ h.1, hc ▸ h.2.1, ?_⟩
  have := h.2.2
  cases hmm : M.m with
  | false => rfl
  | true => rw [hm hmm] at this; exact absurd this (by simp)

theorem written_stable {cmd : Table} (hT : CaseTable cmd) (w : Text) : written cmd (written cmd w) = written cmd w := by
  unfold written
  split
  · simp [*]
  · split
    · rfl
    · exact replace_stable hT w

theorem pass_twice {cmd : Table} (hT : CaseTable cmd) : ∀ ts M prev, WF ts →
    ((∀ w, Called (unlex ts) w → isUpper w = true → isUpper (written cmd w) = true) →
      ∀ M' : Mode, WF ts → M'.q = M.q → M'.c = M.c → (M.m = true → M'.m = true) →
      pass cmd M' prev (pass cmd M prev ts) = pass cmd M prev ts) := by
  apply pass_induction cmd fun M prev ts us =>
    ((∀ w, Called (unlex ts) w → isUpper w = true → isUpper (written cmd w) = true) →
      ∀ M' : Mode, WF ts → M'.q = M.q → M'.c = M.c → (M.m = true → M'.m = true) → pass cmd M' prev us = us)
  · intro M prev _ M' _ _ _ _
    rfl
  · intro M prev x ts ih hu M' h hq hc hm
    obtain ⟨a1, a2, a3⟩ := after_rel hq hc hm prev x
    rw [pass, ih (fun w hw => hu w (called_append (p := [x]) (by simpa using h.1) hw)) _ h.2 a1 a2 a3]
  · intro M prev w _ M' _ hq hc hm
    rw [pass]
    · by_cases h' : M'.code
      · simp only [h', code_rel hq hc hm h', if_true, replace_stable hT]
        rfl
      · simp only [h', if_false]
        rfl
    · simp
  · intro M prev w ts hM ih hu M' h hq hc hm
    have hcall : Called (unlex (.word w :: .sep '(' :: ts)) w :=
      ⟨[], unlex ts, by simp [unlex], h.1, h.2.1, by simp⟩
    have ih := ih (fun v hv => hu v (by
      have := called_append (p := w ++ ['(']) (by
        intro c hc
        simp only [List.getLast?_append, List.getLast?_singleton, Option.some_or, Option.some.injEq] at hc
        rw [← hc]
        rfl) hv
      simpa [unlex] using this))
    rw [pass]
    by_cases h' : M'.code
    · rw [if_pos h', if_pos rfl, ih { M' with m := isUpper (written cmd w) } h.2.2.2.2 hq hc (hu w hcall)]
      rw [← written, written_stable hT]
    · rw [if_neg h']
      have hm' : M'.m = true := by
        by_contra hne
        exact h' ⟨hq ▸ hM.1, hc ▸ hM.2.1, by simpa using hne⟩
      have ha : after M' none '(' = M' := by
        unfold after
        simp
      rw [ha, ih _ h.2.2.2.2 hq hc (fun _ => hm')]
  · intro M prev w x ts hx ih hu M' h hq hc hm
    obtain ⟨a1, a2, a3⟩ := after_rel hq hc hm none x
    have ih := ih (fun v hv => hu v (by
      have := called_append (p := w ++ [x]) (by
        intro c hc
        simp only [List.getLast?_append, List.getLast?_singleton, Option.some_or, Option.some.injEq] at hc
        rw [← hc]
        exact h.2.2.2.1) hv
      simpa [unlex] using this)) _ h.2.2.2.2 a1 a2 a3
    rw [pass]
    by_cases h' : M'.code
    · have hM := code_rel hq hc hm h'
      rw [if_pos h', if_neg (fun e => hx ⟨hM, e⟩), ih, if_pos hM, replace_stable hT]
    · rw [if_neg h', ih]

theorem pass_wf {cmd : Table} (hT : CaseTable cmd) : ∀ ts M prev, WF ts → (WF ts → WF (pass cmd M prev ts)) := by
  have hw : ∀ {w v : Text}, v = w ∨ v = replace cmd w → w ≠ [] → (∀ c ∈ w, isWord c = true) →
      v ≠ [] ∧ ∀ c ∈ v, isWord c = true := by
    rintro w v (rfl | rfl) h1 h2
    · exact ⟨h1, h2⟩
    · exact ⟨word_ne_nil (replace_same hT w) h1, sameButCase_word (replace_same hT w) h2⟩
  apply pass_induction cmd fun M prev ts us => (WF ts → WF us)
  · intros; trivial
  · intro M prev x ts ih h
    exact ⟨h.1, ih h.2⟩
  · intro M prev w h
    obtain ⟨g1, g2⟩ := hw (v := if M.code then replace cmd w else w) (by split <;> simp) h.1 h.2.1
    exact ⟨g1, g2, trivial, trivial⟩
  · intro M prev w ts _ ih h
    obtain ⟨g1, g2⟩ := hw (written_or cmd w) h.1 h.2.1
    exact ⟨g1, g2, trivial, h.2.2.2.1, ih h.2.2.2.2⟩
  · intro M prev w x ts _ ih h
    obtain ⟨g1, g2⟩ := hw (v := if M.code then replace cmd w else w) (by split <;> simp) h.1 h.2.1
    exact ⟨g1, g2, trivial, h.2.2.2.1, ih h.2.2.2.2⟩

/-- Running the tool twice is running it once, unless a command in capital letters that is not written so stands before
an opening bracket. Missing: those texts, see `C42_twice_violated`. -/
theorem C42_twice_partial {cmd : Table} (hT : CaseTable cmd) (t : Text)
    (hu : ∀ w, Called t w → isUpper w = true → w = "LOG".toList ∨ isUpper (replace cmd w) = true) :
    fix cmd (fix cmd t) = fix cmd t := by
  obtain ⟨ts, h, rfl⟩ := lex_exists t
  rw [fix_eq hT h, fix_eq hT (pass_wf hT ts _ _ h h), pass_twice hT ts {} none h ?_ {} h rfl rfl id]
  intro w hw hup
  unfold written
  split
  · exact hup
  · rename_i hl
    exact (hu w hw hup).resolve_left hl

/-! ### Strings and comments -/

/-- The tool is in step with the program text: it is where the scan is. -/
def InStep (M : Mode) (prev : Option Char) (t : Text) : Where → Prop
  | .code => M.q = false ∧ M.c = .no ∧ (prev = some '/' → t.head? ≠ some '/' ∧ t.head? ≠ some '*')
  | .string => M.q = true ∧ M.c = .no
  | .quoted => False
  | .line => M.q = false ∧ M.c = .single
  | .block => M.q = false ∧ M.c = .multi ∧ (prev = some '*' → t.head? ≠ some '/')

/-- Words are written as their labels demand: as they were outside of code; in code, if `strict`, as the table says. -/
def Good (cmd : Table) (strict : Prop) : List Label → List Item → List Item → Prop
  | _, [], [] => True
  | ls, .sep x :: ts, .sep y :: us => x = y ∧ Good cmd strict (ls.drop 1) ts us
  | ls, .word w :: ts, .word v :: us => v.length = w.length ∧
    (∃ l, ls.take w.length = List.replicate w.length l ∧ (l ≠ .code → v = w) ∧ (l = .code → strict → v = replace cmd w)) ∧
    Good cmd strict (ls.drop w.length) ts us
  | _, _, _ => False

theorem scan_word_char {k : Where} {c : Char} {t : Text} (hc : isWord c = true) :
    scan k (c :: t) = (match k with
      | .code => .code | .string => .string | .quoted => .quoted | .line => .comment | .block => .comment) :: scan k t := by
  obtain ⟨h1, h2, h3, h4, _⟩ := word_cases hc
  have h5 : c ≠ '\'' := by rintro rfl; exact absurd hc (by decide)
  cases k with
  | code =>
    rw [scan]
    · simp only [h1, h5, if_false]
    · rintro _ rfl; exact absurd rfl h2
    · rintro _ rfl; exact absurd rfl h2
  | string => rw [scan]; simp only [h1, if_false]
  | quoted => rw [scan]; simp only [h5, if_false]
  | line => rw [scan]; simp only [h3, if_false]
  | block =>
    rw [scan]
    rintro _ rfl; exact absurd rfl h4

theorem scan_word {k : Where} {w t : Text} (hw : ∀ c ∈ w, isWord c = true) :
    scan k (w ++ t) = List.replicate w.length (match k with
      | .code => .code | .string => .string | .quoted => .quoted | .line => .comment | .block => .comment) ++ scan k t := by
  induction w with
  | nil => rfl
  | cons c w ih =>
    rw [List.cons_append, scan_word_char (hw c (List.mem_cons_self ..)), ih (fun x hx => hw x (List.mem_cons_of_mem _ hx)),
      List.length_cons, List.replicate_succ, List.cons_append]

/-- The part of `Clean` about comments. -/
def Hz (t : Text) : Prop := ¬ "/*/".toList <:+: t ∧ ¬ "*//".toList <:+: t ∧ ¬ "*/*".toList <:+: t

theorem Hz.tail {p t : Text} (h : Hz (p ++ t)) : Hz t :=
  ⟨fun e => h.1 (e.trans (List.suffix_append p t).isInfix), fun e => h.2.1 (e.trans (List.suffix_append p t).isInfix),
   fun e => h.2.2 (e.trans (List.suffix_append p t).isInfix)⟩

theorem Hz.open {t : Text} (h : Hz ('/' :: '*' :: t)) : t.head? ≠ some '/' := by
  intro e
  cases t with
  | nil => simp at e
  | cons c t =>
    simp only [List.head?_cons, Option.some.injEq] at e
    subst e
    exact h.1 ⟨[], t, rfl⟩

theorem Hz.close {t : Text} (h : Hz ('*' :: '/' :: t)) : t.head? ≠ some '/' ∧ t.head? ≠ some '*' := by
  constructor
  · intro e
    cases t with
    | nil => simp at e
    | cons c t =>
      simp only [List.head?_cons, Option.some.injEq] at e
      subst e
      exact h.2.1 ⟨[], t, rfl⟩
  · intro e
    cases t with
    | nil => simp at e
    | cons c t =>
      simp only [List.head?_cons, Option.some.injEq] at e
      subst e
      exact h.2.2 ⟨[], t, rfl⟩

theorem unlex_head {ts : List Item} {y : Char} (h : WF ts) (hy : isWord y = false) (hh : (unlex ts).head? = some y) :
    ∃ ts', ts = .sep y :: ts' := by
  match ts, h with
  | [], _ => simp [unlex] at hh
  | .sep c :: ts, _ =>
    simp only [unlex, List.head?_cons, Option.some.injEq] at hh
    exact ⟨ts, by rw [hh]⟩
  | .word (c :: w) :: ts, h =>
    simp only [unlex, List.cons_append, List.head?_cons, Option.some.injEq] at hh
    have := h.2.1 c (List.mem_cons_self ..)
    rw [hh, hy] at this
    cases this
  | .word [] :: ts, h => exact absurd rfl h.1

theorem scan_code {c : Char} {t : Text} (h1 : ¬ (c = '/' ∧ (t.head? = some '/' ∨ t.head? = some '*'))) :
    scan .code (c :: t) = if c = '"' then .string :: scan .string t
    else if c = '\'' then .quoted :: scan .quoted t else .code :: scan .code t := by
  rw [scan]
  · rintro u rfl rfl
    exact h1 ⟨rfl, Or.inl rfl⟩
  · rintro u rfl rfl
    exact h1 ⟨rfl, Or.inr rfl⟩

theorem scan_block {c : Char} {t : Text} (h1 : ¬ (c = '*' ∧ t.head? = some '/')) :
    scan .block (c :: t) = .comment :: scan .block t := by
  rw [scan]
  rintro u rfl rfl
  exact h1 ⟨rfl, rfl⟩

theorem in_step {cmd : Table} (hT : CaseTable cmd) (strict : Prop) : ∀ (n : Nat) (ts : List Item) (M : Mode)
    (prev : Option Char) (k : Where), ts.length ≤ n → WF ts → Hz (unlex ts) → Label.quoted ∉ scan k (unlex ts) → InStep M prev (unlex ts) k →
    (strict → M.m = false ∧ ∀ w, Called (unlex ts) w → isUpper w = false) →
    Good cmd strict (scan k (unlex ts)) ts (pass cmd M prev ts)
  | _, [], M, prev, k, _, _, _, _, _, _ => by
    rw [pass]
    trivial
  | 0, .sep x :: ts, _, _, _, hn, _, _, _, _, _ => by simp at hn
  | 0, .word x :: ts, _, _, _, hn, _, _, _, _, _ => by simp at hn
  | n + 1, .sep x :: ts, M, prev, k, hn, h, hz, hq, hs, hst => by
    have hx := h.1
    have hz' : Hz (unlex ts) := Hz.tail (p := [x]) hz
    have hcall : ∀ w, Called (unlex ts) w → Called (unlex (.sep x :: ts)) w := fun w hw =>
      called_append (p := [x]) (by simpa using hx) hw
    have hpass : pass cmd M prev (.sep x :: ts) = .sep x :: pass cmd (after M prev x) (some x) ts := by rw [pass]
    have hul : unlex (.sep x :: ts) = x :: unlex ts := rfl
    rw [hul] at hz hq hs ⊢
    cases k with
    | code =>
      obtain ⟨s1, s2, s3⟩ := hs
      by_cases hsl : x = '/' ∧ (unlex ts).head? = some '/'
      · obtain ⟨rfl, hh⟩ := hsl
        obtain ⟨ts2, rfl⟩ := unlex_head h.2 (by decide) hh
        have hul2 : unlex (.sep '/' :: ts2) = '/' :: unlex ts2 := rfl
        have a1 : after M prev '/' = M := by
          have : prev ≠ some '/' := fun e => (s3 e).1 rfl
          unfold after
          simp [s1, s2, this]
        have a2 : after M (some '/') '/' = { M with c := .single } := by
          unfold after
          simp [s1, s2]
        have hsc : scan .code ('/' :: '/' :: unlex ts2) = .comment :: .comment :: scan .line (unlex ts2) := by rw [scan]
        rw [hul2, hsc] at hq ⊢
        rw [hpass, a1, pass, a2]
        refine ⟨rfl, rfl, in_step hT strict n ts2 _ _ .line (by simp only [List.length_cons] at hn ⊢; omega) h.2.2 (Hz.tail (p := ['/', '/']) hz) ?_ ⟨s1, rfl⟩ ?_⟩
        · intro e; exact hq (by simp [e])
        · intro e
          exact ⟨(hst e).1, fun w hw => (hst e).2 w (hcall w (called_append (p := ['/']) (by simpa using hx) hw))⟩
      · by_cases hst' : x = '/' ∧ (unlex ts).head? = some '*'
        · obtain ⟨rfl, hh⟩ := hst'
          obtain ⟨ts2, rfl⟩ := unlex_head h.2 (by decide) hh
          have hul2 : unlex (.sep '*' :: ts2) = '*' :: unlex ts2 := rfl
          have a1 : after M prev '/' = M := by
            have : prev ≠ some '/' := fun e => (s3 e).1 rfl
            unfold after
            simp [s1, s2, this]
          have a2 : after M (some '/') '*' = { M with c := .multi } := by
            unfold after
            simp [s1, s2]
          have hsc : scan .code ('/' :: '*' :: unlex ts2) = .comment :: .comment :: scan .block (unlex ts2) := by rw [scan]
          rw [hul2] at hz
          rw [hul2, hsc] at hq ⊢
          rw [hpass, a1, pass, a2]
          refine ⟨rfl, rfl, in_step hT strict n ts2 _ _ .block (by simp only [List.length_cons] at hn ⊢; omega) h.2.2 (Hz.tail (p := ['/', '*']) hz) ?_
            ⟨s1, rfl, fun _ => Hz.open hz⟩ ?_⟩
          · intro e; exact hq (by simp [e])
          · intro e
            exact ⟨(hst e).1, fun w hw => (hst e).2 w (hcall w (called_append (p := ['*']) (by simp; decide) hw))⟩
        · have hno : ¬ (x = '/' ∧ ((unlex ts).head? = some '/' ∨ (unlex ts).head? = some '*')) := by
            rintro ⟨e, e' | e'⟩
            · exact hsl ⟨e, e'⟩
            · exact hst' ⟨e, e'⟩
          rw [scan_code hno] at hq ⊢
          rw [hpass]
          by_cases hdq : x = '"'
          · subst hdq
            have a1 : after M prev '"' = { M with q := true } := by
              unfold after
              simp [s1, s2]
            rw [if_pos rfl] at hq ⊢
            rw [a1]
            refine ⟨rfl, in_step hT strict n ts _ _ .string (by simp only [List.length_cons] at hn ⊢; omega) h.2 hz' ?_ ⟨rfl, s2⟩ ?_⟩
            · intro e; exact hq (by simp [e])
            · intro e
              exact ⟨(hst e).1, fun w hw => (hst e).2 w (hcall w hw)⟩
          · rw [if_neg hdq] at hq ⊢
            by_cases hsq : x = '\''
            · rw [if_pos hsq] at hq
              exact absurd (by simp) hq
            · rw [if_neg hsq] at hq ⊢
              have a1 : (after M prev x).q = false ∧ (after M prev x).c = .no ∧ (M.m = false → (after M prev x).m = false) := by
                have p1 : prev = some '/' → x ≠ '/' ∧ x ≠ '*' := by
                  intro e
                  have := s3 e
                  simpa using this
                by_cases e1 : x = '/'
                · have : prev ≠ some '/' := fun e => (p1 e).1 e1
                  unfold after
                  simp [s1, s2, e1, this]
                · by_cases e2 : x = '*'
                  · have : prev ≠ some '/' := fun e => (p1 e).2 e2
                    unfold after
                    simp [s1, s2, e2, this]
                  · unfold after
                    by_cases e3 : x = '\n'
                    · simp [s1, s2, e3]
                    · simp only [hdq, e1, e2, e3, false_and, if_false]
                      split
                      · exact ⟨s1, s2, fun _ => rfl⟩
                      · exact ⟨s1, s2, id⟩
              refine ⟨rfl, in_step hT strict n ts _ _ .code (by simp only [List.length_cons] at hn ⊢; omega) h.2 hz' ?_ ⟨a1.1, a1.2.1, ?_⟩ ?_⟩
              · intro e; exact hq (by simp [e])
              · intro e
                simp only [Option.some.injEq] at e
                exact ⟨fun e' => hno ⟨e, Or.inl e'⟩, fun e' => hno ⟨e, Or.inr e'⟩⟩
              · intro e
                exact ⟨a1.2.2 (hst e).1, fun w hw => (hst e).2 w (hcall w hw)⟩
    | string =>
      obtain ⟨s1, s2⟩ := hs
      rw [scan] at hq ⊢
      rw [hpass]
      by_cases hdq : x = '"'
      · subst hdq
        have a1 : after M prev '"' = { M with q := false } := by
          unfold after
          simp [s1, s2]
        rw [if_pos rfl] at hq ⊢
        rw [a1]
        refine ⟨rfl, in_step hT strict n ts _ _ .code (by simp only [List.length_cons] at hn ⊢; omega) h.2 hz' ?_ ⟨rfl, s2, by simp⟩ ?_⟩
        · intro e; exact hq (by simp [e])
        · intro e
          exact ⟨(hst e).1, fun w hw => (hst e).2 w (hcall w hw)⟩
      · have a1 : after M prev x = M := by
          unfold after
          simp [s1, hdq]
        rw [if_neg hdq] at hq ⊢
        rw [a1]
        refine ⟨rfl, in_step hT strict n ts _ _ .string (by simp only [List.length_cons] at hn ⊢; omega) h.2 hz' ?_ ⟨s1, s2⟩ ?_⟩
        · intro e; exact hq (by simp [e])
        · intro e
          exact ⟨(hst e).1, fun w hw => (hst e).2 w (hcall w hw)⟩
    | quoted => exact hs.elim
    | line =>
      obtain ⟨s1, s2⟩ := hs
      rw [scan] at hq ⊢
      rw [hpass]
      by_cases hnl : x = '\n'
      · subst hnl
        have a1 : after M prev '\n' = { M with c := .no } := by
          unfold after
          simp [s1, s2]
        rw [if_pos rfl] at hq ⊢
        rw [a1]
        refine ⟨rfl, in_step hT strict n ts _ _ .code (by simp only [List.length_cons] at hn ⊢; omega) h.2 hz' ?_ ⟨s1, rfl, by simp⟩ ?_⟩
        · intro e; exact hq (by simp [e])
        · intro e
          exact ⟨(hst e).1, fun w hw => (hst e).2 w (hcall w hw)⟩
      · have a1 : after M prev x = M := by
          unfold after
          simp [s1, s2, hnl]
        rw [if_neg hnl] at hq ⊢
        rw [a1]
        refine ⟨rfl, in_step hT strict n ts _ _ .line (by simp only [List.length_cons] at hn ⊢; omega) h.2 hz' ?_ ⟨s1, s2⟩ ?_⟩
        · intro e; exact hq (by simp [e])
        · intro e
          exact ⟨(hst e).1, fun w hw => (hst e).2 w (hcall w hw)⟩
    | block =>
      obtain ⟨s1, s2, s3⟩ := hs
      by_cases hcl : x = '*' ∧ (unlex ts).head? = some '/'
      · obtain ⟨rfl, hh⟩ := hcl
        obtain ⟨ts2, rfl⟩ := unlex_head h.2 (by decide) hh
        have hul2 : unlex (.sep '/' :: ts2) = '/' :: unlex ts2 := rfl
        have a1 : after M prev '*' = M := by
          unfold after
          simp [s1, s2]
        have a2 : after M (some '*') '/' = { M with c := .no } := by
          unfold after
          simp [s1, s2]
        have hsc : scan .block ('*' :: '/' :: unlex ts2) = .comment :: .comment :: scan .code (unlex ts2) := by rw [scan]
        rw [hul2] at hz
        rw [hul2, hsc] at hq ⊢
        rw [hpass, a1, pass, a2]
        refine ⟨rfl, rfl, in_step hT strict n ts2 _ _ .code (by simp only [List.length_cons] at hn ⊢; omega) h.2.2 (Hz.tail (p := ['*', '/']) hz) ?_
          ⟨s1, rfl, fun _ => Hz.close hz⟩ ?_⟩
        · intro e; exact hq (by simp [e])
        · intro e
          exact ⟨(hst e).1, fun w hw => (hst e).2 w (hcall w (called_append (p := ['/']) (by simp; decide) hw))⟩
      · rw [scan_block hcl] at hq ⊢
        have a1 : after M prev x = M := by
          by_cases e : x = '/'
          · have : prev ≠ some '*' := fun e' => s3 e' (by simp [e])
            unfold after
            simp [s1, s2, e, this]
          · unfold after
            simp [s1, s2, e]
        rw [hpass, a1]
        refine ⟨rfl, in_step hT strict n ts _ _ .block (by simp only [List.length_cons] at hn ⊢; omega) h.2 hz' ?_ ⟨s1, s2, ?_⟩ ?_⟩
        · intro e; exact hq (by simp [e])
        · intro e e'
          simp only [Option.some.injEq] at e
          exact hcl ⟨e, e'⟩
        · intro e
          exact ⟨(hst e).1, fun w hw => (hst e).2 w (hcall w hw)⟩
  | n + 1, .word w :: ts, M, prev, k, hn, h, hz, hq, hs, hst => by
    have hz' : Hz (unlex ts) := Hz.tail (p := w) hz
    have hul : unlex (.word w :: ts) = w ++ unlex ts := rfl
    rw [hul] at hz hq hs hst ⊢
    rw [scan_word h.2.1] at hq ⊢
    have hq' : Label.quoted ∉ scan k (unlex ts) := fun e => hq (List.mem_append_right _ e)
    have hcode : M.code → k = .code := by
      intro hc
      cases k with
      | code => rfl
      | string => exact absurd hs.1 (by rw [hc.1]; simp)
      | quoted => exact hs.elim
      | line => exact absurd hs.2 (by rw [hc.2.1]; simp)
      | block => exact absurd hs.2.1 (by rw [hc.2.1]; simp)
    have hcode' : k = .code → M.m = false → M.code := by
      rintro rfl hm
      exact ⟨hs.1, hs.2.1, hm⟩
    have hlab : (match k with
      | .code => Label.code | .string => .string | .quoted => .quoted | .line => .comment | .block => .comment) = .code ↔
        k = .code := by cases k <;> simp
    generalize hl : (match k with
      | .code => Label.code | .string => .string | .quoted => .quoted | .line => .comment | .block => .comment) = l at *
    have htake : ∀ ls : List Label, (List.replicate w.length l ++ ls).take w.length = List.replicate w.length l := by
      intro ls
      rw [List.take_left' (by simp)]
    have hdrop : ∀ ls : List Label, (List.replicate w.length l ++ ls).drop w.length = ls := by
      intro ls
      rw [List.drop_left' (by simp)]
    have hnone : InStep M none (unlex ts) k := by
      cases k with
      | code => exact ⟨hs.1, hs.2.1, by simp⟩
      | string => exact hs
      | quoted => exact hs
      | line => exact hs
      | block => exact ⟨hs.1, hs.2.1, by simp⟩
    have hv : (if M.code then replace cmd w else w).length = w.length := by
      split
      · exact (sameButCase_length (replace_same hT w)).symm
      · rfl
    have hvv : (l ≠ .code → (if M.code then replace cmd w else w) = w) ∧
        (l = .code → strict → (if M.code then replace cmd w else w) = replace cmd w) := by
      constructor
      · intro e
        rw [if_neg (fun e' => e (hlab.2 (hcode e')))]
      · intro e e'
        rw [if_pos (hcode' (hlab.1 e) (hst e').1)]
    match ts, h with
    | [], h =>
      have : pass cmd M prev [.word w] = [.word (if M.code then replace cmd w else w)] := by simp [pass]
      rw [this]
      refine ⟨hv, ⟨l, htake _, hvv.1, hvv.2⟩, ?_⟩
      trivial
    | .word v :: ts, h => exact absurd h.2.2.1 (by simp [noWord])
    | .sep x :: ts, h =>
      by_cases hc : M.code ∧ x = '('
      · obtain ⟨hM, rfl⟩ := hc
        have hk := hcode hM
        subst hk
        rw [pass, if_pos hM, if_pos rfl]
        have hcall : Called (w ++ unlex (.sep '(' :: ts)) w := ⟨[], unlex ts, by simp [unlex], h.1, h.2.1, by simp⟩
        have hwr : (if w = "LOG".toList then w else replace cmd w).length = w.length := by
          split
          · rfl
          · exact (sameButCase_length (replace_same hT w)).symm
        refine ⟨hwr, ⟨l, htake _, fun e => absurd (hlab.2 rfl) e, ?_⟩, ?_⟩
        · intro _ e
          have := (hst e).2 w hcall
          rw [if_neg]
          rintro rfl
          exact absurd this (by decide)
        · rw [hdrop]
          have hsc : scan .code (unlex (.sep '(' :: ts)) = .code :: scan .code (unlex ts) := by
            show scan .code ('(' :: unlex ts) = _
            rw [scan_code (by rintro ⟨e, _⟩; exact absurd e (by decide)), if_neg (by decide), if_neg (by decide)]
          rw [hsc] at hq' ⊢
          refine ⟨rfl, in_step hT strict n ts _ _ .code (by simp only [List.length_cons] at hn ⊢; omega) h.2.2.2.2 (Hz.tail (p := ['(']) hz') ?_ ⟨hM.1, hM.2.1, by simp⟩ ?_⟩
          · intro e; exact hq' (by simp [e])
          · intro e
            refine ⟨(hst e).2 w hcall, fun v hv => (hst e).2 v ?_⟩
            have := called_append (p := w ++ ['(']) (by
              intro c hc
              simp only [List.getLast?_append, List.getLast?_singleton, Option.some_or, Option.some.injEq] at hc
              rw [← hc]
              rfl) hv
            simpa [unlex] using this
      · have hp : pass cmd M prev (.word w :: .sep x :: ts) =
            .word (if M.code then replace cmd w else w) :: pass cmd M none (.sep x :: ts) := by
          rw [pass, pass]
          by_cases hM : M.code
          · rw [if_pos hM, if_neg (fun e => hc ⟨hM, e⟩), if_pos hM]
          · rw [if_neg hM, if_neg hM]
        rw [hp]
        refine ⟨hv, ⟨l, htake _, hvv.1, hvv.2⟩, ?_⟩
        rw [hdrop]
        refine in_step hT strict n (.sep x :: ts) M none k (by simp only [List.length_cons] at hn ⊢; omega) h.2.2.2 hz' hq' hnone ?_
        intro e
        refine ⟨(hst e).1, ?_⟩
        rintro v ⟨a, b, hv1, hv2, hv3, hv4⟩
        refine (hst e).2 v ⟨w ++ a, b, by simp [hv1], hv2, hv3, ?_⟩
        intro c hc
        rw [List.getLast?_append] at hc
        cases ha : a.getLast? with
        | some y => rw [ha] at hc; exact hv4 c (by rw [ha]; simpa using hc)
        | none =>
          -- the text goes on with a character that is not of a word
          have : a = [] := List.getLast?_eq_none_iff.1 ha
          subst this
          match v, hv2 with
          | y :: v, _ =>
            simp only [unlex, List.nil_append, List.cons_append, List.cons.injEq] at hv1
            have := hv3 y (List.mem_cons_self ..)
            rw [← hv1.1, h.2.2.2.1] at this
            cases this

theorem good_elsewhere {cmd : Table} {strict : Prop} : ∀ {ts us : List Item} {ls : List Label}, Good cmd strict ls ts us →
    ∀ (i : Nat) (l : Label), ls[i]? = some l → l ≠ .code → (unlex us)[i]? = (unlex ts)[i]?
  | [], [], _, _, _, _, _, _ => rfl
  | .sep x :: ts, .sep y :: us, ls, h, i, l, hi, hl => by
    obtain ⟨rfl, h⟩ := h
    cases i with
    | zero => rfl
    | succ i =>
      simp only [unlex, List.getElem?_cons_succ]
      exact good_elsewhere h i l (by rw [List.getElem?_drop, Nat.add_comm]; exact hi) hl
  | .word w :: ts, .word v :: us, ls, h, i, l, hi, hl => by
    obtain ⟨hlen, ⟨m, h1, h2, _⟩, h⟩ := h
    simp only [unlex]
    by_cases hlt : i < w.length
    · have : (ls.take w.length)[i]? = some l := by rw [List.getElem?_take_of_lt hlt]; exact hi
      rw [h1, List.getElem?_replicate, if_pos hlt, Option.some.injEq] at this
      rw [h2 (by rw [this]; exact hl), List.getElem?_append_left hlt, List.getElem?_append_left hlt]
    · have hge : w.length ≤ i := Nat.le_of_not_lt hlt
      rw [List.getElem?_append_right hge, List.getElem?_append_right (by omega), hlen]
      refine good_elsewhere h (i - w.length) l ?_ hl
      rw [List.getElem?_drop, Nat.add_sub_cancel' hge]
      exact hi

theorem good_word {cmd : Table} {strict : Prop} (hst : strict) : ∀ {ts us : List Item} {ls : List Label}, WF ts →
    Good cmd strict ls ts us → ∀ (a w b : Text), unlex ts = a ++ w ++ b → w ≠ [] → (∀ c ∈ w, isWord c = true) →
    (∀ c, a.getLast? = some c → isWord c = false) → (∀ c, b.head? = some c → isWord c = false) →
    ls[a.length]? = some .code → ((unlex us).drop a.length).take w.length = replace cmd w
  | [], _, _, _, _, a, w, b, e, hw, _, _, _, _ => by
    simp only [unlex, List.append_assoc] at e
    have := List.append_eq_nil_iff.1 e.symm
    exact absurd (List.append_eq_nil_iff.1 this.2).1 hw
  | .sep x :: ts, .sep y :: us, ls, hwf, h, a, w, b, e, hw, hww, ha, hb, hc => by
    obtain ⟨rfl, h⟩ := h
    cases a with
    | nil =>
      match w, hw with
      | c :: w, _ =>
        simp only [unlex, List.nil_append, List.cons_append, List.cons.injEq] at e
        have := hww c (List.mem_cons_self ..)
        rw [← e.1, hwf.1] at this
        cases this
    | cons c a =>
      simp only [unlex, List.cons_append, List.cons.injEq] at e
      simp only [unlex, List.length_cons, List.drop_succ_cons]
      refine good_word hst hwf.2 h a w b e.2 hw hww ?_ hb (by rw [List.getElem?_drop, Nat.add_comm]; exact hc)
      intro d hd
      refine ha d ?_
      cases a with
      | nil => simp at hd
      | cons _ _ => simpa using hd
  | .word v :: ts, .word v' :: us, ls, hwf, h, a, w, b, e, hw, hww, ha, hb, hc => by
    obtain ⟨hlen, ⟨m, h1, _, h3⟩, h⟩ := h
    obtain ⟨g1, g2, g3, g4⟩ := hwf
    simp only [unlex] at e ⊢
    cases a with
    | nil =>
      have hvw : v = w := by
        rw [List.nil_append] at e
        rcases List.append_eq_append_iff.1 e with ⟨p, q1, q2⟩ | ⟨p, q1, q2⟩
        · cases p with
          | nil => simpa using q1.symm
          | cons c p =>
            have k1 := hww c (by rw [q1]; simp)
            match ts, g3, g4 with
            | [], _, _ => simp [unlex] at q2
            | .sep d :: ts, _, g4 =>
              simp only [unlex, List.cons_append, List.cons.injEq] at q2
              rw [← q2.1, g4.1] at k1
              cases k1
        · cases p with
          | nil => simpa using q1
          | cons c p =>
            have k1 := g2 c (by rw [q1]; simp)
            rw [hb c (by rw [q2]; rfl)] at k1
            cases k1
      subst hvw
      simp only [List.length_nil, List.drop_zero]
      rw [← hlen, List.take_left']
      · refine h3 ?_ hst
        have : (ls.take v.length)[0]? = some .code := by
          rw [List.getElem?_take_of_lt (by cases v with | nil => exact absurd rfl g1 | cons _ _ => simp)]
          exact hc
        rw [h1, List.getElem?_replicate] at this
        split at this
        · exact Option.some.inj this
        · cases this
      · rfl
    | cons c a =>
      rw [List.append_assoc] at e
      rcases List.append_eq_append_iff.1 e with ⟨p, q1, q2⟩ | ⟨p, q1, q2⟩
      · rw [q1]
        rw [q1] at hc ha
        rw [← List.append_assoc] at q2
        have := good_word hst g4 h p w b q2 hw hww (fun d hd => ha d (by
          rw [List.getLast?_append, hd]; rfl)) hb (by
            rw [List.getElem?_drop, ← List.length_append]; exact hc)
        rw [List.length_append, ← hlen, ← List.drop_drop, List.drop_left' rfl]
        exact this
      · exfalso
        have hl : (c :: a).getLast (by simp) ∈ v := by
          rw [q1]
          exact List.mem_append_left _ (List.getLast_mem _)
        have := ha _ (List.getLast?_eq_some_getLast (by simp))
        rw [g2 _ hl] at this
        cases this

/-- Strings in double quotes and comments stay as they are. Missing: texts where the tool and the language do not agree
what a comment is, and strings in single quotes, see `C42_comment_violated` and `C42_quoted_violated`. -/
theorem C42_strings_comments_partial {cmd : Table} (hT : CaseTable cmd) (t : Text) (hc : Clean t) (i : Nat) (l : Label)
    (hi : (scan .code t)[i]? = some l) (hl : l ≠ .code) : (fix cmd t)[i]? = t[i]? := by
  obtain ⟨ts, h, rfl⟩ := lex_exists t
  rw [fix_eq hT h]
  exact good_elsewhere (in_step hT False ts.length ts {} none .code (Nat.le_refl _) h ⟨hc.1, hc.2.1, hc.2.2.1⟩ hc.2.2.2
    ⟨rfl, rfl, by simp⟩ False.elim) i l hi hl

/-- Every command in the code is written as the table has it. Missing: the same texts, and texts with words in capital
letters before an opening bracket, which the tool takes for macros. -/
theorem C42_fixes_partial {cmd : Table} (hT : CaseTable cmd) (t : Text) (hc : Clean t)
    (hu : ∀ w, Called t w → isUpper w = false) (a w b : Text) (ht : t = a ++ w ++ b) (hw : w ≠ [])
    (hww : ∀ c ∈ w, isWord c = true) (ha : ∀ c, a.getLast? = some c → isWord c = false)
    (hb : ∀ c, b.head? = some c → isWord c = false) (hcode : (scan .code t)[a.length]? = some .code) :
    ((fix cmd t).drop a.length).take w.length = (cmd w).getD w := by
  obtain ⟨ts, h, rfl⟩ := lex_exists t
  rw [fix_eq hT h]
  exact good_word trivial h (in_step hT True ts.length ts {} none .code (Nat.le_refl _) h ⟨hc.1, hc.2.1, hc.2.2.1⟩ hc.2.2.2
    ⟨rfl, rfl, by simp⟩ fun _ => ⟨rfl, hu⟩) a w b ht hw hww ha hb hcode

/-! ### Where it goes wrong, and examples -/

/-- A table with the commands `hint`, `player` and `setDir`. -/
def sampleTable : Table := fun w =>
  if w.map lowerC = "hint".toList then some "hint".toList
  else if w.map lowerC = "player".toList then some "player".toList
  else if w.map lowerC = "setdir".toList then some "setDir".toList
  else none

theorem sample_caseTable : CaseTable sampleTable where
  same w c h := by
    unfold sampleTable at h
    unfold SameButCase
    split at h
    · rename_i e; cases h; rw [e]; decide
    · split at h
      · rename_i e; cases h; rw [e]; decide
      · split at h
        · rename_i e; cases h; rw [e]; decide
        · cases h
  stable w c h := by
    unfold sampleTable at h
    split at h
    · cases h; decide
    · split at h
      · cases h; decide
      · split at h
        · cases h; decide
        · cases h

/-- A command in capital letters before an opening bracket is taken for a macro, and written as the command it is: a second
run changes more. -/
theorem C42_twice_violated : ∃ cmd t, CaseTable cmd ∧ fix cmd (fix cmd t) ≠ fix cmd t :=
  ⟨sampleTable, "HINT(PLAYER)".toList, sample_caseTable, by decide +kernel⟩

/-- Text in a comment is changed. -/
theorem C42_comment_violated : ∃ (cmd : Table) (t : Text) (i : Nat), CaseTable cmd ∧ (scan .code t)[i]? = some .comment ∧ (fix cmd t)[i]? ≠ t[i]? :=
  ⟨sampleTable, "/*/ HINT */".toList, 4, sample_caseTable, by decide +kernel, by decide +kernel⟩

/-- Text in a string in single quotes is changed. -/
theorem C42_quoted_violated : ∃ (cmd : Table) (t : Text) (i : Nat), CaseTable cmd ∧ (scan .code t)[i]? = some .quoted ∧ (fix cmd t)[i]? ≠ t[i]? :=
  ⟨sampleTable, "hint 'Player'".toList, 6, sample_caseTable, by decide +kernel, by decide +kernel⟩

example : fix sampleTable "PLAYER SETDIR 3; // PLAYER\nHint \"SETDIR\"".toList =
    "player setDir 3; // PLAYER\nhint \"SETDIR\"".toList := by decide +kernel
example : fix sampleTable "GVAR(HINT) = Hint; /* Hint */".toList = "GVAR(HINT) = hint; /* Hint */".toList := by decide +kernel

example : Clean "PLAYER SETDIR 3; // PLAYER\nHint \"SETDIR\"".toList ∧
    (scan .code "PLAYER SETDIR 3; // PLAYER\nHint \"SETDIR\"".toList)[20]? = some .comment ∧
    (scan .code "PLAYER SETDIR 3; // PLAYER\nHint \"SETDIR\"".toList)[7]? = some .code := by
  refine ⟨⟨?_, ?_, ?_, ?_⟩, ?_, ?_⟩ <;> decide +kernel

end Verif.CaseFix
