import Verif.Lib.Tokenize
/-!
Lemmas about the tokenizer of the preprocessor: which texts it reads, and the places of the tokens.
-/
namespace Verif.Preproc
open Spec

theorem outside_block {s a r : Text} (h : blockEnd s = some (a, r)) : outside true s = outside false r := by
  induction s generalizing a r with
  | nil => simp [blockEnd] at h
  | cons c s ih =>
    rw [blockEnd] at h
    split at h
    · rename_i hc
      obtain ⟨rfl, hs⟩ := hc
      cases s with
      | nil => simp at hs
      | cons d s => simp at hs h; obtain ⟨rfl, rfl⟩ := h; subst hs; simp [outside]
    · rename_i hn
      cases hb : blockEnd s with
      | none => simp [hb] at h
      | some x =>
        obtain ⟨a', r'⟩ := x
        simp [hb] at h
        obtain ⟨rfl, rfl⟩ := h
        rw [outside.eq_def]
        split
        any_goals (first | contradiction | simp at *)
        · simp_all
        · simp_all

theorem outside_plain {c : Char} (hc : c ≠ '/') (s : Text) : outside false (c :: s) = c :: outside false s := by
  simp [outside, hc]

theorem outside_plains {w : Text} (hw : ∀ c ∈ w, Plain c) (s : Text) :
    outside false (w ++ s) = w ++ outside false s := by
  induction w with
  | nil => rfl
  | cons c w ih =>
    simp only [List.cons_append]
    rw [outside_plain (hw c (by simp)).1, ih (fun d hd => hw d (by simp [hd]))]

theorem outside_slash {s : Text} (h : commentAt ('/' :: s) = none) :
    outside false ('/' :: s) = '/' :: outside false s := by
  obtain ⟨h1, h2⟩ := commentAt_slash h
  cases s with
  | nil => simp [outside]
  | cons d s =>
    have hd : d ≠ '/' := by simpa using h1
    by_cases hst : d = '*'
    · subst hst
      simp [outside, h2 s rfl]
    · simp [outside, hd, hst]

theorem next_none {cl : Classes} (hcl : cl.Ascii) {c : Char} {s : Text} :
    next cl (c :: s) = none ↔ ¬ Known cl c := by
  constructor
  · intro h hk
    rw [next] at h
    replace h := ite_or h
    rcases h with ⟨_, h⟩ | ⟨h1, h⟩
    · simp at h
    replace h := ite_or h
    rcases h with ⟨_, h⟩ | ⟨h2, h⟩
    · simp at h
    split at h
    · simp at h
    rw [tokenAt] at h
    iterate 17
      replace h := ite_or h
      rcases h with ⟨_, h⟩ | ⟨_, h⟩
      · simp at h
    unfold Known at hk
    simp_all
  · intro hk
    have hne : ∀ d : Char, Known cl d → c ≠ d := by rintro d hd rfl; exact hk hd
    have ha : ∀ d : Char, 33 ≤ d.toNat ∧ d.toNat < 127 → c ≠ d := fun d hd => hne d (known_ascii hcl hd)
    have hd : asciiDigit c = false := by
      cases h : asciiDigit c with
      | false => rfl
      | true => exact (hk (digit_known hcl h)).elim
    have hl : cl.letter c = false := by
      cases h : cl.letter c with
      | false => rfl
      | true => exact (hk (.inl h)).elim
    have hs : cl.sign c = false := by
      cases h : cl.sign c with
      | false => rfl
      | true => exact (hk (.inr (.inl h))).elim
    rw [next, if_neg (hne ' ' (by simp [Known])), if_neg (hne '\t' (by simp [Known]))]
    have hcm : commentAt (c :: s) = none := by
      have := ha '/' (by decide +kernel)
      simp [commentAt, this]
    rw [hcm]
    have h1 := ha '_' (by decide +kernel)
    have h2 := ha '(' (by decide +kernel)
    have h3 := ha ')' (by decide +kernel)
    have h4 := ha '#' (by decide +kernel)
    have h5 := ha '\\' (by decide +kernel)
    have h6 := ha ',' (by decide +kernel)
    have h7 := ha '"' (by decide +kernel)
    have h8 := ha '\'' (by decide +kernel)
    have h9 := ha '<' (by decide +kernel)
    have h10 := ha '>' (by decide +kernel)
    have h11 := ha '=' (by decide +kernel)
    have h12 := hne '\n' (by simp [Known])
    have h13 := hne '\r' (by simp [Known])
    simp [tokenAt, *]

theorem pairs_some {cl : Classes} (hcl : cl.Ascii) : ∀ (n : Nat) (s : Text), s.length ≤ n →
    ((pairs cl n s).isSome = true ↔ ∀ c ∈ outside false s, Known cl c) := by
  intro n
  induction n with
  | zero =>
    intro s hs
    cases s with
    | nil => simp [pairs, outside]
    | cons c s => simp at hs
  | succ n ih =>
    intro s hs
    cases s with
    | nil => simp [pairs, outside]
    | cons c s =>
      rw [pairs]
      cases hn : next cl (c :: s) with
      | none =>
        have hk := (next_none hcl).1 hn
        have hsl : c ≠ '/' := by rintro rfl; exact hk (known_ascii hcl (by decide +kernel))
        rw [outside_plain hsl]
        simp [hk]
      | some x =>
        obtain ⟨p, r⟩ := x
        have hc := next_cases hcl hn
        have he := hc.eq
        have hlen : r.length ≤ n := by
          have h1 := congrArg List.length he.1
          have h2 := List.length_pos_iff.2 he.2
          simp at h1 hs; omega
        refine Iff.trans (b := (pairs cl n r).isSome = true) ?_ ((ih r hlen).trans ?_)
        · cases hp : pairs cl n r <;> simp [hp]
        clear he hn hs
        generalize c :: s = s0 at hc ⊢
        have hsl : Known cl '/' := known_ascii hcl (by decide +kernel)
        cases hc with
        | block hb =>
          have hclo : Closes _ := Classical.not_not.1 (fun hn => by rw [← blockEnd_none, hb] at hn; simp at hn)
          simp [outside, hclo, outside_block hb]
        | line => simp [outside, hsl]
        | slash _ hcm => rw [outside_slash hcm]; simp [hsl]
        | plain _ _ hp hk _ _ =>
          rw [outside_plains hp r]
          simp only [List.mem_append]
          exact ⟨fun h c hc => hc.elim (hk c) (h c), fun h c hc => h c (.inr hc)⟩
        | dq => simp [outside, known_ascii hcl (c := '"') (by decide +kernel)]
        | sq => simp [outside, known_ascii hcl (c := '\'') (by decide +kernel)]
        | _ => simp [outside, Known]

theorem split_length (c : Char) (s : Text) : (split c s).length = s.count c + 1 := by
  induction s with
  | nil => rfl
  | cons a s ih =>
    simp only [split]
    split
    · rename_i h; subst h; simp [ih]
    · rename_i h
      have := split_ne_nil c s
      cases hs : split c s with
      | nil => exact absurd hs this
      | cons p ps => rw [hs] at ih; simpa [h] using ih

theorem utf8_append (a b : Text) : utf8 (a ++ b) = utf8 a + utf8 b := by simp [utf8]

/-- How a symbol is written. -/
def Spelled : Sym → Text → Prop
  | .newline, raw => raw = ['\n'] ∨ raw = ['\r', '\n'] ∨ raw = ['\r']
  | .comment c, raw => raw = c
  | y, raw => raw = y.text

/-- Every carriage return belongs to a line end `\r\n`. -/
def NoBareCr (s : Text) : Prop := ∀ a b, s = a ++ '\r' :: b → b.head? = some '\n'

theorem NoBareCr.suffix {a b : Text} (h : NoBareCr (a ++ b)) : NoBareCr b :=
  fun x y e => h (a ++ x) y (by simp [e])

/-- The word is a comment inside of a string. -/
def Sym.stray : Sym → Bool
  | .word w => w.head? == some '/'
  | _ => false

/-- The token stands where its position says. -/
structure Placed (src : Text) (t : Tok) (pre raw post : Text) : Prop where
  src : src = pre ++ raw ++ post
  spelled : Spelled t.sym raw
  start : t.pos.start.offset = utf8 pre
  stop : t.sym.stray = false → t.pos.stop.offset = utf8 (pre ++ raw)

/-- Line numbers count line ends. -/
structure Lined (t : Tok) (pre raw : Text) : Prop where
  start : t.pos.start.line = 1 + pre.count '\n'
  stop : t.sym.stray = false → t.pos.stop.line = 1 + (pre ++ raw).count '\n'

theorem NextCase.spelled {cl : Classes} {s r : Text} {p : Pair} (h : NextCase cl s p r) : Spelled p.sym p.raw := by
  cases h with
  | plain r hne hp hk ho hy => 
    revert ho hy
    rename_i y
    cases y <;> simp_all [Spelled, Sym.ordinary]
  | _ => simp [Spelled, Sym.text]

theorem NextCase.not_stray {cl : Classes} {s r : Text} {p : Pair} (h : NextCase cl s p r) : p.sym.stray = false := by
  cases h with
  | plain r hne hp hk ho hy => 
    rename_i raw y
    cases y <;> simp_all [Sym.stray, Sym.text]
    rename_i w
    cases raw with
    | nil => simp
    | cons c w => simpa using (hp c (by simp)).1
  | _ => simp [Sym.stray]

theorem emits_placed {cl : Classes} {pre s r : Text} {p : Pair} (h : NextCase cl s p r) {st : LexSt} {path : Text}
    (ho : st.offset = utf8 pre) {t : Tok} (ht : t ∈ st.emits path p) :
    Placed (pre ++ s) t pre p.raw r ∧ t.pos.path = path := by
  have he := h.eq.1
  unfold LexSt.emits at ht
  rcases List.mem_append.1 ht with ht | ht
  · unfold LexSt.stray at ht
    split at ht
    · split at ht
      · rw [List.mem_singleton] at ht
        subst ht
        refine ⟨⟨by simp [he], ?_, ho, ?_⟩, rfl⟩
        · simp [Spelled, Sym.text]
        · intro hs; exfalso; revert hs
          cases h with
          | plain _ _ _ _ ho' => simp_all [Sym.ordinary]
          | block => simp [Sym.stray]
          | line => simp [Sym.stray]
          | _ => simp_all
      · simp at ht
    · simp at ht
  · split at ht
    · simp at ht
    · rw [List.mem_singleton] at ht
      subst ht
      refine ⟨⟨by simp [he], h.spelled, ho, fun _ => ?_⟩, rfl⟩
      simp [LexSt.after, utf8_append, ho]

theorem lexLoop_placed {cl : Classes} (hcl : cl.Ascii) (path : Text) : ∀ (n : Nat) (pre s : Text) (ps : List Pair)
    (st : LexSt), pairs cl n s = some ps → st.offset = utf8 pre → ∀ t ∈ lexLoop path st ps,
    (∃ a raw b, Placed (pre ++ s) t a raw b ∧ pre <+: a) ∧ t.pos.path = path := by
  intro n
  induction n with
  | zero =>
    intro pre s ps st h ho t ht
    cases s with
    | nil =>
      simp [pairs] at h; subst h
      simp only [lexLoop, LexSt.stray, LexSt.turn, List.nil_append, List.append_nil] at ht
      by_cases hs : st.skipping = true
      · simp [hs] at ht
      · simp only [hs, Bool.false_eq_true, if_false, List.mem_singleton] at ht
        subst ht
        exact ⟨⟨pre, [], [], ⟨by simp, by simp [Spelled, Sym.text], ho, fun _ => by simp [ho, utf8]⟩, by simp⟩, rfl⟩
    | cons c s => simp [pairs] at h
  | succ n ih =>
    intro pre s ps st h ho t ht
    cases s with
    | nil =>
      simp [pairs] at h; subst h
      simp only [lexLoop, LexSt.stray, LexSt.turn, List.nil_append, List.append_nil] at ht
      by_cases hs : st.skipping = true
      · simp [hs] at ht
      · simp only [hs, Bool.false_eq_true, if_false, List.mem_singleton] at ht
        subst ht
        exact ⟨⟨pre, [], [], ⟨by simp, by simp [Spelled, Sym.text], ho, fun _ => by simp [ho, utf8]⟩, by simp⟩, rfl⟩
    | cons c s =>
      rw [pairs] at h
      cases hn : next cl (c :: s) with
      | none => simp [hn] at h
      | some x =>
        obtain ⟨p, r⟩ := x
        cases hp : pairs cl n r with
        | none => simp [hn, hp] at h
        | some qs =>
          simp [hn, hp] at h; subst h
          have hc := next_cases hcl hn
          rw [lexLoop_cons] at ht
          rcases List.mem_append.1 ht with ht | ht
          · obtain ⟨h1, h2⟩ := emits_placed hc ho ht
            exact ⟨⟨_, _, _, h1, by simp⟩, h2⟩
          · obtain ⟨⟨a, raw, b, h1, h2⟩, h3⟩ := ih (pre ++ p.raw) r qs (st.after p) hp
              (by simp [LexSt.after, utf8_append, ho]) t ht
            refine ⟨⟨a, raw, b, ?_, (List.prefix_append _ _).trans h2⟩, h3⟩
            rw [hc.eq.1, ← List.append_assoc]; exact h1

theorem plain_count {w : Text} (h : ∀ c ∈ w, Plain c) : w.count '\n' = 0 :=
  List.count_eq_zero.2 fun hm => (h _ hm).2.2.2.2 rfl

theorem step_line {cl : Classes} {s r : Text} {p : Pair} (h : NextCase cl s p r) {st : LexSt} (hi : st.Ok)
    (ht : NoTrap st.mode s) (hcr : NoBareCr s) :
    (st.after p).line = st.line + p.raw.count '\n' := by
  cases h with
  | plain r hne hp hk ho hy => simp [LexSt.after, ordinary_turn (p := ⟨_, _⟩) ho, plain_count hp]
  | cr r hr => exact absurd (hcr [] r rfl) hr
  | block hb =>
    have hclo : Closes _ := Classical.not_not.1 (fun hn => by rw [← blockEnd_none, hb] at hn; simp at hn)
    have hm : st.single = false ∧ st.double = false := by
      obtain ⟨l, c, o, sg, db, sk⟩ := st
      obtain ⟨hi1, hi2⟩ := hi
      cases sk <;> cases db <;> cases sg <;> simp [NoTrap, LexSt.mode, hclo] at hi1 hi2 ht ⊢
    simp only [LexSt.after, LexSt.turn, hm.1, hm.2, Bool.or_self, Bool.false_eq_true, if_false]
    rw [split_length]; rfl
  | line r =>
    simp only [LexSt.after, LexSt.turn]
    split
    · simp
    · rw [split_length]; rfl
  | _ =>
    simp only [LexSt.after, LexSt.turn]
    first | rfl | (split <;> simp)

theorem emits_lined {cl : Classes} {pre s r : Text} {p : Pair} (h : NextCase cl s p r) {st : LexSt} {path : Text}
    (hi : st.Ok) (hn : NoTrap st.mode s) (hcr : NoBareCr s)
    (hl : st.line = 1 + pre.count '\n') {t : Tok} (ht : t ∈ st.emits path p) :
    Lined t pre p.raw := by
  have hs := step_line h hi hn hcr
  unfold LexSt.emits at ht
  rcases List.mem_append.1 ht with ht | ht
  · unfold LexSt.stray at ht
    split at ht
    · split at ht
      · rw [List.mem_singleton] at ht
        subst ht
        refine ⟨hl, ?_⟩
        intro hs; exfalso; revert hs
        cases h with
        | plain _ _ _ _ ho' => simp_all [Sym.ordinary]
        | block => simp [Sym.stray]
        | line => simp [Sym.stray]
        | _ => simp_all
      · simp at ht
    · simp at ht
  · split at ht
    · simp at ht
    · rw [List.mem_singleton] at ht
      subst ht
      refine ⟨hl, fun _ => ?_⟩
      show (st.after p).line = _
      rw [hs, hl, List.count_append]; omega

theorem lexLoop_lined {cl : Classes} (hcl : cl.Ascii) (path : Text) : ∀ (n : Nat) (pre s : Text) (ps : List Pair)
    (st : LexSt), pairs cl n s = some ps → st.offset = utf8 pre → st.line = 1 + pre.count '\n' → st.Ok →
    NoTrap st.mode s → NoBareCr s → ∀ t ∈ lexLoop path st ps,
    ∃ a raw b, Placed (pre ++ s) t a raw b ∧ Lined t a raw := by
  have base : ∀ (pre : Text) (st : LexSt), st.offset = utf8 pre → st.line = 1 + pre.count '\n' →
      ∀ t ∈ lexLoop path st [⟨[], .eoi⟩], ∃ a raw b, Placed (pre ++ []) t a raw b ∧ Lined t a raw := by
    intro pre st ho hl t ht
    simp only [lexLoop, LexSt.stray, LexSt.turn, List.nil_append, List.append_nil] at ht
    by_cases hs : st.skipping = true
    · simp [hs] at ht
    · simp only [hs, Bool.false_eq_true, if_false, List.mem_singleton] at ht
      subst ht
      exact ⟨pre, [], [], ⟨by simp, by simp [Spelled, Sym.text], ho, fun _ => by simp [ho, utf8]⟩,
        ⟨hl, fun _ => by simpa using hl⟩⟩
  intro n
  induction n with
  | zero =>
    intro pre s ps st h ho hl _ _ _
    cases s with
    | nil => simp [pairs] at h; subst h; exact base pre st ho hl
    | cons c s => simp [pairs] at h
  | succ n ih =>
    intro pre s ps st h ho hl hi htr hcr
    cases s with
    | nil => simp [pairs] at h; subst h; exact base pre st ho hl
    | cons c s =>
      intro t ht
      rw [pairs] at h
      cases hn : next cl (c :: s) with
      | none => simp [hn] at h
      | some x =>
        obtain ⟨p, r⟩ := x
        cases hp : pairs cl n r with
        | none => simp [hn, hp] at h
        | some qs =>
          simp [hn, hp] at h; subst h
          have hc := next_cases hcl hn
          obtain ⟨h1, h2, _⟩ := step_text hc hi path htr
          rw [lexLoop_cons] at ht
          rcases List.mem_append.1 ht with ht | ht
          · exact ⟨_, _, _, (emits_placed hc ho ht).1, emits_lined hc hi htr hcr hl ht⟩
          · have he := hc.eq.1
            obtain ⟨a, raw, b, h4, h5⟩ := ih (pre ++ p.raw) r qs (st.after p) hp
              (by simp [LexSt.after, utf8_append, ho])
              (by rw [step_line hc hi htr hcr, hl, List.count_append]; omega) h1 h2
              (NoBareCr.suffix (he ▸ hcr)) t ht
            refine ⟨a, raw, b, ?_, h5⟩
            rw [he, ← List.append_assoc]; exact h4

end Verif.Preproc
