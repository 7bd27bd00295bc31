import Verif.Model.Tokenize
import Verif.Spec.Comments
import Mathlib.Tactic.IntervalCases
import Mathlib.Data.List.TakeWhile
/-!
Lemmas about the tokenizer of the preprocessor.
-/
namespace Verif.Preproc
open Spec

/-- Neither the start of a comment, nor a quote, nor a line end. -/
def Plain (c : Char) : Prop := c ≠ '/' ∧ c ≠ '"' ∧ c ≠ '\'' ∧ c ≠ '\r' ∧ c ≠ '\n'

instance : DecidablePred Plain := fun c => by unfold Plain; infer_instance

theorem ite_or {α : Sort _} {c : Prop} [Decidable c] {a b x : α} (h : (if c then a else b) = x) :
    (c ∧ a = x) ∨ (¬ c ∧ b = x) := by
  by_cases hc : c
  · exact .inl ⟨hc, by rwa [if_pos hc] at h⟩
  · exact .inr ⟨hc, by rwa [if_neg hc] at h⟩

/-- What of a piece of text in this mode comes out. -/
def seen (m : Mode) (t : Text) : Text := if m = .line then [] else t

theorem strip_plain {m : Mode} (hm : m ≠ .block) {c : Char} (hc : Plain c) (s : Text) :
    strip m (c :: s) = seen m [c] ++ strip m s := by
  obtain ⟨h1, h2, h3, h4, h5⟩ := hc
  cases m <;> simp_all [strip, seen]

theorem noTrap_plain {m : Mode} (hm : m ≠ .block) {c : Char} (hc : Plain c) (s : Text) :
    NoTrap m (c :: s) ↔ NoTrap m s := by
  obtain ⟨h1, h2, h3, h4, h5⟩ := hc
  cases m <;> simp_all [NoTrap]

theorem blockEnd_some {s a r : Text} (h : blockEnd s = some (a, r)) : s = a ++ '*' :: '/' :: r := by
  induction s generalizing a r with
  | nil => simp [blockEnd] at h
  | cons c s ih =>
    rw [blockEnd] at h
    split at h
    · rename_i hc
      obtain ⟨rfl, hs⟩ := hc
      cases s with
      | nil => simp at hs
      | cons d s => simp at hs h; obtain ⟨rfl, rfl⟩ := h; simp [hs]
    · cases hb : blockEnd s with
      | none => simp [hb] at h
      | some x =>
        obtain ⟨a', r'⟩ := x
        simp [hb] at h
        obtain ⟨rfl, rfl⟩ := h
        simp [ih hb]

theorem blockEnd_none {s : Text} : blockEnd s = none ↔ ¬ Closes s := by
  constructor
  · intro h hc
    induction s with
    | nil => simp [Closes] at hc
    | cons c s ih =>
      rw [blockEnd] at h
      split at h
      · simp at h
      · rename_i hn
        cases hb : blockEnd s with
        | some x => simp [hb] at h
        | none =>
          rcases List.infix_cons_iff.1 hc with hp | hi
          · obtain ⟨t, ht⟩ := hp
            simp at ht
            obtain ⟨rfl, rfl⟩ := ht
            simp at hn
          · exact ih hb hi
  · intro hc
    cases hb : blockEnd s with
    | none => rfl
    | some x =>
      obtain ⟨a, r⟩ := x
      exact (hc ⟨a, r, by rw [blockEnd_some hb]; simp⟩).elim

theorem strip_block {s a r : Text} (h : blockEnd s = some (a, r)) :
    strip .block s = strip .code r := by
  induction s generalizing a r with
  | nil => simp [blockEnd] at h
  | cons c s ih =>
    rw [blockEnd] at h
    split at h
    · rename_i hc
      obtain ⟨rfl, hs⟩ := hc
      cases s with
      | nil => simp at hs
      | cons d s => simp at hs h; obtain ⟨rfl, rfl⟩ := h; subst hs; simp [strip]
    · rename_i hn
      cases hb : blockEnd s with
      | none => simp [hb] at h
      | some x =>
        obtain ⟨a', r'⟩ := x
        simp [hb] at h
        obtain ⟨rfl, rfl⟩ := h
        rw [strip.eq_def]
        split
        any_goals (first | contradiction | simp at *)
        · simp_all
        · simp_all

theorem noTrap_block {s a r : Text} (h : blockEnd s = some (a, r)) :
    NoTrap .block s ↔ NoTrap .code r := by
  induction s generalizing a r with
  | nil => simp [blockEnd] at h
  | cons c s ih =>
    rw [blockEnd] at h
    split at h
    · rename_i hc
      obtain ⟨rfl, hs⟩ := hc
      cases s with
      | nil => simp at hs
      | cons d s => simp at hs h; obtain ⟨rfl, rfl⟩ := h; subst hs; simp [NoTrap]
    · rename_i hn
      cases hb : blockEnd s with
      | none => simp [hb] at h
      | some x =>
        obtain ⟨a', r'⟩ := x
        simp [hb] at h
        obtain ⟨rfl, rfl⟩ := h
        rw [NoTrap.eq_def]
        split
        any_goals (first | contradiction | simp at *)
        · simp_all
        · simp_all

/-- A symbol that only moves the column. -/
def Sym.ordinary : Sym → Bool
  | .newline | .comment _ | .squote | .dquote => false
  | _ => true

/-- A character the grammar knows. -/
def Known (cl : Classes) (c : Char) : Prop :=
  cl.letter c = true ∨ cl.sign c = true ∨ c = ' ' ∨ c = '\t' ∨ c = '\n' ∨ c = '\r'

theorem known_ascii {cl : Classes} (hcl : cl.Ascii) {c : Char} (h : 33 ≤ c.toNat ∧ c.toNat < 127) : Known cl c :=
  .inr (.inl (by rw [hcl.sign c (by omega)]; simp [h]))

/-- What the next pair can be. -/
inductive NextCase (cl : Classes) : Text → Pair → Text → Prop
  | block {s a r : Text} (h : blockEnd s = some (a, r)) :
    NextCase cl ('/' :: '*' :: s) ⟨'/' :: '*' :: a ++ ['*', '/'], .comment ('/' :: '*' :: a ++ ['*', '/'])⟩ r
  | line (r : Text) : NextCase cl ('/' :: '/' :: r) ⟨['/', '/'], .comment ['/', '/']⟩ r
  | lf (r : Text) : NextCase cl ('\n' :: r) ⟨['\n'], .newline⟩ r
  | crlf (r : Text) : NextCase cl ('\r' :: '\n' :: r) ⟨['\r', '\n'], .newline⟩ r
  | cr (r : Text) (h : r.head? ≠ some '\n') : NextCase cl ('\r' :: r) ⟨['\r'], .newline⟩ r
  | dq (r : Text) : NextCase cl ('"' :: r) ⟨['"'], .dquote⟩ r
  | sq (r : Text) : NextCase cl ('\'' :: r) ⟨['\''], .squote⟩ r
  | slash (r : Text) (h : commentAt ('/' :: r) = none) : NextCase cl ('/' :: r) ⟨['/'], .unicode ['/']⟩ r
  | plain {raw : Text} {y : Sym} (r : Text) (hne : raw ≠ []) (hp : ∀ c ∈ raw, Plain c)
    (hk : ∀ c ∈ raw, Known cl c)
    (ho : y.ordinary = true) (ht : y.text = raw) : NextCase cl (raw ++ r) ⟨raw, y⟩ r

theorem NextCase.plain1 {cl : Classes} {c : Char} {y : Sym} (r : Text) (hp : Plain c) (hk : Known cl c) (ho : y.ordinary = true)
    (ht : y.text = [c]) : NextCase cl (c :: r) ⟨[c], y⟩ r :=
  .plain (raw := [c]) r (by simp) (by simpa using hp) (by simpa using hk) ho ht

theorem letter_plain {cl : Classes} (hcl : cl.Ascii) {c : Char} (h : cl.letter c = true) : Plain c := by
  refine ⟨?_, ?_, ?_, ?_, ?_⟩ <;> rintro rfl <;>
    (rw [hcl.letter _ (by decide +kernel)] at h; revert h; decide +kernel)

theorem digit_plain {c : Char} (h : asciiDigit c = true) : Plain c := by
  refine ⟨?_, ?_, ?_, ?_, ?_⟩ <;> rintro rfl <;> (revert h; decide +kernel)

theorem wordChar_plain {cl : Classes} (hcl : cl.Ascii) {c : Char} (h : cl.wordChar c = true) : Plain c := by
  simp only [Classes.wordChar, Bool.or_eq_true, beq_iff_eq] at h
  rcases h with (h | h) | rfl
  · exact letter_plain hcl h
  · exact digit_plain h
  · decide +kernel

theorem digit_known {cl : Classes} (hcl : cl.Ascii) {c : Char} (h : asciiDigit c = true) : Known cl c := by
  simp only [asciiDigit, decide_eq_true_eq] at h
  obtain ⟨h1, h2⟩ := h
  have h1' : 48 ≤ c.toNat := h1
  have h2' : c.toNat ≤ 57 := h2
  exact known_ascii hcl (by omega)

theorem wordChar_known {cl : Classes} (hcl : cl.Ascii) {c : Char} (h : cl.wordChar c = true) : Known cl c := by
  simp only [Classes.wordChar, Bool.or_eq_true, beq_iff_eq] at h
  rcases h with (h | h) | rfl
  · exact .inl h
  · exact digit_known hcl h
  · exact known_ascii hcl (by decide +kernel)

theorem sign_ne {cl : Classes} (hcl : cl.Ascii) {c : Char} (h : cl.sign c = true) :
    c ≠ '\r' ∧ c ≠ '\n' := by
  refine ⟨?_, ?_⟩ <;> rintro rfl <;>
    (rw [hcl.sign _ (by decide +kernel)] at h; revert h; decide +kernel)

theorem digit_text {c : Char} (h : asciiDigit c = true) :
    (toString (c.toNat - '0'.toNat)).toList = [c] := by
  simp only [asciiDigit, decide_eq_true_eq] at h
  obtain ⟨h1, h2⟩ := h
  have h1' : 48 ≤ c.toNat := h1
  have h2' : c.toNat ≤ 57 := h2
  have hc : c = Char.ofNat c.toNat := (Char.ofNat_toNat c).symm
  generalize c.toNat = n at *
  interval_cases n <;> subst hc <;> decide +kernel

theorem next_cases {cl : Classes} (hcl : cl.Ascii) {s r : Text} {p : Pair} (h : next cl s = some (p, r)) :
    NextCase cl s p r := by
  cases s with
  | nil => simp [next] at h
  | cons c s =>
    rw [next] at h
    split at h
    · rename_i hc; subst hc; simp at h; obtain ⟨rfl, rfl⟩ := h
      exact .plain1 _ (by decide +kernel) (by simp [Known]) rfl rfl
    split at h
    · rename_i hc; subst hc; simp at h; obtain ⟨rfl, rfl⟩ := h
      exact .plain1 _ (by decide +kernel) (by simp [Known]) rfl rfl
    split at h
    · rename_i raw r' hcm
      simp at h; obtain ⟨rfl, rfl⟩ := h
      rw [commentAt.eq_def] at hcm
      split at hcm
      · rename_i t heq
        obtain ⟨rfl, rfl⟩ := List.cons.inj heq
        cases hb : blockEnd t with
        | none => simp [hb] at hcm
        | some x =>
          obtain ⟨a, r⟩ := x
          simp only [hb, Option.some.injEq, Prod.mk.injEq] at hcm
          obtain ⟨rfl, rfl⟩ := hcm
          exact .block hb
      · rename_i t heq
        obtain ⟨rfl, rfl⟩ := List.cons.inj heq
        simp at hcm; obtain ⟨rfl, rfl⟩ := hcm
        exact .line _
      · simp at hcm
    rename_i hcm
    rw [tokenAt] at h
    replace h := ite_or h
    rcases h with ⟨hc, h⟩ | ⟨_, h⟩
    · simp at h; obtain ⟨rfl, rfl⟩ := h
      have := NextCase.plain (raw := c :: s.takeWhile cl.wordChar) (y := .word (c :: s.takeWhile cl.wordChar))
        (s.dropWhile cl.wordChar) (by simp) (by
          intro d hd
          rcases List.mem_cons.1 hd with rfl | hd
          · rcases hc with rfl | hc
            · decide +kernel
            · exact letter_plain hcl hc
          · exact wordChar_plain hcl (List.mem_takeWhile_imp hd)) (by
          intro d hd
          rcases List.mem_cons.1 hd with rfl | hd
          · rcases hc with rfl | hc
            · exact known_ascii hcl (by decide +kernel)
            · exact .inl hc
          · exact wordChar_known hcl (List.mem_takeWhile_imp hd)) rfl rfl
      simpa using this
    replace h := ite_or h
    rcases h with ⟨hc, h⟩ | ⟨_, h⟩
    · simp only [Option.some.injEq, Prod.mk.injEq] at h; obtain ⟨rfl, rfl⟩ := h
      exact .plain1 _ (digit_plain hc) (digit_known hcl hc) rfl (digit_text hc)
    iterate 2
      replace h := ite_or h
      rcases h with ⟨hc, h⟩ | ⟨_, h⟩
      · subst hc; simp at h; obtain ⟨rfl, rfl⟩ := h
        exact .plain1 _ (by decide +kernel) (known_ascii hcl (by decide +kernel)) rfl rfl
    replace h := ite_or h
    rcases h with ⟨hc, h⟩ | ⟨_, h⟩
    · obtain ⟨rfl, hs⟩ := hc; simp at h; obtain ⟨rfl, rfl⟩ := h
      cases s with
      | nil => simp at hs
      | cons d s =>
        simp at hs; subst hs
        exact .plain (raw := ['#', '#']) s (by simp) (by simp; decide +kernel)
          (by simpa using known_ascii hcl (by decide +kernel)) rfl rfl
    iterate 3
      replace h := ite_or h
      rcases h with ⟨hc, h⟩ | ⟨_, h⟩
      · subst hc; simp at h; obtain ⟨rfl, rfl⟩ := h
        exact .plain1 _ (by decide +kernel) (known_ascii hcl (by decide +kernel)) rfl rfl
    replace h := ite_or h
    rcases h with ⟨hc, h⟩ | ⟨hq1, h⟩
    · subst hc; simp at h; obtain ⟨rfl, rfl⟩ := h
      exact .dq _
    replace h := ite_or h
    rcases h with ⟨hc, h⟩ | ⟨hq2, h⟩
    · subst hc; simp at h; obtain ⟨rfl, rfl⟩ := h
      exact .sq _
    iterate 3
      replace h := ite_or h
      rcases h with ⟨hc, h⟩ | ⟨_, h⟩
      · subst hc; simp at h; obtain ⟨rfl, rfl⟩ := h
        exact .plain1 _ (by decide +kernel) (known_ascii hcl (by decide +kernel)) rfl rfl
    replace h := ite_or h
    rcases h with ⟨hsg, h⟩ | ⟨_, h⟩
    · simp at h; obtain ⟨rfl, rfl⟩ := h
      by_cases hsl : c = '/'
      · subst hsl; exact .slash _ hcm
      · exact .plain1 _ ⟨hsl, hq1, hq2, sign_ne hcl hsg⟩ (.inr (.inl hsg)) rfl rfl
    replace h := ite_or h
    rcases h with ⟨hc, h⟩ | ⟨_, h⟩
    · subst hc; simp at h; obtain ⟨rfl, rfl⟩ := h
      exact .lf _
    replace h := ite_or h
    rcases h with ⟨hc, h⟩ | ⟨hc', h⟩
    · obtain ⟨rfl, hs⟩ := hc; simp at h; obtain ⟨rfl, rfl⟩ := h
      cases s with
      | nil => simp at hs
      | cons d s => simp at hs; subst hs; exact .crlf _
    replace h := ite_or h
    rcases h with ⟨hc, h⟩ | ⟨_, h⟩
    · subst hc; simp at h; obtain ⟨rfl, rfl⟩ := h
      exact .cr _ (fun hh => hc' ⟨rfl, hh⟩)
    · simp at h

theorem NextCase.eq {cl : Classes} {s r : Text} {p : Pair} (h : NextCase cl s p r) : s = p.raw ++ r ∧ p.raw ≠ [] := by
  cases h with
  | block h => simp [blockEnd_some h]
  | plain r hne _ _ _ _ => exact ⟨rfl, hne⟩
  | _ => simp

theorem strip_plains {m : Mode} (hm : m ≠ .block) {w : Text} (hw : ∀ c ∈ w, Plain c) (s : Text) :
    strip m (w ++ s) = seen m w ++ strip m s := by
  induction w with
  | nil => simp [seen]
  | cons c w ih =>
    simp only [List.cons_append]
    rw [strip_plain hm (hw c (by simp)), ih (fun d hd => hw d (by simp [hd]))]
    simp only [seen]; split <;> simp

theorem noTrap_plains {m : Mode} (hm : m ≠ .block) {w : Text} (hw : ∀ c ∈ w, Plain c) (s : Text) :
    NoTrap m (w ++ s) ↔ NoTrap m s := by
  induction w with
  | nil => simp
  | cons c w ih =>
    simp only [List.cons_append]
    rw [noTrap_plain hm (hw c (by simp)), ih (fun d hd => hw d (by simp [hd]))]

theorem commentAt_slash {s : Text} (h : commentAt ('/' :: s) = none) :
    s.head? ≠ some '/' ∧ ∀ t, s = '*' :: t → ¬ Closes t := by
  constructor
  · intro hs
    cases s with
    | nil => simp at hs
    | cons d s => simp at hs; subst hs; simp [commentAt] at h
  · rintro t rfl
    rw [← blockEnd_none]
    rw [commentAt] at h
    cases hb : blockEnd t with
    | none => rfl
    | some x => simp [hb] at h

theorem strip_slash {m : Mode} (hm : m ≠ .block) {s : Text} (h : commentAt ('/' :: s) = none) :
    strip m ('/' :: s) = seen m ['/'] ++ strip m s := by
  obtain ⟨h1, h2⟩ := commentAt_slash h
  cases s with
  | nil => cases m <;> simp_all [strip, seen]
  | cons d s =>
    have hd : d ≠ '/' := by simpa using h1
    by_cases hst : d = '*'
    · subst hst
      have := h2 s rfl
      cases m <;> simp_all [strip, seen]
    · cases m <;> simp_all [strip, seen]

theorem noTrap_slash {m : Mode} (hm : m ≠ .block) {s : Text} (h : commentAt ('/' :: s) = none) :
    NoTrap m ('/' :: s) → NoTrap m s := by
  obtain ⟨h1, h2⟩ := commentAt_slash h
  cases s with
  | nil => cases m <;> simp_all [NoTrap]
  | cons d s =>
    have hd : d ≠ '/' := by simpa using h1
    by_cases hst : d = '*'
    · subst hst
      have := h2 s rfl
      cases m <;> simp_all [NoTrap]
    · cases m <;> simp_all [NoTrap]

theorem noTrap_line_tail {m : Mode} (hm : m ≠ .block) (hc : m ≠ .code) {s : Text} :
    NoTrap m ('/' :: '/' :: s) → NoTrap m s := by
  cases s with
  | nil => cases m <;> simp_all [NoTrap]
  | cons d s =>
    by_cases hst : d = '*'
    · subst hst
      cases m <;> simp_all [NoTrap]
    · cases m <;> simp_all [NoTrap]

/-- The mode the loop is in. -/
def LexSt.mode (st : LexSt) : Mode :=
  if st.skipping then .line else if st.double then .dq else if st.single then .sq else .code

/-- The flags are exclusive. -/
def LexSt.Ok (st : LexSt) : Prop :=
  (st.skipping = true → st.double = false ∧ st.single = false) ∧ (st.double = true → st.single = false)

theorem LexSt.mode_ne_block (st : LexSt) : st.mode ≠ .block := by
  unfold LexSt.mode; split <;> [simp; (split <;> [simp; (split <;> simp)])]

/-- The state after a pair. -/
def LexSt.after (st : LexSt) (p : Pair) : LexSt := { st.turn p with offset := st.offset + utf8 p.raw }

/-- The tokens of a pair. -/
def LexSt.emits (st : LexSt) (path : Text) (p : Pair) : List Tok :=
  st.stray path p ++
    (if (st.after p).skipping then []
      else [⟨p.sym, ⟨⟨st.offset, st.line, st.col⟩,
        ⟨(st.after p).offset, (st.after p).line, (st.after p).col⟩, path⟩⟩])

theorem lexLoop_cons (path : Text) (st : LexSt) (p : Pair) (ps : List Pair) :
    lexLoop path st (p :: ps) = st.emits path p ++ lexLoop path (st.after p) ps := by
  rw [lexLoop]; rfl

theorem ordinary_turn {st : LexSt} {p : Pair} (h : p.sym.ordinary = true) :
    st.turn p = { st with col := st.col + utf8 p.raw } := by
  unfold LexSt.turn
  obtain ⟨raw, y⟩ := p
  cases y <;> simp_all [Sym.ordinary]

theorem ordinary_stray {st : LexSt} {path : Text} {p : Pair} (h : p.sym.ordinary = true) :
    st.stray path p = [] := by
  unfold LexSt.stray
  obtain ⟨raw, y⟩ := p
  cases y <;> simp_all [Sym.ordinary]

theorem toksText_append (a b : List Tok) : toksText (a ++ b) = toksText a ++ toksText b := by
  simp [toksText]

theorem step_text {cl : Classes} {s r : Text} {p : Pair} (h : NextCase cl s p r) {st : LexSt} (hi : st.Ok) (path : Text)
    (ht : NoTrap st.mode s) :
    (st.after p).Ok ∧ NoTrap (st.after p).mode r ∧
      strip st.mode s = toksText (st.emits path p) ++ strip (st.after p).mode r := by
  have ord : p.sym.ordinary = true → (st.after p).Ok ∧ (st.after p).mode = st.mode ∧
      toksText (st.emits path p) = seen st.mode p.sym.text := by
    intro ho
    refine ⟨?_, ?_, ?_⟩
    · simpa [LexSt.after, ordinary_turn ho, LexSt.Ok] using hi
    · simp [LexSt.after, ordinary_turn ho, LexSt.mode]
    · have : (st.after p).skipping = st.skipping := by simp [LexSt.after, ordinary_turn ho]
      unfold LexSt.emits
      rw [ordinary_stray ho, this, LexSt.mode, seen]
      cases st.skipping <;> cases st.double <;> cases st.single <;> simp [toksText]
  cases h with
  | plain r hne hp _ ho hy =>
    obtain ⟨h1, h2, h3⟩ := ord ho
    rw [h2, h3, strip_plains st.mode_ne_block hp]
    exact ⟨h1, (noTrap_plains st.mode_ne_block hp r).1 ht, by simp only [hy]⟩
  | slash r hc =>
    obtain ⟨h1, h2, h3⟩ := ord rfl
    rw [h2, h3, strip_slash st.mode_ne_block hc]
    exact ⟨h1, noTrap_slash st.mode_ne_block hc ht, rfl⟩
  | block hb =>
    have hcl : Closes _ := Classical.not_not.1 (fun hn => by rw [← blockEnd_none, hb] at hn; simp at hn)
    have h2 := strip_block hb
    have h3 := noTrap_block hb
    obtain ⟨l, c, o, sg, db, sk⟩ := st
    obtain ⟨hi1, hi2⟩ := hi
    cases sk <;> cases db <;> cases sg <;>
      simp [NoTrap, LexSt.mode, hcl, h3] at hi1 hi2 ht ⊢
    refine ⟨?_, ?_, ?_⟩
    · simp [LexSt.after, LexSt.turn, LexSt.Ok]
    · simpa [LexSt.after, LexSt.turn] using ht
    · simp [LexSt.after, LexSt.turn, LexSt.emits, LexSt.stray, strip, hcl, h2, toksText, Sym.text]
  | line r =>
    obtain ⟨l, c, o, sg, db, sk⟩ := st
    obtain ⟨hi1, hi2⟩ := hi
    cases sk <;> cases db <;> cases sg <;> simp at hi1 hi2
    · simp [LexSt.mode, NoTrap] at ht
      simpa [LexSt.after, LexSt.turn, LexSt.emits, LexSt.stray, strip, toksText, LexSt.mode, LexSt.Ok] using ht
    all_goals
      have h2 := noTrap_line_tail (LexSt.mode_ne_block _) (by simp [LexSt.mode]) ht
      simp [LexSt.mode] at h2
      simpa [LexSt.after, LexSt.turn, LexSt.emits, LexSt.stray, strip, toksText, LexSt.mode, LexSt.Ok,
        Sym.text] using h2
  | cr r hr =>
    obtain ⟨l, c, o, sg, db, sk⟩ := st
    obtain ⟨hi1, hi2⟩ := hi
    have e : ∀ x, r = '\n' :: x → False := by rintro x rfl; simp at hr
    cases sk <;> cases db <;> cases sg <;> simp at hi1 hi2 <;>
      (simp [LexSt.mode, NoTrap] at ht
       simpa [LexSt.after, LexSt.turn, LexSt.emits, LexSt.stray, strip, toksText, LexSt.mode, LexSt.Ok,
        Sym.text] using ht)
  | _ =>
    obtain ⟨l, c, o, sg, db, sk⟩ := st
    obtain ⟨hi1, hi2⟩ := hi
    cases sk <;> cases db <;> cases sg <;> simp at hi1 hi2 <;>
      (simp [LexSt.mode, NoTrap] at ht
       simpa [LexSt.after, LexSt.turn, LexSt.emits, LexSt.stray, strip, toksText, LexSt.mode, LexSt.Ok,
        Sym.text] using ht)

theorem lexLoop_text {cl : Classes} (hcl : cl.Ascii) (path : Text) : ∀ (n : Nat) (s : Text) (ps : List Pair)
    (st : LexSt), pairs cl n s = some ps → st.Ok → NoTrap st.mode s →
    toksText (lexLoop path st ps) = strip st.mode s := by
  intro n
  induction n with
  | zero =>
    intro s ps st h hi _
    cases s with
    | nil =>
      simp [pairs] at h; subst h
      unfold lexLoop
      simp [LexSt.stray, LexSt.turn, lexLoop, strip]
      by_cases hs : st.skipping = true <;> simp [toksText, Sym.text, hs]
    | cons c s => simp [pairs] at h
  | succ n ih =>
    intro s ps st h hi ht
    cases s with
    | nil =>
      simp [pairs] at h; subst h
      unfold lexLoop
      simp [LexSt.stray, LexSt.turn, lexLoop, strip]
      by_cases hs : st.skipping = true <;> simp [toksText, Sym.text, hs]
    | cons c s =>
      rw [pairs] at h
      cases hn : next cl (c :: s) with
      | none => simp [hn] at h
      | some x =>
        obtain ⟨p, r⟩ := x
        cases hp : pairs cl n r with
        | none => simp [hn, hp] at h
        | some qs =>
          simp [hn, hp] at h; subst h
          obtain ⟨h1, h2, h3⟩ := step_text (next_cases hcl hn) hi path ht
          rw [lexLoop_cons, toksText_append, ih r qs _ hp h1 h2, h3]

end Verif.Preproc
