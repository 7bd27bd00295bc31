import Verif.Lib.TokenPlaces
import Verif.Spec.Spelling
/-!
A list of symbols that is written apart is read back as it is.
-/
namespace Verif.Preproc
open Spec

theorem letter_false {cl : Classes} (hcl : cl.Ascii) {c : Char} (h : c.toNat < 128) (ha : c.isAlpha = false) :
    cl.letter c = false := by rw [hcl.letter c h, ha]

theorem blockEnd_append {a r : Text} (h : ¬ Closes (a ++ ['*'])) :
    blockEnd (a ++ '*' :: '/' :: r) = some (a, r) := by
  induction a with
  | nil => simp [blockEnd]
  | cons c a ih =>
    have h1 : ¬ Closes (a ++ ['*']) := fun hc => h (List.infix_cons_iff.2 (.inr hc))
    have h2 : ¬ (c = '*' ∧ (a ++ '*' :: '/' :: r).head? = some '/') := by
      rintro ⟨rfl, hh⟩
      cases a with
      | nil => simp at hh
      | cons d a =>
        simp at hh; subst hh
        exact h ⟨[], a ++ ['*'], by simp⟩
    simp only [List.cons_append]
    rw [blockEnd, if_neg h2, ih h1]

theorem next_spell {cl : Classes} (hcl : cl.Ascii) {dq sq : Bool} {y : Sym} {l : List Sym}
    (h : Apart cl dq sq (y :: l)) : next cl (spell y ++ spellAll l) = some (⟨spell y, y⟩, spellAll l) := by
  cases y with
  | word w =>
    obtain ⟨⟨c, t, rfl, hc, ht⟩, hl, _⟩ := h
    have hp : Plain c := by
      rcases hc with rfl | hc
      · decide +kernel
      · exact letter_plain hcl hc
    have h1 : c ≠ ' ' := by
      rintro rfl
      rcases hc with hc | hc
      · exact absurd hc (by decide +kernel)
      · rw [hcl.letter _ (by decide +kernel)] at hc; exact absurd hc (by decide +kernel)
    have h2 : c ≠ '\t' := by
      rintro rfl
      rcases hc with hc | hc
      · exact absurd hc (by decide +kernel)
      · rw [hcl.letter _ (by decide +kernel)] at hc; exact absurd hc (by decide +kernel)
    have h3 : commentAt (c :: (t ++ spellAll l)) = none := by simp [commentAt, hp.1]
    have h4 : (t ++ spellAll l).takeWhile cl.wordChar = t := by
      rw [List.takeWhile_append_of_pos ht]
      cases hs : spellAll l with
      | nil => simp
      | cons d s => rw [List.takeWhile_cons, hl d (by rw [hs]; rfl)]; simp
    have h5 : (t ++ spellAll l).dropWhile cl.wordChar = spellAll l := by
      rw [List.dropWhile_append_of_pos ht]
      cases hs : spellAll l with
      | nil => simp
      | cons d s => rw [List.dropWhile_cons, hl d (by rw [hs]; rfl)]; simp
    simp only [spell, Sym.text, List.cons_append]
    rw [next, if_neg h1, if_neg h2, h3]
    simp only [tokenAt]
    rw [if_pos hc, h4, h5]
  | comment c =>
    obtain ⟨_, ⟨a, rfl, ha⟩, _⟩ := h
    simp only [spell, List.cons_append, List.append_assoc, List.nil_append]
    rw [next, if_neg (by decide +kernel), if_neg (by decide +kernel), commentAt, blockEnd_append ha]
    simp
  | digit n =>
    have hn : n < 10 := h.1
    have : ∀ s, next cl ((toString n).toList ++ s) = some (⟨(toString n).toList, .digit n⟩, s) := by
      intro s
      interval_cases n <;>
        (simp only [show (toString 0).toList = ['0'] from by decide +kernel, show (toString 1).toList = ['1'] from by decide +kernel,
          show (toString 2).toList = ['2'] from by decide +kernel, show (toString 3).toList = ['3'] from by decide +kernel,
          show (toString 4).toList = ['4'] from by decide +kernel, show (toString 5).toList = ['5'] from by decide +kernel,
          show (toString 6).toList = ['6'] from by decide +kernel, show (toString 7).toList = ['7'] from by decide +kernel,
          show (toString 8).toList = ['8'] from by decide +kernel, show (toString 9).toList = ['9'] from by decide +kernel,
          List.cons_append, List.nil_append]
         rw [next, if_neg (by decide +kernel), if_neg (by decide +kernel), commentAt]
         · simp only [tokenAt]
           rw [if_neg (by rw [hcl.letter _ (by decide +kernel)]; decide +kernel), if_pos (by decide +kernel)]
           rfl
         · simp
         · simp)
    exact this _
  | unicode u =>
    obtain ⟨⟨c, rfl, ⟨hs, hl, hd, hm⟩, hsl⟩, _⟩ := h
    simp only [List.mem_cons, List.not_mem_nil, or_false, not_or] at hm
    have hkn : c ≠ ' ' ∧ c ≠ '\t' := by
      constructor <;> rintro rfl <;> (rw [hcl.sign _ (by decide +kernel)] at hs; exact absurd hs (by decide +kernel))
    have hcm : commentAt (c :: spellAll l) = none := by
      by_cases hc : c = '/'
      · subst hc
        obtain ⟨h1, h2⟩ := hsl rfl
        cases hs : spellAll l with
        | nil => simp [commentAt]
        | cons d s => rw [hs] at h1 h2; simp at h1 h2; simp [commentAt, h1, h2]
      · simp [commentAt, hc]
    simp only [spell, Sym.text, List.cons_append, List.nil_append]
    rw [next, if_neg hkn.1, if_neg hkn.2, hcm]
    simp [tokenAt, hs, hl, hd, hm]
  | directive =>
    have hh : (spellAll l).head? ≠ some '#' := h.1
    simp only [spell, Sym.text, List.cons_append, List.nil_append]
    rw [next, if_neg (by decide +kernel), if_neg (by decide +kernel), commentAt]
    · simp [tokenAt, letter_false hcl (c := '#') (by decide +kernel) (by decide +kernel), hh,
        show asciiDigit '#' = false from by decide +kernel]
    · simp
    · simp
  | alpha _ => exact h.elim
  | underscore => exact h.elim
  | eoi => exact h.elim
  | space => simp [spell, Sym.text, next]
  | tab => simp [spell, Sym.text, next]
  | newline =>
    simp only [spell, Sym.text, List.cons_append, List.nil_append]
    have hs : cl.sign '\n' = false := by rw [hcl.sign _ (by decide +kernel)]; decide +kernel
    rw [next, if_neg (by decide +kernel), if_neg (by decide +kernel), commentAt]
    · simp [tokenAt, letter_false hcl (c := '\n') (by decide +kernel) (by decide +kernel), hs,
        show asciiDigit '\n' = false from by decide +kernel]
    · simp
    · simp
  | equals =>
    simp only [spell, Sym.text, List.cons_append, List.nil_append]
    rw [next, if_neg (by decide +kernel), if_neg (by decide +kernel), commentAt]
    · simp [tokenAt, letter_false hcl (c := '=') (by decide +kernel) (by decide +kernel),
        show asciiDigit '=' = false from by decide +kernel]
    · simp
    · simp
  | lparen =>
    simp only [spell, Sym.text, List.cons_append, List.nil_append]
    rw [next, if_neg (by decide +kernel), if_neg (by decide +kernel), commentAt]
    · simp [tokenAt, letter_false hcl (c := '(') (by decide +kernel) (by decide +kernel),
        show asciiDigit '(' = false from by decide +kernel]
    · simp
    · simp
  | rparen =>
    simp only [spell, Sym.text, List.cons_append, List.nil_append]
    rw [next, if_neg (by decide +kernel), if_neg (by decide +kernel), commentAt]
    · simp [tokenAt, letter_false hcl (c := ')') (by decide +kernel) (by decide +kernel),
        show asciiDigit ')' = false from by decide +kernel]
    · simp
    · simp
  | join =>
    simp only [spell, Sym.text, List.cons_append, List.nil_append]
    rw [next, if_neg (by decide +kernel), if_neg (by decide +kernel), commentAt]
    · simp [tokenAt, letter_false hcl (c := '#') (by decide +kernel) (by decide +kernel),
        show asciiDigit '#' = false from by decide +kernel]
    · simp
    · simp
  | escape =>
    simp only [spell, Sym.text, List.cons_append, List.nil_append]
    rw [next, if_neg (by decide +kernel), if_neg (by decide +kernel), commentAt]
    · simp [tokenAt, letter_false hcl (c := '\\') (by decide +kernel) (by decide +kernel),
        show asciiDigit '\\' = false from by decide +kernel]
    · simp
    · simp
  | comma =>
    simp only [spell, Sym.text, List.cons_append, List.nil_append]
    rw [next, if_neg (by decide +kernel), if_neg (by decide +kernel), commentAt]
    · simp [tokenAt, letter_false hcl (c := ',') (by decide +kernel) (by decide +kernel),
        show asciiDigit ',' = false from by decide +kernel]
    · simp
    · simp
  | dquote =>
    simp only [spell, Sym.text, List.cons_append, List.nil_append]
    rw [next, if_neg (by decide +kernel), if_neg (by decide +kernel), commentAt]
    · simp [tokenAt, letter_false hcl (c := '"') (by decide +kernel) (by decide +kernel),
        show asciiDigit '"' = false from by decide +kernel]
    · simp
    · simp
  | squote =>
    simp only [spell, Sym.text, List.cons_append, List.nil_append]
    rw [next, if_neg (by decide +kernel), if_neg (by decide +kernel), commentAt]
    · simp [tokenAt, letter_false hcl (c := '\'') (by decide +kernel) (by decide +kernel),
        show asciiDigit '\'' = false from by decide +kernel]
    · simp
    · simp
  | langle =>
    simp only [spell, Sym.text, List.cons_append, List.nil_append]
    rw [next, if_neg (by decide +kernel), if_neg (by decide +kernel), commentAt]
    · simp [tokenAt, letter_false hcl (c := '<') (by decide +kernel) (by decide +kernel),
        show asciiDigit '<' = false from by decide +kernel]
    · simp
    · simp
  | rangle =>
    simp only [spell, Sym.text, List.cons_append, List.nil_append]
    rw [next, if_neg (by decide +kernel), if_neg (by decide +kernel), commentAt]
    · simp [tokenAt, letter_false hcl (c := '>') (by decide +kernel) (by decide +kernel),
        show asciiDigit '>' = false from by decide +kernel]
    · simp
    · simp

theorem spell_ne {cl : Classes} {dq sq : Bool} {y : Sym} {l : List Sym} (h : Apart cl dq sq (y :: l)) :
    spell y ≠ [] := by
  cases y with
  | word w => obtain ⟨⟨c, t, rfl, _⟩, _⟩ := h; simp [spell, Sym.text]
  | comment c => obtain ⟨_, ⟨a, rfl, _⟩, _⟩ := h; simp [spell]
  | unicode u => obtain ⟨⟨c, rfl, _⟩, _⟩ := h; simp [spell, Sym.text]
  | digit n =>
    have hn : n < 10 := h.1
    clear h
    simp only [spell, Sym.text]
    interval_cases n <;> decide +kernel
  | alpha _ => exact h.elim
  | underscore => exact h.elim
  | eoi => exact h.elim
  | _ => simp [spell, Sym.text]

/-- The flags behind a symbol. -/
def flags (dq sq : Bool) : Sym → Bool × Bool
  | .dquote => (if sq then dq else !dq, sq)
  | .squote => (dq, if dq then sq else !sq)
  | _ => (dq, sq)

theorem apart_tail {cl : Classes} {dq sq : Bool} {y : Sym} {l : List Sym} (h : Apart cl dq sq (y :: l)) :
    Apart cl (flags dq sq y).1 (flags dq sq y).2 l := by
  cases y with
  | comment c => exact h.2.2
  | _ => simp_all [Apart, flags]

theorem pairs_spell {cl : Classes} (hcl : cl.Ascii) : ∀ (l : List Sym) (dq sq : Bool) (n : Nat),
    Apart cl dq sq l → (spellAll l).length ≤ n →
    pairs cl n (spellAll l) = some (l.map (fun y => ⟨spell y, y⟩) ++ [⟨[], .eoi⟩]) := by
  intro l
  induction l with
  | nil => intro dq sq n _ _; simp [spellAll, pairs]
  | cons y l ih =>
    intro dq sq n h hn
    have hs : spellAll (y :: l) = spell y ++ spellAll l := by simp [spellAll]
    have hne := spell_ne h
    have hnx := next_spell hcl h
    rw [hs] at hn ⊢
    cases hy : spell y with
    | nil => exact absurd hy hne
    | cons c t =>
      rw [hy] at hn hnx
      simp only [List.cons_append] at hn hnx ⊢
      cases n with
      | zero => simp at hn
      | succ n =>
        rw [pairs, hnx, ]
        simp only []
        rw [ih _ _ n (apart_tail h) (by simp at hn; omega)]
        simp [hy]

theorem loop_spell {cl : Classes} (path : Text) : ∀ (l : List Sym) (st : LexSt), st.skipping = false →
    Apart cl st.double st.single l →
    (lexLoop path st (l.map (fun y => ⟨spell y, y⟩) ++ [⟨[], .eoi⟩])).map Tok.sym = l ++ [.eoi] := by
  intro l
  induction l with
  | nil => intro st hs _; simp [lexLoop, LexSt.stray, LexSt.turn, hs]
  | cons y l ih =>
    intro st hs h
    simp only [List.map_cons, List.cons_append]
    rw [lexLoop_cons, List.map_append]
    have key : (st.after ⟨spell y, y⟩).skipping = false ∧
        (st.after ⟨spell y, y⟩).double = (flags st.double st.single y).1 ∧
        (st.after ⟨spell y, y⟩).single = (flags st.double st.single y).2 ∧ st.stray path ⟨spell y, y⟩ = [] := by
      cases y with
      | comment c =>
        obtain ⟨⟨hd, hq⟩, ⟨a, rfl, _⟩, _⟩ := h
        simp [LexSt.after, LexSt.turn, flags, hd, hq, hs, LexSt.stray, spell]
      | dquote =>
        cases hd : st.double <;> cases hq : st.single <;> simp [LexSt.after, LexSt.turn, flags, hd, hq, hs, LexSt.stray]
      | squote =>
        cases hd : st.double <;> cases hq : st.single <;> simp [LexSt.after, LexSt.turn, flags, hd, hq, hs, LexSt.stray]
      | _ => simp [LexSt.after, LexSt.turn, flags, hs, LexSt.stray]
    obtain ⟨k1, k2, k3, k4⟩ := key
    rw [ih _ k1 (by rw [k2, k3]; exact (apart_tail h))]
    simp [LexSt.emits, k1, k4]

end Verif.Preproc
