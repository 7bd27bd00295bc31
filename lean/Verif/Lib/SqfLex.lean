import Verif.Lib.SqfText
import Mathlib.Data.List.Infix
/-! The lexer reads exactly the texts of Lib/SqfText. -/
namespace Verif.SqfLex
open Verif.Sqf Verif.SqfParse
open Verif.Prefix (isWs)

/-! ### Characters -/

theorem isDigit_iff (c : Char) : isDigit c = true ↔ 48 ≤ c.toNat ∧ c.toNat ≤ 57 := by
  simp only [isDigit, Bool.and_eq_true, decide_eq_true_eq]; exact Iff.rfl
theorem isAlpha_iff (c : Char) : isAlpha c = true ↔ (97 ≤ c.toNat ∧ c.toNat ≤ 122) ∨ (65 ≤ c.toNat ∧ c.toNat ≤ 90) := by
  simp only [isAlpha, Bool.or_eq_true, Bool.and_eq_true, decide_eq_true_eq]; exact Iff.rfl
theorem isHex_iff (c : Char) : isHex c = true ↔ (48 ≤ c.toNat ∧ c.toNat ≤ 57) ∨ (97 ≤ c.toNat ∧ c.toNat ≤ 102) ∨
    (65 ≤ c.toNat ∧ c.toNat ≤ 70) := by
  simp only [isHex, Bool.or_eq_true, isDigit_iff, Bool.and_eq_true, decide_eq_true_eq, or_assoc]; exact Iff.rfl
theorem isName_iff (c : Char) : isName c = true ↔ isAlpha c = true ∨ isDigit c = true ∨ c = '_' := by
  simp only [isName, Bool.or_eq_true, decide_eq_true_eq, or_assoc]
theorem isFirst_iff (c : Char) : isFirst c = true ↔ isAlpha c = true ∨ c = '_' := by
  simp only [isFirst, Bool.or_eq_true, decide_eq_true_eq]

theorem name_of_digit {c : Char} (h : isDigit c = true) : isName c = true := (isName_iff c).2 (.inr (.inl h))
theorem name_of_hex {c : Char} (h : isHex c = true) : isName c = true := by
  rw [isName_iff, isAlpha_iff, isDigit_iff]
  rw [isHex_iff] at h
  omega
theorem name_of_first {c : Char} (h : isFirst c = true) : isName c = true := by
  rw [isName_iff]
  rw [isFirst_iff] at h
  tauto
theorem false_of {b b' : Bool} (h : b' = false) (i : b = true → b' = true) : b = false := by
  cases b
  · rfl
  · rw [i rfl] at h; cases h

/-- A digit is no other character of interest. -/
theorem digit_ne {c : Char} (h : isDigit c = true) : c ≠ '.' ∧ c ≠ '$' ∧ c ≠ 'x' ∧ c ≠ 'e' ∧ c ≠ 'E' ∧ c ≠ '-' ∧ c ≠ '+' ∧
    isFirst c = false ∧ c ≠ '\'' ∧ c ≠ '"' := by
  refine ⟨?_, ?_, ?_, ?_, ?_, ?_, ?_, ?_, ?_, ?_⟩
  all_goals first
    | (rintro rfl; revert h; decide)
    | skip
  rw [isDigit_iff] at h
  cases hf : isFirst c with
  | false => rfl
  | true =>
    rw [isFirst_iff, isAlpha_iff] at hf
    rcases hf with hf | rfl
    · omega
    · revert h; decide

theorem ws_nat {c : Char} (h : isWs c = true) : c.toNat ≤ 32 ∨ 0x85 ≤ c.toNat := by
  simp only [isWs, Bool.or_eq_true, Bool.and_eq_true, decide_eq_true_eq, beq_iff_eq] at h
  omega

theorem ws_noName {c : Char} (h : isWs c = true) : isName c = false := by
  have hn := ws_nat h
  cases hf : isName c with
  | false => rfl
  | true =>
    rw [isName_iff, isAlpha_iff, isDigit_iff] at hf
    rcases hf with hf | hf | rfl
    · omega
    · omega
    · revert h; decide

/-! ### Pieces -/

theorem just_append (p s : Text) : just p (p ++ s) = some s := by
  induction p with
  | nil => cases s <;> rfl
  | cons a p ih => simp [just, ih]

theorem just_some {p s r : Text} (h : just p s = some r) : s = p ++ r := by
  induction p generalizing s with
  | nil => cases s <;> (rw [just] at h; cases h; rfl)
  | cons a p ih =>
    cases s with
    | nil => simp [just] at h
    | cons c s =>
      rw [just] at h
      split at h
      · rename_i e; subst e; rw [ih h, List.cons_append]
      · cases h

theorem just_isSome {p s : Text} : (just p s).isSome = true ↔ p <+: s := by
  rw [Option.isSome_iff_exists]
  constructor
  · rintro ⟨r, h⟩; exact ⟨r, (just_some h).symm⟩
  · rintro ⟨r, rfl⟩; exact ⟨r, just_append p r⟩

theorem just_none {p s : Text} : just p s = none ↔ ¬ p <+: s := by
  rw [← just_isSome]; cases just p s <;> simp

theorem just_ne {a c : Char} {p s : Text} (h : a ≠ c) : just (a :: p) (c :: s) = none := by rw [just, if_neg h]

theorem takeWhile_append_stop {q : Char → Bool} {d r : Text} (hd : ∀ c ∈ d, q c = true) (hr : ∀ c ∈ r.head?, q c = false) :
    (d ++ r).takeWhile q = d ∧ (d ++ r).dropWhile q = r := by
  induction d with
  | nil =>
    cases r with
    | nil => simp
    | cons c r => have := hr c (by simp); simp [this]
  | cons a d ih =>
    have ha := hd a (by simp)
    have := ih fun c hc => hd c (by simp [hc])
    simp [ha, this]

theorem many1_append {q : Char → Bool} {d r : Text} (h0 : d ≠ []) (hd : ∀ c ∈ d, q c = true)
    (hr : ∀ c ∈ r.head?, q c = false) : many1 q (d ++ r) = some (d, r) := by
  have := takeWhile_append_stop hd hr
  rw [many1, this.1, this.2, if_neg h0]

theorem many1_none {q : Char → Bool} {s : Text} (h : ∀ c ∈ s.head?, q c = false) : many1 q s = none := by
  have := takeWhile_append_stop (d := []) (by simp) h
  rw [List.nil_append] at this
  rw [many1, if_pos this.1]

theorem many1_some {q : Char → Bool} {s d r : Text} (h : many1 q s = some (d, r)) :
    s = d ++ r ∧ d ≠ [] ∧ ∀ c ∈ d, q c = true := by
  rw [many1] at h
  split at h
  · cases h
  · rename_i h0
    cases h
    exact ⟨(List.takeWhile_append_dropWhile).symm, h0, fun c hc => List.all_eq_true.1 List.all_takeWhile c hc⟩

theorem digits_append {d r : Text} (hd : Digits d) (hr : ∀ c ∈ r.head?, isDigit c = false) :
    digits (d ++ r) = some (d, r) := many1_append hd.1 hd.2 hr
theorem digits_none {s : Text} (h : ∀ c ∈ s.head?, isDigit c = false) : digits s = none := many1_none h
theorem digits_some {s d r : Text} (h : digits s = some (d, r)) : s = d ++ r ∧ Digits d := by
  obtain ⟨a, b, c⟩ := many1_some h; exact ⟨a, b, c⟩
theorem Digits.cons {d : Text} (h : Digits d) : ∃ c s, d = c :: s ∧ isDigit c = true := by
  cases d with
  | nil => exact absurd rfl h.1
  | cons c s => exact ⟨c, s, rfl, h.2 c (by simp)⟩

/-! ### Numbers -/

theorem NoConst.digit {r : Text} (h : NoConst r) : ∀ c ∈ r.head?, isDigit c = false := by
  cases r with
  | nil => simp
  | cons c r =>
    intro x hx
    simp only [List.head?_cons, Option.mem_def, Option.some.injEq] at hx
    subst hx
    exact false_of h.1 name_of_digit
theorem NoConst.hex {r : Text} (h : NoConst r) : ∀ c ∈ r.head?, isHex c = false := by
  cases r with
  | nil => simp
  | cons c r =>
    intro x hx
    simp only [List.head?_cons, Option.mem_def, Option.some.injEq] at hx
    subst hx
    exact false_of h.1 name_of_hex
theorem NoConst.letterE {r : Text} (h : NoConst r) : letterE r = none := by
  cases r with
  | nil => rfl
  | cons c r =>
    rw [SqfLex.letterE.eq_def]
    split
    · rename_i e; cases e; exact absurd h.1 (by decide)
    · rename_i e; cases e; exact absurd h.1 (by decide)
    · rfl
theorem NoConst.ne_of_name {r : Text} (h : NoConst r) {c : Char} (hc : isName c = true) : ∀ p, just (c :: p) r = none := by
  intro p
  cases r with
  | nil => rfl
  | cons a r =>
    refine just_ne ?_
    rintro rfl
    rw [h.1] at hc; cases hc
/-- Behind a dot there are no digits. -/
theorem NoConst.dot {r r' : Text} (h : NoConst r) (e : just ['.'] r = some r') : digits r' = none := by
  have := just_some e
  subst this
  exact digits_none (h.2.2.2.1 rfl)

theorem letterE_none {c : Char} {s : Text} (h1 : c ≠ 'e') (h2 : c ≠ 'E') : letterE (c :: s) = none := by
  rw [letterE.eq_def]
  split
  · rename_i e; cases e; exact absurd rfl h1
  · rename_i e; cases e; exact absurd rfl h2
  · rfl

theorem sign_digit {c : Char} {s : Text} (h : isDigit c = true) : sign (c :: s) = ([], c :: s) := by
  have := digit_ne h
  rw [sign.eq_def]
  split
  · rename_i e; cases e; exact absurd rfl this.2.2.2.2.2.1
  · rename_i e; cases e; exact absurd rfl this.2.2.2.2.2.2.1
  · rfl

theorem whole_noDot {s d r : Text} (h : digits s = some (d, r)) (hr : just ['.'] r = none) : whole s = ([], s) := by
  simp [whole, h, hr]
theorem whole_none {s : Text} (h : digits s = none) : whole s = ([], s) := by simp [whole, h]
theorem whole_dot {s d r r' : Text} (h : digits s = some (d, r)) (hr : just ['.'] r = some r') :
    whole s = (d ++ ['.'], r') := by simp [whole, h, hr]

theorem numberExp_stop {F : F32} {s d r : Text} (h : digits s = some (d, r)) (hn : NoConst r) : numberExp F s = none := by
  cases hj : just ['.'] r with
  | none =>
    rw [numberExp, whole_noDot h hj, h, Option.bind_some]
    simp [hn.letterE]
  | some r' =>
    rw [numberExp, whole_dot h hj]
    simp [hn.dot hj]

theorem numberBasic_stop {F : F32} {s d r : Text} (h : digits s = some (d, r)) (hn : NoConst r) : numberBasic F s = none := by
  rw [numberBasic, h]
  cases hj : just ['.'] r with
  | none => simp [hj]
  | some r' => simp [hj, hn.dot hj]

theorem numberExp_none {F : F32} {s : Text} (h : digits s = none) : numberExp F s = none := by
  rw [numberExp, whole_none h, h]; rfl

theorem numberBasic_none {F : F32} {c : Char} {s : Text} (h : digits (c :: s) = none) (hc : c ≠ '.') :
    numberBasic F (c :: s) = none := by
  rw [numberBasic, h]
  simp [just_ne (Ne.symm hc)]

theorem head_append {d r : Text} (h : d ≠ []) (P : Char → Prop) (hP : ∀ c ∈ d, P c) : ∀ c ∈ (d ++ r).head?, P c := by
  cases d with
  | nil => exact absurd rfl h
  | cons a d => simpa using hP a (by simp)

theorem number_complete {F : F32} {x : UInt32} {s r : Text} (h : NumText F x s) (hr : NoConst r) :
    number F (s ++ r) = some (x, r) := by
  cases h with
  | int hd hv =>
    have hdr := digits_append hd hr.digit
    have h16 : numberHex F (s ++ r) = none := by
      obtain ⟨c, s', rfl, hc⟩ := hd.cons
      have hne := digit_ne hc
      have h1 : just ['$'] (c :: s' ++ r) = none := just_ne (Ne.symm hne.2.1)
      have h2 : just ['0', 'x'] (c :: s' ++ r) = none := by
        rw [List.cons_append, just]
        split
        · cases s' with
          | nil => exact hr.ne_of_name (by decide) _
          | cons b s' =>
            exact just_ne (Ne.symm (digit_ne (hd.2 b (by simp))).2.2.1)
        · rfl
      rw [numberHex, h1, h2]; rfl
    rw [number, numberExp_stop hdr hr, numberBasic_stop hdr hr, h16, numberInt, hdr]
    simpa using hv
  | @hex p d hp h0 hd hv =>
    have hdr : many1 isHex (d ++ r) = some (d, r) := many1_append h0 hd hr.hex
    have hx : numberHex F (p ++ d ++ r) = some (F.ofNat (value 16 d), r) := by
      rcases hp with rfl | rfl
      · rw [numberHex, List.append_assoc, just_append, Option.some_or, Option.bind_some, hdr]
        simpa using hv
      · rw [numberHex, List.append_assoc, just_append]
        rw [show just ['$'] (['0', 'x'] ++ (d ++ r)) = none from just_ne (by decide), Option.none_or, Option.bind_some, hdr]
        simpa using hv
    have he : numberExp F (p ++ d ++ r) = none ∧ numberBasic F (p ++ d ++ r) = none := by
      rcases hp with rfl | rfl
      · have : digits (['$'] ++ d ++ r) = none := digits_none (by simp; decide)
        exact ⟨numberExp_none this, numberBasic_none this (by decide)⟩
      · have hdg : digits (['0', 'x'] ++ d ++ r) = some (['0'], 'x' :: d ++ r) :=
          digits_append (d := ['0']) ⟨by simp, by simp; decide⟩ (by simp; decide)
        constructor
        · rw [numberExp, whole_noDot hdg (just_ne (by decide)), hdg]
          rfl
        · rw [numberBasic, hdg]
          rfl
    rw [number, he.1, he.2, hx]; rfl
  | @frac w d hw hd =>
    have hdr := digits_append hd hr.digit
    rcases hw with rfl | hw
    · have h1 : digits ([] ++ ['.'] ++ d ++ r) = none := digits_none (by simp; decide)
      rw [number, numberExp_none h1, numberBasic, h1]
      show (((none : Option (UInt32 × Text)).or ((just ['.'] (['.'] ++ (d ++ r))).bind _)).or _).or _ = _
      rw [just_append, Option.bind_some, hdr]
      rfl
    · have h1 : digits (w ++ ['.'] ++ d ++ r) = some (w, ['.'] ++ (d ++ r)) := by
        rw [List.append_assoc, List.append_assoc]
        exact digits_append hw (by simp; decide)
      have h2 : just ['.'] (['.'] ++ (d ++ r)) = some (d ++ r) := just_append _ _
      rw [number, numberExp, whole_dot h1 h2, hdr, Option.bind_some]
      simp only [hr.letterE, Option.bind_none, Option.none_or]
      rw [numberBasic, h1, Option.getD_some, h2, Option.bind_some, hdr]
      rfl
  | @exp w d c g x hw hd hc hg hx =>
    have hxr := digits_append hx hr.digit
    have hcd : isDigit c = false ∧ c ≠ '.' := by rcases hc with rfl | rfl <;> decide
    have hE : ∀ s, letterE (c :: s) = some (c, s) := by intro s; rcases hc with rfl | rfl <;> rfl
    have hS : sign (g ++ (x ++ r)) = (g, x ++ r) := by
      rcases hg with rfl | rfl | rfl
      · obtain ⟨a, x', rfl, ha⟩ := hx.cons
        exact sign_digit ha
      · rfl
      · rfl
    have hd1 : digits (d ++ (c :: (g ++ (x ++ r)))) = some (d, c :: (g ++ (x ++ r))) :=
      digits_append hd (by simpa using hcd.1)
    have hW : whole (w ++ d ++ [c] ++ g ++ x ++ r) = (w, d ++ (c :: (g ++ (x ++ r)))) := by
      rcases hw with rfl | ⟨w', hw', rfl⟩
      · have := whole_noDot hd1 (just_ne (Ne.symm hcd.2))
        simpa using this
      · have h1 : digits (w' ++ (['.'] ++ (d ++ (c :: (g ++ (x ++ r)))))) =
            some (w', ['.'] ++ (d ++ (c :: (g ++ (x ++ r))))) := digits_append hw' (by simp; decide)
        have := whole_dot h1 (just_append _ _)
        simpa using this
    rw [number, numberExp, hW, hd1, Option.bind_some]
    simp only [hE, Option.bind_some, hS, hxr, Option.map_some]
    rfl

theorem whole_spec (s : Text) : s = (whole s).1 ++ (whole s).2 ∧
    ((whole s).1 = [] ∨ ∃ w', Digits w' ∧ (whole s).1 = w' ++ ['.']) := by
  cases h : digits s with
  | none => rw [whole_none h]; simp
  | some m =>
    obtain ⟨d, r⟩ := m
    cases hj : just ['.'] r with
    | none => rw [whole_noDot h hj]; simp
    | some r' =>
      rw [whole_dot h hj]
      obtain ⟨rfl, hd⟩ := digits_some h
      have := just_some hj
      subst this
      exact ⟨by simp, .inr ⟨d, hd, rfl⟩⟩

theorem sign_spec (s : Text) : s = (sign s).1 ++ (sign s).2 ∧ ((sign s).1 = [] ∨ (sign s).1 = ['-'] ∨ (sign s).1 = ['+']) := by
  rw [sign.eq_def]
  split <;> simp

theorem letterE_spec {s r : Text} {c : Char} (h : letterE s = some (c, r)) : s = c :: r ∧ (c = 'e' ∨ c = 'E') := by
  rw [letterE.eq_def] at h
  split at h
  · cases h; simp
  · cases h; simp
  · cases h

theorem number_sound {F : F32} {x : UInt32} {s r : Text} (h : number F s = some (x, r)) :
    ∃ p, s = p ++ r ∧ NumText F x p := by
  simp only [number, Option.or_eq_some_iff] at h
  rcases h with ((h | ⟨-, h⟩) | ⟨-, h⟩) | ⟨-, h⟩
  · simp only [numberExp, Option.bind_eq_some_iff, Option.map_eq_some_iff, Prod.exists, Prod.mk.injEq] at h
    obtain ⟨d, s2, h1, c, s3, h2, y, s4, h3, rfl, rfl⟩ := h
    obtain ⟨hs, hw⟩ := whole_spec s
    obtain ⟨e1, hd⟩ := digits_some h1
    obtain ⟨rfl, hc⟩ := letterE_spec h2
    obtain ⟨e3, hg⟩ := sign_spec s3
    obtain ⟨e4, hy⟩ := digits_some h3
    refine ⟨_, ?_, .exp hw hd hc hg hy⟩
    conv_lhs => rw [hs, e1, e3, e4]
    simp
  · simp only [numberBasic, Option.bind_eq_some_iff, Option.map_eq_some_iff, Prod.exists, Prod.mk.injEq] at h
    obtain ⟨s2, h1, d, s3, h2, rfl, rfl⟩ := h
    have e1 := just_some h1
    obtain ⟨e2, hd⟩ := digits_some h2
    have hw : s = ((digits s).getD ([], s)).1 ++ ((digits s).getD ([], s)).2 ∧
        (((digits s).getD ([], s)).1 = [] ∨ Digits ((digits s).getD ([], s)).1) := by
      cases hh : digits s with
      | none => simp
      | some m => obtain ⟨a, b⟩ := digits_some hh; exact ⟨a, .inr b⟩
    refine ⟨_, ?_, .frac hw.2 hd⟩
    conv_lhs => rw [hw.1, e1, e2]
    simp
  · simp only [numberHex, Option.bind_eq_some_iff, Option.or_eq_some_iff, Prod.exists] at h
    obtain ⟨s2, h1, d, s3, h2, h3⟩ := h
    split at h3
    · rename_i hv
      cases h3
      obtain ⟨rfl, h0, hd⟩ := many1_some h2
      rcases h1 with h1 | ⟨-, h1⟩
      · exact ⟨['$'] ++ d, by rw [just_some h1, List.append_assoc], .hex (.inl rfl) h0 hd hv⟩
      · exact ⟨['0', 'x'] ++ d, by rw [just_some h1, List.append_assoc], .hex (.inr rfl) h0 hd hv⟩
    · cases h3
  · simp only [numberInt, Option.bind_eq_some_iff, Prod.exists] at h
    obtain ⟨d, s3, h2, h3⟩ := h
    split at h3
    · rename_i hv
      cases h3
      obtain ⟨rfl, hd⟩ := digits_some h2
      exact ⟨d, rfl, .int hd hv⟩
    · cases h3

/-! ### Names and strings -/

theorem ident_complete {c : Char} {s r : Text} (hc : isFirst c = true) (hs : ∀ x ∈ s, isName x = true) (hr : NoConst r) :
    ident (c :: s ++ r) = some (c :: s, r) := by
  have hst : ∀ x ∈ r.head?, isName x = false := by
    cases r with
    | nil => simp
    | cons a r => simpa using hr.1
  have := takeWhile_append_stop hs hst
  rw [List.cons_append, ident, if_pos (show (isAlpha c || decide (c = '_')) = true from hc)]
  exact congrArg some (Prod.ext (congrArg (c :: ·) this.1) this.2)

theorem ident_sound {s p r : Text} (h : ident s = some (p, r)) :
    s = p ++ r ∧ ∃ c p', p = c :: p' ∧ isFirst c = true ∧ ∀ x ∈ p', isName x = true := by
  cases s with
  | nil => cases h
  | cons c s =>
    rw [ident] at h
    split at h
    · rename_i hc
      cases h
      exact ⟨by rw [List.cons_append, List.takeWhile_append_dropWhile], c, _, rfl, hc,
        fun x hx => List.all_eq_true.1 List.all_takeWhile x hx⟩
    · cases h

theorem content_ne {q c : Char} {s : Text} (h : c ≠ q) : content q (c :: s) = (c :: (content q s).1, (content q s).2) := by
  cases s <;> simp [content, h]
theorem content_one (q : Char) : content q [q] = ([], [q]) := by simp [content]
theorem content_two (q : Char) (s : Text) : content q (q :: q :: s) = (q :: (content q s).1, (content q s).2) := by
  simp [content]
theorem content_stop {q c : Char} {s : Text} (h : c ≠ q) : content q (q :: c :: s) = ([], q :: c :: s) := by
  simp [content, h]

theorem content_complete {q : Char} {s r : Text} (hr : ∀ c ∈ r.head?, c ≠ q) :
    content q (escape q s ++ q :: r) = (s, q :: r) := by
  induction s with
  | nil =>
    show content q (q :: r) = _
    cases r with
    | nil => exact content_one q
    | cons c r => exact content_stop (hr c (by simp))
  | cons a s ih =>
    by_cases ha : a = q
    · subst ha
      have : escape a (a :: s) ++ a :: r = a :: a :: (escape a s ++ a :: r) := by simp [escape]
      rw [this, content_two, ih]
    · have : escape q (a :: s) ++ q :: r = a :: (escape q s ++ q :: r) := by simp [escape, ha]
      rw [this, content_ne ha, ih]

theorem content_sound (q : Char) (s : Text) : s = escape q (content q s).1 ++ (content q s).2 := by
  fun_induction content q s with
  | case1 => rfl
  | case2 c s h ih => simp [escape, h]; exact ih
  | case3 c h => simp [escape]
  | case4 c s' h ih => 
    simp [escape]
    exact ⟨by simpa using ‹¬ _ ≠ _›, ih⟩
  | case5 => simp [escape]

theorem NoConst.quote {r : Text} (h : NoConst r) (w : Wrapper) : ∀ c ∈ r.head?, c ≠ quote w := by
  cases r with
  | nil => simp
  | cons c r => cases w <;> simp [SqfLex.quote, h.2.1, h.2.2.1]

theorem string_complete {w : Wrapper} {s r : Text} (hr : NoConst r) :
    string (quote w) ([quote w] ++ escape (quote w) s ++ [quote w] ++ r) = some (s, r) := by
  rw [string, List.append_assoc, List.append_assoc, just_append, Option.bind_some, List.singleton_append,
    content_complete (hr.quote w)]
  show (just [quote w] ([quote w] ++ r)).map _ = _
  rw [just_append]; rfl

theorem string_sound {q : Char} {s t r : Text} (h : string q s = some (t, r)) : s = [q] ++ escape q t ++ [q] ++ r := by
  simp only [string, Option.bind_eq_some_iff, Option.map_eq_some_iff, Prod.mk.injEq] at h
  obtain ⟨s1, h1, e, h2, rfl, rfl⟩ := h
  have e1 := just_some h1
  have e2 := just_some h2
  have e3 := content_sound q s1
  rw [e2] at e3
  rw [e1]
  conv_lhs => rw [e3]
  simp

/-! ### Constants -/

/-- Names, numbers and strings -/
def isConst : Token → Bool
  | .num _ | .ident _ | .str .. => true
  | _ => false

theorem constant_none {F : F32} {r : Text} (h : NoConst r) : constant F r = none := by
  cases r with
  | nil => rfl
  | cons c r =>
    have hd := digits_none h.digit
    have h1 : numberExp F (c :: r) = none := numberExp_none hd
    have h2 : numberBasic F (c :: r) = none := by
      rw [numberBasic, hd]
      cases hj : just ['.'] (c :: r) with
      | none => simp [hj]
      | some r' => simp [hj, h.dot hj]
    have h3 : numberHex F (c :: r) = none := by
      have h0 : just ['0', 'x'] (c :: r) = none := h.ne_of_name (by decide) _
      rw [numberHex, h0, Option.or_none]
      cases hj : just ['$'] (c :: r) with
      | none => rfl
      | some r' =>
        have := just_some hj
        have h5 : c = '$' ∧ r = r' := by simpa using this
        obtain ⟨rfl, rfl⟩ := h5
        rw [Option.bind_some, many1_none (h.2.2.2.2 rfl)]
        rfl
    have h4 : numberInt F (c :: r) = none := by rw [numberInt, hd]; rfl
    have h5 : ident (c :: r) = none := by
      rw [ident, if_neg]
      intro hf
      have := h.1
      rw [name_of_first hf] at this
      cases this
    have h6 : string '\'' (c :: r) = none := by rw [string, just_ne (Ne.symm h.2.1)]; rfl
    have h7 : string '"' (c :: r) = none := by rw [string, just_ne (Ne.symm h.2.2.1)]; rfl
    simp [constant, number, h1, h2, h3, h4, h5, h6, h7]

theorem number_none {F : F32} {c : Char} {s : Text} (h : isDigit c = false) (h1 : c ≠ '.') (h2 : c ≠ '$') :
    number F (c :: s) = none := by
  have hd : digits (c :: s) = none := digits_none (by simpa using h)
  have h0 : c ≠ '0' := by rintro rfl; revert h; decide
  rw [number, numberExp_none hd, numberBasic_none hd h1, numberHex, just_ne (Ne.symm h2), just_ne (Ne.symm h0), numberInt, hd]
  rfl

theorem first_ne {c : Char} (h : isFirst c = true) : isDigit c = false ∧ c ≠ '.' ∧ c ≠ '$' := by
  refine ⟨?_, ?_, ?_⟩
  · cases hd : isDigit c with
    | false => rfl
    | true => rw [(digit_ne hd).2.2.2.2.2.2.2.1] at h; cases h
  · rintro rfl; revert h; decide
  · rintro rfl; revert h; decide

theorem constant_complete {F : F32} {t : Token} {s r : Text} (hk : isConst t = true) (h : Spells F t s) (hr : NoConst r) :
    constant F (s ++ r) = some (t, r) := by
  cases h with
  | num h => rw [constant, number_complete h hr]; rfl
  | name hc hs =>
    have := first_ne hc
    rw [constant, ident_complete hc hs hr, List.cons_append, number_none this.1 this.2.1 this.2.2]
    rfl
  | @str u w =>
    have hn : number F ([quote w] ++ escape (quote w) u ++ [quote w] ++ r) = none := by
      cases w <;> exact number_none (by decide) (by decide) (by decide)
    have hi : ident ([quote w] ++ escape (quote w) u ++ [quote w] ++ r) = none := by cases w <;> rfl
    have hs := string_complete (w := w) (s := u) hr
    rw [constant, hn, hi]
    cases w with
    | single => rw [show '\'' = quote .single from rfl, hs]; rfl
    | double =>
      rw [show '"' = quote .double from rfl, hs,
        show string '\'' ([quote .double] ++ escape (quote .double) u ++ [quote .double] ++ r) = none from by
          rw [string, List.append_assoc, List.append_assoc, List.singleton_append, just_ne (by decide)]; rfl]
      rfl
  | op => cases hk
  | ctl => cases hk
  | block => cases hk
  | line => cases hk

theorem constant_sound {F : F32} {t : Token} {s r : Text} (h : constant F s = some (t, r)) :
    ∃ p, s = p ++ r ∧ Spells F t p ∧ isConst t = true := by
  simp only [constant, Option.or_eq_some_iff, Option.map_eq_some_iff, Prod.exists, Prod.mk.injEq] at h
  rcases h with ((⟨x, r, h, rfl, rfl⟩ | ⟨-, p, r, h, rfl, rfl⟩) | ⟨-, p, r, h, rfl, rfl⟩) | ⟨-, p, r, h, rfl, rfl⟩
  · obtain ⟨p, hp, hn⟩ := number_sound h
    exact ⟨p, hp, .num hn, rfl⟩
  · obtain ⟨hp, c, p', rfl, hc, hs⟩ := ident_sound h
    exact ⟨_, hp, .name hc hs, rfl⟩
  · exact ⟨_, string_sound h, .str (w := .single), rfl⟩
  · exact ⟨_, string_sound h, .str (w := .double), rfl⟩

/-! ### Operators, controls and comments -/

theorem choice_cons {α : Type} {p : Text} {a : α} {l : List (Text × α)} {s : Text} :
    choice ((p, a) :: l) s = ((just p s).map fun r => (a, r)).or (choice l s) := by
  simp only [choice, List.findSome?_cons]
  cases just p s <;> simp

theorem choice_nil {α : Type} {s : Text} : choice ([] : List (Text × α)) s = none := rfl

theorem operator_complete {o : Op} {s r : Text} (h : Ends (.op o) s r) : choice operators (opText o ++ r) = some (o, r) := by
  cases o <;> simp only [opText, operators, choice_cons, List.cons_append, List.nil_append, just, reduceIte, Char.reduceEq,
    Option.map_none, Option.map_some, Option.none_or, Option.some_or]
  all_goals
    cases r with
    | nil => simp [just]
    | cons c r =>
      first
      | (have h0 := h c (by simp)
         simp [just, Ne.symm h0])
      | (have h0 := h c (by simp)
         simp [just, Ne.symm h0.1, Ne.symm h0.2])

theorem notRep_split (q : Text → Bool) (s : Text) : s = (notRep q s).1 ++ (notRep q s).2 := by
  induction s with
  | nil => rfl
  | cons c s ih =>
    rw [notRep]
    split
    · rfl
    · rw [List.cons_append, ← ih]

theorem notRep_stop (q : Text → Bool) (s : Text) : (notRep q s).2 = [] ∨ q (notRep q s).2 = true := by
  induction s with
  | nil => exact .inl rfl
  | cons c s ih =>
    rw [notRep]
    split
    · rename_i h; exact .inr h
    · exact ih

theorem notRep_before (q : Text → Bool) (s : Text) : ∀ a b, (notRep q s).1 = a ++ b → b ≠ [] →
    q (b ++ (notRep q s).2) = false := by
  induction s with
  | nil =>
    intro a b h hb
    have : b = [] := by simp [notRep] at h; exact h.2
    exact absurd this hb
  | cons c s ih =>
    intro a b h hb
    rw [notRep] at h ⊢
    split at h
    · have : b = [] := by simp at h; exact h.2
      exact absurd this hb
    · rename_i hq
      rw [if_neg hq]
      cases a with
      | nil =>
        rw [List.nil_append] at h
        rw [← h]
        show q (c :: (notRep q s).1 ++ (notRep q s).2) = false
        rw [List.cons_append, ← notRep_split]
        simpa using hq
      | cons x a =>
        simp only [List.cons_append, List.cons.injEq] at h
        exact ih a b h.2 hb

theorem notRep_complete {q : Text → Bool} {m r : Text} (hm : ∀ a b, m = a ++ b → b ≠ [] → q (b ++ r) = false)
    (hr : r = [] ∨ q r = true) : notRep q (m ++ r) = (m, r) := by
  induction m with
  | nil =>
    cases r with
    | nil => rfl
    | cons c r =>
      rw [List.nil_append, notRep, if_pos (by simpa using hr)]
  | cons c m ih =>
    have h0 := hm [] (c :: m) rfl (by simp)
    rw [List.cons_append] at h0
    rw [List.cons_append, notRep, if_neg (by simp [h0]), ih fun a b e hb => hm (c :: a) b (by rw [e]; rfl) hb]

/-- What is between the marks of a comment cannot end it early. -/
theorem block_before {s r : Text} (h : ¬ ['*', '/'] <:+: s) : ∀ a b, s = a ++ b → b ≠ [] →
    (just ['*', '/'] (b ++ (['*', '/'] ++ r))).isSome = false := by
  intro a b e hb
  cases hj : (just ['*', '/'] (b ++ (['*', '/'] ++ r))).isSome with
  | false => rfl
  | true =>
    rw [just_isSome] at hj
    exfalso
    match b, hb, e, hj with
    | [], hb, _, _ => exact hb rfl
    | [x], _, _, hj => simp at hj
    | x :: y :: b, _, e, hj =>
      simp only [List.cons_append, List.cons_prefix_cons, List.nil_prefix, and_true] at hj
      obtain ⟨rfl, rfl⟩ := hj
      exact h ⟨a, b, by rw [e]; simp⟩

theorem multiLine_complete {s r : Text} (h : ¬ ['*', '/'] <:+: s) :
    multiLine (['/', '*'] ++ s ++ ['*', '/'] ++ r) = some (['/', '*'] ++ s ++ ['*', '/'], r) := by
  rw [multiLine, List.append_assoc, List.append_assoc, just_append, Option.bind_some,
    notRep_complete (block_before h) (.inr (by rw [just_append]; rfl))]
  simp only
  rw [just_append]
  rfl

theorem multiLine_sound {s p r : Text} (h : multiLine s = some (p, r)) :
    s = p ++ r ∧ ∃ m, p = ['/', '*'] ++ m ++ ['*', '/'] ∧ ¬ ['*', '/'] <:+: m := by
  simp only [multiLine, Option.bind_eq_some_iff, Option.map_eq_some_iff, Prod.mk.injEq] at h
  obtain ⟨s1, h1, e, h2, rfl, rfl⟩ := h
  have e1 := just_some h1
  have e2 := just_some h2
  have e3 := notRep_split (fun x => (just ['*', '/'] x).isSome) s1
  refine ⟨?_, _, rfl, ?_⟩
  · rw [e2] at e3
    rw [e1]
    conv_lhs => rw [e3]
    simp
  · rintro ⟨a, b, hab⟩
    have := notRep_before (fun x => (just ['*', '/'] x).isSome) s1 a (['*', '/'] ++ b)
      (by rw [← hab]; simp) (by simp)
    rw [List.append_assoc, just_append] at this
    cases this

theorem multiLine_none {r : Text} (h : multiLine ('/' :: '*' :: r) = none) : ¬ ['*', '/'] <:+: r := by
  rintro ⟨a, b, rfl⟩
  have h1 : just ['/', '*'] ('/' :: '*' :: (a ++ ['*', '/'] ++ b)) = some (a ++ ['*', '/'] ++ b) := just_append ['/', '*'] _
  rw [multiLine, h1, Option.bind_some] at h
  simp only [Option.map_eq_none_iff] at h
  have hs := notRep_stop (fun x => (just ['*', '/'] x).isSome) (a ++ ['*', '/'] ++ b)
  rcases hs with hs | hs
  · have e := notRep_split (fun x => (just ['*', '/'] x).isSome) (a ++ ['*', '/'] ++ b)
    rw [hs, List.append_nil] at e
    have := notRep_before (fun x => (just ['*', '/'] x).isSome) (a ++ ['*', '/'] ++ b) a (['*', '/'] ++ b)
      (by rw [← e]; simp) (by simp)
    rw [hs, List.append_nil, just_append] at this
    cases this
  · simp only [h] at hs
    cases hs

theorem isNewline_iff {s : Text} : isNewline s = true ↔ ['\r', '\n'] <+: s ∨ ['\n'] <+: s := by
  rw [isNewline, Bool.or_eq_true, just_isSome, just_isSome]

/-- The end of a comment in one line. -/
def LineEnd (s r : Text) : Prop := r = [] ∨ (s.getLast? ≠ some '\r' ∧ ['\n'] <+: r) ∨ ['\r', '\n'] <+: r

theorem singleLine_complete {s r : Text} (h : '\n' ∉ s) (hr : LineEnd (['/', '/'] ++ s) r) :
    singleLine (['/', '/'] ++ s ++ r) = some (['/', '/'] ++ s, r) := by
  have : notRep isNewline (s ++ r) = (s, r) := by
    refine notRep_complete (fun a b e hb => ?_) ?_
    · cases hq : isNewline (b ++ r) with
      | false => rfl
      | true =>
        exfalso
        rw [isNewline_iff] at hq
        match b, hb, e, hq with
        | [], hb, _, _ => exact hb rfl
        | [x], _, e, hq =>
          simp only [List.cons_append, List.nil_append, List.cons_prefix_cons, List.nil_prefix, and_true] at hq
          rcases hq with ⟨rfl, hq⟩ | rfl
          · rcases hr with rfl | hr | hr
            · simp at hq
            · refine hr.1 ?_
              rw [e, ← List.append_assoc, List.getLast?_concat]
            · cases r with
              | nil => simp at hq
              | cons c r =>
                simp only [List.cons_prefix_cons] at hq hr
                rw [← hq.1] at hr
                exact absurd hr.1 (by decide)
          · exact h (by rw [e]; simp)
        | x :: y :: b, _, e, hq =>
          simp only [List.cons_append, List.cons_prefix_cons, List.nil_prefix, and_true] at hq
          rcases hq with ⟨rfl, rfl⟩ | rfl
          · exact h (by rw [e]; simp)
          · exact h (by rw [e]; simp)
    · rcases hr with hr | hr | hr
      · exact .inl hr
      · exact .inr (isNewline_iff.2 (.inr hr.2))
      · exact .inr (isNewline_iff.2 (.inl hr))
  rw [singleLine, List.append_assoc, just_append, Option.map_some, this]

theorem singleLine_sound {s p r : Text} (h : singleLine s = some (p, r)) :
    s = p ++ r ∧ ∃ m, p = ['/', '/'] ++ m ∧ '\n' ∉ m ∧ LineEnd p r := by
  simp only [singleLine, Option.map_eq_some_iff, Prod.mk.injEq] at h
  obtain ⟨s1, h1, rfl, rfl⟩ := h
  have e1 := just_some h1
  have e2 := notRep_split isNewline s1
  refine ⟨?_, _, rfl, ?_, ?_⟩
  · rw [List.append_assoc, ← e2, e1]
  · intro hm
    obtain ⟨a, b, hab⟩ := List.append_of_mem hm
    have := notRep_before isNewline s1 a ('\n' :: b) hab (by simp)
    have h2 : isNewline ('\n' :: b ++ (notRep isNewline s1).2) = true := isNewline_iff.2 (.inr (by simp))
    rw [h2] at this; cases this
  · rcases notRep_stop isNewline s1 with hs | hs
    · exact .inl hs
    · rcases isNewline_iff.1 hs with hs | hs
      · exact .inr (.inr hs)
      · refine .inr (.inl ⟨fun hl => ?_, hs⟩)
        obtain ⟨a, ha⟩ := List.getLast?_eq_some_iff.1 hl
        cases hm : (notRep isNewline s1).1 with
        | nil =>
          rw [hm] at ha
          have := congrArg List.getLast? ha
          simp at this
        | cons x m =>
          obtain ⟨m', y, hy⟩ : ∃ m' y, (notRep isNewline s1).1 = m' ++ [y] := by
            rw [hm]; exact ⟨_, _, (List.dropLast_append_getLast (by simp)).symm⟩
          rw [hy, ← List.append_assoc] at ha
          have hyr : y = '\r' := by
            have := congrArg List.getLast? ha
            rw [List.getLast?_concat, List.getLast?_concat] at this
            exact Option.some.inj this
          subst hyr
          have := notRep_before isNewline s1 m' ['\r'] hy (by simp)
          rw [show isNewline (['\r'] ++ (notRep isNewline s1).2) = true from
            isNewline_iff.2 (.inl (by simpa using hs))] at this
          cases this

theorem ends_comment {b : Bytes} {s r : Text} : Ends (.comment b) s r ↔ ['/', '*'] <+: s ∨ LineEnd s r := Iff.rfl

theorem comment_complete {F : F32} {b : Bytes} {s r : Text} (h : Spells F (.comment b) s) (hr : Ends (.comment b) s r) :
    comment (s ++ r) = some (.comment b, r) := by
  cases h with
  | block hs => rw [comment, multiLine_complete hs]; rfl
  | @line u hs =>
    have h1 : multiLine (['/', '/'] ++ u ++ r) = none := by
      rw [multiLine, show just ['/', '*'] (['/', '/'] ++ u ++ r) = none from by simp [just]]; rfl
    rw [comment, h1, singleLine_complete hs]
    · rfl
    · rw [ends_comment] at hr
      rcases hr with hr | hr
      · simp at hr
      · exact hr

theorem comment_sound {F : F32} {t : Token} {s r : Text} (h : comment s = some (t, r)) :
    ∃ p, s = p ++ r ∧ Spells F t p ∧ Ends t p r := by
  simp only [comment, Option.map_eq_some_iff, Option.or_eq_some_iff, Prod.exists, Prod.mk.injEq] at h
  obtain ⟨p, r, h | ⟨-, h⟩, rfl, rfl⟩ := h
  · obtain ⟨e, m, rfl, hm⟩ := multiLine_sound h
    exact ⟨_, e, .block hm, .inl (by simp)⟩
  · obtain ⟨e, m, rfl, hm, hr⟩ := singleLine_sound h
    exact ⟨_, e, .line hm, .inr hr⟩

theorem comment_none {c : Char} {s : Text} (h : c ≠ '/') : comment (c :: s) = none := by
  rw [comment, multiLine, singleLine, just_ne (Ne.symm h), just_ne (Ne.symm h)]; rfl

theorem comment_div {r : Text} : comment ('/' :: r) = none ↔
    ((∀ c ∈ r.head?, c ≠ '/') ∧ ∀ r', r = '*' :: r' → ¬ ['*', '/'] <:+: r') := by
  rw [comment, Option.map_eq_none_iff, Option.or_eq_none_iff]
  constructor
  · rintro ⟨h1, h2⟩
    constructor
    · intro c hc
      rintro rfl
      cases r with
      | nil => cases hc
      | cons x r =>
        cases hc
        rw [singleLine, show just ['/', '/'] ('/' :: '/' :: r) = some r from just_append ['/', '/'] r] at h2
        cases h2
    · rintro r' rfl
      exact multiLine_none h1
  · rintro ⟨h1, h2⟩
    constructor
    · rw [multiLine]
      cases hj : just ['/', '*'] ('/' :: r) with
      | none => rfl
      | some r' =>
        have e := just_some hj
        simp only [List.cons_append, List.nil_append, List.cons.injEq, true_and] at e
        rw [Option.bind_some, Option.map_eq_none_iff]
        rw [just_none]
        intro hp
        refine h2 r' e ?_
        have hs := notRep_split (fun x => (just ['*', '/'] x).isSome) r'
        rw [hs]
        exact hp.isInfix.trans (List.suffix_append _ _).isInfix
    · rw [singleLine, Option.map_eq_none_iff]
      cases r with
      | nil => simp [just]
      | cons c r => simp [just, Ne.symm (h1 c (by simp))]

theorem operator_sound {o : Op} {s r : Text} (h : choice operators s = some (o, r)) (hc : comment s = none) :
    s = opText o ++ r ∧ ∀ x, Ends (.op o) x r := by
  simp only [operators, choice_cons, choice_nil, Option.or_eq_some_iff, Option.map_eq_some_iff, Option.map_eq_none_iff,
    Prod.mk.injEq, reduceCtorEq, and_false, or_false] at h
  have key : s = opText o ++ r := by
    rcases h with ⟨a, h, rfl, rfl⟩ | ⟨-, h⟩
    · exact just_some h
    iterate 17
      rcases h with ⟨a, h, rfl, rfl⟩ | ⟨-, h⟩
      · exact just_some h
    obtain ⟨a, h, rfl, rfl⟩ := h
    exact just_some h
  refine ⟨key, fun x => ?_⟩
  cases o
  case div =>
    subst key
    exact comment_div.1 hc
  all_goals
    first
    | trivial
    | (subst key
       cases r with
       | nil => simp [Ends]
       | cons c r =>
         simp only [opText, List.cons_append, List.nil_append, just, reduceCtorEq, and_false, false_and, exists_false,
           false_or, or_false] at h
         simp [Ends]
         grind)

theorem control_complete {c : Ctl} {r : Text} : choice controls (ctlText c ++ r) = some (c, r) := by
  cases c <;> simp [ctlText, controls, choice_cons, just]

theorem control_sound {c : Ctl} {s r : Text} (h : choice controls s = some (c, r)) : s = ctlText c ++ r := by
  simp only [controls, choice_cons, choice_nil, Option.or_eq_some_iff, Option.map_eq_some_iff, Option.map_eq_none_iff,
    Prod.mk.injEq, reduceCtorEq, and_false, or_false] at h
  iterate 7
    rcases h with ⟨a, h, rfl, rfl⟩ | ⟨-, h⟩
    · exact just_some h
  obtain ⟨a, h, rfl, rfl⟩ := h
  exact just_some h

/-! ### Tokens -/

theorem Spells.head {F : F32} {t : Token} {s : Text} (h : Spells F t s) : ∃ c s', s = c :: s' ∧ isWs c = false ∧
    (isConst t = true → isName c = true ∨ c = '.' ∨ c = '$' ∨ c = '\'' ∨ c = '"') ∧
    (isConst t = false → isName c = false ∧ c ≠ '.' ∧ c ≠ '$' ∧ c ≠ '\'' ∧ c ≠ '"') := by
  have ws : ∀ {c : Char}, isName c = true → isWs c = false := by
    intro c hc
    cases hw : isWs c with
    | false => rfl
    | true => rw [ws_noName hw] at hc; cases hc
  have dg : ∀ {d r : Text}, Digits d → ∃ c s', d ++ r = c :: s' ∧ isWs c = false ∧
      (isName c = true ∨ c = '.' ∨ c = '$' ∨ c = '\'' ∨ c = '"') := by
    intro d r hd
    obtain ⟨c, s', rfl, hc⟩ := hd.cons
    exact ⟨c, s' ++ r, rfl, ws (name_of_digit hc), .inl (name_of_digit hc)⟩
  cases h with
  | @op o => cases o <;> exact ⟨_, _, rfl, by decide, by decide, by decide⟩
  | @ctl c => cases c <;> exact ⟨_, _, rfl, by decide, by decide, by decide⟩
  | block => exact ⟨_, _, rfl, by decide, by simp [isConst], fun _ => by decide⟩
  | line => exact ⟨_, _, rfl, by decide, by simp [isConst], fun _ => by decide⟩
  | num h =>
    have key : ∃ c s', s = c :: s' ∧ isWs c = false ∧ (isName c = true ∨ c = '.' ∨ c = '$' ∨ c = '\'' ∨ c = '"') := by
      cases h with
      | int hd => simpa using dg (r := []) hd
      | hex hp =>
        rcases hp with rfl | rfl
        · exact ⟨_, _, rfl, by decide, by decide⟩
        · exact ⟨_, _, rfl, by decide, by decide⟩
      | @frac w d hw hd =>
        rcases hw with rfl | hw
        · exact ⟨_, _, rfl, by decide, by decide⟩
        · rw [List.append_assoc]; exact dg hw
      | @exp w d c g x hw hd =>
        rcases hw with rfl | ⟨w', hw', rfl⟩
        · simp only [List.nil_append, List.append_assoc]; exact dg hd
        · simp only [List.append_assoc]; exact dg hw'
    obtain ⟨c, s', e, hw, hk⟩ := key
    exact ⟨c, s', e, hw, fun _ => hk, by simp [isConst]⟩
  | name hc => exact ⟨_, _, rfl, ws (name_of_first hc), fun _ => .inl (name_of_first hc), by simp [isConst]⟩
  | @str u w => cases w <;> exact ⟨_, _, rfl, by decide, fun _ => by decide, by simp [isConst]⟩

theorem choice_none {α : Type} {l : List (Text × α)} {c : Char} {s : Text} (h : ∀ p ∈ l, ∃ a q, p.1 = a :: q ∧ a ≠ c) :
    choice l (c :: s) = none := by
  rw [choice, List.findSome?_eq_none_iff]
  intro p hp
  obtain ⟨a, q, e, hne⟩ := h p hp
  rw [e, just_ne hne]
  rfl

theorem symbols {p : Text} (h : p ∈ operators.map Prod.fst ∨ p ∈ controls.map Prod.fst) : ∃ a q, p = a :: q ∧
    isName a = false ∧ a ≠ '.' ∧ a ≠ '$' ∧ a ≠ '\'' ∧ a ≠ '"' := by
  have key : ∀ p ∈ operators.map Prod.fst ++ controls.map Prod.fst, ∀ a ∈ p.head?,
      isName a = false ∧ a ≠ '.' ∧ a ≠ '$' ∧ a ≠ '\'' ∧ a ≠ '"' := by decide +kernel
  have key2 : [] ∉ operators.map Prod.fst ++ controls.map Prod.fst := by decide
  rw [← List.mem_append] at h
  cases p with
  | nil => exact absurd h key2
  | cons a q => exact ⟨a, q, rfl, key _ h a (by simp)⟩

theorem const_no_symbol {c : Char} {s : Text} (h : isName c = true ∨ c = '.' ∨ c = '$' ∨ c = '\'' ∨ c = '"') :
    choice operators (c :: s) = none ∧ choice controls (c :: s) = none ∧ comment (c :: s) = none := by
  refine ⟨choice_none fun p hp => ?_, choice_none fun p hp => ?_, comment_none ?_⟩
  · obtain ⟨a, q, e, h1, h2⟩ := symbols (.inl (List.mem_map_of_mem hp))
    refine ⟨a, q, e, ?_⟩
    rintro rfl
    rw [h1] at h
    simp only [reduceCtorEq, false_or] at h
    tauto
  · obtain ⟨a, q, e, h1, h2⟩ := symbols (.inr (List.mem_map_of_mem hp))
    refine ⟨a, q, e, ?_⟩
    rintro rfl
    rw [h1] at h
    simp only [reduceCtorEq, false_or] at h
    tauto
  · rintro rfl
    revert h
    decide

theorem ends_const {t : Token} {s r : Text} (h : isConst t = true) : Ends t s r ↔ NoConst r := by
  cases t <;> first | exact Iff.rfl | cases h

theorem token_complete {F : F32} {t : Token} {s r : Text} (h : Spells F t s) (hr : Ends t s r) :
    token F (s ++ r) = some (t, r) := by
  cases hk : isConst t with
  | true =>
    obtain ⟨c, s', e, -, hc, -⟩ := h.head
    have hn := (ends_const hk).1 hr
    have hs := constant_complete hk h hn
    have hno := const_no_symbol (c := c) (s := s' ++ r) (hc hk)
    rw [e] at hs ⊢
    rw [List.cons_append] at hs ⊢
    rw [token, hno.2.2, base, hno.1, hno.2.1, hs, Option.bind_some, constant_none hn]
    rfl
  | false =>
    cases h with
    | @op o =>
      have hc : comment (opText o ++ r) = none := by
        cases o
        case div => exact comment_div.2 hr
        all_goals exact comment_none (by decide)
      rw [token, hc, base, operator_complete hr]
      rfl
    | @ctl c =>
      have hc : comment (ctlText c ++ r) = none := by cases c <;> exact comment_none (by decide)
      have ho : choice operators (ctlText c ++ r) = none := by
        cases c <;> simp [ctlText, operators, choice_cons, choice_nil, just]
      rw [token, hc, base, ho, control_complete]
      rfl
    | block hs => rw [token, comment_complete (.block hs : Spells F _ _) hr]; rfl
    | line hs => rw [token, comment_complete (.line hs : Spells F _ _) hr]; rfl
    | num => cases hk
    | name => cases hk
    | str => cases hk

theorem token_sound {F : F32} {t : Token} {s r : Text} (h : token F s = some (t, r)) :
    ∃ p, s = p ++ r ∧ Spells F t p ∧ (Ends t p r ∨ (isConst t = true ∧ constant F r = none)) := by
  simp only [token, base, Option.or_eq_some_iff, Option.map_eq_some_iff, Option.bind_eq_some_iff, Prod.exists,
    Prod.mk.injEq] at h
  rcases h with h | ⟨hc, (⟨o, r, h, rfl, rfl⟩ | ⟨-, c, r, h, rfl, rfl⟩) | ⟨-, t, r, h, h2⟩⟩
  · obtain ⟨p, e, hs, hr⟩ := comment_sound (F := F) h
    exact ⟨p, e, hs, .inl hr⟩
  · obtain ⟨e, hr⟩ := operator_sound h hc
    exact ⟨_, e, .op, .inl (hr _)⟩
  · exact ⟨_, control_sound h, .ctl, .inl trivial⟩
  · split at h2
    · cases h2
    · rename_i hn
      cases h2
      obtain ⟨p, e, hs, hk⟩ := constant_sound h
      exact ⟨p, e, hs, .inr ⟨hk, by simpa using hn⟩⟩

/-! ### The whole text -/

theorem Layout.tok' {F : F32} {n b e : Nat} {w : Text} {t : Token} {s : Text} {ts : List Tok} {r : Text}
    (hw : ∀ c ∈ w, isWs c = true) (hs : Spells F t s) (hr : Ends t s r) (hb : b = n + w.length) (he : e = b + s.length)
    (h : Layout F e ts r) : Layout F n ((t, (b, e)) :: ts) (w ++ s ++ r) := by
  subst hb he
  exact .tok hw hs hr h

theorem Layout.ws {F : F32} {n m : Nat} {w : Text} {ts : List Tok} {s : Text} (hw : ∀ c ∈ w, isWs c = true)
    (h : Layout F m ts s) (hm : m = n + w.length) : Layout F n ts (w ++ s) := by
  cases h with
  | done h => exact .done fun c hc => (List.mem_append.1 hc).elim (hw c) (h c)
  | @tok _ w' t p ts r hw' hs hr h =>
    rw [← List.append_assoc, ← List.append_assoc]
    exact .tok' (fun c hc => (List.mem_append.1 hc).elim (hw c) (hw' c)) hs hr (by rw [List.length_append]; omega) rfl h

theorem noConst_ws {w r : Text} {c : Char} (h : isWs c = true) : NoConst (c :: w ++ r) := by
  refine ⟨ws_noName h, ?_, ?_, ?_, ?_⟩ <;> (rintro rfl; exact absurd h (by decide))

theorem noConst_of_layout {F : F32} {n : Nat} {ts : List Tok} {r : Text} (h : Layout F n ts r)
    (hc : constant F r = none) : NoConst r := by
  cases h with
  | done hw =>
    cases r with
    | nil => trivial
    | cons c r => simpa using noConst_ws (w := r) (r := []) (hw c (by simp))
  | @tok _ w t s ts r hw hs hr h =>
    cases w with
    | cons c w => rw [List.append_assoc]; exact noConst_ws (hw c (by simp))
    | nil =>
      rw [List.nil_append] at hc ⊢
      cases hk : isConst t with
      | true => rw [constant_complete hk hs ((ends_const hk).1 hr)] at hc; cases hc
      | false =>
        obtain ⟨c, s', rfl, -, -, h2⟩ := hs.head
        have h3 := h2 hk
        exact ⟨h3.1, h3.2.2.2.1, h3.2.2.2.2, fun e => absurd e h3.2.1, fun e => absurd e h3.2.2.1⟩

theorem dropWhile_ws {s : Text} : ∃ w, (∀ c ∈ w, isWs c = true) ∧ s = w ++ s.dropWhile isWs :=
  ⟨s.takeWhile isWs, fun c hc => List.all_eq_true.1 List.all_takeWhile c hc, List.takeWhile_append_dropWhile.symm⟩

theorem loop_sound {F : F32} {N : Nat} : ∀ (f : Nat) (s : Text) (ts : List Tok), s.length ≤ N → loop F N f s = (ts, []) →
    Layout F (N - s.length) ts s
  | 0, s, ts, _, h => by
    rw [loop] at h
    cases h
    exact .done (by simp)
  | f + 1, s, ts, hN, h => by
    rw [loop] at h
    obtain ⟨w, hw, e⟩ := dropWhile_ws (s := s)
    dsimp only at h
    split at h
    · cases h
      exact .done (by simp)
    · rename_i t r ht
      obtain ⟨p, e2, hs, hr⟩ := token_sound ht
      obtain ⟨w2, hw2, e3⟩ := dropWhile_ws (s := r)
      have hl : s.length = w.length + (p.length + r.length) := by
        conv_lhs => rw [e, e2]
        simp
      have hl2 : r.length = w2.length + (r.dropWhile isWs).length := by
        conv_lhs => rw [e3]
        simp
      have hl3 : (s.dropWhile isWs).length = p.length + r.length := by rw [e2, List.length_append]
      simp only [Prod.mk.injEq] at h
      obtain ⟨rfl, hm⟩ := h
      have ih := loop_sound f (r.dropWhile isWs) _ (by omega) (Prod.ext rfl hm)
      have ih2 : Layout F (N - r.length) (loop F N f (r.dropWhile isWs)).1 r := by
        conv => arg 4; rw [e3]
        exact .ws hw2 ih (by omega)
      have hE : Ends t p r := by
        rcases hr with hr | ⟨hk, hr⟩
        · exact hr
        · exact (ends_const hk).2 (noConst_of_layout ih2 hr)
      conv => arg 4; rw [e, e2, ← List.append_assoc]
      exact .tok' hw hs hE (by omega) (by omega) ih2

theorem dropWhile_all {w s : Text} (hw : ∀ c ∈ w, isWs c = true) : (w ++ s).dropWhile isWs = s.dropWhile isWs := by
  induction w with
  | nil => rfl
  | cons a w ih => simp [hw a (by simp), ih fun c hc => hw c (by simp [hc])]

theorem Spells.drop {F : F32} {t : Token} {s w r : Text} (h : Spells F t s) (hw : ∀ c ∈ w, isWs c = true) :
    (w ++ s ++ r).dropWhile isWs = s ++ r := by
  obtain ⟨c, s', rfl, hc, -⟩ := h.head
  rw [List.append_assoc, dropWhile_all hw]
  simp [hc]

theorem Layout.drop {F : F32} {n : Nat} {ts : List Tok} {s : Text} (h : Layout F n ts s) :
    Layout F (n + s.length - (s.dropWhile isWs).length) ts (s.dropWhile isWs) ∧ (ts = [] → s.dropWhile isWs = []) := by
  cases h with
  | done hw =>
    have : s.dropWhile isWs = [] := by simpa using dropWhile_all (s := []) hw
    rw [this]
    exact ⟨.done (by simp), fun _ => rfl⟩
  | @tok _ w t p ts r hw hs hr h =>
    rw [hs.drop hw]
    refine ⟨?_, by simp⟩
    have := Layout.tok' (n := n + (w ++ p ++ r).length - (p ++ r).length) (w := []) (b := n + w.length)
      (e := n + w.length + p.length) (by simp) hs hr
      (by simp only [List.length_append, List.length_nil]; omega) rfl h
    simpa using this

theorem loop_complete {F : F32} {N : Nat} : ∀ (f n : Nat) (s : Text) (ts : List Tok), Layout F n ts s → n + s.length = N →
    s.length < f → (ts = [] → s = []) → loop F N f s = (ts, [])
  | 0, _, _, _, _, _, hf, _ => by omega
  | f + 1, n, s, ts, h, hN, hf, h0 => by
    cases h with
    | done hw =>
      rw [h0 rfl]
      rfl
    | @tok _ w t p ts r hw hs hr h =>
      have hd := h.drop
      have hp : 0 < p.length := by
        obtain ⟨c, s', rfl, -⟩ := hs.head
        simp
      have hle : (r.dropWhile isWs).length ≤ r.length := (List.dropWhile_suffix isWs).length_le
      simp only [List.length_append] at hN hf
      have ih := loop_complete (F := F) (N := N) f _ (r.dropWhile isWs) ts hd.1 (by omega) (by omega) hd.2
      rw [loop]
      dsimp only
      rw [hs.drop hw, token_complete hs hr]
      dsimp only
      rw [ih]
      simp only [Prod.mk.injEq, List.cons.injEq, true_and, and_true, List.length_append]
      omega

/-- The lexer accepts exactly the texts that are tokens with white space between them, and finds those tokens. -/
theorem lex_iff {F : F32} {s : Text} {ts : List Tok} : lex F s = some ts ↔ Layout F 0 ts s := by
  constructor
  · intro h
    rw [lex] at h
    split at h
    · rename_i h0
      cases h
      obtain ⟨w, hw, e⟩ := dropWhile_ws (s := s)
      rw [h0, List.append_nil] at e
      rw [e]
      exact .done hw
    · dsimp only at h
      split at h
      · rename_i h1
        have := loop_sound (F := F) (N := s.length) (s.length + 1) s _ (Nat.le_refl _) (Prod.ext rfl h1)
        rw [Nat.sub_self] at this
        rw [← Option.some.inj h]
        exact this
      · cases h
  · intro h
    rw [lex]
    split
    · rename_i h0
      cases h with
      | done => rfl
      | tok hw hs =>
        rw [hs.drop hw] at h0
        obtain ⟨c, s', rfl, -⟩ := hs.head
        cases h0
    · rename_i h0
      have := loop_complete (F := F) (N := s.length) (s.length + 1) 0 s ts h (by omega) (by omega) (by
        rintro rfl
        exact absurd (h.drop.2 rfl) h0)
      rw [this]
      simp

end Verif.SqfLex
