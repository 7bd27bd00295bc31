import Verif.Lib.ConfigText
import Verif.Lib.SqfLex
/-! What the config parser reads is written so in the text. -/
namespace Verif.ConfigParse
open Verif.Prefix (isWs trim)
open Verif.Rap (Num)
open Verif.SqfLex (Digits isDigit isHex isAlpha escape just digits many1 just_some many1_some digits_some)

/-! ### Outcomes -/

theorem bind_ok {α β : Type} {x : R α} {f : α → Text → R β} {b : β} {r : Text} :
    x.bind f = .ok b r ↔ ∃ a s, x = .ok a s ∧ f a s = .ok b r := by
  cases x <;> simp [R.bind]
theorem or_ok {α : Type} {x y : R α} {a : α} {r : Text} : x.or y = .ok a r ↔ x = .ok a r ∨ (x = .fail ∧ y = .ok a r) := by
  cases x <;> simp [R.or]
theorem map_ok {α β : Type} {f : α → β} {x : R α} {b : β} {r : Text} : x.map f = .ok b r ↔ ∃ a, x = .ok a r ∧ f a = b := by
  cases x with
  | ok a' r' =>
    simp only [R.map, R.bind, R.ok.injEq]
    constructor
    · rintro ⟨rfl, rfl⟩; exact ⟨_, ⟨rfl, rfl⟩, rfl⟩
    · rintro ⟨_, ⟨rfl, rfl⟩, rfl⟩; exact ⟨rfl, rfl⟩
  | fail => simp [R.map, R.bind]
  | halt => simp [R.map, R.bind]
theorem lift_ok {α : Type} {x : Option (α × Text)} {a : α} {r : Text} : lift x = .ok a r ↔ x = some (a, r) := by
  cases x with
  | none => simp [lift]
  | some m => obtain ⟨b, s⟩ := m; simp [lift]
theorem tok_ok {p s r : Text} {u : Unit} (h : tok p s = .ok u r) : s = p ++ r := by
  rw [tok] at h
  split at h
  · cases h; exact just_some ‹_›
  · cases h
theorem ws_spec (s : Text) : ∃ w, Blank w ∧ s = w ++ ws s := SqfLex.dropWhile_ws
theorem tokP_ok {p s r : Text} {u : Unit} (h : tokP p s = .ok u r) : ∃ w w', Blank w ∧ Blank w' ∧ s = w ++ p ++ w' ++ r := by
  simp only [tokP, bind_ok] at h
  obtain ⟨_, e, h, h'⟩ := h
  cases h'
  obtain ⟨w, hw, h1⟩ := ws_spec s
  obtain ⟨w', hw', h2⟩ := ws_spec e
  refine ⟨w, w', hw, hw', ?_⟩
  conv_lhs => rw [h1, tok_ok h, h2]
  simp
theorem padded_ok {α : Type} {p : Text → R α} {s r : Text} {a : α} (h : padded p s = .ok a r) :
    ∃ w s' w', Blank w ∧ Blank w' ∧ s = w ++ s' ∧ p s' = .ok a (w' ++ r) := by
  simp only [padded, bind_ok] at h
  obtain ⟨b, e, h, h'⟩ := h
  cases h'
  obtain ⟨w, hw, h1⟩ := ws_spec s
  obtain ⟨w', hw', h2⟩ := ws_spec e
  exact ⟨w, ws s, w', hw, hw', h1, by rw [← h2]; exact h⟩
theorem orSkip_ok {α : Type} {x : R α} {s r : Text} {a : α} (h : orSkip x s = .ok a r) : x = .ok a r := by
  cases x with
  | ok => exact h
  | fail => simp only [orSkip] at h; split at h <;> cases h
  | halt => exact h
theorem orSkipItem_ok {x : R Item} {s r : Text} {a : Item} (h : orSkipItem x s = .ok a r) : x = .ok a r := by
  cases x with
  | ok => exact h
  | fail =>
    simp only [orSkipItem] at h
    split at h
    · cases h
    · split at h <;> cases h
  | halt => exact h
theorem orNot_ok {α : Type} {p : Text → R α} {s r : Text} {a : Option α} (h : orNot p s = .ok a r) :
    (∃ b, p s = .ok b r ∧ a = some b) ∨ (a = none ∧ r = s) := by
  simp only [orNot, or_ok, map_ok] at h
  rcases h with ⟨b, h, rfl⟩ | ⟨-, h⟩
  · exact .inl ⟨b, h, rfl⟩
  · cases h; exact .inr ⟨rfl, rfl⟩

theorem Blank.append {a b : Text} (ha : Blank a) (hb : Blank b) : Blank (a ++ b) := by
  intro c hc
  rcases List.mem_append.1 hc with h | h
  · exact ha c h
  · exact hb c h
theorem Blank.nil : Blank [] := by intro c hc; cases hc

/-! ### Numbers -/

section
variable {α : Type} {F : Fl α}

theorem intNum_spec (v : Nat) : IntNum v (intNum v) := by
  rw [intNum]
  split
  · exact .large (by omega)
  · exact .small (by omega)

theorem unsigned_sound {n : Num} {s r : Text} (h : unsigned F s = some (n, r)) : ∃ p, s = p ++ r ∧ Unsigned F n p := by
  simp only [unsigned, Option.or_eq_some_iff] at h
  rcases h with ((h | ⟨-, h⟩) | ⟨-, h⟩) | ⟨-, h⟩
  · simp only [SqfLex.numberExp, Option.bind_eq_some_iff, Option.map_eq_some_iff, Prod.exists, Prod.mk.injEq] at h
    obtain ⟨_, _, ⟨d, s2, h1, c, s3, h2, y, s4, h3, rfl, rfl⟩, rfl, rfl⟩ := h
    obtain ⟨hs, hw⟩ := SqfLex.whole_spec s
    obtain ⟨e1, hd⟩ := digits_some h1
    obtain ⟨rfl, hc⟩ := SqfLex.letterE_spec h2
    obtain ⟨e3, hg⟩ := SqfLex.sign_spec s3
    obtain ⟨e4, hy⟩ := digits_some h3
    refine ⟨_, ?_, .exp hw hd hc hg hy⟩
    conv_lhs => rw [hs, e1, e3, e4]
    simp
  · simp only [SqfLex.numberBasic, Option.bind_eq_some_iff, Option.map_eq_some_iff, Prod.exists, Prod.mk.injEq] at h
    obtain ⟨_, _, ⟨s2, h1, d, s3, h2, rfl, rfl⟩, rfl, rfl⟩ := h
    have e1 := just_some h1
    obtain ⟨e2, hd⟩ := digits_some h2
    have hw : s = ((digits s).getD ([], s)).1 ++ ((digits s).getD ([], s)).2 ∧
        (((digits s).getD ([], s)).1 = [] ∨ Digits ((digits s).getD ([], s)).1) := by
      cases hh : digits s with
      | none => simp
      | some m => obtain ⟨a, b⟩ := digits_some hh; exact ⟨a, .inr b⟩
    refine ⟨_, ?_, .frac hw.2 hd⟩
    conv_lhs => rw [hw.1, e1, e2]
    simp
  · simp only [numberHex, Option.bind_eq_some_iff, Option.map_eq_some_iff, Prod.exists, Prod.mk.injEq] at h
    obtain ⟨_, _, ⟨s2, h1, d, s3, h2, h3⟩, rfl, rfl⟩ := h
    split at h3
    · rename_i hv
      cases h3
      obtain ⟨rfl, h0, hd⟩ := many1_some h2
      exact ⟨['0', 'x'] ++ d, by rw [just_some h1, List.append_assoc], .hex h0 hd hv (intNum_spec _)⟩
    · cases h3
  · simp only [numberInt, Option.bind_eq_some_iff, Option.map_eq_some_iff, Prod.exists, Prod.mk.injEq] at h
    obtain ⟨_, _, ⟨d, s3, h2, h3⟩, rfl, rfl⟩ := h
    split at h3
    · rename_i hv
      cases h3
      obtain ⟨rfl, hd⟩ := digits_some h2
      exact ⟨d, rfl, .int hd hv (intNum_spec _)⟩
    · cases h3

theorem negate_spec (n : Num) : Minus F n (negate F n) := by
  cases n <;> (rw [negate]; constructor)

theorem number_sound {n : Num} {s r : Text} (h : number F s = some (n, r)) : ∃ l, Lit F n l ∧ s = l ++ r := by
  rw [number] at h
  split at h
  · rename_i e he
    simp only [Option.map_eq_some_iff, Prod.exists, Prod.mk.injEq] at h
    obtain ⟨m, _, h, rfl, rfl⟩ := h
    obtain ⟨p, rfl, hp⟩ := unsigned_sound h
    exact ⟨'-' :: p, .neg hp (negate_spec m), by rw [just_some he]; rfl⟩
  · obtain ⟨p, rfl, hp⟩ := unsigned_sound h
    exact ⟨p, .pos hp, rfl⟩

theorem pieces_sound : ∀ (f : Nat) (s : Text), ∃ t, Formula F (pieces F f s).1.length (pieces F f s).1.flatten t ∧
    s = t ++ (pieces F f s).2
  | 0, s => ⟨[], .nil, rfl⟩
  | f + 1, s => by
    rw [pieces]
    split
    · exact ⟨[], .nil, rfl⟩
    · rename_i p r hp
      obtain ⟨t, ht, he⟩ := pieces_sound f r
      simp only [piece, Option.or_eq_some_iff, Option.map_eq_some_iff, Prod.exists, Prod.mk.injEq] at hp
      rcases hp with ⟨n, _, hn, rfl, rfl⟩ | ⟨-, hp⟩
      · obtain ⟨l, hl, rfl⟩ := number_sound hn
        refine ⟨l ++ t, .num hl ht, ?_⟩
        rw [List.append_assoc, ← he]
      · split at hp
        · cases hp
        · split at hp
          · rename_i c e hc
            cases hp
            exact ⟨c :: t, .op hc ht, by rw [List.cons_append, ← he]⟩
          · cases hp

theorem evaluate_spec {u : Text} {n : Num} (h : evaluate F u = some n) : ∃ v, Math.eval F.f64 u = some v ∧ Becomes F v n := by
  simp only [evaluate, Option.map_eq_some_iff] at h
  obtain ⟨v, h1, rfl⟩ := h
  refine ⟨v, h1, ?_⟩
  split
  · rename_i z hz
    split
    · rename_i hr; exact .i32 hz hr.1 hr.2
    · exact .i64 hz (by omega) rfl
  · rename_i hz; exact .f32 hz

theorem numeric_sound {n : Num} {s r : Text} (h : numeric F s = some (n, r)) : Reading F n s r := by
  simp only [numeric, Option.or_eq_some_iff] at h
  rcases h with h | ⟨-, h⟩
  · simp only [math] at h
    split at h
    · cases h
    · rename_i hk
      simp only [Option.map_eq_some_iff, Prod.mk.injEq] at h
      obtain ⟨m, h, rfl, rfl⟩ := h
      obtain ⟨t, ht, he⟩ := pieces_sound (F := F) s.length s
      obtain ⟨v, hv, hb⟩ := evaluate_spec h
      exact .inr ⟨_, _, t, v, ht, by omega, he, hv, hb⟩
  · obtain ⟨l, hl, e⟩ := number_sound h
    exact .inl ⟨l, hl, e⟩
end

/-! ### Strings and expressions -/

theorem segments_sound (t : Text) : ∀ (f : Nat) (r : Text), ∃ s, Segs (t :: (segments f r).1) s ∧
    quoted t ++ r = s ++ (segments f r).2
  | 0, r => ⟨_, .one, rfl⟩
  | f + 1, r => by
    rw [segments]
    split
    · exact ⟨_, .one, rfl⟩
    · rename_i u e hu
      · simp only [Option.bind_eq_some_iff] at hu
        obtain ⟨r1, h1, h2⟩ := hu
        obtain ⟨w, hw, e1⟩ := ws_spec r
        obtain ⟨w', hw', e2⟩ := ws_spec r1
        have h3 := SqfLex.string_sound h2
        obtain ⟨s, hs, e4⟩ := segments_sound u f e
        refine ⟨_, .cons hw hw' hs, ?_⟩
        conv_lhs => rw [e1, just_some h1, e2, h3]
        have : quoted u ++ e = ['"'] ++ escape '"' u ++ ['"'] ++ e := rfl
        simp only [List.append_assoc] at this e4 ⊢
        rw [← this, e4]

theorem no_infix_short {x : Text} (h : x.length < 2) : ¬ ['\\', '\n'] <:+: x := fun hi => by
  have := hi.length_le
  simp at this
  omega

theorem unbroken_cons {c : Char} {u v : Text} (h : Unbroken u v) (hb : ¬ (c = '\\' ∧ u.head? = some '\n')) :
    Unbroken (c :: u) (c :: v) := by
  obtain ⟨vs, rfl, rfl, hx⟩ := h
  cases vs with
  | nil => exact ⟨[[c]], rfl, rfl, by simpa using no_infix_short (x := [c]) (by simp)⟩
  | cons a vs =>
    refine ⟨(c :: a) :: vs, ?_, ?_, ?_⟩
    · cases vs <;> simp
    · simp
    · intro x hx'
      rcases List.mem_cons.1 hx' with rfl | hx'
      · intro hi
        rcases List.infix_cons_iff.1 hi with hp | hi
        · obtain ⟨t, ht⟩ := hp
          cases a with
          | nil => simp at ht
          | cons d a =>
            simp only [List.cons_append, List.nil_append, List.cons.injEq] at ht
            refine hb ⟨ht.1.symm, ?_⟩
            cases vs <;> simp [← ht.2.1]
        · exact hx a (by simp) hi
      · exact hx x (by simp [hx'])

theorem unbroken_break {u v : Text} (h : Unbroken u v) : Unbroken ('\\' :: '\n' :: u) v := by
  obtain ⟨vs, rfl, rfl, hx⟩ := h
  cases vs with
  | nil => exact ⟨[[], []], rfl, rfl, by simp⟩
  | cons a vs =>
    refine ⟨[] :: a :: vs, by simp, by simp, ?_⟩
    intro x hx'
    rcases List.mem_cons.1 hx' with rfl | hx'
    · simp
    · exact hx x hx'

theorem dropBreaks_spec (u : Text) : Unbroken u (dropBreaks u) := by
  fun_induction dropBreaks u with
  | case1 => exact ⟨[], rfl, rfl, by simp⟩
  | case2 c => exact ⟨[[c]], rfl, rfl, by simpa using no_infix_short (x := [c]) (by simp)⟩
  | case3 c d s h ih => rw [h.1, h.2]; exact unbroken_break ih
  | case4 c d s h ih => exact unbroken_cons ih (by simpa using h)

theorem string_sound {s v r : Text} (h : string s = some (v, r)) : ∃ t, Str v t ∧ s = t ++ r := by
  simp only [string, Option.map_eq_some_iff, Prod.exists, Prod.mk.injEq] at h
  obtain ⟨t, e, h1, rfl, rfl⟩ := h
  have h2 := SqfLex.string_sound h1
  obtain ⟨x, hx, hxe⟩ := segments_sound t e.length e
  refine ⟨x, ⟨_, hx, dropBreaks_spec _⟩, ?_⟩
  rw [← hxe, h2]; rfl

theorem plain_sound {s t r : Text} (h : plain s = some (t, r)) : s = t ++ r ∧ t ≠ [] ∧ ∀ c ∈ t, c ≠ '(' ∧ c ≠ ')' := by
  obtain ⟨a, b, c⟩ := many1_some h
  exact ⟨a, b, fun x hx => by simpa using c x hx⟩

mutual
theorem group_sound : ∀ (f : Nat) (s t r : Text), group f s = some (t, r) →
    s = t ++ r ∧ ∃ e, t = ['('] ++ e ++ [')'] ∧ Bal e
  | 0, _, _, _, h => by rw [group] at h; cases h
  | f + 1, s, t, r, h => by
    simp only [group, Option.bind_eq_some_iff] at h
    obtain ⟨s1, h1, h⟩ := h
    split at h
    · cases h
    · rename_i hne
      simp only [Option.map_eq_some_iff, Prod.mk.injEq] at h
      obtain ⟨e, h2, rfl, rfl⟩ := h
      obtain ⟨h3, h4⟩ := parts_sound f s1
      refine ⟨?_, _, rfl, h4 hne⟩
      rw [just_some h1]
      conv_lhs => rw [h3, just_some h2]
      simp
theorem parts_sound : ∀ (f : Nat) (s : Text), s = (parts f s).1.flatten ++ (parts f s).2 ∧
    ((parts f s).1 ≠ [] → Bal (parts f s).1.flatten)
  | 0, s => by rw [parts]; simp
  | f + 1, s => by
    rw [parts]
    split
    · simp
    · rename_i p r hp
      have key : s = p ++ r ∧ Bal p := by
        rcases Option.or_eq_some_iff.1 hp with hp | ⟨-, hp⟩
        · obtain ⟨a, e, rfl, hb⟩ := group_sound f _ _ _ hp
          exact ⟨a, .group hb⟩
        · obtain ⟨a, b, c⟩ := plain_sound hp
          exact ⟨a, .text b c⟩
      obtain ⟨h3, h4⟩ := parts_sound f r
      constructor
      · simp only [List.flatten_cons, List.append_assoc]
        rw [← h3]; exact key.1
      · intro _
        simp only [List.flatten_cons]
        by_cases he : (parts f r).1 = []
        · rw [he]; simpa using key.2
        · exact .append key.2 (h4 he)
end

theorem eval_sound {s x r : Text} (h : eval s = .ok x r) :
    s = ['_', '_', 'E', 'V', 'A', 'L'] ++ ['('] ++ x ++ [')'] ++ r ∧ Bal x := by
  simp only [eval, bind_ok] at h
  obtain ⟨_, s1, h1, t, e, h2, h3⟩ := h
  rw [lift_ok] at h2
  split at h3
  · rename_i y hy
    cases h3
    rcases Option.or_eq_some_iff.1 h2 with hp | ⟨-, hp⟩
    · obtain ⟨a, e, rfl, hb⟩ := group_sound _ _ _ _ hp
      rw [show (['('] ++ e ++ [')'] : Text) = '(' :: (e ++ [')']) by simp, unwrap, List.getLast?_concat, if_pos rfl,
        List.dropLast_concat] at hy
      cases hy
      refine ⟨?_, hb⟩
      rw [tok_ok h1, a]
      simp
    · obtain ⟨a, b, c⟩ := plain_sound hp
      cases t with
      | nil => exact absurd rfl b
      | cons z t =>
        have := (c z (by simp)).1
        rw [unwrap.eq_def] at hy
        split at hy
        · rename_i hz; cases hz; exact absurd rfl this
        · cases hy
  · cases h3

/-! ### Arrays and values -/

section
variable {α : Type} {F : Fl α}

mutual
theorem array_sound : ∀ (f : Nat) (s r : Text) (is : List Item), array F f s = .ok is r →
    ∃ w s' w', Blank w ∧ Blank w' ∧ s = w ++ s' ∧ Arr (Reading F) is s' (w' ++ r)
  | 0, _, _, _, h => by rw [array] at h; cases h
  | f + 1, s, r, is, h => by
    simp only [array, bind_ok] at h
    obtain ⟨_, s1, h1, is', s2, h2, _, s3, h3, h4⟩ := h
    cases h4
    obtain ⟨w1, w2, hw1, hw2, e1⟩ := tokP_ok h1
    obtain ⟨w3, w4, hw3, hw4, e3⟩ := tokP_ok h3
    refine ⟨w1, '{' :: (w2 ++ s1), w4, hw1, hw4, by rw [e1]; simp, .mk ?_⟩
    exact items_sound f s1 s2 _ _ w2 w3 hw2 hw3 h2 (by rw [e3]; simp)
theorem item_sound : ∀ (f : Nat) (s r : Text) (i : Item), item F f s = .ok i r →
    ∃ w s' w', Blank w ∧ Blank w' ∧ s = w ++ s' ∧ Itm (Reading F) i s' (w' ++ r)
  | 0, _, _, _, h => by rw [item] at h; cases h
  | f + 1, s, r, i, h => by
    simp only [item, bind_ok] at h
    obtain ⟨i', e, h1, h2⟩ := h
    cases h2
    obtain ⟨w, hw, es⟩ := ws_spec s
    obtain ⟨w', hw', ee⟩ := ws_spec e
    simp only [or_ok, map_ok] at h1
    rcases h1 with ⟨is, h1, rfl⟩ | ⟨-, h1⟩
    · obtain ⟨v, s', v', hv, hv', e1, ha⟩ := array_sound f _ _ _ h1
      refine ⟨w ++ v, s', v' ++ w', hw.append hv, hv'.append hw', by rw [List.append_assoc, ← e1]; exact es, .arr ?_⟩
      rw [List.append_assoc, ← ee]; exact ha
    · replace h1 := lift_ok.1 (orSkipItem_ok h1)
      refine ⟨w, ws s, w', hw, hw', es, ?_⟩
      rw [← ee]
      simp only [arrayValue, Option.or_eq_some_iff, Option.map_eq_some_iff, Prod.exists, Prod.mk.injEq] at h1
      rcases h1 with ⟨v, _, h1, rfl, rfl⟩ | ⟨-, n, _, h1, rfl, rfl⟩
      · obtain ⟨t, ht, e1⟩ := string_sound h1
        rw [e1]; exact .str ht
      · exact .num (numeric_sound h1)
theorem items_sound : ∀ (f : Nat) (s e r : Text) (is : List Item) (w w' : Text), Blank w → Blank w' → items F f s = .ok is e →
    e = w' ++ r → Items (Reading F) is (w ++ s) r
  | 0, s, e, r, is, w, w', hw, hw', h, he => by
    rw [items] at h
    cases h
    subst he
    rw [← List.append_assoc]; exact .nil (hw.append hw')
  | f + 1, s, e, r, is, w, w', hw, hw', h, he => by
    rw [items] at h
    split at h
    · cases h
    · cases h
      subst he
      rw [← List.append_assoc]; exact .nil (hw.append hw')
    · rename_i i r1 hi
      obtain ⟨v, s', v', hv, hv', es, hI⟩ := item_sound f _ _ _ hi
      subst es
      split at h
      · rename_i u e1 ht
        simp only [map_ok] at h
        obtain ⟨is', h, rfl⟩ := h
        obtain ⟨w1, w2, hw1, hw2, e2⟩ := tokP_ok ht
        have := items_sound f e1 e r is' w2 w' hw2 hw' h he
        rw [← List.append_assoc]
        refine .cons (s' := w2 ++ e1) (hw.append hv) (hv'.append hw1) ?_ this
        rw [e2] at hI
        simpa using hI
      · cases h
        subst he
        rw [← List.append_assoc]
        exact .last (hw.append hv) (hv'.append hw') (by rw [List.append_assoc]; exact hI)
end

/-- What a value is. -/
theorem value_sound {s r : Text} {v : Val} (h : value F s = .ok v r) :
    (Scalar (Reading F) v s r) ∨
      ∃ is w s' w', v = .uarr is ∧ Blank w ∧ Blank w' ∧ s = w ++ s' ∧ Arr (Reading F) is s' (w' ++ r) := by
  simp only [value, or_ok, map_ok, lift_ok] at h
  rcases h with ((⟨x, h, rfl⟩ | ⟨-, is, h, rfl⟩) | ⟨-, x, h, rfl⟩) | ⟨-, n, h, rfl⟩
  · obtain ⟨rfl, hb⟩ := eval_sound h
    exact .inl (.expr hb)
  · obtain ⟨w, s', w', h1, h2, h3, h4⟩ := array_sound _ _ _ _ h
    exact .inr ⟨is, w, s', w', rfl, h1, h2, h3, h4⟩
  · obtain ⟨t, ht, rfl⟩ := string_sound h
    exact .inl (.str ht)
  · exact .inl (.num (numeric_sound h))

/-! ### Properties -/

theorem ident_sound {s n r : Text} (h : ident s = .ok n r) : Name n ∧ s = n ++ r := by
  rw [ident, lift_ok] at h
  obtain ⟨a, b, c⟩ := many1_some h
  refine ⟨⟨b, fun x hx => ?_⟩, a⟩
  have := c x hx
  simpa [isIdent, or_assoc] using this

theorem parent_sound {s n r : Text} (h : parent s = .ok n r) :
    ∃ w w' w'', Blank w ∧ Blank w' ∧ Blank w'' ∧ Name n ∧ s = w ++ [':'] ++ w' ++ n ++ w'' ++ r := by
  simp only [parent, bind_ok] at h
  obtain ⟨_, s1, h1, h2⟩ := h
  obtain ⟨w1, w2, hw1, hw2, rfl⟩ := tokP_ok h1
  obtain ⟨w3, s', w4, hw3, hw4, rfl, h3⟩ := padded_ok h2
  obtain ⟨hn, rfl⟩ := ident_sound h3
  exact ⟨w1, w2 ++ w3, w4, hw1, hw2.append hw3, hw4, hn, by simp⟩

theorem className_sound {s n r : Text} (h : className s = .ok n r) :
    ∃ w s' w', Blank w ∧ Blank w' ∧ s = w ++ s' ∧ Cls n s' (w' ++ r) := by
  simp only [className, bind_ok] at h
  obtain ⟨_, s1, h1, h2⟩ := h
  obtain ⟨w1, w2, hw1, hw2, rfl⟩ := tokP_ok h1
  obtain ⟨w3, s', w4, hw3, hw4, rfl, h3⟩ := padded_ok h2
  obtain ⟨hn, rfl⟩ := ident_sound h3
  refine ⟨w1, _, w4, hw1, hw4, ?_, .mk hn (hw2.append hw3)⟩
  simp

theorem arrayRhs_sound {s r : Text} {v : Val} (h : arrayRhs F s = .ok v r) :
    ∃ w', Blank w' ∧ Rhs (Reading F) v true s (w' ++ r) := by
  simp only [arrayRhs, bind_ok] at h
  obtain ⟨_, s1, h1, h2⟩ := h
  obtain ⟨w1, w2, hw1, hw2, rfl⟩ := tokP_ok h1
  have h2 := orSkip_ok h2
  rw [or_ok] at h2
  rcases h2 with h2 | ⟨-, h2⟩
  · simp only [bind_ok] at h2
    obtain ⟨_, s2, h2, h3⟩ := h2
    obtain ⟨w3, w4, hw3, hw4, rfl⟩ := tokP_ok h2
    obtain ⟨w5, s3, w6, hw5, hw6, rfl, h4⟩ := padded_ok (orSkip_ok h3)
    simp only [or_ok, map_ok] at h4
    rcases h4 with ⟨is, h4, rfl⟩ | ⟨hn, h4⟩
    · obtain ⟨w7, s4, w8, hw7, hw8, rfl, ha⟩ := array_sound _ _ _ _ h4
      refine ⟨w8 ++ w6, hw8.append hw6, ?_⟩
      have := Rhs.arr hw1 (hw2.append hw3) ((hw4.append hw5).append hw7) ha
      simpa using this
    · rcases value_sound h4 with hv | ⟨is, w, s', w', rfl, hw, hw', rfl, ha⟩
      · refine ⟨w6, hw6, ?_⟩
        have := Rhs.oddVal hw1 (hw2.append hw3) (hw4.append hw5) hv
        simpa using this
      · exfalso
        simp only [value, or_ok, map_ok, lift_ok] at h4
        rcases h4 with ((⟨x, _, hx⟩ | ⟨-, is', h4, _⟩) | ⟨-, x, _, hx⟩) | ⟨-, n, _, hx⟩
        · cases hx
        · rw [h4] at hn
          simp [R.map, R.bind] at hn
        · cases hx
        · cases hx
  · obtain ⟨w3, s2, w4, hw3, hw4, rfl, h3⟩ := padded_ok h2
    rw [or_ok] at h3
    rcases h3 with h3 | ⟨-, h3⟩
    · simp only [bind_ok, map_ok] at h3
      obtain ⟨_, s3, h3, is, h4, rfl⟩ := h3
      obtain ⟨w5, w6, hw5, hw6, rfl⟩ := tokP_ok h3
      obtain ⟨w7, s4, w8, hw7, hw8, rfl, ha⟩ := array_sound _ _ _ _ h4
      refine ⟨w8 ++ w4, hw8.append hw4, ?_⟩
      have := Rhs.app hw1 ((hw2.append hw3).append hw5) (hw6.append hw7) ha
      simpa using this
    · rcases value_sound h3 with hv | ⟨is, w, s', w', rfl, hw, hw', rfl, ha⟩
      · refine ⟨w4, hw4, ?_⟩
        have := Rhs.noEqVal hw1 (hw2.append hw3) hv
        simpa using this
      · refine ⟨w' ++ w4, hw'.append hw4, ?_⟩
        have := Rhs.noEqArr hw1 ((hw2.append hw3).append hw) ha
        simpa using this

theorem plainRhs_sound {s r : Text} {v : Val} (h : plainRhs F s = .ok v r) :
    ∃ w', Blank w' ∧ Rhs (Reading F) v false s (w' ++ r) := by
  simp only [plainRhs, bind_ok] at h
  obtain ⟨_, s1, h1, h2⟩ := h
  obtain ⟨w1, w2, hw1, hw2, rfl⟩ := tokP_ok h1
  obtain ⟨w3, s2, w4, hw3, hw4, rfl, h3⟩ := padded_ok h2
  rcases value_sound (orSkip_ok h3) with hv | ⟨is, w, s', w', rfl, hw, hw', rfl, ha⟩
  · refine ⟨w4, hw4, ?_⟩
    have := Rhs.val hw1 (hw2.append hw3) hv
    simpa using this
  · refine ⟨w' ++ w4, hw'.append hw4, ?_⟩
    have := Rhs.oddArr hw1 ((hw2.append hw3).append hw) ha
    simpa using this

theorem Rhs.blank {Nm : Num → Text → Text → Prop} {v : Val} {b : Bool} {w s r : Text} (hw : Blank w) (h : Rhs Nm v b s r) :
    Rhs Nm v b (w ++ s) r := by
  cases h with
  | arr h1 h2 h3 h4 => simpa using Rhs.arr (hw.append h1) h2 h3 h4
  | app h1 h2 h3 h4 => simpa using Rhs.app (hw.append h1) h2 h3 h4
  | val h1 h2 h3 => simpa using Rhs.val (hw.append h1) h2 h3
  | oddVal h1 h2 h3 h4 => simpa using Rhs.oddVal (hw.append h1) h2 h3 h4
  | oddArr h1 h2 h3 => simpa using Rhs.oddArr (hw.append h1) h2 h3
  | noEqVal h1 h2 h3 => simpa using Rhs.noEqVal (hw.append h1) h2 h3
  | noEqArr h1 h2 h3 => simpa using Rhs.noEqArr (hw.append h1) h2 h3

theorem entry_sound {s r : Text} {p : Prp} (h : entry F s = .ok p r) :
    ∃ w s' w', Blank w ∧ Blank w' ∧ s = w ++ s' ∧ Body (Reading F) p s' (w' ++ r) := by
  simp only [entry, bind_ok] at h
  obtain ⟨n, s1, h1, ⟨v, b⟩, s2, h2, h3⟩ := h
  cases h3
  obtain ⟨w1, s', w2, hw1, hw2, rfl, h1'⟩ := padded_ok h1
  obtain ⟨hn, rfl⟩ := ident_sound h1'
  have : ∃ w', Blank w' ∧ Rhs (Reading F) v b s1 (w' ++ r) := by
    simp only [or_ok, map_ok, Prod.mk.injEq] at h2
    rcases h2 with ⟨v', h2, rfl, rfl⟩ | ⟨-, v', h2, rfl, rfl⟩
    · exact arrayRhs_sound h2
    · exact plainRhs_sound h2
  obtain ⟨w', hw', hR⟩ := this
  exact ⟨w1, _, w', hw1, hw', rfl, .entry hn (hR.blank hw2)⟩

theorem delete_sound {s r : Text} {p : Prp} (h : delete s = .ok p r) :
    ∃ w s' w', Blank w ∧ Blank w' ∧ s = w ++ s' ∧ Body (Reading F) p s' (w' ++ r) := by
  simp only [delete, bind_ok] at h
  obtain ⟨_, s1, h1, n, s2, h2, h3⟩ := h
  cases h3
  obtain ⟨w1, w2, hw1, hw2, rfl⟩ := tokP_ok h1
  obtain ⟨hn, rfl⟩ := ident_sound h2
  exact ⟨w1, _, [], hw1, .nil, by rw [List.append_assoc, List.append_assoc], by simpa using Body.del hn hw2⟩

theorem classExternal_sound {s r : Text} {p : Prp} (h : classExternal s = .ok p r) :
    ∃ w s' w', Blank w ∧ Blank w' ∧ s = w ++ s' ∧ Body (Reading F) p s' (w' ++ r) := by
  simp only [classExternal, bind_ok] at h
  obtain ⟨n, s1, h1, h2⟩ := h
  cases h2
  obtain ⟨w, s', w', hw, hw', rfl, hc⟩ := className_sound h1
  obtain ⟨v, hv, e⟩ := ws_spec s1
  refine ⟨w, s', w' ++ v, hw, hw'.append hv, rfl, .ext ?_⟩
  rw [List.append_assoc, ← e]; exact hc

theorem classMissing_sound {s r : Text} {p : Prp} (h : classMissing s = .ok p r) :
    ∃ w s' w', Blank w ∧ Blank w' ∧ s = w ++ s' ∧ Body (Reading F) p s' (w' ++ r) := by
  simp only [classMissing, bind_ok] at h
  obtain ⟨n, s1, h1, q, s2, h2, h3⟩ := h
  cases h3
  obtain ⟨w, s', w', hw, hw', rfl, hc⟩ := className_sound h1
  obtain ⟨v, hv, e⟩ := ws_spec s2
  obtain ⟨w1, w2, w3, hw1, hw2, hw3, hq, rfl⟩ := parent_sound h2
  refine ⟨w, s', w3 ++ v, hw, hw3.append hv, rfl, .noBraces (w := w' ++ w1) (w' := w2) ?_ (hw'.append hw1) hw2 hq⟩
  rw [e] at hc
  simpa using hc

theorem Props.blank {Nm : Num → Text → Text → Prop} {ps : List Prp} {w s r : Text} (hw : Blank w) (h : Props Nm ps s r) :
    Props Nm ps (w ++ s) r := by
  cases h with
  | nil h1 => rw [← List.append_assoc]; exact .nil (hw.append h1)
  | cons h1 h2 h3 h4 => rw [← List.append_assoc]; exact .cons (hw.append h1) h2 h3 h4
  | miss h1 h2 h3 => rw [← List.append_assoc]; exact .miss (hw.append h1) h2 h3

theorem classLocal_sound {body : Text → R (List Prp)} (hbody : ∀ s r ps w' r', body s = .ok ps r → Blank w' → r = w' ++ r' →
      Props (Reading F) ps s r') {s r : Text} {p : Prp} (h : classLocal body s = .ok p r) :
    ∃ w s', Blank w ∧ s = w ++ s' ∧ Body (Reading F) p s' r := by
  simp only [classLocal, bind_ok] at h
  obtain ⟨n, s1, h1, q, s2, h2, _, s3, h3, ps, s4, h4, _, s5, h5, h6⟩ := h
  cases h6
  obtain ⟨w, s', w', hw, hw', rfl, hc⟩ := className_sound h1
  obtain ⟨v, hv, e⟩ := ws_spec s2
  have e3 := tok_ok h3
  have e5 := tok_ok h5
  obtain ⟨w5, s6, w6, hw5, hw6, rfl, h4'⟩ := padded_ok h4
  have hP := hbody s6 _ ps w6 ('}' :: r) h4' hw6 (by rw [e5]; rfl)
  refine ⟨w, s', hw, rfl, ?_⟩
  rcases orNot_ok h2 with ⟨b, hb, rfl⟩ | ⟨rfl, rfl⟩
  · obtain ⟨w1, w2, w3, hw1, hw2, hw3, hq, rfl⟩ := parent_sound hb
    refine .child (w := w' ++ w1) (w' := w2) (w'' := w3 ++ v) (s' := w5 ++ s6) ?_ (hw'.append hw1) hw2 hq (hw3.append hv) (hP.blank hw5)
    rw [e, e3] at hc
    simpa using hc
  · refine .root (w := w' ++ v) (s' := w5 ++ s6) ?_ (hw'.append hv) (hP.blank hw5)
    rw [e, e3] at hc
    simpa using hc

/-- What stands in front of a semicolon, or without one. -/
theorem semicolon_ok {p q : Prp} {s r : Text} (h : semicolon p s = .ok q r) :
    (q = p ∧ ∃ w w', Blank w ∧ Blank w' ∧ s = w ++ [';'] ++ w' ++ r) ∨ (q = .missing p.name ∧ r = s) := by
  rw [semicolon] at h
  split at h
  · cases h
    exact .inl ⟨rfl, tokP_ok ‹_›⟩
  · cases h
    exact .inr ⟨rfl, rfl⟩

mutual
theorem property_sound : ∀ (f : Nat) (s r : Text) (p : Prp), property F f s = .ok p r →
    ∃ w s' b w', Blank w ∧ Blank w' ∧ s = w ++ s' ∧
      ((p = b ∧ ∃ w'', Blank w'' ∧ Body (Reading F) b s' (w' ++ ';' :: (w'' ++ r))) ∨ (p = .missing b.name ∧ Body (Reading F) b s' (w' ++ r)))
  | 0, _, _, _, h => by rw [property] at h; cases h
  | f + 1, s, r, p, h => by
    simp only [property, bind_ok] at h
    obtain ⟨b, e, h1, h2⟩ := h
    have : ∃ w s' w', Blank w ∧ Blank w' ∧ s = w ++ s' ∧ Body (Reading F) b s' (w' ++ e) := by
      simp only [or_ok] at h1
      rcases h1 with (((h1 | ⟨-, h1⟩) | ⟨-, h1⟩) | ⟨-, h1⟩) | ⟨-, h1⟩
      · obtain ⟨w, s', hw, he, hb⟩ := classLocal_sound (F := F)
          (fun s r ps w' r' h hw' he => properties_sound f s r ps w' r' h hw' he) h1
        exact ⟨w, s', [], hw, .nil, he, hb⟩
      · exact classMissing_sound h1
      · exact classExternal_sound h1
      · exact delete_sound h1
      · exact entry_sound h1
    obtain ⟨w, s', w', hw, hw', rfl, hb⟩ := this
    rcases semicolon_ok h2 with ⟨rfl, w1, w2, hw1, hw2, rfl⟩ | ⟨rfl, rfl⟩
    · refine ⟨w, s', p, w' ++ w1, hw, hw'.append hw1, rfl, .inl ⟨rfl, w2, hw2, ?_⟩⟩
      simpa using hb
    · exact ⟨w, s', b, w', hw, hw', rfl, .inr ⟨rfl, hb⟩⟩
theorem properties_sound : ∀ (f : Nat) (s r : Text) (ps : List Prp) (w' r' : Text), properties F f s = .ok ps r → Blank w' →
    r = w' ++ r' → Props (Reading F) ps s r'
  | 0, s, r, ps, w', r', h, hw', he => by
    rw [properties] at h
    cases h
    subst he
    exact .nil hw'
  | f + 1, s, r, ps, w', r', h, hw', he => by
    rw [properties] at h
    split at h
    · cases h
    · cases h
      subst he
      exact .nil hw'
    · rename_i p e hp
      simp only [map_ok] at h
      obtain ⟨ps', h, rfl⟩ := h
      obtain ⟨w, hw, es⟩ := ws_spec s
      obtain ⟨v, hv, ee⟩ := ws_spec e
      have hP := properties_sound f _ _ _ _ _ h hw' he
      obtain ⟨w1, s', b, w2, hw1, hw2, e1, hb⟩ := property_sound f _ _ _ hp
      rw [e1] at es
      rw [es, ← List.append_assoc]
      rcases hb with ⟨rfl, w3, hw3, hb⟩ | ⟨rfl, hb⟩
      · refine .cons (hw.append hw1) hb hw2 ?_
        rw [ee]
        exact (hP.blank hv).blank hw3
      · refine .miss (hw.append hw1) hb ?_
        rw [ee]
        exact (hP.blank hv).blank hw2
end

theorem config_sound {s r : Text} {ps : List Prp} (h : config F s = .ok ps r) : Written (Reading F) ps s ∧ r = [] := by
  simp only [config, or_ok, bind_ok] at h
  rcases h with ⟨ps', e, h, h'⟩ | ⟨-, h⟩
  · split at h'
    · rename_i he
      cases h'
      exact ⟨properties_sound _ _ _ _ [] [] h .nil (by simp [he]), rfl⟩
    · cases h'
  · split at h
    · rename_i he
      cases h
      obtain ⟨w, hw, e⟩ := ws_spec s
      rw [he] at e
      rw [e]
      exact ⟨.nil hw, rfl⟩
    · cases h

end
end Verif.ConfigParse
