import Verif.Lib.ConfigLint
import Verif.Lib.ConfigSound
import Verif.Lib.SqfSource
import Verif.Props.Rapify
/-! Lemmas: what a config read from text looks like, so that it can be written and read back. -/
namespace Verif.ConfigLint
open Verif.ConfigParse
open Verif.SqfLex (Digits isDigit isHex isAlpha escape enc)
open Verif.Rap (Num)

variable {α : Type} {F : Fl α}

theorem toNat_lt (x : UInt32) : x.toNat < 2 ^ 32 := x.toNat_lt

theorem intNum_fits {v : Nat} {n : Num} (h : IntNum v n) (hv : v < 2 ^ 63) : n.fits ∧ ∀ m, Minus F n m → m.fits := by
  have hv' : (v : Int) < 2 ^ 63 := by exact_mod_cast hv
  generalize hz : (v : Int) = z at h hv'
  have h0 : (0 : Int) ≤ z := by omega
  cases h with
  | small h =>
    refine ⟨⟨by omega, by omega⟩, ?_⟩
    rintro m ⟨⟩
    exact ⟨by omega, by omega⟩
  | large h =>
    refine ⟨⟨by omega, by omega⟩, ?_⟩
    rintro m ⟨⟩
    exact ⟨by omega, by omega⟩

theorem f32_fits (x : UInt32) : (Num.f32 x.toNat).fits ∧ ∀ m, Minus F (.f32 x.toNat) m → m.fits := by
  refine ⟨toNat_lt x, ?_⟩
  rintro m ⟨⟩
  exact toNat_lt _

theorem unsigned_fits {n : Num} {t : Text} (h : Unsigned F n t) : n.fits ∧ ∀ m, Minus F n m → m.fits := by
  cases h with
  | int _ hv hn => exact intNum_fits hn hv
  | hex _ _ hv hn => exact intNum_fits hn hv
  | frac _ _ => exact f32_fits _
  | exp _ _ _ _ _ => exact f32_fits _

theorem lit_fits {n : Num} {t : Text} (h : Lit F n t) : n.fits := by
  cases h with
  | pos h => exact (unsigned_fits h).1
  | neg h hm => exact (unsigned_fits h).2 _ hm

theorem reading_fits {n : Num} {s r : Text} (h : Reading F n s r) : n.fits := by
  rcases h with ⟨l, h, _⟩ | ⟨k, u, t, v, _, _, _, _, h⟩
  · exact lit_fits h
  · cases h with
    | i32 _ h1 h2 => exact ⟨h1, by omega⟩
    | i64 _ _ h => subst h; exact ⟨by omega, by omega⟩
    | f32 _ => exact toNat_lt _

/-- Numbers end where the rest begins. -/
def Splits (Nm : Num → Text → Text → Prop) : Prop := ∀ n s r, Nm n s r → n.fits ∧ ∃ l, s = l ++ r

theorem reading_splits : Splits (Reading F) := by
  intro n s r h
  refine ⟨reading_fits h, ?_⟩
  rcases h with ⟨l, _, rfl⟩ | ⟨k, u, t, v, _, _, rfl, _⟩ <;> exact ⟨_, rfl⟩

theorem writing_splits : Splits (Writing F) := by
  rintro n s r ⟨l, h, rfl, _⟩
  exact ⟨lit_fits h, _, rfl⟩

/-! ### Characters -/

theorem mem_escape {c q : Char} {t : Text} (h : c ∈ t) : c ∈ escape q t := by
  rw [escape, List.mem_flatMap]
  exact ⟨c, h, by split <;> simp_all⟩

theorem mem_quoted {c : Char} {t : Text} (h : c ∈ t) : c ∈ quoted t := by
  simp [quoted, mem_escape h]

theorem mem_segs {c : Char} {ts : List Text} {s : Text} (h : Segs ts s) : (∃ t ∈ ts, c ∈ t) → c ∈ s := by
  induction h with
  | one =>
    rintro ⟨t, ht, hc⟩
    simp at ht
    subst ht
    exact mem_quoted hc
  | cons _ _ _ ih =>
    rintro ⟨t, ht, hc⟩
    rcases List.mem_cons.1 ht with rfl | ht
    · simp [mem_quoted hc]
    · simp [ih ⟨t, ht, hc⟩]

theorem mem_joinWith {c d : Char} : ∀ {ts : List Text}, c ∈ joinWith d ts → c = d ∨ ∃ t ∈ ts, c ∈ t
  | [], h => by simp [joinWith] at h
  | [t], h => by
    simp [joinWith] at h
    exact .inr ⟨t, by simp, h⟩
  | t :: u :: ts, h => by
    simp only [joinWith, List.mem_append, List.mem_cons] at h
    rcases h with h | h | h
    · exact .inr ⟨t, by simp, h⟩
    · exact .inl h
    · rcases mem_joinWith h with h | ⟨x, hx, h⟩
      · exact .inl h
      · exact .inr ⟨x, by simp [hx], h⟩

theorem mem_intersperse {c : Text} {x : Text} {vs : List Text} (h : x ∈ vs) : x ∈ vs.intersperse c := by
  induction vs with
  | nil => simp at h
  | cons a vs ih =>
    cases vs with
    | nil => simpa using h
    | cons b vs =>
      rw [List.intersperse_cons₂]
      rcases List.mem_cons.1 h with rfl | h
      · simp
      · simp [ih h]

theorem mem_str {c : Char} {v s : Text} (h : Str v s) (hc : c ∈ v) : c = '\n' ∨ c ∈ s := by
  obtain ⟨ts, hs, vs, hu, hv, _⟩ := h
  subst hv
  rw [List.mem_flatten] at hc
  obtain ⟨x, hx, hc⟩ := hc
  have : c ∈ joinWith '\n' ts := by
    rw [hu, List.mem_flatten]
    exact ⟨x, mem_intersperse hx, hc⟩
  rcases mem_joinWith this with h | h
  · exact .inl h
  · exact .inr (mem_segs hs h)

theorem str_nul {v s : Text} (h : Str v s) (hs : '\x00' ∉ s) : '\x00' ∉ v := by
  intro hc
  rcases mem_str h hc with h | h
  · exact absurd h (by decide)
  · exact hs h

theorem name_nul {n : Text} (h : Name n) : '\x00' ∉ n := by
  intro hc
  have := h.2 _ hc
  revert this
  decide

theorem name_dot {n : Text} (h : Name n) : '.' ∉ n := by
  intro hc
  have := h.2 _ hc
  revert this
  decide

theorem enc_nul {t : Text} (h : '\x00' ∉ t) : (0 : UInt8) ∉ enc t := by
  intro hc
  simp only [enc, List.mem_flatMap] at hc
  obtain ⟨c, hc, h0⟩ := hc
  have : c = '\x00' := by
    unfold String.utf8EncodeChar at h0
    generalize hv : c.val.toNat = v at *
    have hv0 : v = 0 := by
      simp only at h0
      split at h0
      · simp only [List.mem_singleton] at h0
        have := congrArg UInt8.toNat h0
        simp at this
        omega
      · split at h0
        · simp only [List.mem_cons, List.not_mem_nil, or_false] at h0
          rcases h0 with h0 | h0 <;> have := congrArg UInt8.toNat h0 <;> simp at this <;> omega
        · split at h0
          · simp only [List.mem_cons, List.not_mem_nil, or_false] at h0
            rcases h0 with h0 | h0 | h0 <;> have := congrArg UInt8.toNat h0 <;> simp at this <;> omega
          · simp only [List.mem_cons, List.not_mem_nil, or_false] at h0
            rcases h0 with h0 | h0 | h0 | h0 <;> have := congrArg UInt8.toNat h0 <;> simp at this <;> omega
    apply Char.ext
    apply UInt32.toNat.inj
    rw [hv, hv0]
    rfl
  subst this
  exact h hc

theorem nul_append {a b : Text} : '\x00' ∉ a ++ b ↔ '\x00' ∉ a ∧ '\x00' ∉ b := by simp

/-! ### Values -/

variable {Nm : Num → Text → Text → Prop}

theorem arr_fits (hN : Splits Nm) {is : List Item} {s r : Text} (h : Arr Nm is s r) :
    '\x00' ∉ s → Rap.itemsFit (itemsRap is) ∧ '\x00' ∉ r := by
  refine Arr.rec (Nm := Nm) (motive_1 := fun is s r _ => '\x00' ∉ s → Rap.itemsFit (itemsRap is) ∧ '\x00' ∉ r)
    (motive_2 := fun is s r _ => '\x00' ∉ s → Rap.itemsFit (itemsRap is) ∧ '\x00' ∉ r)
    (motive_3 := fun i s r _ => '\x00' ∉ s → (itemRap i).fits ∧ '\x00' ∉ r) ?_ ?_ ?_ ?_ ?_ ?_ ?_ h
  · intro is s r _ ih hs
    have := ih (by simp at hs; exact hs)
    exact ⟨this.1, by have := this.2; simp at this; exact this⟩
  · intro w r _ hs
    exact ⟨trivial, (nul_append.1 hs).2⟩
  · intro i s w w' r _ _ _ ih hs
    have := ih (nul_append.1 hs).2
    exact ⟨⟨this.1, trivial⟩, (nul_append.1 this.2).2⟩
  · intro i s s' is w w' r _ _ _ _ ih ih' hs
    have h1 := ih (nul_append.1 hs).2
    have h2 := ih' (by have := (nul_append.1 h1.2).2; simp at this; exact this)
    exact ⟨⟨h1.1, h2.1⟩, h2.2⟩
  · intro v t r h hs
    exact ⟨enc_nul (str_nul h (nul_append.1 hs).1), (nul_append.1 hs).2⟩
  · intro n s r h hs
    obtain ⟨hf, l, rfl⟩ := hN _ _ _ h
    exact ⟨hf, (nul_append.1 hs).2⟩
  · intro is s r _ ih hs
    exact ih hs

theorem scalar_fits (hN : Splits Nm) {v : Val} {s r : Text} (h : Scalar Nm v s r) (hs : '\x00' ∉ s) :
    (valRap v).fits ∧ '\x00' ∉ r ∧ ∀ is, v ≠ .uarr is := by
  cases h with
  | str h => exact ⟨enc_nul (str_nul h (nul_append.1 hs).1), (nul_append.1 hs).2, by simp⟩
  | num h =>
    obtain ⟨hf, l, rfl⟩ := hN _ _ _ h
    exact ⟨hf, (nul_append.1 hs).2, by simp⟩
  | expr h =>
    simp only [nul_append] at hs
    exact ⟨enc_nul hs.1.1.2, hs.2, by simp⟩

theorem rhs_fits (hN : Splits Nm) {v : Val} {b : Bool} {s r : Text} (h : Rhs Nm v b s r) (hs : '\x00' ∉ s) :
    (valRap v).fits ∧ '\x00' ∉ r ∧ (IsArray v → b = true) := by
  cases h with
  | arr _ _ _ h =>
    simp only [nul_append] at hs
    have := arr_fits hN h hs.2
    exact ⟨this.1, this.2, by simp⟩
  | app _ _ _ h =>
    simp only [nul_append] at hs
    have := arr_fits hN h hs.2
    exact ⟨this.1, this.2, by simp⟩
  | val _ _ h =>
    simp only [nul_append] at hs
    have := scalar_fits hN h hs.2
    refine ⟨this.1, this.2.1, ?_⟩
    cases h <;> simp [IsArray]
  | oddVal _ _ _ h =>
    simp only [nul_append] at hs
    have := scalar_fits hN h hs.2
    exact ⟨this.1, this.2.1, by simp⟩
  | oddArr _ _ h =>
    simp only [nul_append] at hs
    have := arr_fits hN h hs.2
    exact ⟨trivial, this.2, by simp [IsArray]⟩
  | noEqVal _ _ h =>
    simp only [nul_append] at hs
    have := scalar_fits hN h hs.2
    exact ⟨this.1, this.2.1, by simp⟩
  | noEqArr _ _ h =>
    simp only [nul_append] at hs
    have := arr_fits hN h hs.2
    exact ⟨trivial, this.2, by simp⟩

/-- A property as the parser makes them: proper names, a parent where braces are missing, arrays only where declared,
numbers in range and no NUL. -/
def Proper : Prp → Prop
  | .entry n v e => Name n ∧ (valRap v).fits ∧ (IsArray v → e = true)
  | .loc n par _ b => Name n ∧ (∀ q, par = some q → Name q) ∧ (b = true → par ≠ none)
  | .ext n => Name n
  | .del n => Name n
  | .missing n => Name n

/-- Every property is proper. -/
def AllProper (ps : List Prp) : Prop := ∀ a p, At ps a p → Proper p

theorem allProper_nil : AllProper [] := fun _ _ h => absurd h not_at_nil

theorem allProper_cons {p : Prp} {ps : List Prp} (h : Proper p) (hq : ∀ n par qs b, p = .loc n par qs b → AllProper qs)
    (hs : AllProper ps) : AllProper (p :: ps) := by
  intro a q h'
  rcases at_cons.1 h' with ⟨_, rfl⟩ | ⟨n, par, qs, b, a', rfl, rfl, h2⟩ | ⟨i, a', rfl, h2⟩
  · exact h
  · exact hq _ _ _ _ rfl _ _ h2
  · exact hs _ _ h2

theorem proper_name {p : Prp} (h : Proper p) : Name p.name := by
  cases p <;> simp_all [Proper, Prp.name]

theorem cls_fits {n s r : Text} (h : Cls n s r) (hs : '\x00' ∉ s) : Name n ∧ '\x00' ∉ r := by
  cases h with
  | mk hn _ =>
    simp only [nul_append] at hs
    exact ⟨hn, hs.2⟩

theorem props_proper (hN : Splits Nm) {ps : List Prp} {s r : Text} (h : Props Nm ps s r) :
    '\x00' ∉ s → AllProper ps ∧ '\x00' ∉ r := by
  refine Props.rec (Nm := Nm)
    (motive_1 := fun p s r _ => '\x00' ∉ s → (Proper p ∧ ∀ n par qs b, p = .loc n par qs b → AllProper qs) ∧ '\x00' ∉ r)
    (motive_2 := fun ps s r _ => '\x00' ∉ s → AllProper ps ∧ '\x00' ∉ r) ?_ ?_ ?_ ?_ ?_ ?_ ?_ ?_ ?_ h
  · intro n v b s r hn h hs
    have := rhs_fits hN h (nul_append.1 hs).2
    exact ⟨⟨⟨hn, this.1, this.2.2⟩, by simp⟩, this.2.1⟩
  · intro n w r hn _ hs
    exact ⟨⟨hn, by simp⟩, (nul_append.1 hs).2⟩
  · intro n s r h hs
    have := cls_fits h hs
    exact ⟨⟨this.1, by simp⟩, this.2⟩
  · intro n p s w w' r h _ _ hp hs
    have := cls_fits h hs
    simp only [nul_append] at this
    refine ⟨⟨⟨this.1, ?_, by simp⟩, ?_⟩, this.2.2⟩
    · rintro q ⟨⟩
      exact hp
    · rintro _ _ _ _ ⟨⟩
      exact allProper_nil
  · intro n s w ps s' r h _ _ ih hs
    have := cls_fits h hs
    simp only [nul_append] at this
    have h2 := ih this.2.2
    refine ⟨⟨⟨this.1, by simp, by simp⟩, ?_⟩, by have := h2.2; simp at this; exact this⟩
    rintro _ _ _ _ ⟨⟩
    exact h2.1
  · intro n s w w' w'' p ps s' r h _ _ hp _ _ ih hs
    have := cls_fits h hs
    simp only [nul_append] at this
    have h2 := ih this.2.2
    refine ⟨⟨⟨this.1, ?_, by simp⟩, ?_⟩, by have := h2.2; simp at this; exact this⟩
    · rintro q ⟨⟩
      exact hp
    · rintro _ _ _ _ ⟨⟩
      exact h2.1
  · intro w r _ hs
    exact ⟨allProper_nil, (nul_append.1 hs).2⟩
  · intro w p s w' s' ps r _ _ _ _ ih ih' hs
    have h1 := ih (nul_append.1 hs).2
    have h2 := ih' (by have := (nul_append.1 h1.2).2; simp at this; exact this)
    exact ⟨allProper_cons h1.1.1 h1.1.2 h2.1, h2.2⟩
  · intro w p s s' ps r _ _ _ ih ih' hs
    have h1 := ih (nul_append.1 hs).2
    have h2 := ih' h1.2
    exact ⟨allProper_cons (p := .missing p.name) (proper_name h1.1.1) (by simp) h2.1, h2.2⟩

mutual
theorem prop_fits : ∀ p : Prp, Proper p → (∀ n par qs b, p = .loc n par qs b → AllProper qs) → (propRap p).fits
  | .entry n v e, h, _ => ⟨enc_nul (name_nul h.1), h.2.1⟩
  | .ext n, h, _ => enc_nul (name_nul h)
  | .del n, h, _ => enc_nul (name_nul h)
  | .missing n, h, _ => enc_nul (name_nul h)
  | .loc n par qs b, h, hq => by
    refine ⟨enc_nul (name_nul h.1), ?_, props_fits qs (hq _ _ _ _ rfl)⟩
    intro p hp
    simp only [Option.map_eq_some_iff] at hp
    obtain ⟨q, hq', rfl⟩ := hp
    have hn := h.2.1 q hq'
    refine ⟨?_, enc_nul (name_nul hn)⟩
    intro he
    exact hn.1 (SqfLex.enc_inj (t := []) he)
theorem props_fits : ∀ ps : List Prp, AllProper ps → Rap.propsFit (propsRap ps)
  | [], _ => trivial
  | p :: ps, h => by
    refine ⟨prop_fits p (h [0] p (at_cons.2 (.inl ⟨rfl, rfl⟩))) ?_, props_fits ps ?_⟩
    · rintro n par qs b rfl a q hq
      exact h (0 :: a) q (at_cons.2 (.inr (.inl ⟨n, par, qs, b, a, rfl, rfl, hq⟩)))
    · intro a q hq
      cases a with
      | nil => exact absurd hq at_ne_nil
      | cons i a => exact h ((i + 1) :: a) q (at_cons.2 (.inr (.inr ⟨i, a, rfl, hq⟩)))
end

/-! ### The tree from what is written -/

mutual
theorem itemRap_inj : ∀ i j : Item, itemRap i = itemRap j → i = j
  | .str s, j, h => by
    cases j <;> simp [itemRap] at h
    rw [SqfLex.enc_inj h]
  | .num s, j, h => by cases j <;> simp [itemRap] at h ⊢; exact h
  | .invalid, j, h => by cases j <;> simp [itemRap] at h ⊢
  | .arr is, j, h => by
    cases j <;> simp [itemRap] at h
    rw [itemsRap_inj is _ h]
theorem itemsRap_inj : ∀ is js : List Item, itemsRap is = itemsRap js → is = js
  | [], js, h => by cases js <;> simp [itemsRap] at h ⊢
  | i :: is, js, h => by
    cases js with
    | nil => simp [itemsRap] at h
    | cons j js =>
      simp only [itemsRap, List.cons.injEq] at h
      rw [itemRap_inj i j h.1, itemsRap_inj is js h.2]
end

/-- A property of which nothing is said beyond what is written. -/
def Plain : Prp → Prop
  | .entry _ v e => v ≠ .invalid ∧ (∀ is, v ≠ .uarr is) ∧ (e = true ↔ IsArray v)
  | .loc _ _ _ b => b = false
  | _ => True

theorem valRap_inj {v w : Val} (hv : v ≠ .invalid ∧ ∀ is, v ≠ .uarr is) (hw : w ≠ .invalid ∧ ∀ is, w ≠ .uarr is)
    (h : valRap v = valRap w) : v = w := by
  cases v <;> cases w <;> simp_all [valRap]
  · exact SqfLex.enc_inj h
  · exact SqfLex.enc_inj h
  · exact itemsRap_inj _ _ h.2

theorem map_enc_inj {a b : Option Text} (h : a.map enc = b.map enc) : a = b := by
  cases a <;> cases b <;> simp at h ⊢
  exact SqfLex.enc_inj h

mutual
theorem propRap_inj : ∀ p q : Prp, Plain p → Plain q → (∀ n par qs b, p = .loc n par qs b → ∀ a x, At qs a x → Plain x) →
    (∀ n par qs b, q = .loc n par qs b → ∀ a x, At qs a x → Plain x) → propRap p = propRap q → p = q
  | .entry n v e, q, hp, hq, hp', hq', h => by
    cases q <;> simp [propRap] at h
    rename_i n' v' e'
    have h1 := SqfLex.enc_inj h.1
    have h2 := valRap_inj ⟨hp.1, hp.2.1⟩ ⟨hq.1, hq.2.1⟩ h.2
    subst h1 h2
    have : e = e' := by rw [Bool.eq_iff_iff, hp.2.2, hq.2.2]
    rw [this]
  | .ext n, q, _, _, _, _, h => by
    cases q <;> simp [propRap] at h
    rw [SqfLex.enc_inj h]
  | .del n, q, _, _, _, _, h => by
    cases q <;> simp [propRap] at h
    rw [SqfLex.enc_inj h]
  | .missing n, q, _, _, _, _, h => by
    cases q <;> simp [propRap] at h
    rw [SqfLex.enc_inj h]
  | .loc n par qs b, q, hp, hq, hp', hq', h => by
    cases q <;> simp [propRap] at h
    rename_i n' par' qs' b'
    rw [SqfLex.enc_inj h.1, map_enc_inj h.2.1, propsRap_inj qs qs' (hp' _ _ _ _ rfl) (hq' _ _ _ _ rfl) h.2.2]
    simp only [Plain] at hp hq
    rw [hp, hq]
theorem propsRap_inj : ∀ ps qs : List Prp, (∀ a p, At ps a p → Plain p) → (∀ a p, At qs a p → Plain p) →
    propsRap ps = propsRap qs → ps = qs
  | [], qs, _, _, h => by cases qs <;> simp [propsRap] at h ⊢
  | p :: ps, qs, hp, hq, h => by
    cases qs with
    | nil => simp [propsRap] at h
    | cons q qs =>
      simp only [propsRap, List.cons.injEq] at h
      have key : ∀ (p : Prp) (ps : List Prp), (∀ a x, At (p :: ps) a x → Plain x) → Plain p ∧
          (∀ n par qs b, p = .loc n par qs b → ∀ a x, At qs a x → Plain x) ∧ ∀ a x, At ps a x → Plain x := by
        intro p ps h
        refine ⟨h [0] p (at_cons.2 (.inl ⟨rfl, rfl⟩)), ?_, ?_⟩
        · rintro n par qs b rfl a q hq
          exact h (0 :: a) q (at_cons.2 (.inr (.inl ⟨n, par, qs, b, a, rfl, rfl, hq⟩)))
        · intro a q hq
          cases a with
          | nil => exact absurd hq at_ne_nil
          | cons i a => exact h ((i + 1) :: a) q (at_cons.2 (.inr (.inr ⟨i, a, rfl, hq⟩)))
      have k1 := key p ps hp
      have k2 := key q qs hq
      rw [propRap_inj p q k1.1 k2.1 k1.2.1 k2.2.1 h.1, propsRap_inj ps qs k1.2.2 k2.2.2 h.2]
end

end Verif.ConfigLint
