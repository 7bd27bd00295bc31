import Verif.Model.Io
/-! Helper lemmas about the I/O model. -/
namespace Verif.Io

theorem cstringBytes_append {s : Bytes} (rest : Bytes) (h : (0 : UInt8) ∉ s) :
    cstringBytes (s ++ 0 :: rest) = (s, rest) := by
  induction s with
  | nil => simp [cstringBytes]
  | cons a s ih =>
    simp only [List.mem_cons, not_or] at h
    have ha : a ≠ 0 := fun e => h.1 e.symm
    simp [cstringBytes, ha, ih h.2]

theorem readCString_write {s : Bytes} (rest : Bytes) (h : (0 : UInt8) ∉ s) (hu : isUtf8 s = true) :
    readCString (writeCString s ++ rest) = (s, rest) := by
  simp [readCString, writeCString, cstringBytes_append rest h, hu]

theorem cstringBytes_no_zero (bs : Bytes) : (0 : UInt8) ∉ (cstringBytes bs).1 := by
  induction bs with
  | nil => simp [cstringBytes]
  | cons a s ih =>
    by_cases ha : a = 0
    · simp [cstringBytes, ha]
    · simp only [cstringBytes, ha, if_false, List.mem_cons, not_or]
      exact ⟨fun e => ha e.symm, ih⟩

theorem lowByte (x : Nat) : (UInt8.ofNat (0x80 ||| (x &&& 0x7f))).toNat = 128 + x % 128 := by
  have h1 : x &&& 0x7f = x % 128 := Nat.and_two_pow_sub_one_eq_mod x 7
  have h2 : x % 128 < 2 ^ 7 := Nat.mod_lt _ (by norm_num)
  have h3 := Nat.two_pow_add_eq_or_of_lt h2 1
  rw [h1]
  have h4 : (0x80 ||| x % 128) = 128 + x % 128 := by simpa using h3.symm
  rw [h4, UInt8.toNat_ofNat']
  omega

theorem readCompressed_go (x : Nat) : ∀ (i r : Nat) (rest : Bytes), r < 2 ^ (7 * i) →
    x * 2 ^ (7 * i) < 2 ^ 32 → 7 * i < 32 →
    readCompressed.go i r (writeCompressed x ++ rest) = .ok (r + x * 2 ^ (7 * i), rest) := by
  induction x using Nat.strongRecOn with
  | ind x ih =>
    intro i r rest hr hx hi
    have key : ∀ v, v < 128 → v * 2 ^ (7*i) < 2^32 →
        r ||| (v <<< (i*7)) % 2^32 = r + v * 2^(7*i) := by
      intro v _ hv2
      rw [Nat.shiftLeft_eq, Nat.mul_comm i 7, Nat.mod_eq_of_lt hv2, Nat.or_comm, Nat.mul_comm v,
        ← Nat.two_pow_add_eq_or_of_lt hr, Nat.add_comm]
    have hi' : ¬ (i * 7 ≥ 32) := by omega
    rw [writeCompressed]
    by_cases h : 0x7f < x
    · have hlow := lowByte x
      have hsh : x >>> 7 = x / 128 := Nat.shiftRight_eq_div_pow x 7
      have hp : 0 < 2 ^ (7*i) := Nat.pos_of_ne_zero (by positivity)
      have hdm : x % 128 + 128 * (x / 128) = x := Nat.mod_add_div x 128
      have hpow : 2 ^ (7 * (i+1)) = 128 * 2 ^ (7*i) := by rw [Nat.mul_add, Nat.pow_add]; ring
      have hge : 128 * 2^(7*i) ≤ x * 2 ^ (7*i) := Nat.mul_le_mul_right _ (by omega)
      have hi2 : 7 * (i+1) < 32 := by
        by_contra hc
        have : 2 ^ 32 ≤ 2 ^ (7*(i+1)) := Nat.pow_le_pow_right (by norm_num) (by omega)
        omega
      simp only [h, dif_pos, List.cons_append, readCompressed.go, hi', if_false]
      have hand : (UInt8.ofNat (0x80 ||| (x &&& 0x7f))).toNat &&& 0x7f = x % 128 := by
        rw [hlow, show (0x7f:Nat) = 2^7-1 from rfl, Nat.and_two_pow_sub_one_eq_mod]; omega
      have hnlt : ¬ (UInt8.ofNat (0x80 ||| (x &&& 0x7f))).toNat < 0x80 := by rw [hlow]; omega
      rw [if_neg hnlt, hand]
      have hmul : x % 128 * 2 ^ (7*i) ≤ x * 2 ^ (7*i) := Nat.mul_le_mul_right _ (Nat.mod_le _ _)
      rw [key (x % 128) (Nat.mod_lt _ (by norm_num)) (by omega), hsh]
      have hsum : x % 128 * 2 ^ (7*i) + x / 128 * (128 * 2 ^ (7*i)) = x * 2 ^ (7*i) := by
        conv_rhs => rw [← hdm]
        ring
      have hm : (x % 128 + 1) * 2 ^ (7*i) ≤ 128 * 2 ^ (7*i) :=
        Nat.mul_le_mul_right _ (by omega)
      rw [ih (x/128) (by omega) (i+1) _ rest (by rw [hpow]; rw [Nat.add_mul] at hm; omega)
        (by rw [hpow]; omega) hi2, hpow]
      congr 2; omega
    · simp only [h, dif_neg, not_false_eq_true, List.cons_append, List.nil_append,
        readCompressed.go, hi', if_false]
      have hb : (UInt8.ofNat x).toNat = x := by rw [UInt8.toNat_ofNat']; omega
      have hand : x &&& 0x7f = x := by
        rw [show (0x7f:Nat) = 2^7-1 from rfl, Nat.and_two_pow_sub_one_eq_mod]; omega
      rw [hb, hand, if_pos (by omega), key x (by omega) hx]

theorem readCompressed_write {x : Nat} (rest : Bytes) (h : x < 2 ^ 32) :
    readCompressed (writeCompressed x ++ rest) = .ok (x, rest) := by
  have := readCompressed_go x 0 0 rest (by norm_num) (by simpa using h) (by norm_num)
  simpa [readCompressed] using this

theorem compressedIntLen_go (x : Nat) : ∀ n, compressedIntLen.go x n = n + (writeCompressed x).length := by
  induction x using Nat.strongRecOn with
  | ind x ih =>
    intro n
    rw [compressedIntLen.go, writeCompressed]
    by_cases h : 0x7f < x
    · simp only [h, dif_pos, List.length_cons]
      rw [ih (x >>> 7) (by rw [Nat.shiftRight_eq_div_pow]; omega)]; omega
    · simp [h]

theorem writeCompressedRet_go (x : Nat) : ∀ n, writeCompressedRet.go x n = n + (writeCompressed x).length := by
  induction x using Nat.strongRecOn with
  | ind x ih =>
    intro n
    rw [writeCompressedRet.go, writeCompressed]
    by_cases h : 0x7f < x
    · simp only [h, dif_pos, List.length_cons]
      rw [ih (x >>> 7) (by rw [Nat.shiftRight_eq_div_pow]; omega)]; omega
    · simp [h]

theorem compressedIntLen_eq (x : Nat) : compressedIntLen x = (writeCompressed x).length := by
  simp [compressedIntLen, compressedIntLen_go]

theorem writeCompressed_length_le {x k : Nat} (h : x < 128 ^ (k + 1)) :
    (writeCompressed x).length ≤ k + 1 := by
  induction k generalizing x with
  | zero =>
    rw [writeCompressed]
    have : ¬ 0x7f < x := by simp at h; omega
    simp [this]
  | succ k ih =>
    rw [writeCompressed]
    by_cases hx : 0x7f < x
    · simp only [hx, dif_pos, List.length_cons]
      have : x >>> 7 < 128 ^ (k+1) := by
        rw [Nat.shiftRight_eq_div_pow]
        apply Nat.div_lt_of_lt_mul
        rw [Nat.pow_succ] at h; norm_num; omega
      have := ih this; omega
    · simp [hx]

end Verif.Io
