import Mathlib.FieldTheory.Finite.Basic
import Verif.Model.Signing
import Verif.Lib.PboRead
/-! Helper lemmas about signing: number encodings, padding and RSA. -/
namespace Verif.Sign
open Verif.Io Verif.Pbo

theorem leBytes_zero (k : Nat) : leBytes k 0 = List.replicate k 0 := by
  induction k with
  | zero => rfl
  | succ k ih => simp [leBytes, ih, List.replicate_succ]

theorem resize_cons (a : UInt8) (v : Bytes) (k : Nat) (f : UInt8) :
    resize (a :: v) (k + 1) f = a :: resize v k f := by
  unfold resize
  by_cases h : k ≤ v.length
  · simp [h]
  · simp [h]

theorem writeBiguint_eq (n size : Nat) : writeBiguint n size = leBytes size n := by
  unfold writeBiguint
  induction size generalizing n with
  | zero => simp [resize, leBytes]
  | succ k ih =>
    rw [toBytesLe]
    split
    · rename_i h
      rw [resize_cons]
      have h1 : n % 256 = n := Nat.mod_eq_of_lt h
      have h2 : n / 256 = 0 := Nat.div_eq_of_lt h
      simp only [leBytes, h1, h2, leBytes_zero]
      simp [resize]
    · rw [resize_cons, ih]; rfl

theorem beValue_append (a b : Bytes) : beValue (a ++ b) = beValue a * 256 ^ b.length + beValue b := by
  have key : ∀ (l : Bytes) (x : Nat),
      l.foldl (fun acc b => acc * 256 + b.toNat) x = x * 256 ^ l.length + beValue l := by
    intro l
    unfold beValue
    induction l with
    | nil => intro x; simp
    | cons c l ih =>
      intro x
      simp only [List.foldl_cons, List.length_cons]
      rw [ih, ih (0 * 256 + c.toNat), pow_succ]
      ring
  unfold beValue
  rw [List.foldl_append, key]
  rfl

theorem beValue_lt (a : Bytes) : beValue a < 256 ^ a.length := by
  induction a using List.reverseRecOn with
  | nil => simp [beValue]
  | append_singleton a b ih =>
    rw [beValue_append]
    have h1 : beValue [b] = b.toNat := by simp [beValue]
    have := b.toNat_lt
    simp only [List.length_append, List.length_singleton, pow_succ, pow_zero, h1]
    omega

theorem beValue_inj {a b : Bytes} (hl : a.length = b.length) (h : beValue a = beValue b) : a = b := by
  induction a using List.reverseRecOn generalizing b with
  | nil => exact (List.length_eq_zero_iff.1 hl.symm).symm
  | append_singleton a x ih =>
    rcases List.eq_nil_or_concat b with rfl | ⟨b', y, rfl⟩
    · simp at hl
    · rw [List.concat_eq_append] at *
      rw [beValue_append, beValue_append] at h
      have h1 : beValue [x] = x.toNat := by simp [beValue]
      have h2 : beValue [y] = y.toNat := by simp [beValue]
      simp only [List.length_singleton, pow_one, h1, h2] at h
      have hx := x.toNat_lt
      have hy := y.toNat_lt
      have e1 : x.toNat = y.toNat := by omega
      have e2 : beValue a = beValue b' := by omega
      simp only [List.length_append, List.length_singleton] at hl
      rw [ih (by omega) e2, UInt8.toNat_inj.1 e1]

theorem beValue_ff (k : Nat) : beValue (List.replicate k 255) + 1 = 256 ^ k := by
  induction k with
  | zero => rfl
  | succ k ih =>
    rw [List.replicate_succ', beValue_append]
    have : beValue [(255 : UInt8)] = 255 := by decide
    simp only [this, List.length_singleton, pow_succ, pow_zero]
    omega

/-- Fermat for exponents that are 1 modulo `p - 1`. -/
theorem pow_mod_prime {p m k : Nat} (hp : p.Prime) (hk : 0 < k) (h : k % (p - 1) = 1 % (p - 1)) :
    m ^ k ≡ m [MOD p] := by
  have := Fact.mk hp
  rw [← ZMod.natCast_eq_natCast_iff]
  push_cast
  by_cases hm : (m : ZMod p) = 0
  · rw [hm, zero_pow (by omega)]
  · have hf : (m : ZMod p) ^ (p - 1) = 1 := ZMod.pow_card_sub_one_eq_one hm
    have h2 := hp.two_le
    by_cases hp2 : p = 2
    · subst hp2
      have : (m : ZMod 2) = 1 := by
        simpa using hf
      rw [this, one_pow]
    · have h1 : 1 % (p - 1) = 1 := Nat.mod_eq_of_lt (by omega)
      rw [h1] at h
      have hd := Nat.div_add_mod k (p - 1)
      rw [h] at hd
      rw [← hd, pow_add, pow_mul, hf, one_pow, pow_one, one_mul]

/-- RSA: signing and then raising to the public exponent gives the message back. -/
theorem rsa_correct {p q e d m : Nat} (hp : p.Prime) (hq : q.Prime) (hpq : p ≠ q)
    (hpos : 0 < d * e) (h1 : d * e % (p - 1) = 1 % (p - 1)) (h2 : d * e % (q - 1) = 1 % (q - 1))
    (hm : m < p * q) : (m ^ d % (p * q)) ^ e % (p * q) = m := by
  have hc : Nat.Coprime p q := (Nat.coprime_primes hp hq).2 hpq
  have hmod : m ^ (d * e) ≡ m [MOD p * q] :=
    (Nat.modEq_and_modEq_iff_modEq_mul hc).1 ⟨pow_mod_prime hp hpos h1, pow_mod_prime hq hpos h2⟩
  rw [← Nat.pow_mod, ← pow_mul]
  have := hmod
  unfold Nat.ModEq at this
  rw [this, Nat.mod_eq_of_lt hm]

end Verif.Sign
