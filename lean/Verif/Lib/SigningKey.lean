import Mathlib.NumberTheory.LucasPrimality
import Mathlib.Tactic.NormNum.Prime
import Verif.Model.Signing
/-! A concrete 304-bit RSA key, used to show that the hypotheses about keys can be met. -/
namespace Verif.Sign

def exP : Nat := 4032253491209318296778927060173231864800083969
def exQ : Nat := 4099155726804910166203534214991176949318025217

/-- Square-and-multiply, with `k` bounding the number of bits of the exponent. -/
def powMod : Nat → Nat → Nat → Nat → Nat
  | 0, _, _, m => 1 % m
  | k+1, a, e, m =>
    let h := powMod k a (e / 2) m
    if e % 2 = 0 then h * h % m else h * h % m * a % m

theorem powMod_eq (k a e m : Nat) (h : e < 2 ^ k) : powMod k a e m = a ^ e % m := by
  induction k generalizing e with
  | zero =>
    have : e = 0 := by simpa using h
    subst this; simp [powMod]
  | succ k ih =>
    rw [powMod, ih (e / 2) (by rw [pow_succ] at h; omega)]
    have hd := Nat.div_add_mod e 2
    have hsq : a ^ (e / 2) % m * (a ^ (e / 2) % m) % m = a ^ (2 * (e / 2)) % m := by
      rw [← Nat.mul_mod, ← pow_add, two_mul]
    split
    · rename_i h0
      rw [hsq]; congr 2; omega
    · rename_i h0
      rw [hsq, Nat.mod_mul_mod, ← pow_succ]; congr 2; omega

/-- Lucas test with an explicit list of prime factors of `n - 1`. -/
theorem lucas_nat (n a k f1 f2 : Nat) (h1 : f1.Prime) (h2 : f2.Prime) (hn : n - 1 = 2 ^ k * (f1 * f2))
    (hn2 : 1 < n)
    (hk : n - 1 < 2 ^ 160)
    (ha : powMod 160 a (n - 1) n = 1) (hb : powMod 160 a ((n - 1) / 2) n ≠ 1)
    (hc : powMod 160 a ((n - 1) / f1) n ≠ 1)
    (hd : powMod 160 a ((n - 1) / f2) n ≠ 1) : n.Prime := by
  have lt : ∀ f, (n - 1) / f < 2 ^ 160 := fun f => lt_of_le_of_lt (Nat.div_le_self _ _) hk
  rw [powMod_eq _ _ _ _ hk] at ha
  rw [powMod_eq _ _ _ _ (lt _)] at hb hc hd
  have cast : ∀ x : Nat, ((a : ZMod n) ^ x = 1) ↔ a ^ x % n = 1 := by
    intro x
    have := ZMod.natCast_eq_natCast_iff (a ^ x) 1 n
    push_cast at this
    rw [this, Nat.ModEq, Nat.mod_eq_of_lt hn2]
  refine lucas_primality n (a : ZMod n) ((cast _).2 ha) ?_
  intro q hq hdvd
  rw [Ne, cast]
  rw [hn] at hdvd
  rcases (Nat.Prime.dvd_mul hq).1 hdvd with h | h
  · have := (Nat.prime_dvd_prime_iff_eq hq Nat.prime_two).1 (hq.dvd_of_dvd_pow h)
    rw [this]; exact hb
  · rcases (Nat.Prime.dvd_mul hq).1 h with h | h
    · rw [(Nat.prime_dvd_prime_iff_eq hq h1).1 h]; exact hc
    · rw [(Nat.prime_dvd_prime_iff_eq hq h2).1 h]; exact hd

theorem exP_prime : exP.Prime := by
  unfold exP
  apply lucas_nat _ 3 140 11 263 (by norm_num) (by norm_num) <;> decide +kernel

theorem exQ_prime : exQ.Prime := by
  unfold exQ
  apply lucas_nat _ 3 140 17 173 (by norm_num) (by norm_num) <;> decide +kernel

/-- The key. -/
def exKey : PrivKey where
  authority := [116, 101, 115, 116]
  length := 304
  exponent := 65537
  n := exP * exQ
  p := exP
  q := exQ
  dp := 3533274657669370307293947606459987278939750401
  dq := 225795385412297262614931390147827163084029953
  qinv := 2436153150938963137637268432187994251650050671
  d := 9838199539717196696151097047368972505526344548353

end Verif.Sign
