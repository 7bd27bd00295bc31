import Verif.Lib.SigningLemmas
import Verif.Lib.PboWf
import Verif.Lib.SigningKey
import Verif.Props.Pbo
/-! Properties C11 – C15: keys and signatures. -/
namespace Verif.Sign
open Verif.Io Verif.Pbo

/-! ### Specification: the padded digest as a number -/

/-- PKCS#1 v1.5 padding of a SHA-1 digest to `k` bytes, as a number:
`00 01 FF…FF 00` followed by the DigestInfo header and the digest. -/
def pkcs1 (k : Nat) (digest : Bytes) : Nat :=
  (2 * 256 ^ (k - 38) - 1) * 256 ^ 36 + 0x3021300906052b0e03021a05000414 * 256 ^ 20 + beValue digest

theorem padHash_pkcs1 {k : Nat} {h : Bytes} (hk : 38 ≤ k) (hh : h.length = 20) :
    padHash h k = .ok (pkcs1 k h) := by
  unfold padHash
  rw [if_neg (by omega)]
  have hr : resize [0, 1] (k - 36) 255 = [0, 1] ++ List.replicate (k - 38) 255 := by
    unfold resize
    by_cases h : k - 36 ≤ 2
    · have : k = 38 := by omega
      subst this; rfl
    · rw [if_neg (by simpa using h)]
      have : k - 36 - 2 = k - 38 := by omega
      simp [this]
  have hff := beValue_ff (k - 38)
  have hd : beValue digestInfo = 0x3021300906052b0e03021a05000414 := by decide
  have h01 : beValue [0, 1] = 1 := by decide
  have hdl : digestInfo.length = 16 := rfl
  rw [hr, beValue_append, beValue_append, beValue_append, hd, h01, hh, hdl, List.length_replicate]
  unfold pkcs1
  have hb : 1 * 256 ^ (k - 38) + beValue (List.replicate (k - 38) 255) = 2 * 256 ^ (k - 38) - 1 := by omega
  rw [hb, Nat.add_mul, Nat.mul_assoc, ← pow_add]

theorem pkcs1_lt {k : Nat} {h : Bytes} (hk : 38 ≤ k) (hh : h.length = 20) :
    pkcs1 k h < 256 ^ (k - 1) := by
  have h1 := beValue_lt h
  rw [hh] at h1
  have h2 : 0 < 256 ^ (k - 38) := Nat.pow_pos (by norm_num)
  have h3 : 256 ^ (k - 1) = 256 * (256 ^ (k - 38) * 256 ^ 36) := by
    rw [← pow_add, mul_comm, ← pow_succ]; congr 1; omega
  have h4 : (256:Nat) ^ 36 = 256 ^ 16 * 256 ^ 20 := by norm_num
  unfold pkcs1
  generalize 256 ^ (k - 38) = X at *
  rw [h3, Nat.sub_mul]
  generalize beValue h = v at *
  norm_num at *
  omega

theorem pkcs1_inj {k : Nat} {a b : Bytes} (ha : a.length = 20) (hb : b.length = 20)
    (h : pkcs1 k a = pkcs1 k b) : a = b := by
  unfold pkcs1 at h
  exact beValue_inj (ha.trans hb.symm) (by omega)

/-! ### C13: what verification accepts -/

theorem isSorted_iff (lower : Bytes → Bytes) (p : RPbo) :
    p.isSorted lower = true ↔
      p.headers.Pairwise (fun a b => lexLe (lower a.filename) (lower b.filename) = true) := by
  have key : ∀ (hs : List Header) (h : Header), isSortedFrom lower h hs = true ↔
      (h :: hs).Pairwise (fun a b => lexLe (lower a.filename) (lower b.filename) = true) := by
    intro hs
    induction hs with
    | nil => intro h; simp [isSortedFrom]
    | cons c cs ih =>
      intro h
      simp only [isSortedFrom]
      constructor
      · intro hx
        split at hx
        · rename_i hle
          have := (ih c).1 hx
          refine List.Pairwise.cons ?_ this
          intro b hb
          rcases List.mem_cons.1 hb with rfl | hb
          · exact hle
          · exact lexLe_trans _ _ _ hle (List.rel_of_pairwise_cons this hb)
        · cases hx
      · intro hx
        have hle : hdrLe lower h c = true := List.rel_of_pairwise_cons hx (by simp)
        rw [if_pos hle]
        exact (ih c).2 hx.of_cons
  unfold RPbo.isSorted
  split
  · rename_i h; simp [h]
  · rename_i h hs e; rw [e]; exact key hs h

theorem rawHashes_length {H lower : Bytes → Bytes} (hH : ∀ x, (H x).length = 20) {p : RPbo} {v : SigVersion}
    {h1 h2 h3 : Bytes} (h : rawHashes H lower p v = .ok (h1, h2, h3)) :
    h1.length = 20 ∧ h2.length = 20 ∧ h3.length = 20 := by
  unfold rawHashes at h
  split at h
  · cases h
  · rename_i x hx
    split at h
    · cases h
    · cases h
      refine ⟨?_, hH _, hH _⟩
      unfold RPbo.genChecksum at hx
      rw [Option.map_eq_some_iff] at hx
      obtain ⟨y, _, rfl⟩ := hx
      exact hH y

theorem generateHashes_eq {H lower : Bytes → Bytes} (hH : ∀ x, (H x).length = 20) {p : RPbo} {v : SigVersion}
    {len : Nat} (hl : 304 ≤ len) :
    generateHashes H lower p v len = (rawHashes H lower p v).map
      (fun h => (pkcs1 (len / 8) h.1, pkcs1 (len / 8) h.2.1, pkcs1 (len / 8) h.2.2)) := by
  unfold generateHashes
  cases hr : rawHashes H lower p v with
  | error e => rfl
  | ok h =>
    obtain ⟨h1, h2, h3⟩ := h
    obtain ⟨l1, l2, l3⟩ := rawHashes_length hH hr
    have hk : 38 ≤ len / 8 := by omega
    simp only [padHash_pkcs1 hk l1, padHash_pkcs1 hk l2, padHash_pkcs1 hk l3]
    rfl

/-- C13: verification succeeds exactly when the authority names are equal, the files are listed in
lower-case order, there is at least one file, every listed file can be found, and each of the three
numbers of the signature raised to the signature's exponent modulo the signature's modulus is the padded
form of the corresponding digest of the archive. -/
theorem C13_verify_iff (H lower : Bytes → Bytes) (hH : ∀ x, (H x).length = 20) (k : PubKey)
    (hl : 304 ≤ k.length) (r : RPbo) (s : Sig) :
    k.verify H lower r s = .ok () ↔
      k.authority = s.authority ∧
      r.headers.Pairwise (fun a b => lexLe (lower a.filename) (lower b.filename) = true) ∧
      s.n ≠ 0 ∧
      ∃ all names, r.checksumInput lower = some all ∧ r.filenamesInput lower = some names ∧
        s.sig1 ^ s.exponent % s.n = pkcs1 (k.length / 8) (H all) ∧
        s.sig2 ^ s.exponent % s.n =
          pkcs1 (k.length / 8) (H (H all ++ H names ++ prefixInput r)) ∧
        s.sig3 ^ s.exponent % s.n =
          pkcs1 (k.length / 8) (H (H (filesInput lower r s.version) ++ H names ++ prefixInput r)) := by
  rw [← isSorted_iff]
  unfold PubKey.verify
  rw [generateHashes_eq hH hl]
  by_cases ha : k.authority = s.authority
  swap
  · simp [ha]
  by_cases hs : r.isSorted lower = true
  swap
  · simp [ha, hs]
  unfold rawHashes RPbo.genChecksum
  cases hc : r.checksumInput lower with
  | none => simp [ha, hs, Except.map]
  | some all =>
    cases hn : r.filenamesInput lower with
    | none => simp [ha, hs, Except.map]
    | some names =>
      by_cases h0 : s.n = 0
      · simp [ha, hs, Except.map, modpow, h0]
      · simp only [ha, hs, Except.map, modpow, h0, ne_eq, not_true_eq_false, if_false, Option.map_some,
          not_false_eq_true, true_and, Bool.true_eq_false, Option.some.injEq, exists_and_left, exists_eq_left']
        constructor
        · intro h
          split at h
          · cases h
          · split at h
            · cases h
            · split at h
              · cases h
              · simp_all
        · rintro ⟨h1, h2, h3⟩
          simp [h1, h2, h3]

/-! ### C11: sign, then verify -/

/-- An RSA key of `length` bits: the arithmetic that key generation guarantees. -/
structure KeyOk (k : PrivKey) : Prop where
  pp : k.p.Prime
  qp : k.q.Prime
  pq : k.p ≠ k.q
  n : k.n = k.p * k.q
  pos : 0 < k.d * k.exponent
  edp : k.d * k.exponent % (k.p - 1) = 1 % (k.p - 1)
  edq : k.d * k.exponent % (k.q - 1) = 1 % (k.q - 1)
  len : 304 ≤ k.length
  bits : 2 ^ (k.length - 1) ≤ k.n

/-- C11: for every key and every sorted archive whose hashes can be computed, signing succeeds and the
matching public key accepts the signature. -/
theorem C11_sign_verify (H lower : Bytes → Bytes) (hH : ∀ x, (H x).length = 20) (k : PrivKey) (hk : KeyOk k)
    (r : RPbo) (v : SigVersion) (hs : r.isSorted lower = true)
    (hne : r.headers ≠ []) (hc : r.checksumInput lower ≠ none) :
    ∃ s, k.sign H lower r v = .ok s ∧ k.toPublic.verify H lower r s = .ok () := by
  obtain ⟨all, hall⟩ := Option.ne_none_iff_exists'.1 hc
  obtain ⟨names, hnames⟩ : ∃ names, r.filenamesInput lower = some names := by
    unfold RPbo.filenamesInput; rw [if_neg hne]; exact ⟨_, rfl⟩
  have hn0 : k.n ≠ 0 := by
    rw [hk.n]; exact Nat.mul_ne_zero hk.pp.ne_zero hk.qp.ne_zero
  have hraw : rawHashes H lower r v = .ok (H all, H (H all ++ H names ++ prefixInput r),
      H (H (filesInput lower r v) ++ H names ++ prefixInput r)) := by
    unfold rawHashes RPbo.genChecksum
    rw [hall, hnames]; rfl
  have hsize : 38 ≤ k.length / 8 := by have := hk.len; omega
  have hbound : ∀ h : Bytes, h.length = 20 → pkcs1 (k.length / 8) h < k.p * k.q := by
    intro h hh
    rw [← hk.n]
    refine lt_of_lt_of_le (pkcs1_lt hsize hh) (le_trans ?_ hk.bits)
    have : (256 : Nat) = 2 ^ 8 := by norm_num
    rw [this, ← pow_mul]
    exact Nat.pow_le_pow_right (by norm_num) (by omega)
  have hrsa : ∀ h : Bytes, h.length = 20 →
      (pkcs1 (k.length / 8) h ^ k.d % k.n) ^ k.exponent % k.n = pkcs1 (k.length / 8) h := by
    intro h hh
    rw [hk.n]
    exact rsa_correct hk.pp hk.qp hk.pq hk.pos hk.edp hk.edq (hbound h hh)
  refine ⟨⟨v, k.authority, k.length, k.exponent, k.n,
    pkcs1 (k.length / 8) (H all) ^ k.d % k.n,
    pkcs1 (k.length / 8) (H (H all ++ H names ++ prefixInput r)) ^ k.d % k.n,
    pkcs1 (k.length / 8) (H (H (filesInput lower r v) ++ H names ++ prefixInput r)) ^ k.d % k.n⟩, ?_, ?_⟩
  · unfold PrivKey.sign
    rw [generateHashes_eq hH hk.len, hraw]
    simp [Except.map, modpow, hn0]
  · rw [C13_verify_iff H lower hH _ hk.len]
    refine ⟨rfl, (isSorted_iff lower r).1 hs, hn0, all, names, hall, hnames, ?_, ?_, ?_⟩
    · exact hrsa _ (hH _)
    · exact hrsa _ (hH _)
    · exact hrsa _ (hH _)

theorem sortedContents_isSome {lower : Bytes → Bytes} {r : RPbo} {hs : List Header}
    (h : ∀ x ∈ hs, ∃ c, r.file lower x.filename = some c) : ∃ c, r.sortedContents lower hs = some c := by
  induction hs with
  | nil => exact ⟨[], rfl⟩
  | cons x hs ih =>
    obtain ⟨c, hc⟩ := h x (by simp)
    obtain ⟨d, hd⟩ := ih (fun y hy => h y (by simp [hy]))
    exact ⟨c ++ d, by simp [RPbo.sortedContents, hc, hd]⟩

/-! ### C14: key and signature files -/

theorem readLe_big {k x : Nat} (rest : Bytes) (h : x < 256 ^ k) :
    readLe k (writeBiguint x k ++ rest) = .ok (x, rest) := by
  rw [writeBiguint_eq]; exact readLe_leBytes rest h

theorem readLe_any {k : Nat} (a rest : Bytes) (h : a.length = k) :
    readLe k (a ++ rest) = .ok (leValue a, rest) := by
  unfold readLe; rw [takeN_append' h]

/-- Text that a NUL-terminated field can hold. -/
def NameOk (s : Bytes) : Prop := (0 : UInt8) ∉ s ∧ isUtf8 s = true

/-- C14: public keys. -/
theorem C14_public_key (k : PubKey) (ha : NameOk k.authority) (hl : k.length < 2 ^ 32)
    (he : k.exponent < 2 ^ 32) (hn : k.n < 256 ^ (k.length / 8)) (rest : Bytes) :
    PubKey.read (k.write ++ rest) = .ok (k, rest) := by
  have e : k.write ++ rest = writeCString k.authority ++ (le32 (k.length / 8 + 20) ++
      ([0x06, 0x02, 0x00, 0x00] ++ ([0x00, 0x24, 0x00, 0x00] ++ (ascii "RSA1" ++ (le32 k.length ++
      (writeBiguint k.exponent 4 ++ (writeBiguint k.n (k.length / 8) ++ rest))))))) := by
    simp [PubKey.write]
  rw [e]
  unfold PubKey.read
  rw [readCString_write _ ha.1 ha.2]
  dsimp only [bind, Except.bind]
  rw [readLe_leBytes _ (by norm_num; omega)]
  dsimp only
  rw [readLe_any (k := 4) _ _ rfl]
  dsimp only
  rw [readLe_any (k := 4) _ _ rfl]
  dsimp only
  rw [readLe_any (k := 4) _ _ rfl]
  dsimp only
  rw [readLe_leBytes _ (by norm_num; omega)]
  dsimp only
  rw [readLe_big _ (by norm_num; omega)]
  dsimp only
  rw [if_neg (by simp), readLe_big _ hn]

/-- Every number of a private key fits the field it is written to. -/
structure PrivFits (k : PrivKey) : Prop where
  name : NameOk k.authority
  len : k.length < 2 ^ 32
  e : k.exponent < 2 ^ 32
  n : k.n < 256 ^ (k.length / 8)
  p : k.p < 256 ^ (k.length / 16)
  q : k.q < 256 ^ (k.length / 16)
  dp : k.dp < 256 ^ (k.length / 16)
  dq : k.dq < 256 ^ (k.length / 16)
  qinv : k.qinv < 256 ^ (k.length / 16)
  d : k.d < 256 ^ (k.length / 8)

/-- C14: private keys. -/
theorem C14_private_key (k : PrivKey) (hf : PrivFits k) (rest : Bytes) :
    PrivKey.read (k.write ++ rest) = .ok (k, rest) := by
  have hl := hf.len
  have he := hf.e
  have e : k.write ++ rest = writeCString k.authority ++ (le32 (k.length / 16 * 9 + 20) ++
      ([0x07, 0x02, 0x00, 0x00] ++ ([0x00, 0x24, 0x00, 0x00] ++ (ascii "RSA2" ++ (le32 k.length ++
      (writeBiguint k.exponent 4 ++ (writeBiguint k.n (k.length / 8) ++
      (writeBiguint k.p (k.length / 16) ++ (writeBiguint k.q (k.length / 16) ++
      (writeBiguint k.dp (k.length / 16) ++ (writeBiguint k.dq (k.length / 16) ++
      (writeBiguint k.qinv (k.length / 16) ++ (writeBiguint k.d (k.length / 8) ++ rest))))))))))))) := by
    simp [PrivKey.write]
  rw [e]
  unfold PrivKey.read
  rw [readCString_write _ hf.name.1 hf.name.2]
  dsimp only [bind, Except.bind]
  rw [readLe_leBytes _ (by norm_num; omega)]
  dsimp only
  rw [readLe_any (k := 4) _ _ rfl]
  dsimp only
  rw [readLe_any (k := 4) _ _ rfl]
  dsimp only
  rw [readLe_any (k := 4) _ _ rfl]
  dsimp only
  rw [readLe_leBytes _ (by norm_num; omega)]
  dsimp only
  rw [if_neg (by simp)]
  rw [readLe_big _ (by norm_num; omega)]
  dsimp only
  rw [readLe_big _ hf.n]
  dsimp only
  rw [readLe_big _ hf.p]
  dsimp only
  rw [readLe_big _ hf.q]
  dsimp only
  rw [readLe_big _ hf.dp]
  dsimp only
  rw [readLe_big _ hf.dq]
  dsimp only
  rw [readLe_big _ hf.qinv]
  dsimp only
  rw [readLe_big _ hf.d]

/-- C14: signatures. -/
theorem C14_signature (s : Sig) (ha : NameOk s.authority) (hl : s.length < 2 ^ 32)
    (he : s.exponent < 2 ^ 32) (hn : s.n < 256 ^ (s.length / 8)) (h1 : s.sig1 < 256 ^ (s.length / 8))
    (h2 : s.sig2 < 256 ^ (s.length / 8)) (h3 : s.sig3 < 256 ^ (s.length / 8)) (rest : Bytes) :
    Sig.read (s.write ++ rest) = .ok (s, rest) := by
  have e : s.write ++ rest = writeCString s.authority ++ (le32 (s.length / 8 + 20) ++
      ([0x06, 0x02, 0x00, 0x00] ++ ([0x00, 0x24, 0x00, 0x00] ++ (ascii "RSA1" ++ (le32 s.length ++
      (writeBiguint s.exponent 4 ++ (writeBiguint s.n (s.length / 8) ++ (le32 (s.length / 8) ++
      (writeBiguint s.sig1 (s.length / 8) ++ (le32 s.version.toU32 ++ (le32 (s.length / 8) ++
      (writeBiguint s.sig2 (s.length / 8) ++ (le32 (s.length / 8) ++
      (writeBiguint s.sig3 (s.length / 8) ++ rest)))))))))))))) := by
    simp [Sig.write]
  have hv : s.version.toU32 < 256 ^ 4 := by cases s.version <;> decide
  have hv' : SigVersion.ofU32 s.version.toU32 = some s.version := by cases s.version <;> rfl
  rw [e]
  unfold Sig.read
  rw [readCString_write _ ha.1 ha.2]
  dsimp only [bind, Except.bind]
  rw [readLe_leBytes _ (by norm_num; omega)]
  dsimp only
  rw [readLe_any (k := 4) _ _ rfl]
  dsimp only
  rw [readLe_any (k := 4) _ _ rfl]
  dsimp only
  rw [readLe_any (k := 4) _ _ rfl]
  dsimp only
  rw [readLe_leBytes _ (by norm_num; omega)]
  dsimp only
  rw [readLe_big _ (by norm_num; omega)]
  dsimp only
  rw [if_neg (by simp)]
  rw [readLe_big _ hn]
  dsimp only
  rw [readLe_leBytes _ (by norm_num; omega)]
  dsimp only
  rw [readLe_big _ h1]
  dsimp only
  rw [readLe_leBytes _ hv]
  dsimp only
  rw [hv']
  dsimp only
  rw [readLe_leBytes _ (by norm_num; omega)]
  dsimp only
  rw [readLe_big _ h2]
  dsimp only
  rw [readLe_leBytes _ (by norm_num; omega)]
  dsimp only
  rw [readLe_big _ h3]

/-- C14, negative: a public exponent of 2^32 or more is silently written as its remainder. -/
theorem C14_truncation (k : PubKey) (e' : Nat) :
    ({ k with exponent := e' } : PubKey).write = ({ k with exponent := e' % 2 ^ 32 } : PubKey).write := by
  have : leBytes 4 e' = leBytes 4 (e' % 2 ^ 32) := by
    have h1 := leBytes_leValue (leBytes 4 e')
    rw [leBytes_length, leValue_leBytes] at h1
    norm_num at h1 ⊢
    exact h1.symm
  simp only [PubKey.write, writeBiguint_eq, this]

/-- A small concrete key: 0 < length, everything in range. -/
example : PubKey.read ((⟨[97, 98], 16, 65537, 3233⟩ : PubKey).write) = .ok (⟨[97, 98], 16, 65537, 3233⟩, []) := by
  have := C14_public_key ⟨[97, 98], 16, 65537, 3233⟩ ⟨by decide, by decide⟩ (by norm_num) (by norm_num)
    (by norm_num) []
  simpa using this

/-! ### C11 for archives that this program wrote, including the files -/

theorem checksumInput_isSome {lower : Bytes → Bytes} {r : RPbo}
    (h : ∀ x ∈ r.headers, norm x.filename = x.filename) : ∃ c, r.checksumInput lower = some c := by
  obtain ⟨c, hc⟩ := sortedContents_isSome (lower := lower) (r := r) (hs := r.filesSorted lower) (by
    intro x hx
    have hx : x ∈ r.headers := (List.mergeSort_perm _ _).mem_iff.1 hx
    exact file_isSome lower r hx _ (by rw [h x hx]))
  exact ⟨_, by unfold RPbo.checksumInput; rw [hc]; rfl⟩

/-- C11: an archive built and written by this program (any history of representable calls, at least one
file, with or without a properties section) is read back, signed, the signature and the public key are
written to files and read back, and verification accepts. -/
theorem C11_end_to_end (H lower : Bytes → Bytes) (hH : ∀ x, (H x).length = 20) (k : PrivKey) (hk : KeyOk k)
    (hfit : PrivFits k) (v : SigVersion) (p : WPbo) (hv : Valid p) (hne : p.files ≠ [])
    (iter : List (Bytes × (Bytes × Header))) (hi : iter.Perm p.files) (b : Bool) :
    ∃ out sum r s, p.write H lower iter b = .ok (out, sum) ∧ RPbo.from out = .ok r ∧
      k.sign H lower r v = .ok s ∧ Sig.read s.write = .ok (s, []) ∧
      PubKey.read k.toPublic.write = .ok (k.toPublic, []) ∧
      k.toPublic.verify H lower r s = .ok () := by
  obtain ⟨out, sum, r, hw, hr, _, _, hperm, _⟩ := C07_round_trip H lower hH p hv iter hi b
  obtain ⟨out', sum', r', hw', hr', _, hsorted⟩ := C09_sorted H lower hH p hv iter hi b
  rw [hw] at hw'; cases hw'
  rw [hr] at hr'; cases hr'
  have hnorm : ∀ x ∈ r.headers, norm x.filename = x.filename := by
    intro x hx
    obtain ⟨e, he, rfl⟩ := List.mem_map.1 (hperm.mem_iff.1 hx)
    exact (hv.files e he).normed
  have hne' : r.headers ≠ [] := by
    intro h0
    rw [h0] at hperm
    have := hperm.length_eq
    rw [List.length_nil, List.length_map] at this
    exact hne (List.length_eq_zero_iff.1 this.symm)
  obtain ⟨c, hc⟩ := checksumInput_isSome (lower := lower) hnorm
  obtain ⟨s, hs, hver⟩ := C11_sign_verify H lower hH k hk r v hsorted hne' (by rw [hc]; simp)
  refine ⟨out, sum, r, s, hw, hr, hs, ?_, ?_, hver⟩
  · have hn0 : 0 < k.n := by
      rw [hk.n]; exact Nat.mul_pos hk.pp.pos hk.qp.pos
    unfold PrivKey.sign at hs
    split at hs
    · cases hs
    · unfold modpow at hs
      rw [if_neg (by omega), if_neg (by omega), if_neg (by omega)] at hs
      cases hs
      have hlt : ∀ x, x % k.n < 256 ^ (k.length / 8) := fun x => lt_trans (Nat.mod_lt _ hn0) hfit.n
      rw [← List.append_nil (Sig.write _)]
      exact C14_signature _ hfit.name hfit.len hfit.e hfit.n (hlt _) (hlt _) (hlt _) []
  · have := C14_public_key k.toPublic hfit.name hfit.len hfit.e hfit.n []
    rwa [List.append_nil] at this

/-- The hypotheses of `C11_sign_verify` and `C11_end_to_end` are met by a concrete key. -/
example : KeyOk exKey ∧ PrivFits exKey := by
  constructor
  · refine ⟨exP_prime, exQ_prime, ?_, rfl, ?_, ?_, ?_, ?_, ?_⟩ <;> decide +kernel
  · refine ⟨⟨by decide, by decide⟩, ?_, ?_, ?_, ?_, ?_, ?_, ?_, ?_, ?_⟩ <;> decide +kernel

/-! ### C12: verification does not look at the key's numbers -/

/-- C12, negative: for every key of at least 304 bits and every archive it could verify at all, anybody
can make an accepted signature without any private key: exponent 1, a power of two as modulus, and the
padded digests themselves. -/
theorem C12_forgery (H lower : Bytes → Bytes) (hH : ∀ x, (H x).length = 20) (k : PubKey)
    (hl : 304 ≤ k.length) (r : RPbo) (v : SigVersion) (hs : r.isSorted lower = true)
    (hne : r.headers ≠ []) (hc : r.checksumInput lower ≠ none) :
    ∃ s : Sig, k.verify H lower r s = .ok () ∧ s.exponent = 1 ∧ s.n = 256 ^ (k.length / 8) := by
  obtain ⟨all, hall⟩ := Option.ne_none_iff_exists'.1 hc
  obtain ⟨names, hnames⟩ : ∃ names, r.filenamesInput lower = some names := by
    unfold RPbo.filenamesInput; rw [if_neg hne]; exact ⟨_, rfl⟩
  have hsize : 38 ≤ k.length / 8 := by omega
  have hb : ∀ h : Bytes, h.length = 20 →
      pkcs1 (k.length / 8) h ^ 1 % 256 ^ (k.length / 8) = pkcs1 (k.length / 8) h := by
    intro h hh
    rw [pow_one]
    apply Nat.mod_eq_of_lt
    exact lt_of_lt_of_le (pkcs1_lt hsize hh) (Nat.pow_le_pow_right (by norm_num) (by omega))
  refine ⟨⟨v, k.authority, k.length, 1, 256 ^ (k.length / 8),
    pkcs1 (k.length / 8) (H all),
    pkcs1 (k.length / 8) (H (H all ++ H names ++ prefixInput r)),
    pkcs1 (k.length / 8) (H (H (filesInput lower r v) ++ H names ++ prefixInput r))⟩, ?_, rfl, rfl⟩
  rw [C13_verify_iff H lower hH _ hl]
  exact ⟨rfl, (isSorted_iff lower r).1 hs, Nat.pos_iff_ne_zero.1 (Nat.pow_pos (by norm_num)), all, names,
    hall, hnames, hb _ (hH _), hb _ (hH _), hb _ (hH _)⟩

/-- C12, what remains true: for a signature that carries the key's own modulus and exponent, acceptance
means that its three numbers are roots, for that modulus and exponent, of the padded digests of the
archive. Missing: nothing in the program enforces the first two hypotheses (`C12_forgery`). -/
theorem C12_binds_partial (H lower : Bytes → Bytes) (hH : ∀ x, (H x).length = 20) (k : PubKey)
    (hl : 304 ≤ k.length) (r : RPbo) (s : Sig) (he : s.exponent = k.exponent) (hn : s.n = k.n)
    (hok : k.verify H lower r s = .ok ()) :
    ∃ all names, r.checksumInput lower = some all ∧ r.filenamesInput lower = some names ∧
      s.sig1 ^ k.exponent % k.n = pkcs1 (k.length / 8) (H all) ∧
      s.sig2 ^ k.exponent % k.n = pkcs1 (k.length / 8) (H (H all ++ H names ++ prefixInput r)) ∧
      s.sig3 ^ k.exponent % k.n =
        pkcs1 (k.length / 8) (H (H (filesInput lower r s.version) ++ H names ++ prefixInput r)) := by
  have := (C13_verify_iff H lower hH k hl r s).1 hok
  rw [← he, ← hn]
  exact this.2.2.2

/-! ### C15: what a signature covers -/

/-- File names of an archive are distinct after lower-casing and contain no `/`. -/
structure Clean (lower : Bytes → Bytes) (r : RPbo) : Prop where
  distinct : (r.headers.map (fun h => lower h.filename)).Nodup
  normed : ∀ h ∈ r.headers, norm h.filename = h.filename

theorem file_eq_none {lower : Bytes → Bytes} {r : RPbo} {name : Bytes}
    (h : ∀ x ∈ r.headers, lower x.filename ≠ lower (norm name)) : r.file lower name = none := by
  unfold RPbo.file
  suffices hs : ∀ (hs : List Header) (off : Nat), (∀ x ∈ hs, lower x.filename ≠ lower (norm name)) →
      locate lower name hs off = none by rw [hs _ _ h]; rfl
  intro hs
  induction hs with
  | nil => intros; rfl
  | cons x hs ih =>
    intro off h
    simp only [locate]
    rw [if_neg (h x (by simp))]
    exact ih _ (fun y hy => h y (by simp [hy]))

theorem locate_congr (lower : Bytes → Bytes) {a b : Bytes} (h : lower (norm a) = lower (norm b))
    (hs : List Header) (off : Nat) : locate lower a hs off = locate lower b hs off := by
  induction hs generalizing off with
  | nil => rfl
  | cons x hs ih => simp only [locate, h, ih]

theorem contents_split {lower : Bytes → Bytes} {r r' : RPbo} {hs : List Header} {cs : Bytes}
    (h : ∀ x ∈ hs, ∀ c, r.file lower x.filename = some c → c.length = x.size)
    (h' : ∀ x ∈ hs, ∀ c, r'.file lower x.filename = some c → c.length = x.size)
    (e : r.sortedContents lower hs = some cs) (e' : r'.sortedContents lower hs = some cs) :
    ∀ x ∈ hs, r.file lower x.filename = r'.file lower x.filename := by
  induction hs generalizing cs with
  | nil => simp
  | cons x hs ih =>
    simp only [RPbo.sortedContents] at e e'
    cases f1 : r.file lower x.filename with
    | none => rw [f1] at e; cases e
    | some c =>
      cases f2 : r'.file lower x.filename with
      | none => rw [f2] at e'; cases e'
      | some c' =>
        rw [f1] at e; rw [f2] at e'
        cases g1 : r.sortedContents lower hs with
        | none => rw [g1] at e; cases e
        | some d =>
          cases g2 : r'.sortedContents lower hs with
          | none => rw [g2] at e'; cases e'
          | some d' =>
            rw [g1] at e; rw [g2] at e'
            have l1 := h x (by simp) c f1
            have l2 := h' x (by simp) c' f2
            have : c ++ d = c' ++ d' := by
              rw [Option.some.inj e, Option.some.inj e']
            obtain ⟨rfl, rfl⟩ := List.append_inj this (by omega)
            intro y hy
            rcases List.mem_cons.1 hy with rfl | hy
            · rw [f1, f2]
            · exact ih (fun x hx => h x (by simp [hx])) (fun x hx => h' x (by simp [hx])) g1 g2 y hy

/-- C15: the first digest covers everything: two accepted archives with a properties section, with clean
file names, whose first digest inputs are equal have the same properties, the same headers and the same
content under every name. -/
theorem C15_first_digest_covers (lower : Bytes → Bytes) (bs bs' : Bytes) (r r' : RPbo)
    (hr : RPbo.from bs = .ok r) (hr' : RPbo.from bs' = .ok r')
    (hv : r.versHeader ≠ none) (hv' : r'.versHeader ≠ none)
    (hc : Clean lower r) (hc' : Clean lower r')
    (all : Bytes) (h1 : r.checksumInput lower = some all) (h2 : r'.checksumInput lower = some all) :
    r.versHeader = r'.versHeader ∧ r.properties.Perm r'.properties ∧
      r.headers.Perm r'.headers ∧ ∀ name, r.file lower name = r'.file lower name := by
  have t := from_ok hr
  have t' := from_ok hr'
  obtain ⟨vh, hvh⟩ := Option.ne_none_iff_exists'.1 hv
  obtain ⟨vh', hvh'⟩ := Option.ne_none_iff_exists'.1 hv'
  have hs : (r.filesSorted lower).Perm r.headers := List.mergeSort_perm _ _
  have hs' : (r'.filesSorted lower).Perm r'.headers := List.mergeSort_perm _ _
  obtain ⟨cs, e1, e2⟩ : ∃ cs, r.sortedContents lower (r.filesSorted lower) = some cs ∧
      all = vh.write ++ (( propsOrder r.properties).flatMap encProp ++ [0]) ++
        ((r.filesSorted lower).flatMap Header.write ++ Header.default.write ++ cs) := by
    unfold RPbo.checksumInput at h1
    obtain ⟨cs, a, b⟩ := Option.map_eq_some_iff.1 h1
    refine ⟨cs, a, ?_⟩
    rw [← b, hvh, writeProps_eq _ t.keysOk]
    simp
  obtain ⟨cs', e1', e2'⟩ : ∃ cs, r'.sortedContents lower (r'.filesSorted lower) = some cs ∧
      all = vh'.write ++ (( propsOrder r'.properties).flatMap encProp ++ [0]) ++
        ((r'.filesSorted lower).flatMap Header.write ++ Header.default.write ++ cs) := by
    unfold RPbo.checksumInput at h2
    obtain ⟨cs, a, b⟩ := Option.map_eq_some_iff.1 h2
    refine ⟨cs, a, ?_⟩
    rw [← b, hvh', writeProps_eq _ t'.keysOk]
    simp
  have parse : ∀ (q : RPbo) (vh : Header) (cs : Bytes), TableOk q.properties q.versHeader q.headers →
      q.versHeader = some vh → (q.filesSorted lower).Perm q.headers →
      all = vh.write ++ (( propsOrder q.properties).flatMap encProp ++ [0]) ++
        ((q.filesSorted lower).flatMap Header.write ++ Header.default.write ++ cs) →
      ∃ n, readHeaders all [] none [] 0 =
        .ok (propsOrder q.properties, some vh, q.filesSorted lower, n, cs) := by
    intro q vh cs tq hq hp ha
    have hpp := propsOrder_perm q.properties
    rw [ha, readHeaders_vers' vh (tq.versOk vh hq).1 (tq.versOk vh hq).2 _
      (fun kv hkv => tq.propsOk kv (hpp.mem_iff.1 hkv)) ((hpp.map Prod.fst).nodup_iff.2 tq.keysOk),
      readHeaders_files _ (fun h hh => tq.headersOk h (hp.mem_iff.1 hh))]
    exact ⟨_, rfl⟩
  obtain ⟨n, p1⟩ := parse r vh cs t hvh hs e2
  obtain ⟨n', p2⟩ := parse r' vh' cs' t' hvh' hs' e2'
  rw [p1] at p2
  simp only [Except.ok.injEq, Prod.mk.injEq] at p2
  obtain ⟨q1, q2, q3, _, q5⟩ := p2
  subst q5
  have hperm : r.headers.Perm r'.headers := hs.symm.trans (q3 ▸ hs')
  refine ⟨by rw [hvh, hvh']; exact q2, (propsOrder_perm _).symm.trans (q1 ▸ propsOrder_perm _), hperm, ?_⟩
  have own : ∀ (q : RPbo) (b : Bytes), RPbo.from b = .ok q → Clean lower q →
      ∀ x ∈ q.headers, ∀ c, q.file lower x.filename = some c → c.length = x.size := by
    intro q b hq hcl x hx c hxc
    obtain ⟨hd, hm, he, hl⟩ := from_file_length hq lower hxc
    rw [hcl.normed x hx] at he
    rw [hl, List.inj_on_of_nodup_map hcl.distinct hm hx he]
  have hfiles := contents_split (r := r) (r' := r') (hs := r.filesSorted lower)
    (fun x hx => own r bs hr hc x (hs.mem_iff.1 hx))
    (fun x hx => own r' bs' hr' hc' x (hperm.mem_iff.1 (hs.mem_iff.1 hx))) e1 (by rw [q3]; exact e1')
  intro name
  by_cases hx : ∃ x ∈ r.headers, lower x.filename = lower (norm name)
  · obtain ⟨x, hx, he⟩ := hx
    have := hfiles x (hs.mem_iff.2 hx)
    have hcg : ∀ q : RPbo, q.file lower name = q.file lower x.filename := by
      intro q
      unfold RPbo.file
      rw [locate_congr lower (a := name) (b := x.filename) (by rw [hc.normed x hx, he])]
    rw [hcg, hcg, this]
  · have hx1 : ∀ x ∈ r.headers, lower x.filename ≠ lower (norm name) := fun x h1 h2 => hx ⟨x, h1, h2⟩
    rw [file_eq_none hx1, file_eq_none (fun x h => hx1 x (hperm.mem_iff.2 h))]

/-- C15: if one signature is accepted for two archives by the same key, then the archives have the same
properties, headers and contents, or two different inputs with the same SHA-1 digest are known. -/
theorem C15_same_signature (H lower : Bytes → Bytes) (hH : ∀ x, (H x).length = 20) (k : PubKey)
    (hl : 304 ≤ k.length) (s : Sig) (bs bs' : Bytes) (r r' : RPbo)
    (hr : RPbo.from bs = .ok r) (hr' : RPbo.from bs' = .ok r')
    (hv : r.versHeader ≠ none) (hv' : r'.versHeader ≠ none)
    (hc : Clean lower r) (hc' : Clean lower r')
    (ok : k.verify H lower r s = .ok ()) (ok' : k.verify H lower r' s = .ok ()) :
    (r.properties.Perm r'.properties ∧ r.headers.Perm r'.headers ∧
      ∀ name, r.file lower name = r'.file lower name) ∨
    ∃ x y, x ≠ y ∧ H x = H y := by
  obtain ⟨_, _, _, all, _, ha, _, h1, _⟩ := (C13_verify_iff H lower hH k hl r s).1 ok
  obtain ⟨_, _, _, all', _, ha', _, h1', _⟩ := (C13_verify_iff H lower hH k hl r' s).1 ok'
  have hd : H all = H all' := pkcs1_inj (hH _) (hH _) (h1.symm.trans h1')
  by_cases he : all = all'
  · subst he
    left
    exact (C15_first_digest_covers lower bs bs' r r' hr hr' hv hv' hc hc' all ha ha').2
  · exact Or.inr ⟨all, all', he, hd⟩

/-- An archive whose second name differs from the first only by case. -/
def clash (x : UInt8) : WPbo := runOps [.addFile [97] [1], .addFile [65] [x]]

theorem clash_valid (x : UInt8) : Valid (clash x) := by
  apply C07_valid_of_history
  intro op hop
  simp only [List.mem_cons, List.not_mem_nil, or_false] at hop
  rcases hop with rfl | rfl
  · exact ⟨by decide, by decide, by decide⟩
  · exact ⟨by decide, by decide, by decide⟩

theorem clash_read (H : Bytes → Bytes) (hH : ∀ x, (H x).length = 20) (x : UInt8) :
    ∃ out r, (clash x).write H asciiLower (clash x).files true = .ok (out, r.checksum) ∧
      RPbo.from out = .ok r ∧ r.input = out ∧
      r.headers = [Header.newForFile [97] 1, Header.newForFile [65] 1] ∧ r.properties = [] ∧
      r.versHeader = some Header.property ∧
      (r.input.drop r.blobStart).take 2 = [1, x] := by
  obtain ⟨csl, h1, h2, h3, h4⟩ := read_write H asciiLower hH (clash_valid x) (List.Perm.refl _) true
  have hsorted : filesSorted asciiLower (clash x).files = [Header.newForFile [97] 1, Header.newForFile [65] 1] := by
    have : (clash x).files.map (fun e => e.2.2) = [Header.newForFile [97] 1, Header.newForFile [65] 1] := by
      simp [clash, runOps, apply, WPbo.addFile, WPbo.new, IMap.insert, norm]
    unfold filesSorted
    rw [this]
    apply List.mergeSort_of_pairwise; decide
  have hcs : csl.flatten = [1, x] := by
    rw [hsorted] at h1
    have : (clash x).contents [Header.newForFile [97] 1, Header.newForFile [65] 1] = some [1, x] := by
      simp [WPbo.contents, WPbo.file, clash, runOps, apply, WPbo.addFile, WPbo.new, IMap.insert, IMap.get, norm,
        Header.newForFile]
    rw [this] at h1
    exact (Option.some.inj h1).symm
  refine ⟨_, _, h3, h4, rfl, hsorted, ?_, rfl, ?_⟩
  · simp [propsOrder, clash, runOps, apply, WPbo.addFile, WPbo.new]
  · simp [hcs]

/-- C15, negative: the restriction on names is needed. Two sorted archives this program writes and reads
whose second file differs in content have all digest inputs in common (so every signature accepted for
one is accepted for the other), because that file's name equals another one up to case. -/
theorem C15_case_clash_uncovered (H : Bytes → Bytes) (hH : ∀ x, (H x).length = 20) :
    ∃ out out' r r', RPbo.from out = .ok r ∧ RPbo.from out' = .ok r' ∧
      (r.input.drop (r.blobStart + 1)).head? = some 2 ∧ (r'.input.drop (r'.blobStart + 1)).head? = some 3 ∧
      r.checksumInput asciiLower ≠ none ∧ r.isSorted asciiLower = true ∧
      ∀ (k : PubKey) (s : Sig), k.verify H asciiLower r s = k.verify H asciiLower r' s := by
  obtain ⟨out, r, hw, hr, hi, hh, hp, hv, hc⟩ := clash_read H hH 2
  obtain ⟨out', r', hw', hr', hi', hh', hp', hv', hc'⟩ := clash_read H hH 3
  have hd : ∀ (x : UInt8) (l : Bytes), l.take 2 = [1, x] → l.take 1 = [1] ∧ (l.drop 1).head? = some x := by
    intro x l h
    match l, h with
    | a :: b :: t, h => simp at h; simp [h]
  have f1 : ∀ name, r.file asciiLower name = (if asciiLower [97] = asciiLower (norm name) then some [1] else none) := by
    intro name
    have e : asciiLower [65] = asciiLower [97] := by decide
    unfold RPbo.file
    rw [hh]
    simp only [locate, Header.newForFile, e]
    by_cases h : asciiLower [97] = asciiLower (norm name)
    · rw [if_pos h, if_pos h]; simp [Header.default, (hd 2 _ hc).1]
    · rw [if_neg h, if_neg h, if_neg h]; rfl
  have f2 : ∀ name, r'.file asciiLower name = (if asciiLower [97] = asciiLower (norm name) then some [1] else none) := by
    intro name
    have e : asciiLower [65] = asciiLower [97] := by decide
    unfold RPbo.file
    rw [hh']
    simp only [locate, Header.newForFile, e]
    by_cases h : asciiLower [97] = asciiLower (norm name)
    · rw [if_pos h, if_pos h]; simp [Header.default, (hd 3 _ hc').1]
    · rw [if_neg h, if_neg h, if_neg h]; rfl
  have ff : r.file asciiLower = r'.file asciiLower := by funext n; rw [f1, f2]
  have fs : r.filesSorted asciiLower = r'.filesSorted asciiLower := by
    unfold RPbo.filesSorted; rw [hh, hh']
  have sc : ∀ hs, r.sortedContents asciiLower hs = r'.sortedContents asciiLower hs := by
    intro hs
    induction hs with
    | nil => rfl
    | cons x hs ih => simp only [RPbo.sortedContents, ff, ih]
  have ci : r.checksumInput asciiLower = r'.checksumInput asciiLower := by
    unfold RPbo.checksumInput; rw [sc, fs, hv, hv', hp, hp']
  refine ⟨out, out', r, r', hr, hr', ?_, ?_, ?_, ?_, ?_⟩
  · rw [← List.drop_drop]; exact (hd 2 _ hc).2
  · rw [← List.drop_drop]; exact (hd 3 _ hc').2
  · obtain ⟨c, hc⟩ := checksumInput_isSome (lower := asciiLower) (r := r) (by rw [hh]; decide)
    rw [hc]; simp
  · unfold RPbo.isSorted; rw [hh]; decide
  · intro k s
    have hs : r.isSorted asciiLower = r'.isSorted asciiLower := by unfold RPbo.isSorted; rw [hh, hh']
    have hn : r.filenamesInput asciiLower = r'.filenamesInput asciiLower := by
      unfold RPbo.filenamesInput; rw [hh, hh', fs, ff]
    have hf : ∀ v, filesInput asciiLower r v = filesInput asciiLower r' v := by
      intro v; unfold filesInput; rw [fs, ff]
    have hpre : prefixInput r = prefixInput r' := by unfold prefixInput; rw [hp, hp']
    unfold PubKey.verify generateHashes rawHashes RPbo.genChecksum
    rw [hs, ci, hn, hf, hpre]

end Verif.Sign
