import Verif.Lib.LzoSafe
/-! How the decompressor acts on each instruction the compressor produces. -/
namespace Verif.Lzo

/-- From the compressed input `Z` the decompressor gets to the given point of its main loop. -/
def Reach (cap : Nat) (Z rest o : Bytes) (st : Nat) : Prop :=
  ∃ j, j + rest.length ≤ Z.length ∧ ∀ F, decompressFuel (F + j) cap Z = loop cap F rest o st

theorem Reach.step {cap : Nat} {Z rest o rest' o' : Bytes} {st st' : Nat} (h : Reach cap Z rest o st)
    (hs : step cap rest o st = .ok (.go (rest', o', st'))) (hl : rest'.length < rest.length) :
    Reach cap Z rest' o' st' := by
  obtain ⟨j, hj, hF⟩ := h
  refine ⟨j + 1, by omega, fun F => ?_⟩
  have : F + (j + 1) = (F + 1) + j := by omega
  rw [this, hF, loop, hs]

theorem ofNat_toNat {x : Nat} (h : x < 256) : (UInt8.ofNat x).toNat = x := by
  simp; omega

theorem zeros_length (n : Nat) : (zeros n).length = 1 + (n - 1) / 255 := by
  induction n using Nat.strongRecOn with
  | _ n ih =>
    rw [zeros]
    split
    · simp; omega
    · rw [List.length_cons, ih (n - 255) (by omega)]; omega

theorem zrun_zeros (n k : Nat) (rest : Bytes) (h : 1 ≤ n) :
    ∃ b : UInt8, zrun (zeros n ++ rest) k = .ok (some (k + (n - 1) / 255, b :: rest)) ∧
      255 * ((n - 1) / 255) + b.toNat = n := by
  induction n using Nat.strongRecOn generalizing k with
  | _ n ih =>
    rw [zeros]
    split
    · rename_i h1
      refine ⟨UInt8.ofNat n, ?_, by rw [ofNat_toNat (by omega)]; omega⟩
      have hne : UInt8.ofNat n ≠ 0 := by
        intro e
        have := congrArg UInt8.toNat e
        rw [ofNat_toNat (by omega)] at this
        simp at this; omega
      simp only [List.cons_append, List.nil_append, zrun, hne, ne_eq, not_false_iff, if_true]
      have : (n - 1) / 255 = 0 := by omega
      simp [this]
    · rename_i h1
      obtain ⟨b, hb, hs⟩ := ih (n - 255) (by omega) (k + 1) (by omega)
      refine ⟨b, ?_, by omega⟩
      have hlen : ¬ (zeros (n - 255) ++ rest).length < 1 := by
        rw [List.length_append, zeros_length]; omega
      simp only [List.cons_append, zrun, ne_eq, not_true, if_false, hlen, hb]
      have : k + 1 + (n - 255 - 1) / 255 = k + (n - 1) / 255 := by omega
      rw [this]

theorem longRun_zeros (cap base n : Nat) (rest out : Bytes) (h : 1 ≤ n) (hn : n < 2 ^ 63) :
    longRun cap base (zeros n ++ rest) out = .ok (.go (base + n, rest)) := by
  obtain ⟨b, hb, hs⟩ := zrun_zeros n 0 rest h
  simp only [longRun, hb, rd]
  rw [if_neg (by unfold maxOffset; omega)]
  have : 255 * (0 + (n - 1) / 255) + base + b.toNat = base + n := by omega
  rw [this]

theorem step_cons (cap : Nat) (b : UInt8) (rest o : Bytes) (st : Nat) :
    step cap (b :: rest) o st =
      if b.toNat < 16 then
        if st = 0 then litInstr cap b.toNat rest o
        else if st ≠ 4 then m1Instr cap b.toNat rest o
        else m1FarInstr cap b.toNat rest o
      else if b.toNat ≥ 64 then m2Instr cap b.toNat rest o
      else if b.toNat ≥ 32 then m3Instr cap b.toNat rest o
      else m4Instr cap b.toNat rest o := rfl

/-- A literal run. -/
theorem lit_step (cap t : Nat) (lits rest o : Bytes) (ht : 4 ≤ t) (ht' : t < 2 ^ 63) (hl : lits.length = t)
    (hr : 3 ≤ rest.length) (ho : o.length + t ≤ cap) :
    step cap (litHeader t ++ lits ++ rest) o 0 = .ok (.go (rest, o ++ lits, 4)) := by
  have key : ∀ u, u + 3 = t →
      (if cap - o.length < u + 3 then .ok (.ret ⟨-5, o.length, o⟩)
        else if (lits ++ rest).length < u + 3 + 3 then .ok (.ret ⟨-4, o.length, o⟩)
        else
          match copyLit cap (u + 3) (lits ++ rest) o with
          | .error e => .error e
          | .ok (rest, out) => .ok (.go (rest, out, 4)) : Except MErr (Flow (Bytes × Bytes × Nat)))
        = .ok (.go (rest, o ++ lits, 4)) := by
    intro u hu
    rw [if_neg (by omega), if_neg (by simp; omega),
      copyLit_ok cap _ _ _ (by simp; omega) (by omega)]
    have e : u + 3 = lits.length := by omega
    rw [e]; simp
  unfold litHeader
  split
  · rename_i h18
    rw [List.append_assoc, List.singleton_append, step_cons, ofNat_toNat (by omega), if_pos (by omega), if_pos rfl,
      litInstr, if_neg (by omega)]
    exact key (t - 3) (by omega)
  · rename_i h18
    have h0 : (0 : UInt8).toNat = 0 := rfl
    rw [List.cons_append, List.cons_append, step_cons, h0, if_pos (by omega), if_pos rfl, litInstr, if_pos rfl,
      List.append_assoc, longRun_zeros cap 15 (t - 18) _ o (by omega) (by omega)]
    exact key (15 + (t - 18)) (by omega)

theorem take_succ {inp : Bytes} {c : Nat} (h : c < inp.length) : inp.take c ++ [inp[c]] = inp.take (c + 1) := by
  rw [List.take_add_one, List.getElem?_eq_getElem h]; rfl

theorem copyOut_match (inp : Bytes) (cap off : Nat) (hoff : 1 ≤ off) (hcap : inp.length ≤ cap) : ∀ (n c : Nat),
    off ≤ c → c + n ≤ inp.length → (∀ i, i < n → inp[c + i]? = inp[c - off + i]?) →
    copyOut cap n ((c : Int) - off) (inp.take c) = .ok (inp.take (c + n)) := by
  intro n
  induction n with
  | zero => intro c _ _ _; simp [copyOut]
  | succ n ih =>
    intro c hc hn hm
    have hlen : (inp.take c).length = c := by simp; omega
    have hidx : ((c : Int) - off).toNat = c - off := by omega
    have hget : (inp.take c)[c - off]? = some inp[c] := by
      have h0 := hm 0 (by omega)
      simp only [Nat.add_zero] at h0
      rw [List.getElem?_take_of_lt (by omega), ← h0, List.getElem?_eq_getElem (by omega)]
    simp only [copyOut, rdOut]
    rw [if_pos (by omega), hidx, hget]
    simp only [put]
    rw [if_pos (by omega)]
    dsimp only
    rw [take_succ (by omega)]
    have he : (c : Int) - off + 1 = ((c + 1 : Nat) : Int) - off := by omega
    rw [he, ih (c + 1) (by omega) (by omega) (fun i hi => by
      have := hm (i + 1) (by omega)
      have e1 : c + (i + 1) = c + 1 + i := by omega
      have e2 : c - off + (i + 1) = c + 1 - off + i := by omega
      rw [e1, e2] at this; exact this)]
    have : c + 1 + n = c + (n + 1) := by omega
    rw [this]

/-- Copying a match and the literals after it. -/
theorem copyMatch_ok (inp : Bytes) (off len c k : Nat) (lits rest : Bytes) (hoff : 1 ≤ off) (hoc : off ≤ c)
    (hlen : 3 ≤ len) (hn : c + len + k ≤ inp.length) (hm : ∀ i, i < len → inp[c + i]? = inp[c - off + i]?)
    (hk : lits.length = k) (hr : 3 ≤ rest.length) (m : Int) (hme : m = (c : Int) - off) :
    copyMatch inp.length len m k (lits ++ rest) (inp.take c) =
      .ok (.go (rest, inp.take (c + len) ++ lits, k)) := by
  subst hme
  have hl1 : (inp.take c).length = c := by simp; omega
  have hl2 : (inp.take (c + len)).length = c + len := by simp; omega
  have hlen2 : 2 + max 1 (len - 2) = len := by omega
  unfold copyMatch
  rw [if_neg (by omega), hl1, if_neg (by omega), hlen2,
    copyOut_match inp inp.length off hoff (Nat.le_refl _) len c hoc (by omega) hm]
  dsimp only
  unfold finish
  rw [if_neg (by simp; omega), hl2, if_neg (by omega),
    copyLit_ok _ _ _ _ (by simp; omega) (by omega)]
  subst hk
  simp

theorem or_add (a k i : Nat) (hk : k < 2 ^ i) : 2 ^ i * a ||| k = 2 ^ i * a + k :=
  (Nat.two_pow_add_eq_or_of_lt hk a).symm

theorem rd16_cons (a b : UInt8) (rest : Bytes) :
    rd16 (a :: b :: rest) = .ok (a.toNat + 256 * b.toNat, rest) := by
  have ha := a.toNat_lt
  have : a.toNat ||| b.toNat <<< 8 = a.toNat + 256 * b.toNat := by
    have h := or_add b.toNat a.toNat 8 (by omega)
    rw [Nat.or_comm, Nat.shiftLeft_eq, Nat.mul_comm b.toNat]
    omega
  simp only [rd16, rd, this]

theorem and3 (x : Nat) : x &&& 3 = x % 4 := Nat.and_two_pow_sub_one_eq_mod x 2
theorem and7 (x : Nat) : x &&& 7 = x % 8 := Nat.and_two_pow_sub_one_eq_mod x 3
theorem and31 (x : Nat) : x &&& 31 = x % 32 := Nat.and_two_pow_sub_one_eq_mod x 5

/-- The two last bytes of a match instruction: what OR-ing a literal count into the first one gives. -/
theorem or_k (x k : Nat) (hx : x % 4 = 0) (hx' : x < 256) (hk : k ≤ 3) :
    (UInt8.ofNat ((UInt8.ofNat x).toNat ||| k)).toNat = x + k := by
  rw [ofNat_toNat hx']
  have h := or_add (x / 4) k 2 (by omega)
  have e : 2 ^ 2 * (x / 4) = x := by omega
  rw [e] at h
  rw [h, ofNat_toNat (by omega)]

/-- Every match the compressor writes is decoded as that match, with any literal count OR-ed in. -/
def Decodes (inp : Bytes) (off len c : Nat) : Prop :=
    ∃ A x y, matchBytes len off = A ++ [x, y] ∧ ∀ k, k ≤ 3 → ∀ lits rest : Bytes, lits.length = k →
      3 ≤ rest.length → c + len + k ≤ inp.length → ∀ st,
      step inp.length (A ++ [UInt8.ofNat (x.toNat ||| k), y] ++ lits ++ rest) (inp.take c) st =
        .ok (.go (rest, inp.take (c + len) ++ lits, k))

theorem m2_step (inp : Bytes) (off len c : Nat) (hoff : 1 ≤ off) (hoff' : off ≤ 0xbfff) (hoc : off ≤ c)
    (hlen : 4 ≤ len) (hn63 : inp.length < 2 ^ 63) (hn : c + len ≤ inp.length)
    (hm : ∀ i, i < len → inp[c + i]? = inp[c - off + i]?) (h : len ≤ 8 ∧ off ≤ 0x800) :
    Decodes inp off len c := by
  have hcl : (inp.take c).length = c := by simp; omega
  unfold Decodes matchBytes
  rw [if_pos h]
  dsimp only
  refine ⟨[], _, _, rfl, fun k hk lits rest hl hr hck st => ?_⟩
  have h8 : (off - 1) &&& 7 = (off - 1) % 8 := and7 _
  have hx : (len - 1) <<< 5 ||| ((off - 1) &&& 7) <<< 2 = 32 * (len - 1) + 4 * ((off - 1) % 8) := by
    rw [h8, Nat.shiftLeft_eq, Nat.shiftLeft_eq]
    have := or_add (len - 1) ((off - 1) % 8 * 2 ^ 2) 5 (by omega)
    rw [Nat.mul_comm (len - 1)]
    omega
  rw [hx]
  have hxk := or_k (32 * (len - 1) + 4 * ((off - 1) % 8)) k (by omega) (by omega) hk
  have hy : (UInt8.ofNat ((off - 1) >>> 3)).toNat = (off - 1) / 8 := by
    rw [Nat.shiftRight_eq_div_pow, ofNat_toNat (by omega)]
  generalize UInt8.ofNat ((UInt8.ofNat (32 * (len - 1) + 4 * ((off - 1) % 8))).toNat ||| k) = bx at hxk
  generalize UInt8.ofNat ((off - 1) >>> 3) = bY at hy
  simp only [List.nil_append, List.cons_append, List.append_assoc]
  rw [step_cons, if_neg (by omega), if_pos (by omega)]
  simp only [m2Instr, rd]
  rw [and3, and7, hxk, hy, Nat.shiftRight_eq_div_pow, Nat.shiftRight_eq_div_pow, Nat.shiftLeft_eq, hcl]
  have e1 : (32 * (len - 1) + 4 * ((off - 1) % 8) + k) % 4 = k := by omega
  have e2 : (32 * (len - 1) + 4 * ((off - 1) % 8) + k) / 2 ^ 5 - 1 + (3 - 1) = len := by omega
  rw [e1, e2]
  exact copyMatch_ok inp off len c k lits rest hoff hoc (by omega) hck hm hl hr _ (by omega)

theorem m3_step (inp : Bytes) (off len c : Nat) (hoff : 1 ≤ off) (hoff' : off ≤ 0xbfff) (hoc : off ≤ c)
    (hlen : 4 ≤ len) (hn63 : inp.length < 2 ^ 63) (hn : c + len ≤ inp.length)
    (hm : ∀ i, i < len → inp[c + i]? = inp[c - off + i]?) (hnot : ¬ (len ≤ 8 ∧ off ≤ 0x800)) (h4000 : off ≤ 0x4000) :
    Decodes inp off len c := by
  have hcl : (inp.take c).length = c := by simp; omega
  unfold Decodes matchBytes
  rw [if_neg hnot, if_pos h4000]
  dsimp only
  -- the offset bytes
  have hxv : (off - 1) <<< 2 = 4 * (off - 1) := by rw [Nat.shiftLeft_eq]; omega
  have hmod : UInt8.ofNat ((off - 1) <<< 2) = UInt8.ofNat (4 * (off - 1) % 256) := by
    rw [hxv]; apply UInt8.toNat_inj.mp; simp
  have hy : (UInt8.ofNat ((off - 1) >>> 6)).toNat = (off - 1) / 64 := by
    rw [Nat.shiftRight_eq_div_pow, ofNat_toNat (by omega)]
  refine ⟨_, _, _, rfl, fun k hk lits rest hl hr hck st => ?_⟩
  rw [hmod]
  have hxk := or_k (4 * (off - 1) % 256) k (by omega) (by omega) hk
  generalize UInt8.ofNat ((UInt8.ofNat (4 * (off - 1) % 256)).toNat ||| k) = bx at hxk
  generalize UInt8.ofNat ((off - 1) >>> 6) = bY at hy
  have hv : bx.toNat + 256 * bY.toNat = 4 * (off - 1) + k := by omega
  have hnext : (4 * (off - 1) + k) % 4 = k := by omega
  have hoffv : (4 * (off - 1) + k) / 2 ^ 2 = off - 1 := by omega
  split
  · rename_i h33
    have hb : (UInt8.ofNat (32 ||| (len - 2))).toNat = 32 + (len - 2) := by
      have := or_add 1 (len - 2) 5 (by omega)
      rw [show (2 ^ 5 * 1 : Nat) = 32 from rfl] at this
      rw [this, ofNat_toNat (by omega)]
    generalize UInt8.ofNat (32 ||| (len - 2)) = bh at hb
    simp only [List.nil_append, List.cons_append, List.append_assoc]
    rw [step_cons, if_neg (by omega), if_neg (by omega), if_pos (by omega)]
    unfold m3Instr
    dsimp only
    rw [and31, hb]
    have ht : (32 + (len - 2)) % 32 + (3 - 1) = len := by omega
    rw [ht, if_neg (by omega)]
    dsimp only
    rw [if_neg (by omega), rd16_cons, hv, hcl]
    dsimp only
    rw [and3, hnext, Nat.shiftRight_eq_div_pow, hoffv]
    exact copyMatch_ok inp off len c k lits rest hoff hoc (by omega) hck hm hl hr _ (by omega)
  · rename_i h33
    have hb : (32 : UInt8).toNat = 32 := rfl
    simp only [List.nil_append, List.cons_append, List.append_assoc]
    rw [step_cons, hb, if_neg (by omega), if_neg (by omega), if_pos (by omega)]
    unfold m3Instr
    dsimp only
    rw [and31]
    have ht : 32 % 32 + (3 - 1) = 2 := by omega
    rw [ht, if_pos rfl, longRun_zeros _ 31 (len - 33) _ _ (by omega) (by omega)]
    dsimp only
    rw [if_neg (by simp), rd16_cons, hv, hcl]
    dsimp only
    rw [and3, hnext, Nat.shiftRight_eq_div_pow, hoffv]
    have hlen' : 2 + (31 + (len - 33)) = len := by omega
    rw [hlen']
    exact copyMatch_ok inp off len c k lits rest hoff hoc (by omega) hck hm hl hr _ (by omega)

theorem bit_and (q : Nat) (hq : q < 2) (l : Nat) (hl : l < 8) : (16 + 8 * q + l) &&& 8 = 8 * q := by
  have : ∀ q, q < 2 → ∀ l, l < 8 → (16 + 8 * q + l) &&& 8 = 8 * q := by decide
  exact this q hq l hl

theorem bit_or (q : Nat) (hq : q < 2) (l : Nat) (hl : l < 8) : 16 ||| 8 * q ||| l = 16 + 8 * q + l := by
  have : ∀ q, q < 2 → ∀ l, l < 8 → 16 ||| 8 * q ||| l = 16 + 8 * q + l := by decide
  exact this q hq l hl

theorem bit_off (d : Nat) (h : d < 2 ^ 15) : d >>> 11 &&& 8 = 8 * (d / 2 ^ 14) := by
  rw [Nat.shiftRight_eq_div_pow]
  have h16 : ∀ q, q < 16 → q &&& 8 = 8 * (q / 8) := by decide
  rw [h16 _ (by omega)]
  omega

theorem m4_eq (cap t add : Nat) (rest rest' out : Bytes) (a b : UInt8)
    (hrun : (if (t &&& 7) + (3 - 1) = 2 then longRun cap 7 rest out else .ok (.go (0, rest))) =
      .ok (.go (add, a :: b :: rest')))
    (hne : (out.length : Int) - (((t &&& 8) <<< 11 : Nat) : Int) - ((a.toNat + 256 * b.toNat) >>> 2 : Nat) ≠ out.length) :
    m4Instr cap t rest out = copyMatch cap ((t &&& 7) + (3 - 1) + add)
      ((out.length : Int) - (((t &&& 8) <<< 11 : Nat) : Int) - ((a.toNat + 256 * b.toNat) >>> 2 : Nat) - 0x4000)
      ((a.toNat + 256 * b.toNat) &&& 3) rest' out := by
  simp only [m4Instr, hrun, rd16_cons]
  rw [if_neg (by simp), if_neg hne]

theorem m4_step (inp : Bytes) (off len c : Nat) (hoff : 1 ≤ off) (hoff' : off ≤ 0xbfff) (hoc : off ≤ c)
    (hlen : 4 ≤ len) (hn63 : inp.length < 2 ^ 63) (hn : c + len ≤ inp.length)
    (hm : ∀ i, i < len → inp[c + i]? = inp[c - off + i]?) (hnot : ¬ (len ≤ 8 ∧ off ≤ 0x800)) (h4000 : ¬ off ≤ 0x4000) :
    Decodes inp off len c := by
  have hcl : (inp.take c).length = c := by simp; omega
  unfold Decodes matchBytes
  rw [if_neg hnot, if_neg h4000]
  dsimp only
  have hxv : (off - 0x4000) <<< 2 = 4 * (off - 0x4000) := by rw [Nat.shiftLeft_eq]; omega
  have hmod : UInt8.ofNat ((off - 0x4000) <<< 2) = UInt8.ofNat (4 * (off - 0x4000) % 256) := by
    rw [hxv]; apply UInt8.toNat_inj.mp; simp
  have hy : (UInt8.ofNat ((off - 0x4000) >>> 6)).toNat = (off - 0x4000) / 64 % 256 := by
    rw [Nat.shiftRight_eq_div_pow]; simp
  refine ⟨_, _, _, rfl, fun k hk lits rest hl hr hck st => ?_⟩
  rw [hmod]
  have hxk := or_k (4 * (off - 0x4000) % 256) k (by omega) (by omega) hk
  generalize UInt8.ofNat ((UInt8.ofNat (4 * (off - 0x4000) % 256)).toNat ||| k) = bx at hxk
  generalize UInt8.ofNat ((off - 0x4000) >>> 6) = bY at hy
  have hv : bx.toNat + 256 * bY.toNat = 4 * ((off - 0x4000) % 2 ^ 14) + k := by omega
  have hnext : (4 * ((off - 0x4000) % 2 ^ 14) + k) % 4 = k := by omega
  have hoffv : (4 * ((off - 0x4000) % 2 ^ 14) + k) / 2 ^ 2 = (off - 0x4000) % 2 ^ 14 := by omega
  have hbit := bit_off (off - 0x4000) (by omega)
  generalize hbq : (off - 0x4000) / 2 ^ 14 = bq at hbit
  have hbq2 : bq < 2 := by omega
  rw [hbit]
  split
  · rename_i h9
    have hb : (UInt8.ofNat (16 ||| 8 * bq ||| (len - 2))).toNat = 16 + 8 * bq + (len - 2) := by
      rw [bit_or bq hbq2 (len - 2) (by omega), ofNat_toNat (by omega)]
    generalize UInt8.ofNat (16 ||| 8 * bq ||| (len - 2)) = bh at hb
    simp only [List.nil_append, List.cons_append, List.append_assoc]
    rw [step_cons, if_neg (by omega), if_neg (by omega), if_neg (by omega)]
    have ha : bh.toNat &&& 8 = 8 * bq := by rw [hb, bit_and bq hbq2 (len - 2) (by omega)]
    have ht : (bh.toNat &&& 7) + (3 - 1) = len := by rw [and7, hb]; omega
    rw [m4_eq _ _ 0 _ (lits ++ rest) _ bx bY (by rw [if_neg (by omega)])
      (by rw [hcl, hv, ha, Nat.shiftRight_eq_div_pow, hoffv, Nat.shiftLeft_eq]; omega),
      ht, ha, hcl, hv, and3, hnext, Nat.shiftRight_eq_div_pow, hoffv, Nat.shiftLeft_eq]
    exact copyMatch_ok inp off len c k lits rest hoff hoc (by omega) hck hm hl hr _ (by omega)
  · rename_i h9
    have hb : (UInt8.ofNat (16 ||| 8 * bq)).toNat = 16 + 8 * bq := by
      have := bit_or bq hbq2 0 (by omega)
      rw [Nat.or_zero, Nat.add_zero] at this
      rw [this, ofNat_toNat (by omega)]
    generalize UInt8.ofNat (16 ||| 8 * bq) = bh at hb
    simp only [List.nil_append, List.cons_append, List.append_assoc]
    rw [step_cons, if_neg (by omega), if_neg (by omega), if_neg (by omega)]
    have ha : bh.toNat &&& 8 = 8 * bq := by
      have := bit_and bq hbq2 0 (by omega)
      rw [Nat.add_zero] at this
      rw [hb, this]
    have ht : (bh.toNat &&& 7) + (3 - 1) = 2 := by rw [and7, hb]; omega
    rw [m4_eq _ _ (7 + (len - 9)) _ (lits ++ rest) _ bx bY
      (by rw [if_pos ht, longRun_zeros _ 7 (len - 9) _ _ (by omega) (by omega)])
      (by rw [hcl, hv, ha, Nat.shiftRight_eq_div_pow, hoffv, Nat.shiftLeft_eq]; omega),
      ht, ha, hcl, hv, and3, hnext, Nat.shiftRight_eq_div_pow, hoffv, Nat.shiftLeft_eq]
    have hlen' : 2 + (7 + (len - 9)) = len := by omega
    rw [hlen']
    exact copyMatch_ok inp off len c k lits rest hoff hoc (by omega) hck hm hl hr _ (by omega)

theorem match_step (inp : Bytes) (off len c : Nat) (hoff : 1 ≤ off) (hoff' : off ≤ 0xbfff) (hoc : off ≤ c)
    (hlen : 4 ≤ len) (hn63 : inp.length < 2 ^ 63) (hn : c + len ≤ inp.length)
    (hm : ∀ i, i < len → inp[c + i]? = inp[c - off + i]?) : Decodes inp off len c := by
  by_cases h : len ≤ 8 ∧ off ≤ 0x800
  · exact m2_step inp off len c hoff hoff' hoc hlen hn63 hn hm h
  · by_cases h4 : off ≤ 0x4000
    · exact m3_step inp off len c hoff hoff' hoc hlen hn63 hn hm h h4
    · exact m4_step inp off len c hoff hoff' hoc hlen hn63 hn hm h h4

end Verif.Lzo
