import Verif.Lib.LzoDec
/-! The compressor: bounds, size, and what its output decodes to. -/
namespace Verif.Lzo

theorem at_ok {inp : Bytes} {i : Nat} (h : i < inp.length) : at' inp i = .ok inp[i] := by
  simp [at', List.getElem?_eq_getElem h]

theorem le32At_ok {inp : Bytes} {i : Nat} (h : i + 4 ≤ inp.length) :
    le32At inp i = .ok (inp[i].toNat + 2 ^ 8 * inp[i+1].toNat + 2 ^ 16 * inp[i+2].toNat + 2 ^ 24 * inp[i+3].toNat) := by
  have h0 := inp[i].toNat_lt
  have h1 := inp[i+1].toNat_lt
  have h2 := inp[i+2].toNat_lt
  have a1 : inp[i].toNat ||| inp[i+1].toNat <<< 8 = inp[i].toNat + 2 ^ 8 * inp[i+1].toNat := by
    have := or_add inp[i+1].toNat inp[i].toNat 8 (by omega)
    rw [Nat.or_comm, Nat.shiftLeft_eq, Nat.mul_comm inp[i+1].toNat]; omega
  have a2 : (inp[i].toNat + 2 ^ 8 * inp[i+1].toNat) ||| inp[i+2].toNat <<< 16 =
      inp[i].toNat + 2 ^ 8 * inp[i+1].toNat + 2 ^ 16 * inp[i+2].toNat := by
    have := or_add inp[i+2].toNat (inp[i].toNat + 2 ^ 8 * inp[i+1].toNat) 16 (by omega)
    rw [Nat.or_comm, Nat.shiftLeft_eq, Nat.mul_comm inp[i+2].toNat]; omega
  have a3 : (inp[i].toNat + 2 ^ 8 * inp[i+1].toNat + 2 ^ 16 * inp[i+2].toNat) ||| inp[i+3].toNat <<< 24 =
      inp[i].toNat + 2 ^ 8 * inp[i+1].toNat + 2 ^ 16 * inp[i+2].toNat + 2 ^ 24 * inp[i+3].toNat := by
    have := or_add inp[i+3].toNat (inp[i].toNat + 2 ^ 8 * inp[i+1].toNat + 2 ^ 16 * inp[i+2].toNat) 24 (by omega)
    rw [Nat.or_comm, Nat.shiftLeft_eq, Nat.mul_comm inp[i+3].toNat]; omega
  simp only [le32At, at_ok (show i < inp.length by omega), at_ok (show i + 1 < inp.length by omega),
    at_ok (show i + 2 < inp.length by omega), at_ok (show i + 3 < inp.length by omega)]
  rw [a1, a2, a3]

/-- Equal 32-bit words are equal bytes. -/
theorem le32At_eq {inp : Bytes} {i j v : Nat} (hi : i + 4 ≤ inp.length) (hj : j + 4 ≤ inp.length)
    (h1 : le32At inp i = .ok v) (h2 : le32At inp j = .ok v) : ∀ k, k < 4 → inp[i + k]? = inp[j + k]? := by
  rw [le32At_ok hi] at h1
  rw [le32At_ok hj] at h2
  have e := (Except.ok.inj h1).trans (Except.ok.inj h2).symm
  have b0 := inp[i].toNat_lt
  have b1 := inp[i+1].toNat_lt
  have b2 := inp[i+2].toNat_lt
  have b3 := inp[i+3].toNat_lt
  have c0 := inp[j].toNat_lt
  have c1 := inp[j+1].toNat_lt
  have c2 := inp[j+2].toNat_lt
  have c3 := inp[j+3].toNat_lt
  intro k hk
  rw [List.getElem?_eq_getElem (show i + k < inp.length by omega),
    List.getElem?_eq_getElem (show j + k < inp.length by omega)]
  have : k = 0 ∨ k = 1 ∨ k = 2 ∨ k = 3 := by omega
  rcases this with rfl | rfl | rfl | rfl <;> (congr 1; apply UInt8.toNat_inj.mp)
  · simp only [Nat.add_zero]; omega
  · omega
  · omega
  · omega

/-- Bytes agree over a length. -/
def Agree (inp : Bytes) (ip mp len : Nat) : Prop := ∀ i, i < len → inp[ip + i]? = inp[mp + i]?

theorem Agree.succ {inp : Bytes} {ip mp len : Nat} (h : Agree inp ip mp len)
    (he : inp[ip + len]? = inp[mp + len]?) : Agree inp ip mp (len + 1) := by
  intro i hi
  by_cases h' : i = len
  · rw [h']; exact he
  · exact h i (by omega)

theorem extend_ok (inp : Bytes) (ip mp : Nat) (hmp : mp < ip) : ∀ (k len : Nat),
    ip + len + k < inp.length → Agree inp ip mp (len + 1) →
    ∃ len' b, extend inp ip mp k len = .ok (len', b) ∧ len ≤ len' ∧ len' ≤ len + k ∧ (b = true → len' = len + k) ∧
      Agree inp ip mp len' ∧ (b = true → Agree inp ip mp (len' + 1)) := by
  intro k
  induction k with
  | zero =>
    intro len h ha
    exact ⟨len, true, rfl, Nat.le_refl _, Nat.le_refl _, fun _ => rfl, fun i hi => ha i (by omega), fun _ => ha⟩
  | succ k ih =>
    intro len h ha
    simp only [extend, at_ok (show ip + (len + 1) < inp.length by omega),
      at_ok (show mp + (len + 1) < inp.length by omega)]
    split
    · exact ⟨len + 1, false, rfl, by omega, by omega, by simp, ha, by simp⟩
    · rename_i he
      simp only [ne_eq, Decidable.not_not] at he
      have ha' : Agree inp ip mp (len + 1 + 1) := ha.succ (by
        rw [List.getElem?_eq_getElem (show ip + (len + 1) < inp.length by omega),
          List.getElem?_eq_getElem (show mp + (len + 1) < inp.length by omega), he])
      obtain ⟨len', b, h1, h2, h3, h4, h5, h6⟩ := ih (len + 1) (by omega) ha'
      exact ⟨len', b, h1, by omega, by omega, fun hb => by have := h4 hb; omega, h5, h6⟩

theorem matchLoop_ok (inp : Bytes) (ip mp ipEnd : Nat) (hmp : mp < ip) (hend : ipEnd + 20 ≤ inp.length) :
    ∀ (f len : Nat), 4 ≤ len → (ip + len < ipEnd + 1 ∨ len = 4 ∧ ip < ipEnd) → ipEnd - ip < f + len →
    1 ≤ f → Agree inp ip mp (len + 1) →
    ∃ len', matchLoop inp ip mp ipEnd f len = .ok len' ∧ 4 ≤ len' ∧ ip + len' ≤ ipEnd + 12 ∧ Agree inp ip mp len' := by
  intro f
  induction f with
  | zero => intro len _ _ _ h; omega
  | succ f ih =>
    intro len h4 hle hf _ ha
    obtain ⟨len', b, h1, h2, h3, h5, h6, h7⟩ := extend_ok inp ip mp hmp 7 len (by omega) ha
    simp only [matchLoop, h1]
    cases b with
    | false => exact ⟨len', rfl, by omega, by omega, h6⟩
    | true =>
      have hl := h5 rfl
      have ha' := h7 rfl
      dsimp only
      split
      · exact ⟨len' + 1, rfl, by omega, by omega, ha'⟩
      · rename_i hge
        rw [at_ok (show ip + (len' + 1) < inp.length by omega),
          at_ok (show mp + (len' + 1) < inp.length by omega)]
        dsimp only
        split
        · rename_i he
          exact ih (len' + 1) (by omega) (by omega) (by omega) (by omega) (ha'.succ (by
            rw [List.getElem?_eq_getElem (show ip + (len' + 1) < inp.length by omega),
              List.getElem?_eq_getElem (show mp + (len' + 1) < inp.length by omega), he]))
        · exact ⟨len' + 1, rfl, by omega, by omega, ha'⟩

theorem matchLen_ok (inp : Bytes) (ip mp ipEnd : Nat) (hmp : mp < ip) (hip : ip < ipEnd)
    (hend : ipEnd + 20 ≤ inp.length) (ha : Agree inp ip mp 4) :
    ∃ len, matchLen inp ip mp ipEnd = .ok len ∧ 4 ≤ len ∧ ip + len ≤ ipEnd + 12 ∧ Agree inp ip mp len := by
  simp only [matchLen, at_ok (show ip + 4 < inp.length by omega), at_ok (show mp + 4 < inp.length by omega)]
  split
  · rename_i he
    exact matchLoop_ok inp ip mp ipEnd hmp hend (ipEnd - ip + 1) 4 (Nat.le_refl _) (by omega) (by omega)
      (by omega) (ha.succ (by
        rw [List.getElem?_eq_getElem (show ip + 4 < inp.length by omega),
          List.getElem?_eq_getElem (show mp + 4 < inp.length by omega), he]))
  · exact ⟨4, rfl, Nat.le_refl _, by omega, ha⟩

/-! ### What the output so far decodes to -/

/-- After a match (or at the very beginning) the first `c` bytes are accounted for; up to three literals may be
attached by changing the last but one byte. -/
def Q (inp out : Bytes) (c : Nat) : Prop :=
  (out = [] ∧ c = 0) ∨
  ∃ A x y, out = A ++ [x, y] ∧ ∀ k, k ≤ 3 → ∀ lits rest : Bytes, lits.length = k → 3 ≤ rest.length →
    c + k ≤ inp.length →
    Reach inp.length (A ++ [UInt8.ofNat (x.toNat ||| k), y] ++ lits ++ rest) rest (inp.take c ++ lits) k

/-- The first `c` bytes are accounted for and any instruction may follow. -/
def R (inp out : Bytes) (c : Nat) : Prop :=
  ∀ rest : Bytes, 3 ≤ rest.length → ∃ st, Reach inp.length (out ++ rest) rest (inp.take c) st

theorem ofNat_or_zero (x : UInt8) : UInt8.ofNat (x.toNat ||| 0) = x := by simp

/-- Continuing after `Q` without attached literals. -/
theorem Q.reach0 {inp out : Bytes} {c : Nat} (h : Q inp out c) (hc : c ≤ inp.length) (rest : Bytes)
    (hr : 3 ≤ rest.length) (hfirst : ∀ b, out = [] → rest.head? = some b → b.toNat ≤ 17) :
    Reach inp.length (out ++ rest) rest (inp.take c) 0 := by
  rcases h with ⟨h1, h2⟩ | ⟨A, x, y, h1, h2⟩
  · subst h1; subst h2
    match rest, hr with
    | b :: r, hr =>
      refine ⟨0, by simp, fun F => ?_⟩
      have hb := hfirst b rfl rfl
      rw [List.nil_append, decompressFuel, if_pos hr]
      simp only [start, rd]
      rw [if_neg (by omega)]
      simp
  · have := h2 0 (by omega) [] rest rfl hr (by omega)
    rw [ofNat_or_zero] at this
    rw [h1]
    simpa using this

theorem litHeader_head {t : Nat} (h : 4 ≤ t) (l : Bytes) : ∀ b, (litHeader t ++ l).head? = some b → b.toNat ≤ 17 := by
  intro b hb
  unfold litHeader at hb
  split at hb
  · simp only [List.cons_append, List.nil_append, List.head?_cons, Option.some.injEq] at hb
    rw [← hb, ofNat_toNat (by omega)]; omega
  · simp only [List.cons_append, List.head?_cons, Option.some.injEq] at hb
    rw [← hb]; simp

theorem litHeader_length (t : Nat) : (litHeader t).length = if t ≤ 18 then 1 else 2 + (t - 19) / 255 := by
  unfold litHeader
  split
  · rfl
  · rw [List.length_cons, zeros_length]; omega

theorem take_drop_take (inp : Bytes) (c t : Nat) : inp.take c ++ (inp.drop c).take t = inp.take (c + t) := by
  rw [List.take_add]

/-- A literal run after `Q`. -/
theorem Q.litRun {inp out : Bytes} {c t : Nat} (h : Q inp out c) (ht : 4 ≤ t) (hn : c + t ≤ inp.length)
    (h63 : inp.length < 2 ^ 63) : R inp (out ++ litHeader t ++ (inp.drop c).take t) (c + t) := by
  intro rest hr
  have hl : ((inp.drop c).take t).length = t := by simp; omega
  have h1 := h.reach0 (by omega) (litHeader t ++ (inp.drop c).take t ++ rest)
    (by simp; omega) (fun b _ hb => litHeader_head ht _ b (by rw [List.append_assoc] at hb; exact hb))
  refine ⟨4, ?_⟩
  have h2 := h1.step (lit_step inp.length t _ rest (inp.take c) ht (by omega) hl hr (by simp; omega))
    (by simp; omega)
  rw [take_drop_take] at h2
  simpa [List.append_assoc] using h2

/-- One to three literals attached after `Q`. -/
theorem Q.attach {inp out : Bytes} {c t : Nat} (h : Q inp out c) (hne : out ≠ []) (ht : t ≤ 3)
    (hn : c + t ≤ inp.length) :
    ∃ out', orBack out t = .ok out' ∧ out'.length = out.length ∧ R inp (out' ++ (inp.drop c).take t) (c + t) := by
  rcases h with ⟨h1, _⟩ | ⟨A, x, y, h1, h2⟩
  · exact absurd h1 hne
  · have hlen : out.length = A.length + 2 := by rw [h1]; simp
    have hidx : out.length - 2 = A.length := by omega
    have hget : out[out.length - 2]? = some x := by rw [hidx, h1]; simp
    have hset : out.set (out.length - 2) (UInt8.ofNat (x.toNat ||| t)) = A ++ [UInt8.ofNat (x.toNat ||| t), y] := by
      rw [hidx, h1]; simp [List.set_append]
    refine ⟨A ++ [UInt8.ofNat (x.toNat ||| t), y], ?_, by simp [hlen], ?_⟩
    · simp only [orBack, if_pos (show 2 ≤ out.length by omega), hget, hset]
    · intro rest hr
      have hl : ((inp.drop c).take t).length = t := by simp; omega
      refine ⟨t, ?_⟩
      have := h2 t ht _ rest hl hr hn
      rwa [take_drop_take] at this

/-- A match after `R`. -/
theorem R.match_ {inp out : Bytes} {c len mp : Nat} (h : R inp out c) (h63 : inp.length < 2 ^ 63) (hmp : mp < c)
    (hoff : c - mp ≤ 0xbfff) (hlen : 4 ≤ len) (hn : c + len ≤ inp.length) (ha : Agree inp c mp len) :
    Q inp (out ++ matchBytes len (c - mp)) (c + len) := by
  obtain ⟨A, x, y, hb, hs⟩ := match_step inp (c - mp) len c (by omega) hoff (by omega) hlen h63 hn
    (fun i hi => by
      have := ha i hi
      have e : c - (c - mp) + i = mp + i := by omega
      rw [e]; exact this)
  refine Or.inr ⟨out ++ A, x, y, by rw [hb, List.append_assoc], fun k hk lits rest hl hr hck => ?_⟩
  obtain ⟨st, hr1⟩ := h (A ++ [UInt8.ofNat (x.toNat ||| k), y] ++ lits ++ rest) (by simp; omega)
  have := hr1.step (hs k hk lits rest hl hr hck st) (by simp; omega)
  simpa [List.append_assoc] using this

theorem copyIn_ok {cap : Nat} {inp out : Bytes} {ii t : Nat} (h1 : ii + t ≤ inp.length) (h2 : out.length + t ≤ cap) :
    copyIn cap inp ii t out = .ok (out ++ (inp.drop ii).take t) := by
  simp only [copyIn, chkRead, if_pos h1, emit]
  rw [if_pos (by simp; omega)]

theorem emitLits_ok {cap : Nat} {inp out : Bytes} {c t : Nat} (h : Q inp out c) (h63 : inp.length < 2 ^ 63)
    (hne : out = [] → 4 ≤ t) (hsize : 16 * out.length ≤ 17 * c) (hn : c + t + 20 ≤ inp.length)
    (hcap : worstCompress inp.length ≤ cap) :
    ∃ out', emitLits cap inp c t out = .ok out' ∧ R inp out' (c + t) ∧
      out'.length ≤ out.length + t + (if t ≤ 3 then 0 else if t ≤ 18 then 1 else 2 + (t - 19) / 255) := by
  unfold worstCompress at hcap
  unfold emitLits
  split
  · rename_i h0
    subst h0
    refine ⟨out, rfl, ?_, by simp⟩
    intro rest hr
    exact ⟨0, by
      have := h.reach0 (by omega) rest hr (fun b hb _ => by have := hne hb; omega)
      simpa using this⟩
  · split
    · rename_i h0 h3
      have hne' : out ≠ [] := fun e => by have := hne e; omega
      obtain ⟨out', ho, hl, hR⟩ := h.attach hne' h3 (by omega)
      rw [ho]
      simp only [chkRead, chkWrite, if_pos (show c + 4 ≤ inp.length by omega),
        if_pos (show out.length + 4 ≤ cap by omega)]
      rw [copyIn_ok (by omega) (by omega)]
      refine ⟨_, rfl, hR, ?_⟩
      simp [hl]
    · rename_i h0 h3
      have hlh := litHeader_length t
      have hlh' : (litHeader t).length ≤ 2 + (t - 19) / 255 := by rw [hlh]; split <;> omega
      have hfin : (out ++ litHeader t ++ (inp.drop c).take t).length ≤
          out.length + t + (if t ≤ 3 then 0 else if t ≤ 18 then 1 else 2 + (t - 19) / 255) := by
        rw [if_neg h3, ← hlh]
        simp; omega
      simp only [emit]
      rw [if_pos (by omega)]
      dsimp only
      split
      · rename_i h16
        simp only [chkRead, chkWrite, if_pos (show c + 16 ≤ inp.length by omega)]
        rw [if_pos (by simp; omega)]
        dsimp only
        rw [copyIn_ok (by omega) (by simp; omega)]
        exact ⟨_, rfl, h.litRun (by omega) (by omega) h63, by first | exact hfin | (rw [if_neg h3] at hfin; exact hfin)⟩
      · rw [copyIn_ok (by omega) (by simp; omega)]
        exact ⟨_, rfl, h.litRun (by omega) (by omega) h63, by first | exact hfin | (rw [if_neg h3] at hfin; exact hfin)⟩

theorem matchBytes_length (len off : Nat) (h : 4 ≤ len) : (matchBytes len off).length + 1 ≤ len := by
  unfold matchBytes
  split
  · simp; omega
  · split
    · dsimp only
      split
      · simp; omega
      · simp [zeros_length]; omega
    · dsimp only
      split
      · simp; omega
      · simp [zeros_length]; omega

/-- Invariant of the block compressor at the head of the inner loop. -/
structure Inv (inp : Bytes) (base : Nat) (s : CState) : Prop where
  q : Q inp s.out (s.ii - s.ti)
  size : 16 * s.out.length ≤ 17 * (s.ii - s.ti)
  ti : s.ti ≤ s.ii
  iiip : s.ii ≤ s.ip
  first : s.out = [] → 4 ≤ s.ip
  dict : ∀ k, base + s.dict k < s.ip
  near : base ≤ s.ii

theorem inner_ok (cap : Nat) (inp : Bytes) (base ll : Nat) (h63 : inp.length < 2 ^ 63)
    (hcap : worstCompress inp.length ≤ cap) (hll : 20 < ll) (hll' : ll ≤ 0xc000) (hbase : base + ll ≤ inp.length) :
    ∀ (f : Nat) (s : CState), Inv inp base s → base + ll - 20 < s.ip + f → 1 ≤ f →
      s.ii ≤ base + ll - 8 →
    ∃ s', inner cap inp base (base + ll - 20) f s = .ok s' ∧ Q inp s'.out (s'.ii - s'.ti) ∧
      16 * s'.out.length ≤ 17 * (s'.ii - s'.ti) ∧ s'.ii ≤ base + ll - 8 ∧ s'.ti ≤ s'.ii := by
  intro f
  induction f with
  | zero => intro s _ _ h; omega
  | succ f ih =>
    intro s hI hf _ hii
    have hq := hI.q; have hsize := hI.size; have hti := hI.ti; have hiiip := hI.iiip
    have hfirst := hI.first; have hnear := hI.near
    unfold inner
    split
    · exact ⟨s, rfl, hq, hsize, hii, hti⟩
    · rename_i hip
      have hdv := le32At_ok (inp := inp) (i := s.ip) (by omega)
      generalize inp[s.ip].toNat + 2 ^ 8 * inp[s.ip+1].toNat + 2 ^ 16 * inp[s.ip+2].toNat +
        2 ^ 24 * inp[s.ip+3].toNat = dv at hdv
      rw [hdv]
      dsimp only
      generalize hmp : base + s.dict (hash dv) = mp
      have hmplt : mp < s.ip := by rw [← hmp]; exact hI.dict _
      have hmv := le32At_ok (inp := inp) (i := mp) (by omega)
      generalize inp[mp].toNat + 2 ^ 8 * inp[mp+1].toNat + 2 ^ 16 * inp[mp+2].toNat +
        2 ^ 24 * inp[mp+3].toNat = mv at hmv
      rw [hmv]
      dsimp only
      have hdict : ∀ (k ip' : Nat), s.ip < ip' →
          base + (if k = hash dv then (s.ip - base) % 2 ^ 16 else s.dict k) < ip' := by
        intro k ip' hlt
        split
        · have := Nat.mod_le (s.ip - base) (2 ^ 16); omega
        · have := hI.dict k; omega
      split
      · -- no match here: skip ahead
        refine ih _ ⟨hq, hsize, hti, ?_, ?_, ?_, hnear⟩ ?_ (by omega) hii
        · simp only [advance]; omega
        · intro h; have := hfirst h; simp only [advance]; omega
        · intro k; exact hdict k _ (by simp only [advance]; omega)
        · simp only [advance]; omega
      · rename_i heq
        simp only [ne_eq, Decidable.not_not] at heq
        subst heq
        have hag : Agree inp s.ip mp 4 := le32At_eq (by omega) (by omega) hdv hmv
        obtain ⟨out', ho, hR, hol⟩ := emitLits_ok (cap := cap) (t := s.ip - (s.ii - s.ti)) hq h63
          (fun he => by
            rcases hq with ⟨_, h0⟩ | ⟨A, x, y, h0, _⟩
            · have := hfirst he; omega
            · rw [h0] at he; simp at he) hsize (by omega) hcap
        rw [ho]
        dsimp only
        obtain ⟨len, hlen, h4, hle, ha⟩ := matchLen_ok inp s.ip mp (base + ll - 20) hmplt (by omega) (by omega) hag
        rw [hlen]
        dsimp only
        have hmb := matchBytes_length len (s.ip - mp) h4
        have hcs : s.ii - s.ti + (s.ip - (s.ii - s.ti)) = s.ip := by omega
        rw [hcs] at hR
        have hov : 16 * (out'.length + (matchBytes len (s.ip - mp)).length) ≤ 17 * (s.ip + len) := by
          split at hol
          · omega
          · split at hol
            · omega
            · omega
        unfold emit
        have hcapok : out'.length + (matchBytes len (s.ip - mp)).length ≤ cap := by
          unfold worstCompress at hcap; omega
        rw [if_pos hcapok]
        dsimp only
        have hQ := hR.match_ h63 hmplt (by omega) h4 (by omega) ha
        refine ih _ ⟨by simpa using hQ, by simpa using hov, Nat.zero_le _, Nat.le_refl _, ?_, ?_, by simp; omega⟩ ?_ (by omega) ?_
        · intro h
          have := matchBytes_length len (s.ip - mp) h4
          simp; omega
        · intro k; exact hdict k _ (by simp; omega)
        · simp; omega
        · simp; omega

theorem doCompress_ok (cap : Nat) (inp : Bytes) (base ll ti : Nat) (out : Bytes) (h63 : inp.length < 2 ^ 63)
    (hcap : worstCompress inp.length ≤ cap) (hll : 20 < ll) (hll' : ll ≤ 0xc000) (hbase : base + ll ≤ inp.length)
    (hti : ti ≤ base) (hq : Q inp out (base - ti)) (hsize : 16 * out.length ≤ 17 * (base - ti)) :
    ∃ out' ti', doCompress cap inp base ll ti out = .ok (out', ti') ∧ ti' ≤ base + ll ∧
      Q inp out' (base + ll - ti') ∧ 16 * out'.length ≤ 17 * (base + ll - ti') := by
  unfold doCompress
  dsimp only
  obtain ⟨s', h1, h2, h3, h4, h5⟩ := inner_ok cap inp base ll h63 hcap hll hll' hbase (ll + 1)
    (advance ⟨out, base + (if ti < 4 then 4 - ti else 0), base, ti, fun _ => 0⟩)
    ⟨hq, hsize, hti, by simp only [advance]; omega, by
      intro he
      rcases hq with ⟨_, h0⟩ | ⟨A, x, y, h0, _⟩
      · simp only [advance]; split <;> omega
      · simp only [advance] at he; rw [h0] at he; simp at he,
      by intro k; simp only [advance]; omega, Nat.le_refl _⟩
    (by simp only [advance]; omega) (by omega) (by simp only [advance]; omega)
  rw [h1]
  refine ⟨_, _, rfl, by omega, ?_, ?_⟩
  · have : base + ll - (base + ll - (s'.ii - s'.ti)) = s'.ii - s'.ti := by omega
    rw [this]; exact h2
  · omega

theorem blocks_ok (cap : Nat) (inp : Bytes) (h63 : inp.length < 2 ^ 63) (hcap : worstCompress inp.length ≤ cap) :
    ∀ (f l t : Nat) (out : Bytes), l < f → l ≤ inp.length → t + l ≤ inp.length → Q inp out (inp.length - l - t) →
      16 * out.length ≤ 17 * (inp.length - l - t) →
    ∃ out' l' t', blocks cap inp f l t out = .ok (out', l', t') ∧ t' + l' ≤ inp.length ∧
      Q inp out' (inp.length - l' - t') ∧ 16 * out'.length ≤ 17 * (inp.length - l' - t') := by
  intro f
  induction f with
  | zero => intro l t out h; omega
  | succ f ih =>
    intro l t out hf hl htl hq hsize
    rw [blocks]
    by_cases h20 : l ≤ 20
    · rw [if_pos h20]; exact ⟨out, l, t, rfl, htl, hq, hsize⟩
    · rw [if_neg h20]
      by_cases h5 : (t + blockLen l) >>> 5 = 0
      · rw [if_pos h5]; exact ⟨out, l, t, rfl, htl, hq, hsize⟩
      · rw [if_neg h5]
        have hll1 : 20 < blockLen l := by unfold blockLen; split <;> omega
        have hll2 : blockLen l ≤ 0xc000 := by unfold blockLen; split <;> omega
        have hll3 : blockLen l ≤ l := by unfold blockLen; split <;> omega
        obtain ⟨out', t', h1, h2, h3, h4⟩ := doCompress_ok cap inp (inp.length - l) (blockLen l) t out h63 hcap hll1 hll2
          (by omega) (by omega) hq hsize
        rw [h1]
        dsimp only
        have e : inp.length - l + blockLen l = inp.length - (l - blockLen l) := by omega
        rw [e] at h2 h3 h4
        exact ih (l - blockLen l) t' out' (by omega) (by omega) (by omega) h3 h4

/-- The end marker. -/
theorem eof_loop (cap F : Nat) (o : Bytes) (st : Nat) (h : 1 ≤ F) :
    loop cap F [16 ||| 1, 0, 0] o st = .ok ⟨0, o.length, o⟩ := by
  obtain ⟨F, rfl⟩ := Nat.exists_eq_add_of_le' h
  have hb : (16 ||| 1 : UInt8).toNat = 17 := rfl
  have hstep : step cap [16 ||| 1, 0, 0] o st = .ok (.ret ⟨0, o.length, o⟩) := by
    rw [step_cons, hb, if_neg (by omega), if_neg (by omega), if_neg (by omega)]
    simp [m4Instr, rd16, rd]
  rw [loop, hstep]

theorem R.finish {inp out : Bytes} (h : R inp out inp.length) :
    decompress inp.length (out ++ [16 ||| 1, 0, 0]) = .ok (.ok inp) := by
  obtain ⟨st, j, hj, hF⟩ := h [16 ||| 1, 0, 0] (by simp)
  have hlen : (out ++ [16 ||| 1, 0, 0] : Bytes).length = out.length + 3 := by simp
  have : decompressRaw inp.length (out ++ [16 ||| 1, 0, 0]) = .ok ⟨0, inp.length, inp⟩ := by
    unfold decompressRaw
    have e : (out ++ [16 ||| 1, 0, 0] : Bytes).length + 1 = (out.length + 3 + 1 - j) + j := by
      simp at hj; rw [hlen]; omega
    rw [e, hF, eof_loop _ _ _ _ (by simp at hj; omega)]
    simp
  simp [decompress, this]

/-- The first-byte form of a short input. -/
theorem short_first {inp : Bytes} (h0 : 0 < inp.length) (h : inp.length ≤ 238) :
    R inp ([UInt8.ofNat (17 + inp.length)] ++ inp) inp.length := by
  intro rest hr
  have hb : (UInt8.ofNat (17 + inp.length)).toNat = 17 + inp.length := ofNat_toNat (by omega)
  generalize UInt8.ofNat (17 + inp.length) = b at hb
  have htl : 17 + inp.length - 17 = inp.length := by omega
  by_cases h4 : inp.length < 4
  · refine ⟨inp.length, 0, by simp; omega, fun F => ?_⟩
    rw [decompressFuel, if_pos (by simp; omega)]
    simp only [List.cons_append, List.nil_append, start, rd]
    rw [hb, if_pos (by omega), htl, if_pos h4]
    unfold Verif.Lzo.finish
    rw [if_neg (by simp; omega), if_neg (by simp),
      copyLit_ok _ _ _ _ (by simp) (by simp)]
    simp
  · refine ⟨4, 0, by simp; omega, fun F => ?_⟩
    rw [decompressFuel, if_pos (by simp; omega)]
    simp only [List.cons_append, List.nil_append, start, rd]
    rw [hb, if_pos (by omega), htl, if_neg h4, if_neg (by omega), if_neg (by simp; omega),
      copyLit_ok _ _ _ _ (by simp) (by simp)]
    simp

theorem compress_ok (cap : Nat) (inp : Bytes) (h63 : inp.length < 2 ^ 63) (hcap : worstCompress inp.length ≤ cap) :
    ∃ z, compress cap inp = .ok z ∧ z.length ≤ worstCompress inp.length ∧
      decompress inp.length z = .ok (.ok inp) := by
  obtain ⟨out, l, t, hb, htl, hq, hsize⟩ := blocks_ok cap inp h63 hcap (inp.length + 1) inp.length 0 []
    (by omega) (Nat.le_refl _) (by omega) (Or.inl ⟨rfl, by omega⟩) (by simp)
  have hc : inp.length - l - t = inp.length - (t + l) := by omega
  rw [hc] at hq hsize
  generalize hT : t + l = T at htl hq hsize
  -- the last literals
  have key : ∃ out', lastLits cap inp T out = .ok out' ∧
      decompress inp.length (out' ++ [16 ||| 1, 0, 0]) = .ok (.ok inp) ∧
      out'.length ≤ inp.length + inp.length / 16 + 60 := by
    have hcap' := hcap
    unfold worstCompress at hcap'
    have hfull : inp.length - T + T = inp.length := by omega
    unfold lastLits
    by_cases hT0 : T > 0
    · rw [if_pos hT0]
      unfold lastHeader
      by_cases hs : out = [] ∧ T ≤ 238
      · rw [if_pos hs]
        have hTn : T = inp.length := by
          rcases hq with ⟨_, h0⟩ | ⟨A, x, y, h0, _⟩
          · omega
          · rw [h0] at hs; simp at hs
        simp only [emit]
        rw [if_pos (by simp [hs.1]; omega)]
        dsimp only
        rw [copyIn_ok (by omega) (by simp [hs.1]; omega), hTn, hs.1]
        refine ⟨_, rfl, ?_, by simp; omega⟩
        have := (short_first (inp := inp) (by omega) (by omega)).finish
        simpa using this
      · rw [if_neg hs]
        by_cases h3 : T ≤ 3
        · rw [if_pos h3]
          have hne : out ≠ [] := fun e => hs ⟨e, by omega⟩
          obtain ⟨out', ho, hl, hR⟩ := hq.attach hne h3 (by omega)
          rw [ho]
          dsimp only
          rw [copyIn_ok (by omega) (by omega)]
          rw [hfull] at hR
          exact ⟨_, rfl, hR.finish, by simp; omega⟩
        · rw [if_neg h3]
          have hlh := litHeader_length T
          have hlh' : (litHeader T).length ≤ 2 + (T - 19) / 255 := by rw [hlh]; split <;> omega
          simp only [emit]
          rw [if_pos (by omega)]
          dsimp only
          rw [copyIn_ok (by omega) (by simp; omega)]
          have hR := hq.litRun (t := T) (by omega) (by omega) h63
          rw [hfull] at hR
          exact ⟨_, rfl, hR.finish, by simp; omega⟩
    · rw [if_neg hT0]
      refine ⟨out, rfl, ?_, by omega⟩
      have hTz : T = 0 := by omega
      rw [hTz, Nat.sub_zero] at hq
      rcases hq with ⟨h1, h2⟩ | ⟨A, x, y, h1, h2⟩
      · have hin : inp = [] := List.eq_nil_of_length_eq_zero h2
        subst hin; subst h1
        rfl
      · have hR : R inp out inp.length := by
          intro rest hr
          have := h2 0 (by omega) [] rest rfl hr (by omega)
          rw [ofNat_or_zero] at this
          rw [h1]
          exact ⟨0, by simpa using this⟩
        exact hR.finish
  obtain ⟨out', ho, hfin, hlen⟩ := key
  refine ⟨out' ++ [16 ||| 1, 0, 0], ?_, ?_, hfin⟩
  · simp only [compress, hb, hT, ho, emit]
    rw [if_pos (by simp; unfold worstCompress at hcap; omega)]
  · simp [worstCompress]; omega

end Verif.Lzo
