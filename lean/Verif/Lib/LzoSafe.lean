import Verif.Model.Lzo
/-! Safety of the LZO decompressor: every step stays inside the buffers and consumes input. -/
namespace Verif.Lzo

theorem copyLit_ok (cap : Nat) : ∀ (t : Nat) (rest out : Bytes), t ≤ rest.length → out.length + t ≤ cap →
    copyLit cap t rest out = .ok (rest.drop t, out ++ rest.take t) := by
  intro t
  induction t with
  | zero => intro rest out _ _; simp [copyLit]
  | succ t ih =>
    intro rest out h1 h2
    cases rest with
    | nil => simp at h1
    | cons b r =>
      simp only [List.length_cons] at h1
      simp only [copyLit, rd, put]
      rw [if_pos (by omega)]
      dsimp only
      rw [ih r (out ++ [b]) (by omega) (by simp; omega)]
      simp

theorem copyOut_ok (cap : Nat) : ∀ (n : Nat) (m : Int) (out : Bytes), 0 ≤ m → m < out.length →
    out.length + n ≤ cap → ∃ out', copyOut cap n m out = .ok out' ∧ out'.length = out.length + n := by
  intro n
  induction n with
  | zero => intro m out _ _ _; exact ⟨out, rfl, rfl⟩
  | succ n ih =>
    intro m out h0 h1 h2
    have hi : m.toNat < out.length := by omega
    simp only [copyOut, rdOut, if_pos h0, List.getElem?_eq_getElem hi, put]
    rw [if_pos (by omega)]
    dsimp only
    obtain ⟨out', h, hl⟩ := ih (m + 1) (out ++ [out[m.toNat]]) (by omega) (by simp; omega) (by simp; omega)
    exact ⟨out', h, by simp at hl; omega⟩

/-- What a return must satisfy. -/
def RetOk (cap : Nat) (r : Ret) : Prop :=
  r.written.length ≤ cap ∧ r.outLen ≤ cap ∧ (r.code = 0 → r.outLen = r.written.length) ∧ -8 ≤ r.code ∧ r.code ≤ 0

/-- A step that is safe: no error; going on it has consumed input and kept the bounds. -/
def SafeFlow (cap n : Nat) (e : Except MErr (Flow (Bytes × Bytes × Nat))) : Prop :=
  ∃ fl, e = .ok fl ∧ match fl with
    | .ret r => RetOk cap r
    | .go (rest, out, _) => 3 ≤ rest.length ∧ rest.length < n ∧ out.length ≤ cap

theorem zrun_ok : ∀ (rest : Bytes) (n : Nat), rest ≠ [] →
    ∃ o, zrun rest n = .ok o ∧ ∀ k r, o = some (k, r) → r ≠ [] ∧ r.length ≤ rest.length
  | [], _, h => absurd rfl h
  | b :: r, n, _ => by
    simp only [zrun]
    split
    · exact ⟨_, rfl, by rintro k r' h; simp at h; obtain ⟨_, rfl⟩ := h; simp⟩
    · split
      · exact ⟨_, rfl, by simp⟩
      · rename_i _ h
        obtain ⟨o, ho, hp⟩ := zrun_ok r (n + 1) (by intro e; simp [e] at h)
        exact ⟨o, ho, fun k r' e => ⟨(hp k r' e).1, by have := (hp k r' e).2; simp; omega⟩⟩

theorem ret_err {cap : Nat} {out : Bytes} (h : out.length ≤ cap) {c : Int} (hc : -8 ≤ c ∧ c ≤ 0) :
    RetOk cap ⟨c, out.length, out⟩ :=
  ⟨h, h, fun _ => rfl, hc⟩

theorem longRun_ok (cap base : Nat) (rest out : Bytes) (h : rest ≠ []) (ho : out.length ≤ cap) :
    ∃ fl, longRun cap base rest out = .ok fl ∧ match fl with
      | .ret r => RetOk cap r
      | .go (v, rest') => base ≤ v ∧ rest'.length < rest.length := by
  obtain ⟨o, hz, hp⟩ := zrun_ok rest 0 h
  simp only [longRun, hz]
  cases o with
  | none => exact ⟨_, rfl, ret_err ho (by omega)⟩
  | some kr =>
    obtain ⟨k, r⟩ := kr
    obtain ⟨h1, h2⟩ := hp k r rfl
    dsimp only
    split
    · exact ⟨_, rfl, ho, Nat.le_refl _, by simp, by simp⟩
    · cases r with
      | nil => exact absurd rfl h1
      | cons b r =>
        refine ⟨_, rfl, ?_⟩
        dsimp only
        simp at h2
        omega

theorem finish_safe (cap next n : Nat) (rest out : Bytes) (hn : rest.length < n) (ho : out.length ≤ cap) :
    SafeFlow cap n (finish cap next rest out) := by
  unfold finish
  split
  · exact ⟨_, rfl, ret_err ho (by omega)⟩
  · split
    · exact ⟨_, rfl, ret_err ho (by omega)⟩
    · rename_i h1 h2
      rw [copyLit_ok cap next rest out (by omega) (by omega)]
      refine ⟨_, rfl, ?_⟩
      dsimp only
      simp
      omega

theorem copyMatch_safe (cap t n : Nat) (m : Int) (next : Nat) (rest out : Bytes) (hn : rest.length < n)
    (ho : out.length ≤ cap) (ht : 3 ≤ t) (hm : m < out.length) :
    SafeFlow cap n (copyMatch cap t m next rest out) := by
  unfold copyMatch
  split
  · exact ⟨_, rfl, ret_err ho (by omega)⟩
  · split
    · exact ⟨_, rfl, ret_err ho (by omega)⟩
    · rename_i h1 h2
      obtain ⟨out', h, hl⟩ := copyOut_ok cap (2 + max 1 (t - 2)) m out (by omega) hm (by omega)
      rw [h]
      exact finish_safe cap next n rest out' hn (by omega)

theorem litInstr_safe (cap t : Nat) (rest out : Bytes) (hr : rest ≠ []) (ho : out.length ≤ cap) :
    SafeFlow cap (rest.length + 1) (litInstr cap t rest out) := by
  have key : ∀ (t : Nat) (rest' : Bytes), rest'.length ≤ rest.length →
      SafeFlow cap (rest.length + 1)
        (if cap - out.length < t + 3 then .ok (.ret ⟨-5, out.length, out⟩)
        else if rest'.length < t + 3 + 3 then .ok (.ret ⟨-4, out.length, out⟩)
        else
          match copyLit cap (t + 3) rest' out with
          | .error e => .error e
          | .ok (rest, out) => .ok (.go (rest, out, 4))) := by
    intro t rest' hl
    split
    · exact ⟨_, rfl, ret_err ho (by omega)⟩
    · split
      · exact ⟨_, rfl, ret_err ho (by omega)⟩
      · rw [copyLit_ok cap _ rest' out (by omega) (by omega)]
        refine ⟨_, rfl, ?_⟩
        dsimp only
        simp
        omega
  unfold litInstr
  by_cases h0 : t = 0
  · obtain ⟨fl, hf, hp⟩ := longRun_ok cap 15 rest out hr ho
    rw [if_pos h0, hf]
    cases fl with
    | ret r => exact ⟨_, rfl, hp⟩
    | go v => exact key v.1 v.2 (Nat.le_of_lt hp.2)
  · rw [if_neg h0]
    exact key t rest (Nat.le_refl _)

theorem m1Instr_safe (cap t : Nat) (rest out : Bytes) (hr : rest ≠ []) (ho : out.length ≤ cap) :
    SafeFlow cap (rest.length + 1) (m1Instr cap t rest out) := by
  cases rest with
  | nil => exact absurd rfl hr
  | cons c rest =>
    simp only [m1Instr, rd]
    split
    · exact ⟨_, rfl, ret_err ho (by omega)⟩
    · split
      · exact ⟨_, rfl, ret_err ho (by omega)⟩
      · rename_i h1 h2
        obtain ⟨out', h, hl⟩ := copyOut_ok cap 2
          (out.length - 1 - ((t >>> 2 : Nat) : Int) - ((c.toNat <<< 2 : Nat) : Int)) out (by omega) (by omega)
          (by omega)
        rw [h]
        exact finish_safe _ _ _ _ _ (by simp; omega) (by omega)

theorem m1FarInstr_safe (cap t : Nat) (rest out : Bytes) (hr : rest ≠ []) (ho : out.length ≤ cap) :
    SafeFlow cap (rest.length + 1) (m1FarInstr cap t rest out) := by
  cases rest with
  | nil => exact absurd rfl hr
  | cons c rest =>
    simp only [m1FarInstr, rd]
    exact copyMatch_safe _ _ _ _ _ _ _ (by simp; omega) ho (by omega) (by omega)

theorem m2Instr_safe (cap t : Nat) (rest out : Bytes) (hr : rest ≠ []) (ho : out.length ≤ cap) (ht : 64 ≤ t) :
    SafeFlow cap (rest.length + 1) (m2Instr cap t rest out) := by
  cases rest with
  | nil => exact absurd rfl hr
  | cons c rest =>
    simp only [m2Instr, rd]
    have : 2 ≤ t >>> 5 := by rw [Nat.shiftRight_eq_div_pow]; omega
    exact copyMatch_safe _ _ _ _ _ _ _ (by simp; omega) ho (by omega) (by omega)

theorem rd16_ok (rest : Bytes) (h : 2 ≤ rest.length) : ∃ v, rd16 rest = .ok (v, rest.drop 2) := by
  match rest, h with
  | a :: b :: r, _ => exact ⟨_, rfl⟩

theorem m3Instr_safe (cap t : Nat) (rest out : Bytes) (hr : 2 ≤ rest.length) (ho : out.length ≤ cap) :
    SafeFlow cap (rest.length + 1) (m3Instr cap t rest out) := by
  have key : ∀ (add : Nat) (rest' : Bytes), rest'.length ≤ rest.length →
      (((t &&& 31) + (3 - 1) = 2 → 31 ≤ add) ∧ ((t &&& 31) + (3 - 1) ≠ 2 → rest' = rest)) →
      SafeFlow cap (rest.length + 1)
        (if (t &&& 31) + (3 - 1) = 2 ∧ rest'.length < 2 then .ok (.ret ⟨-4, out.length, out⟩)
        else
          match rd16 rest' with
          | .error e => .error e
          | .ok (next, rest) =>
            copyMatch cap ((t &&& 31) + (3 - 1) + add) (out.length - 1 - (next >>> 2 : Nat)) (next &&& 3) rest out) := by
    intro add rest' hl hadd
    split
    · exact ⟨_, rfl, ret_err ho (by omega)⟩
    · rename_i hc
      have h2 : 2 ≤ rest'.length := by
        by_cases h : (t &&& 31) + (3 - 1) = 2
        · omega
        · rw [hadd.2 h]; exact hr
      obtain ⟨v, hv⟩ := rd16_ok rest' h2
      rw [hv]
      refine copyMatch_safe _ _ _ _ _ _ _ ?_ ho ?_ (by omega)
      · simp; omega
      · by_cases h : (t &&& 31) + (3 - 1) = 2
        · have := hadd.1 h; omega
        · omega
  unfold m3Instr
  dsimp only
  by_cases h0 : (t &&& 31) + (3 - 1) = 2
  · obtain ⟨fl, hf, hp⟩ := longRun_ok cap 31 rest out (by intro e; simp [e] at hr) ho
    rw [if_pos h0, hf]
    cases fl with
    | ret r => exact ⟨_, rfl, hp⟩
    | go v => exact key v.1 v.2 (Nat.le_of_lt hp.2) ⟨fun _ => hp.1, fun h => absurd h0 h⟩
  · rw [if_neg h0]
    exact key 0 rest (Nat.le_refl _) ⟨fun h => absurd h h0, fun _ => rfl⟩

theorem m4Instr_safe (cap t : Nat) (rest out : Bytes) (hr : 2 ≤ rest.length) (ho : out.length ≤ cap) :
    SafeFlow cap (rest.length + 1) (m4Instr cap t rest out) := by
  have key : ∀ (add : Nat) (rest' : Bytes), rest'.length ≤ rest.length →
      (((t &&& 7) + (3 - 1) = 2 → 7 ≤ add) ∧ ((t &&& 7) + (3 - 1) ≠ 2 → rest' = rest)) →
      SafeFlow cap (rest.length + 1)
        (if (t &&& 7) + (3 - 1) = 2 ∧ rest'.length < 2 then .ok (.ret ⟨-4, out.length, out⟩)
        else
          match rd16 rest' with
          | .error e => .error e
          | .ok (next, rest) =>
            if (out.length : Int) - ((t &&& 8) <<< 11 : Nat) - (next >>> 2 : Nat) = out.length then
              .ok (.ret ⟨if (t &&& 7) + (3 - 1) + add ≠ 3 then -1 else if rest = [] then 0 else -8, out.length, out⟩)
            else copyMatch cap ((t &&& 7) + (3 - 1) + add)
              (out.length - ((t &&& 8) <<< 11 : Nat) - (next >>> 2 : Nat) - 0x4000) (next &&& 3) rest out) := by
    intro add rest' hl hadd
    split
    · exact ⟨_, rfl, ret_err ho (by omega)⟩
    · rename_i hc
      have h2 : 2 ≤ rest'.length := by
        by_cases h : (t &&& 7) + (3 - 1) = 2
        · omega
        · rw [hadd.2 h]; exact hr
      obtain ⟨v, hv⟩ := rd16_ok rest' h2
      rw [hv]
      dsimp only
      split
      · exact ⟨_, rfl, ret_err ho (by split <;> [skip; split] <;> omega)⟩
      · refine copyMatch_safe _ _ _ _ _ _ _ ?_ ho ?_ (by omega)
        · simp; omega
        · by_cases h : (t &&& 7) + (3 - 1) = 2
          · have := hadd.1 h; omega
          · omega
  unfold m4Instr
  dsimp only
  by_cases h0 : (t &&& 7) + (3 - 1) = 2
  · obtain ⟨fl, hf, hp⟩ := longRun_ok cap 7 rest out (by intro e; simp [e] at hr) ho
    rw [if_pos h0, hf]
    cases fl with
    | ret r => exact ⟨_, rfl, hp⟩
    | go v => exact key v.1 v.2 (Nat.le_of_lt hp.2) ⟨fun _ => hp.1, fun h => absurd h0 h⟩
  · rw [if_neg h0]
    exact key 0 rest (Nat.le_refl _) ⟨fun h => absurd h h0, fun _ => rfl⟩

theorem step_safe (cap : Nat) (rest out : Bytes) (state : Nat) (hr : 3 ≤ rest.length) (ho : out.length ≤ cap) :
    SafeFlow cap rest.length (step cap rest out state) := by
  match rest, hr with
  | b :: r, hr =>
    simp only [List.length_cons] at hr
    have hne : r ≠ [] := by intro e; simp [e] at hr
    simp only [step, rd, List.length_cons]
    split
    · split
      · exact litInstr_safe cap _ r out hne ho
      · split
        · exact m1Instr_safe cap _ r out hne ho
        · exact m1FarInstr_safe cap _ r out hne ho
    · split
      · rename_i h; exact m2Instr_safe cap _ r out hne ho h
      · split
        · exact m3Instr_safe cap _ r out (by omega) ho
        · exact m4Instr_safe cap _ r out (by omega) ho

theorem loop_safe (cap : Nat) : ∀ (f : Nat) (rest out : Bytes) (state : Nat), 3 ≤ rest.length → out.length ≤ cap →
    rest.length ≤ f → ∃ r, loop cap f rest out state = .ok r ∧ RetOk cap r := by
  intro f
  induction f with
  | zero => intro rest out state h1 _ h3; omega
  | succ f ih =>
    intro rest out state h1 h2 h3
    obtain ⟨fl, he, hp⟩ := step_safe cap rest out state h1 h2
    simp only [loop, he]
    cases fl with
    | ret r => exact ⟨r, rfl, hp⟩
    | go v =>
      obtain ⟨rest', out', st'⟩ := v
      exact ih rest' out' st' hp.1 hp.2.2 (by have := hp.2.1; omega)

theorem start_safe (cap : Nat) (inp : Bytes) (h : 3 ≤ inp.length) :
    SafeFlow cap (inp.length + 1) (start cap inp) := by
  match inp, h with
  | b :: rest, h =>
    simp only [start, rd]
    split
    · split
      · exact finish_safe _ _ _ _ _ (by simp; omega) (by simp)
      · split
        · exact ⟨_, rfl, by simp [RetOk]⟩
        · split
          · exact ⟨_, rfl, by simp [RetOk]⟩
          · rw [copyLit_ok cap _ rest [] (by omega) (by simp; omega)]
            refine ⟨_, rfl, ?_⟩
            dsimp only
            simp
            omega
    · exact ⟨_, rfl, h, by simp, by simp⟩

theorem decompressRaw_safe (cap : Nat) (inp : Bytes) :
    ∃ r, decompressRaw cap inp = .ok r ∧ RetOk cap r := by
  unfold decompressRaw decompressFuel
  split
  · rename_i h
    obtain ⟨fl, he, hp⟩ := start_safe cap inp h
    rw [he]
    cases fl with
    | ret r => exact ⟨r, rfl, hp⟩
    | go v =>
      obtain ⟨rest, out, st⟩ := v
      exact loop_safe cap _ rest out st hp.1 hp.2.2 (by have := hp.2.1; omega)
  · exact ⟨_, rfl, by simp [RetOk]⟩

end Verif.Lzo
