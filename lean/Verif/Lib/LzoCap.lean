import Verif.Lib.LzoComp
/-! What the compressor does with a smaller buffer: it leaves it or does the same. -/
namespace Verif.Lzo

/-- The first run leaves the buffer or is the same as the second. -/
def Same {α : Type} (a b : Except MErr α) : Prop := a = .error .oob ∨ a = b

theorem Same.refl {α : Type} (a : Except MErr α) : Same a a := .inr rfl

theorem emit_same {cap cap' : Nat} (h : cap ≤ cap') (out bs : Bytes) : Same (emit cap out bs) (emit cap' out bs) := by
  unfold emit
  by_cases h1 : out.length + bs.length ≤ cap
  · rw [if_pos h1, if_pos (by omega)]; exact .inr rfl
  · rw [if_neg h1]; exact .inl rfl

theorem chkWrite_same {cap cap' : Nat} (h : cap ≤ cap') (out : Bytes) (n : Nat) :
    Same (chkWrite cap out n) (chkWrite cap' out n) := by
  unfold chkWrite
  by_cases h1 : out.length + n ≤ cap
  · rw [if_pos h1, if_pos (by omega)]; exact .inr rfl
  · rw [if_neg h1]; exact .inl rfl

theorem copyIn_same {cap cap' : Nat} (h : cap ≤ cap') (inp : Bytes) (ii t : Nat) (out : Bytes) :
    Same (copyIn cap inp ii t out) (copyIn cap' inp ii t out) := by
  unfold copyIn
  cases chkRead inp ii t with
  | error e => exact .inr rfl
  | ok u => exact emit_same h _ _

theorem emitLits_same {cap cap' : Nat} (h : cap ≤ cap') (inp : Bytes) (ii t : Nat) (out : Bytes) :
    Same (emitLits cap inp ii t out) (emitLits cap' inp ii t out) := by
  unfold emitLits
  by_cases h0 : t = 0
  · rw [if_pos h0, if_pos h0]; exact .inr rfl
  rw [if_neg h0, if_neg h0]
  by_cases h3 : t ≤ 3
  · rw [if_pos h3, if_pos h3]
    cases orBack out t with
    | error e => exact .inr rfl
    | ok o =>
      cases chkRead inp ii 4 with
      | error e => exact .inr rfl
      | ok u =>
        rcases chkWrite_same h out 4 with hw | hw
        · rw [hw]; exact .inl rfl
        · rw [hw]
          cases chkWrite cap' out 4 with
          | error e => exact .inr rfl
          | ok u => exact copyIn_same h _ _ _ _
  rw [if_neg h3, if_neg h3]
  rcases emit_same h out (litHeader t) with hw | hw
  · rw [hw]; exact .inl rfl
  rw [hw]
  cases emit cap' out (litHeader t) with
  | error e => exact .inr rfl
  | ok o =>
    dsimp only
    by_cases h16 : t ≤ 16
    · rw [if_pos h16, if_pos h16]
      cases chkRead inp ii 16 with
      | error e => exact .inr rfl
      | ok u =>
        rcases chkWrite_same h o 16 with hw | hw
        · rw [hw]; exact .inl rfl
        · rw [hw]
          cases chkWrite cap' o 16 with
          | error e => exact .inr rfl
          | ok u => exact copyIn_same h _ _ _ _
    · rw [if_neg h16, if_neg h16]; exact copyIn_same h _ _ _ _

theorem inner_same {cap cap' : Nat} (h : cap ≤ cap') (inp : Bytes) (base ipEnd : Nat) : ∀ (f : Nat) (s : CState),
    Same (inner cap inp base ipEnd f s) (inner cap' inp base ipEnd f s) := by
  intro f
  induction f with
  | zero => intro s; exact .inr rfl
  | succ f ih =>
    intro s
    unfold inner
    by_cases h1 : s.ip ≥ ipEnd
    · rw [if_pos h1, if_pos h1]; exact .inr rfl
    rw [if_neg h1, if_neg h1]
    cases le32At inp s.ip with
    | error e => exact .inr rfl
    | ok dv =>
      dsimp only
      cases le32At inp (base + s.dict (hash dv)) with
      | error e => exact .inr rfl
      | ok mv =>
        dsimp only
        by_cases h2 : dv ≠ mv
        · rw [if_pos h2, if_pos h2]; exact ih _
        rw [if_neg h2, if_neg h2]
        rcases emitLits_same h inp (s.ii - s.ti) (s.ip - (s.ii - s.ti)) s.out with hw | hw
        · rw [hw]; exact .inl rfl
        rw [hw]
        cases emitLits cap' inp (s.ii - s.ti) (s.ip - (s.ii - s.ti)) s.out with
        | error e => exact .inr rfl
        | ok o =>
          dsimp only
          cases matchLen inp s.ip (base + s.dict (hash dv)) ipEnd with
          | error e => exact .inr rfl
          | ok len =>
            dsimp only
            rcases emit_same h o (matchBytes len (s.ip - (base + s.dict (hash dv)))) with hw | hw
            · rw [hw]; exact .inl rfl
            rw [hw]
            cases emit cap' o (matchBytes len (s.ip - (base + s.dict (hash dv)))) with
            | error e => exact .inr rfl
            | ok o => exact ih _

theorem doCompress_same {cap cap' : Nat} (h : cap ≤ cap') (inp : Bytes) (base ll ti : Nat) (out : Bytes) :
    Same (doCompress cap inp base ll ti out) (doCompress cap' inp base ll ti out) := by
  unfold doCompress
  dsimp only
  generalize advance _ = s
  rcases inner_same h inp base (base + ll - 20) (ll + 1) s with hw | hw
  · rw [hw]; exact .inl rfl
  · rw [hw]; exact .inr rfl

theorem blocks_same {cap cap' : Nat} (h : cap ≤ cap') (inp : Bytes) : ∀ (f l t : Nat) (out : Bytes),
    Same (blocks cap inp f l t out) (blocks cap' inp f l t out) := by
  intro f
  induction f with
  | zero => intro l t out; exact .inr rfl
  | succ f ih =>
    intro l t out
    rw [blocks, blocks]
    by_cases h1 : l ≤ 20
    · rw [if_pos h1, if_pos h1]; exact .inr rfl
    rw [if_neg h1, if_neg h1]
    dsimp only
    by_cases h2 : (t + blockLen l) >>> 5 = 0
    · rw [if_pos h2, if_pos h2]; exact .inr rfl
    rw [if_neg h2, if_neg h2]
    rcases doCompress_same h inp (inp.length - l) (blockLen l) t out with hw | hw
    · rw [hw]; exact .inl rfl
    rw [hw]
    cases doCompress cap' inp (inp.length - l) (blockLen l) t out with
    | error e => exact .inr rfl
    | ok r => exact ih _ _ _

theorem lastLits_same {cap cap' : Nat} (h : cap ≤ cap') (inp : Bytes) (t : Nat) (out : Bytes) :
    Same (lastLits cap inp t out) (lastLits cap' inp t out) := by
  unfold lastLits
  by_cases h0 : t > 0
  · rw [if_pos h0, if_pos h0]
    have hh : Same (lastHeader cap t out) (lastHeader cap' t out) := by
      unfold lastHeader
      by_cases h1 : out = [] ∧ t ≤ 238
      · rw [if_pos h1, if_pos h1]; exact emit_same h _ _
      · rw [if_neg h1, if_neg h1]
        by_cases h3 : t ≤ 3
        · rw [if_pos h3, if_pos h3]; exact .inr rfl
        · rw [if_neg h3, if_neg h3]; exact emit_same h _ _
    rcases hh with hw | hw
    · rw [hw]; exact .inl rfl
    rw [hw]
    cases lastHeader cap' t out with
    | error e => exact .inr rfl
    | ok o => exact copyIn_same h _ _ _ _
  · rw [if_neg h0, if_neg h0]; exact .inr rfl

theorem compress_same {cap cap' : Nat} (h : cap ≤ cap') (inp : Bytes) : Same (compress cap inp) (compress cap' inp) := by
  unfold compress
  rcases blocks_same h inp (inp.length + 1) inp.length 0 [] with hw | hw
  · rw [hw]; exact .inl rfl
  rw [hw]
  cases blocks cap' inp (inp.length + 1) inp.length 0 [] with
  | error e => exact .inr rfl
  | ok r =>
    dsimp only
    rcases lastLits_same h inp (r.2.2 + r.2.1) r.1 with hw | hw
    · rw [hw]; exact .inl rfl
    rw [hw]
    cases lastLits cap' inp (r.2.2 + r.2.1) r.1 with
    | error e => exact .inr rfl
    | ok o => exact emit_same h _ _

/-- What is returned lies in the buffer. -/
theorem compress_length {cap : Nat} {inp z : Bytes} (h : compress cap inp = .ok z) : z.length ≤ cap := by
  unfold compress at h
  cases hb : blocks cap inp (inp.length + 1) inp.length 0 [] with
  | error e => rw [hb] at h; cases h
  | ok r =>
    rw [hb] at h; dsimp only at h
    cases hl : lastLits cap inp (r.2.2 + r.2.1) r.1 with
    | error e => rw [hl] at h; cases h
    | ok o =>
      rw [hl] at h; dsimp only at h
      unfold emit at h
      split at h
      · rename_i hle
        injection h with h
        rw [← h]; simpa using hle
      · cases h

end Verif.Lzo
