import Verif.Lib.LzoSafe
import Verif.Lib.LzoComp
import Verif.Lib.LzoCap
/-! Properties C18, C19, C20 and C43: LZO compression. The hypothesis `inp.length < 2 ^ 63` holds of every Rust
slice (their length is at most `isize::MAX`). -/
namespace Verif.Lzo

/-- C18: with the buffer size callers are told to use, compression succeeds, and decompressing the result into a
buffer of the original size returns the original bytes. -/
theorem C18_round_trip (inp : Bytes) (h : inp.length < 2 ^ 63) :
    ∃ z, compress (worstCompress inp.length) inp = .ok z ∧ decompress inp.length z = .ok (.ok inp) := by
  obtain ⟨z, h1, _, h3⟩ := compress_ok _ inp h (Nat.le_refl _)
  exact ⟨z, h1, h3⟩

/-- C18: two different inputs of the same length never compress to the same bytes. -/
theorem C18_injective (a b : Bytes) (ha : a.length < 2 ^ 63) (hl : a.length = b.length)
    (h : compress (worstCompress a.length) a = compress (worstCompress b.length) b) : a = b := by
  obtain ⟨z, h1, h2⟩ := C18_round_trip a ha
  obtain ⟨w, h3, h4⟩ := C18_round_trip b (hl ▸ ha)
  rw [h1, h3] at h
  injection h with h
  subst h
  rw [hl, h4] at h2
  injection h2 with h2
  injection h2 with h2
  exact h2.symm

/-- C19: whatever the input and whatever the capacity, the decompressor comes to an end without touching memory
outside the two buffers; it returns at most `cap` bytes or one of the error codes -1 to -8. -/
theorem C19_decompress_safe (cap : Nat) (inp : Bytes) :
    (∃ out, decompress cap inp = .ok (.ok out) ∧ out.length ≤ cap) ∨
    (∃ code : Int, decompress cap inp = .ok (.error code) ∧ -8 ≤ code ∧ code ≤ -1) := by
  obtain ⟨r, hr, h1, h2, h3, h4, h5⟩ := decompressRaw_safe cap inp
  unfold decompress
  rw [hr]
  dsimp only
  by_cases h0 : r.code = 0
  · rw [if_pos h0, if_pos (Nat.le_of_eq (h3 h0))]
    exact .inl ⟨_, rfl, by rw [List.length_take]; omega⟩
  · rw [if_neg h0]
    exact .inr ⟨_, rfl, h4, by omega⟩

/-- C20: the compressor stays inside the input and inside a buffer of the documented worst-case size. -/
theorem C20_size_bound (cap : Nat) (inp : Bytes) (h : inp.length < 2 ^ 63) (hc : worstCompress inp.length ≤ cap) :
    ∃ z, compress cap inp = .ok z ∧ z.length ≤ inp.length + inp.length / 16 + 67 := by
  obtain ⟨z, h1, h2, _⟩ := compress_ok cap inp h hc
  exact ⟨z, h1, by unfold worstCompress at h2; omega⟩

/-- C43 is violated for every input: the documentation promises an error for a buffer that is too small. There is none:
every buffer that does not hold the result is written past its end, and a run ends with the result or in that way. -/
theorem C43_violated (inp : Bytes) (h : inp.length < 2 ^ 63) :
    ∃ z, compress (worstCompress inp.length) inp = .ok z ∧
      (∀ cap, cap < z.length → compress cap inp = .error .oob) ∧
      ∀ cap, compress cap inp = .ok z ∨ compress cap inp = .error .oob := by
  obtain ⟨z, hz, hl, _⟩ := compress_ok _ inp h (Nat.le_refl _)
  have all : ∀ cap, compress cap inp = .ok z ∨ compress cap inp = .error .oob := by
    intro cap
    by_cases hc : worstCompress inp.length ≤ cap
    · rcases compress_same hc inp with h1 | h1
      · rw [hz] at h1; cases h1
      · exact .inl (h1 ▸ hz)
    · rcases compress_same (show cap ≤ worstCompress inp.length by omega) inp with h1 | h1
      · exact .inr h1
      · exact .inl (h1.trans hz)
  refine ⟨z, hz, fun cap hcap => ?_, all⟩
  rcases all cap with h1 | h1
  · have := compress_length h1; omega
  · exact h1

/-- C43: how much is needed for a short input. For every input of 1 to 20 bytes, four bytes more than it has. -/
theorem C43_short (cap : Nat) (inp : Bytes) (h0 : 1 ≤ inp.length) (h : inp.length ≤ 20) :
    (cap < inp.length + 4 → compress cap inp = .error .oob) ∧
    (inp.length + 4 ≤ cap → compress cap inp = .ok (UInt8.ofNat (17 + inp.length) :: inp ++ [17, 0, 0])) := by
  have hb : blocks cap inp (inp.length + 1) inp.length 0 [] = .ok ([], inp.length, 0) := by
    rw [blocks, if_pos h]
  simp only [compress, hb, Nat.zero_add, lastLits, gt_iff_lt, if_pos (show 0 < inp.length by omega), lastHeader]
  rw [if_pos ⟨trivial, by omega⟩]
  constructor
  · intro hc
    unfold emit
    by_cases h1 : 1 ≤ cap
    · rw [if_pos (by simpa using h1)]
      dsimp only
      by_cases h2 : inp.length + 1 ≤ cap
      · rw [copyIn_ok (by omega) (by simp; omega)]
        dsimp only
        rw [if_neg (by simp; omega)]
      · simp only [copyIn, chkRead]
        rw [if_pos (by omega)]
        unfold emit
        dsimp only
        rw [if_neg (by simp; omega)]
    · rw [if_neg (by simpa using h1)]
  · intro hc
    unfold emit
    rw [if_pos (by simp; omega)]
    dsimp only
    rw [copyIn_ok (by omega) (by simp; omega)]
    dsimp only
    rw [if_pos (by simp; omega)]
    simp
    decide

/-- Non-vacuity: a run of equal bytes really compresses and comes back. -/
example : ∃ z, compress (worstCompress 60) (List.replicate 60 7) = .ok z ∧ z.length = 34 ∧
    decompress 60 z = .ok (.ok (List.replicate 60 7)) :=
  ⟨[2, 7, 7, 7, 7, 7, 32, 3, 16, 0, 0, 1, 7, 7, 7, 7, 7, 7, 7, 7, 7, 7, 7, 7, 7, 7, 7, 7, 7, 7, 7, 17, 0, 0], by decide +kernel⟩


/-- A truncated stream is an error, not a crash. -/
example : decompress 10 [17] = .ok (.error (-4)) := by decide +kernel

example : compress 6 [1, 2, 3] = .error .oob := (C43_short 6 [1, 2, 3] (by decide) (by decide)).1 (by decide)
example : compress 7 [1, 2, 3] = .ok [20, 1, 2, 3, 17, 0, 0] :=
  (C43_short 7 [1, 2, 3] (by decide) (by decide)).2 (by decide)

/-- A result of 34 bytes and a buffer of 33. -/
example : compress 33 (List.replicate 60 7) = .error .oob := by decide +kernel

end Verif.Lzo
