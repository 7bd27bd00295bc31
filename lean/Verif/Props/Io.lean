import Verif.Lib.IoLemmas
/-! Properties C01 and C02. -/
namespace Verif.Io

/-- C01: reading what was written gives back the integer and leaves the rest of the stream,
the announced lengths are the real one, and it is at most five bytes. -/
theorem C01_compressed_round_trip (x : Nat) (hx : x < 2 ^ 32) (rest : Bytes) :
    readCompressed (writeCompressed x ++ rest) = .ok (x, rest)
    ∧ compressedIntLen x = (writeCompressed x).length
    ∧ writeCompressedRet x = (writeCompressed x).length
    ∧ (writeCompressed x).length ≤ 5 :=
  ⟨readCompressed_write rest hx, compressedIntLen_eq x,
   by simp [writeCompressedRet, writeCompressedRet_go],
   writeCompressed_length_le (k := 4) (by omega)⟩

/-- C01, the encoding itself: the value is the base-128 little-endian reading of the bytes, every
byte but the last has its top bit set and the last one has not (so encodings are prefix free). -/
def base128 : Bytes → Nat
  | [] => 0
  | b :: bs => b.toNat % 128 + 128 * base128 bs

theorem C01_encoding_shape (x : Nat) :
    base128 (writeCompressed x) = x ∧
    ∃ (init : Bytes) (last : UInt8), writeCompressed x = init ++ [last] ∧
      (∀ b ∈ init, 128 ≤ b.toNat) ∧ last.toNat < 128 := by
  induction x using Nat.strongRecOn with
  | ind x ih =>
    rw [writeCompressed]
    by_cases h : 0x7f < x
    · have hsh : x >>> 7 = x / 128 := Nat.shiftRight_eq_div_pow x 7
      obtain ⟨h1, init, last, h2, h3, h4⟩ := ih (x >>> 7) (by rw [hsh]; omega)
      simp only [h, dif_pos]
      refine ⟨?_, _ :: init, last, by rw [h2]; rfl, ?_, h4⟩
      · rw [base128, h1, lowByte, hsh]; omega
      · intro b hb
        rcases List.mem_cons.1 hb with rfl | hb
        · rw [lowByte]; omega
        · exact h3 b hb
    · simp only [h, dif_neg, not_false_eq_true]
      have hb : (UInt8.ofNat x).toNat = x := by rw [UInt8.toNat_ofNat']; omega
      refine ⟨by simp [base128]; omega, [], _, rfl, by simp, by rw [hb]; omega⟩

example : (300 : Nat) < 2 ^ 32 ∧ writeCompressed 300 = [0xAC, 0x02] := by
  refine ⟨by norm_num, ?_⟩
  rw [writeCompressed, writeCompressed]; decide

/-- C02: a string without NUL reads back exactly, and reading stops right after its terminator. -/
theorem C02_cstring_round_trip (s rest : Bytes) (hz : (0 : UInt8) ∉ s) (hu : isUtf8 s = true) :
    readCString (writeCString s ++ rest) = (s, rest) :=
  readCString_write rest hz hu

/-- C02, converse: a string that contains NUL never reads back as itself. -/
theorem C02_cstring_nul_lost (s rest : Bytes) (hz : (0 : UInt8) ∈ s) :
    (readCString (writeCString s ++ rest)).1 ≠ s := by
  intro h
  apply cstringBytes_no_zero (writeCString s ++ rest)
  unfold readCString at h
  dsimp only at h
  split at h
  · rw [h]; exact hz
  · subst h; simp at hz

example : (0 : UInt8) ∉ ([97, 0xC3, 0xA9] : Bytes) ∧ isUtf8 [97, 0xC3, 0xA9] = true := by decide
example : (0 : UInt8) ∈ ([97, 0, 98] : Bytes) := by decide

end Verif.Io
