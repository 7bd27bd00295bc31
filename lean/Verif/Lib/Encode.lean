import Verif.Lib.Utf8
import Verif.Model.SqfLex
/-! UTF-8: what is encoded is well formed. -/
namespace Verif
open Verif.SqfLex (enc)

theorem isUtf8_encodeChar (c : Char) : isUtf8 (String.utf8EncodeChar c) = true := by
  have hval := c.valid
  have hv' : c.val.toNat < 0xd800 ∨ (0xdfff < c.val.toNat ∧ c.val.toNat < 0x110000) := hval
  unfold String.utf8EncodeChar
  generalize hv : c.val.toNat = v at *
  dsimp only
  split
  · rename_i h
    rw [isUtf8.eq_def]
    have : (UInt8.ofNat v) < 0x80 := by
      rw [UInt8.lt_iff_toNat_lt]; simp; omega
    simp [this, isUtf8]
  · rename_i h1
    have ht : ∀ x, (0x80 ≤ (UInt8.ofNat (x % 64 + 128)) ∧ (UInt8.ofNat (x % 64 + 128)) ≤ 0xBF) := by
      intro x
      constructor <;> rw [UInt8.le_iff_toNat_le] <;> simp <;> omega
    split
    · rename_i h2
      rw [isUtf8.eq_def]
      generalize ha : UInt8.ofNat _ = a
      have e1 : ¬ a < 0x80 := by
        subst ha; rw [UInt8.lt_iff_toNat_lt]; simp; omega
      have e2 : 0xC2 ≤ a ∧ a ≤ 0xDF := by
        subst ha; constructor <;> rw [UInt8.le_iff_toNat_le] <;> simp <;> omega
      simp only [e1, e2, if_false, and_self, if_true, ht, decide_true, Bool.and_self]
      rfl
    · split
      · rename_i h2 h3
        rw [isUtf8.eq_def]
        generalize ha : UInt8.ofNat (_ % 16 + _) = a
        generalize hb : UInt8.ofNat (_ % 64 + _) = b
        have e1 : ¬ a < 0x80 := by
          subst ha; rw [UInt8.lt_iff_toNat_lt]; simp; omega
        have e2 : ¬ (0xC2 ≤ a ∧ a ≤ 0xDF) := by
          subst ha; rw [UInt8.le_iff_toNat_le, UInt8.le_iff_toNat_le]; simp; omega
        have e3 : 0xE0 ≤ a ∧ a ≤ 0xEF := by
          subst ha; constructor <;> rw [UInt8.le_iff_toNat_le] <;> simp <;> omega
        have e4 : (if a = 0xE0 then 0xA0 else 0x80) ≤ b := by
          subst ha hb
          split
          · rename_i h
            have h := congrArg UInt8.toNat h
            rw [UInt8.le_iff_toNat_le]; simp at h ⊢; omega
          · exact (ht _).1
        have e5 : b ≤ (if a = 0xED then 0x9F else 0xBF) := by
          subst ha hb
          split
          · rename_i h
            have h := congrArg UInt8.toNat h
            rw [UInt8.le_iff_toNat_le]; simp at h ⊢; omega
          · exact (ht _).2
        simp only [e1, e2, e3, e4, e5, if_false, and_self, if_true, ht, decide_true, Bool.and_self]
        rfl
      · rename_i h2 h3
        rw [isUtf8.eq_def]
        generalize ha : UInt8.ofNat (_ % 8 + _) = a
        generalize hb : UInt8.ofNat (v / 4096 % 64 + _) = b
        have e1 : ¬ a < 0x80 := by
          subst ha; rw [UInt8.lt_iff_toNat_lt]; simp; omega
        have e2 : ¬ (0xC2 ≤ a ∧ a ≤ 0xDF) := by
          subst ha; rw [UInt8.le_iff_toNat_le, UInt8.le_iff_toNat_le]; simp; omega
        have e3 : ¬ (0xE0 ≤ a ∧ a ≤ 0xEF) := by
          subst ha; rw [UInt8.le_iff_toNat_le, UInt8.le_iff_toNat_le]; simp; omega
        have e3' : 0xF0 ≤ a ∧ a ≤ 0xF4 := by
          subst ha; constructor <;> rw [UInt8.le_iff_toNat_le] <;> simp <;> omega
        have e4 : (if a = 0xF0 then 0x90 else 0x80) ≤ b := by
          subst ha hb
          split
          · rename_i h
            have h := congrArg UInt8.toNat h
            rw [UInt8.le_iff_toNat_le]; simp at h ⊢; omega
          · exact (ht _).1
        have e5 : b ≤ (if a = 0xF4 then 0x8F else 0xBF) := by
          subst ha hb
          split
          · rename_i h
            have h := congrArg UInt8.toNat h
            rw [UInt8.le_iff_toNat_le]; simp at h ⊢; omega
          · exact (ht _).2
        simp only [e1, e2, e3, e3', e4, e5, if_false, and_self, if_true, ht, decide_true, Bool.and_self]
        rfl

theorem isUtf8_enc (t : Text) : isUtf8 (enc t) = true := by
  induction t with
  | nil => rfl
  | cons c t ih =>
    have : enc (c :: t) = String.utf8EncodeChar c ++ enc t := by simp [enc]
    rw [this, isUtf8_append _ (isUtf8_encodeChar c)]
    exact ih

theorem encode_small {c : Char} {b : UInt8} (hm : b ∈ String.utf8EncodeChar c) (hb : b < 0x80) :
    c.val.toNat = b.toNat := by
  unfold String.utf8EncodeChar at hm
  generalize hv : c.val.toNat = v at *
  rw [UInt8.lt_iff_toNat_lt] at hb
  have hb : b.toNat < 128 := hb
  simp only at hm
  split at hm
  · simp only [List.mem_singleton] at hm
    have := congrArg UInt8.toNat hm
    simp at this
    omega
  · split at hm
    · simp only [List.mem_cons, List.not_mem_nil, or_false] at hm
      rcases hm with hm | hm <;> have := congrArg UInt8.toNat hm <;> simp at this <;> omega
    · split at hm
      · simp only [List.mem_cons, List.not_mem_nil, or_false] at hm
        rcases hm with hm | hm | hm <;> have := congrArg UInt8.toNat hm <;> simp at this <;> omega
      · simp only [List.mem_cons, List.not_mem_nil, or_false] at hm
        rcases hm with hm | hm | hm | hm <;> have := congrArg UInt8.toNat hm <;> simp at this <;> omega
end Verif
