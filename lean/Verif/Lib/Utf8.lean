import Verif.Lib.Bytes
/-! Closure properties of UTF-8 validity used to show that model states stay valid strings. -/
namespace Verif

theorem isUtf8_append {a : Bytes} (b : Bytes) (ha : isUtf8 a = true) : isUtf8 (a ++ b) = isUtf8 b := by
  fun_induction isUtf8 a with
  | case1 => rfl
  | case2 x rest hx ih =>
    rw [List.cons_append, isUtf8.eq_def]
    simp only [hx, if_true]
    exact ih ha
  | case3 x hx hx2 y r ih =>
    rw [List.cons_append, isUtf8.eq_def]
    simp only [hx, if_false, hx2, and_self, if_true, List.cons_append]
    simp only [Bool.and_eq_true] at ha
    simp [ha, ih]
  | case4 => simp at ha
  | case5 x hx hx2 hx3 y z r ih =>
    rw [List.cons_append, isUtf8.eq_def]
    simp only [hx, if_false, hx2, hx3, and_self, if_true, List.cons_append]
    simp only [Bool.and_eq_true] at ha
    simp [ha, ih]
  | case6 => simp at ha
  | case7 x hx hx2 hx3 hx4 y z w r ih =>
    rw [List.cons_append, isUtf8.eq_def]
    simp only [hx, if_false, hx2, hx3, hx4, and_self, if_true, List.cons_append]
    simp only [Bool.and_eq_true] at ha
    simp [ha, ih]
  | case8 => simp at ha
  | case9 => simp at ha

theorem isUtf8_map_ascii (f : UInt8 → UInt8) (hf : ∀ b, ¬ b < 0x80 → f b = b)
    (hf2 : ∀ b, b < 0x80 → f b < 0x80) {a : Bytes} (ha : isUtf8 a = true) : isUtf8 (a.map f) = true := by
  have hge : ∀ b : UInt8, 0x80 ≤ b → ¬ b < 0x80 := by
    intro b h1 h2
    rw [UInt8.le_iff_toNat_le] at h1
    rw [UInt8.lt_iff_toNat_lt] at h2
    omega
  fun_induction isUtf8 a with
  | case1 => rfl
  | case2 x rest hx ih =>
    rw [List.map_cons, isUtf8.eq_def]
    simp only [hf2 x hx, if_true]
    exact ih ha
  | case3 x hx hx2 y r ih =>
    simp only [Bool.and_eq_true, decide_eq_true_eq] at ha
    rw [List.map_cons, List.map_cons, isUtf8.eq_def, hf x hx, hf y (hge y ha.1.1)]
    simp only [hx, if_false, hx2, and_self, if_true]
    simp [ha, ih ha.2]
  | case4 => simp at ha
  | case5 x hx hx2 hx3 y z r ih =>
    simp only [Bool.and_eq_true, decide_eq_true_eq] at ha
    have hy : 0x80 ≤ y := by
      have := ha.1.1.1
      split at this
      · rw [UInt8.le_iff_toNat_le] at this ⊢
        exact Nat.le_trans (by decide) this
      · exact this
    rw [List.map_cons, List.map_cons, List.map_cons, isUtf8.eq_def, hf x hx, hf y (hge y hy),
      hf z (hge z ha.1.2.1)]
    simp only [hx, if_false, hx2, hx3, and_self, if_true]
    simp [ha, ih ha.2]
  | case6 => simp at ha
  | case7 x hx hx2 hx3 hx4 y z w r ih =>
    simp only [Bool.and_eq_true, decide_eq_true_eq] at ha
    have hy : 0x80 ≤ y := by
      have := ha.1.1.1.1
      split at this
      · rw [UInt8.le_iff_toNat_le] at this ⊢
        exact Nat.le_trans (by decide) this
      · exact this
    rw [List.map_cons, List.map_cons, List.map_cons, List.map_cons, isUtf8.eq_def, hf x hx, hf y (hge y hy),
      hf z (hge z ha.1.1.2.1), hf w (hge w ha.1.2.1)]
    simp only [hx, if_false, hx2, hx3, hx4, and_self, if_true]
    simp [ha, ih ha.2]
  | case8 => simp at ha
  | case9 => simp at ha

theorem isUtf8_snoc_ascii {a : Bytes} {b : UInt8} (hb : b < 0x80) (h : isUtf8 (a ++ [b]) = true) :
    isUtf8 a = true := by
  have hge : ∀ l : UInt8, 0x80 ≤ l → ¬ l ≤ b := by
    intro l h1 h2
    rw [UInt8.le_iff_toNat_le] at h1 h2
    rw [UInt8.lt_iff_toNat_lt] at hb
    omega
  have hnb : ∀ l : UInt8, 0x80 ≤ l → decide (l ≤ b) = false := fun l hl => by simpa using hge l hl
  fun_induction isUtf8 a with
  | case1 => rfl
  | case2 x rest hx ih =>
    rw [List.cons_append, isUtf8.eq_def] at h
    simp only [hx, if_true] at h
    exact ih h
  | case3 x hx hx2 y r ih =>
    rw [List.cons_append, isUtf8.eq_def] at h
    simp only [hx, if_false, hx2, and_self, if_true, List.cons_append, Bool.and_eq_true] at h
    simp [h.1, ih h.2]
  | case4 x rest hx hx2 hr =>
    exfalso
    have : rest = [] := by
      cases rest with
      | nil => rfl
      | cons a r => exact absurd rfl (hr a r)
    subst this
    rw [isUtf8.eq_def] at h
    simp [hx, hx2, hnb 0x80 (by decide)] at h
  | case5 x hx hx2 hx3 y z r ih =>
    rw [List.cons_append, isUtf8.eq_def] at h
    simp only [hx, if_false, hx2, hx3, and_self, if_true, List.cons_append, Bool.and_eq_true] at h
    simp [h, ih]
  | case6 x rest hx hx2 hx3 hr =>
    exfalso
    rcases rest with _ | ⟨y, _ | ⟨z, r⟩⟩
    · rw [isUtf8.eq_def] at h
      simp [hx, hx2, hx3] at h
    · rw [isUtf8.eq_def] at h
      simp [hx, hx2, hx3, hnb 0x80 (by decide)] at h
    · exact hr y z r rfl
  | case7 x hx hx2 hx3 hx4 y z w r ih =>
    rw [List.cons_append, isUtf8.eq_def] at h
    simp only [hx, if_false, hx2, hx3, hx4, and_self, if_true, List.cons_append, Bool.and_eq_true] at h
    simp [h, ih]
  | case8 x rest hx hx2 hx3 hx4 hr =>
    exfalso
    rcases rest with _ | ⟨y, _ | ⟨z, _ | ⟨w, r⟩⟩⟩
    · rw [isUtf8.eq_def] at h
      simp [hx, hx2, hx3, hx4] at h
    · rw [isUtf8.eq_def] at h
      simp [hx, hx2, hx3, hx4] at h
    · rw [isUtf8.eq_def] at h
      simp [hx, hx2, hx3, hx4, hnb 0x80 (by decide)] at h
    · exact hr y z w r rfl
  | case9 x rest hx hx2 hx3 hx4 =>
    rw [List.cons_append, isUtf8.eq_def] at h
    simp [hx, hx2, hx3, hx4] at h

end Verif
