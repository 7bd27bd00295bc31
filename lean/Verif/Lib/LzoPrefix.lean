import Verif.Model.Lzo
/-! The decompressor on an input followed by further bytes. -/
namespace Verif.Lzo

/-- How a continued run relates to a run: it goes on in the same way, and where the run ended successfully it
ends with code -8. -/
def Cont (ext : Bytes) (a b : Except MErr (Flow (Bytes × Bytes × Nat))) : Prop :=
  (∀ r o s, a = .ok (.go (r, o, s)) → b = .ok (.go (r ++ ext, o, s))) ∧
  (∀ x, a = .ok (.ret x) → x.code = 0 → ext ≠ [] → ∃ y, b = .ok (.ret y) ∧ y.code = -8)

theorem Cont.err {ext : Bytes} {e : MErr} {b} : Cont ext (.error e) b := ⟨by simp, by simp⟩
theorem Cont.bad {ext : Bytes} {x : Ret} {b} (h : x.code ≠ 0) : Cont ext (.ok (.ret x)) b :=
  ⟨by simp, fun y hy h0 => by cases hy; exact absurd h0 h⟩
theorem Cont.go {ext r o : Bytes} {s : Nat} : Cont ext (.ok (.go (r, o, s))) (.ok (.go (r ++ ext, o, s))) :=
  ⟨fun _ _ _ h => by cases h; rfl, by simp⟩

theorem rd_app {r r' : Bytes} {b : UInt8} (ext : Bytes) (h : rd r = .ok (b, r')) : rd (r ++ ext) = .ok (b, r' ++ ext) := by
  cases r with
  | nil => cases h
  | cons x r => cases h; rfl

theorem copyLit_app (cap : Nat) (ext : Bytes) : ∀ (t : Nat) (r o r' o' : Bytes), copyLit cap t r o = .ok (r', o') →
    copyLit cap t (r ++ ext) o = .ok (r' ++ ext, o')
  | 0, r, o, r', o', h => by cases h; rfl
  | t + 1, r, o, r', o', h => by
    unfold copyLit at h ⊢
    cases hr : rd r with
    | error e => rw [hr] at h; cases h
    | ok v =>
      obtain ⟨b, r1⟩ := v
      rw [hr] at h
      rw [rd_app ext hr]
      dsimp only at h ⊢
      cases hp : put cap o b with
      | error e => rw [hp] at h; cases h
      | ok o1 => rw [hp] at h; exact copyLit_app cap ext t r1 o1 r' o' h

theorem zrun_app (ext : Bytes) : ∀ (r : Bytes) (n m : Nat) (r' : Bytes), zrun r n = .ok (some (m, r')) →
    zrun (r ++ ext) n = .ok (some (m, r' ++ ext))
  | [], n, m, r', h => by cases h
  | b :: r, n, m, r', h => by
    simp only [zrun, List.cons_append] at h ⊢
    split at h
    · rename_i hb; cases h; rw [if_pos hb]; rfl
    · rename_i hb
      rw [if_neg hb]
      split at h
      · cases h
      · rename_i hl
        rw [if_neg (by rw [List.length_append]; omega)]
        exact zrun_app ext r (n + 1) m r' h

theorem longRun_app {cap base : Nat} {r o r' : Bytes} {t : Nat} (ext : Bytes) (h : longRun cap base r o = .ok (.go (t, r'))) :
    longRun cap base (r ++ ext) o = .ok (.go (t, r' ++ ext)) := by
  unfold longRun at h ⊢
  cases hz : zrun r 0 with
  | error e => rw [hz] at h; cases h
  | ok v =>
    rw [hz] at h
    cases v with
    | none => cases h
    | some v =>
      obtain ⟨m, r1⟩ := v
      rw [zrun_app ext r 0 m r1 hz]
      dsimp only at h ⊢
      split at h
      · cases h
      · rename_i hm
        rw [if_neg hm]
        cases hr : rd r1 with
        | error e => rw [hr] at h; cases h
        | ok v =>
          obtain ⟨b, r2⟩ := v
          rw [hr] at h
          rw [rd_app ext hr]
          cases h; rfl

theorem longRun_ret {cap base : Nat} {r o : Bytes} {x : Ret} (h : longRun cap base r o = .ok (.ret x)) : x.code ≠ 0 := by
  unfold longRun at h
  cases hz : zrun r 0 with
  | error e => rw [hz] at h; cases h
  | ok v =>
    rw [hz] at h
    cases v with
    | none => cases h; simp
    | some v =>
      obtain ⟨m, r1⟩ := v
      dsimp only at h
      split at h
      · cases h; simp
      · cases hr : rd r1 with
        | error e => rw [hr] at h; cases h
        | ok v => rw [hr] at h; cases h

/-- the optional extended length -/
theorem optRun_app (p : Prop) [Decidable p] (cap base t : Nat) (r o ext : Bytes) :
    (∃ e, (if p then longRun cap base r o else .ok (.go (t, r))) = .error e) ∨
    (∃ x, (if p then longRun cap base r o else .ok (.go (t, r))) = .ok (.ret x) ∧ x.code ≠ 0) ∨
    (∃ t' r', (if p then longRun cap base r o else .ok (.go (t, r))) = .ok (.go (t', r')) ∧
      (if p then longRun cap base (r ++ ext) o else .ok (.go (t, r ++ ext))) = .ok (.go (t', r' ++ ext))) := by
  by_cases hp : p
  · simp only [if_pos hp]
    cases hl : longRun cap base r o with
    | error e => exact .inl ⟨e, rfl⟩
    | ok v =>
      cases v with
      | ret x => exact .inr (.inl ⟨x, rfl, longRun_ret hl⟩)
      | go v =>
        obtain ⟨t', r'⟩ := v
        exact .inr (.inr ⟨t', r', rfl, longRun_app ext hl⟩)
  · simp only [if_neg hp]
    exact .inr (.inr ⟨t, r, rfl, rfl⟩)

theorem finish_app (cap next : Nat) (r o ext : Bytes) : Cont ext (finish cap next r o) (finish cap next (r ++ ext) o) := by
  unfold finish
  by_cases hl : r.length < next + 3
  · rw [if_pos hl]; exact .bad (by simp)
  · rw [if_neg hl, if_neg (by rw [List.length_append]; omega : ¬ (r ++ ext).length < next + 3)]
    split
    · exact .bad (by simp)
    · cases hc : copyLit cap next r o with
      | error e => exact .err
      | ok v =>
        obtain ⟨r', o'⟩ := v
        rw [copyLit_app cap ext _ _ _ _ _ hc]
        exact .go

theorem copyMatch_app (cap t : Nat) (m : Int) (next : Nat) (r o ext : Bytes) :
    Cont ext (copyMatch cap t m next r o) (copyMatch cap t m next (r ++ ext) o) := by
  unfold copyMatch
  split
  · exact .bad (by simp)
  · split
    · exact .bad (by simp)
    · cases copyOut cap (2 + max 1 (t - 2)) m o with
      | error e => exact .err
      | ok o' => exact finish_app ..

theorem rd16_app {r r' : Bytes} {v : Nat} (ext : Bytes) (h : rd16 r = .ok (v, r')) : rd16 (r ++ ext) = .ok (v, r' ++ ext) := by
  unfold rd16 at h ⊢
  cases h1 : rd r with
  | error e => rw [h1] at h; cases h
  | ok w =>
    obtain ⟨a, r1⟩ := w
    rw [h1] at h; rw [rd_app ext h1]
    dsimp only at h ⊢
    cases h2 : rd r1 with
    | error e => rw [h2] at h; cases h
    | ok w =>
      obtain ⟨b, r2⟩ := w
      rw [h2] at h; rw [rd_app ext h2]
      cases h; rfl

theorem litInstr_app (cap t : Nat) (r o ext : Bytes) : Cont ext (litInstr cap t r o) (litInstr cap t (r ++ ext) o) := by
  unfold litInstr
  rcases optRun_app (t = 0) cap 15 t r o ext with ⟨e, he⟩ | ⟨x, he, hx⟩ | ⟨t', r', he, he'⟩
  · dsimp only; rw [he]; exact .err
  · dsimp only; rw [he]; exact .bad hx
  dsimp only
  rw [he, he']
  dsimp only
  split
  · exact .bad (by simp)
  · by_cases hl : r'.length < t' + 3 + 3
    · rw [if_pos hl]; exact .bad (by simp)
    · rw [if_neg hl, if_neg (by rw [List.length_append]; omega : ¬ (r' ++ ext).length < t' + 3 + 3)]
      cases hc : copyLit cap (t' + 3) r' o with
      | error e => exact .err
      | ok v =>
        obtain ⟨r1, o1⟩ := v
        rw [copyLit_app cap ext _ _ _ _ _ hc]
        exact .go

theorem m1Instr_app (cap t : Nat) (r o ext : Bytes) : Cont ext (m1Instr cap t r o) (m1Instr cap t (r ++ ext) o) := by
  unfold m1Instr
  cases h1 : rd r with
  | error e => exact .err
  | ok w =>
    obtain ⟨a, r1⟩ := w
    rw [rd_app ext h1]
    dsimp only
    split
    · exact .bad (by simp)
    · split
      · exact .bad (by simp)
      · cases copyOut cap 2 (o.length - 1 - (t >>> 2 : Nat) - (a.toNat <<< 2 : Nat)) o with
        | error e => exact .err
        | ok o' => exact finish_app ..

theorem m1FarInstr_app (cap t : Nat) (r o ext : Bytes) : Cont ext (m1FarInstr cap t r o) (m1FarInstr cap t (r ++ ext) o) := by
  unfold m1FarInstr
  cases h1 : rd r with
  | error e => exact .err
  | ok w =>
    obtain ⟨a, r1⟩ := w
    rw [rd_app ext h1]
    exact copyMatch_app ..

theorem m2Instr_app (cap t : Nat) (r o ext : Bytes) : Cont ext (m2Instr cap t r o) (m2Instr cap t (r ++ ext) o) := by
  unfold m2Instr
  cases h1 : rd r with
  | error e => exact .err
  | ok w =>
    obtain ⟨a, r1⟩ := w
    rw [rd_app ext h1]
    exact copyMatch_app ..

theorem m3Instr_app (cap t : Nat) (r o ext : Bytes) : Cont ext (m3Instr cap t r o) (m3Instr cap t (r ++ ext) o) := by
  unfold m3Instr
  rcases optRun_app ((t &&& 31) + (3 - 1) = 2) cap 31 0 r o ext with ⟨e, he⟩ | ⟨x, he, hx⟩ | ⟨t', r', he, he'⟩
  · dsimp only; rw [he]; exact .err
  · dsimp only; rw [he]; exact .bad hx
  dsimp only
  rw [he, he']
  dsimp only
  by_cases hl : (t &&& 31) + (3 - 1) = 2 ∧ r'.length < 2
  · rw [if_pos hl]; exact .bad (by simp)
  · rw [if_neg hl, if_neg (by rw [List.length_append]; omega : ¬ ((t &&& 31) + (3 - 1) = 2 ∧ (r' ++ ext).length < 2))]
    cases h1 : rd16 r' with
    | error e => exact .err
    | ok w =>
      obtain ⟨v, r1⟩ := w
      rw [rd16_app ext h1]
      exact copyMatch_app ..

theorem m4Instr_app (cap t : Nat) (r o ext : Bytes) : Cont ext (m4Instr cap t r o) (m4Instr cap t (r ++ ext) o) := by
  unfold m4Instr
  rcases optRun_app ((t &&& 7) + (3 - 1) = 2) cap 7 0 r o ext with ⟨e, he⟩ | ⟨x, he, hx⟩ | ⟨t', r', he, he'⟩
  · dsimp only; rw [he]; exact .err
  · dsimp only; rw [he]; exact .bad hx
  dsimp only
  rw [he, he']
  dsimp only
  by_cases hl : (t &&& 7) + (3 - 1) = 2 ∧ r'.length < 2
  · rw [if_pos hl]; exact .bad (by simp)
  · rw [if_neg hl, if_neg (by rw [List.length_append]; omega : ¬ ((t &&& 7) + (3 - 1) = 2 ∧ (r' ++ ext).length < 2))]
    cases h1 : rd16 r' with
    | error e => exact .err
    | ok w =>
      obtain ⟨v, r1⟩ := w
      rw [rd16_app ext h1]
      dsimp only
      split
      · rename_i hm
        refine ⟨by simp, fun x hx h0 hext => ?_⟩
        cases hx
        dsimp only at h0
        split at h0
        · cases h0
        · rename_i h3
          exact ⟨_, rfl, by dsimp only; rw [if_neg h3, if_neg (by simp [hext])]⟩
      · exact copyMatch_app ..

theorem step_app (cap : Nat) (r o : Bytes) (s : Nat) (ext : Bytes) : Cont ext (step cap r o s) (step cap (r ++ ext) o s) := by
  unfold step
  cases h1 : rd r with
  | error e => exact .err
  | ok w =>
    obtain ⟨b, r1⟩ := w
    rw [rd_app ext h1]
    dsimp only
    split
    · split
      · exact litInstr_app ..
      · split
        · exact m1Instr_app ..
        · exact m1FarInstr_app ..
    · split
      · exact m2Instr_app ..
      · split
        · exact m3Instr_app ..
        · exact m4Instr_app ..

theorem start_app (cap : Nat) (r ext : Bytes) : Cont ext (start cap r) (start cap (r ++ ext)) := by
  unfold start
  cases h1 : rd r with
  | error e => exact .err
  | ok w =>
    obtain ⟨b, r1⟩ := w
    rw [rd_app ext h1]
    dsimp only
    split
    · split
      · exact finish_app ..
      · split
        · exact .bad (by simp)
        · split
          · exact .bad (by simp)
          · rename_i hl
            rw [if_neg (by rw [List.length_append]; omega)]
            cases hc : copyLit cap (b.toNat - 17) r1 [] with
            | error e => exact .err
            | ok v =>
              obtain ⟨r2, o2⟩ := v
              rw [copyLit_app cap ext _ _ _ _ _ hc]
              exact .go
    · exact .go

theorem loop_app (cap : Nat) (ext : Bytes) (hext : ext ≠ []) : ∀ (f k : Nat) (r o : Bytes) (s : Nat) (x : Ret),
    loop cap f r o s = .ok x → x.code = 0 → ∃ y, loop cap (f + k) (r ++ ext) o s = .ok y ∧ y.code = -8
  | 0, k, r, o, s, x, h, h0 => by cases h
  | f + 1, k, r, o, s, x, h, h0 => by
    rw [show f + 1 + k = (f + k) + 1 by omega]
    unfold loop at h ⊢
    obtain ⟨c1, c2⟩ := step_app cap r o s ext
    cases hs : step cap r o s with
    | error e => rw [hs] at h; cases h
    | ok v =>
      rw [hs] at h
      cases v with
      | ret z =>
        cases h
        obtain ⟨y, hy, h8⟩ := c2 x hs h0 hext
        rw [hy]
        exact ⟨y, rfl, h8⟩
      | go v =>
        obtain ⟨r', o', s'⟩ := v
        rw [c1 r' o' s' hs]
        exact loop_app cap ext hext f k r' o' s' x h h0

/-- Bytes after a complete stream are noticed. -/
theorem decompressRaw_app (cap : Nat) (z ext : Bytes) (hext : ext ≠ []) (x : Ret) (h : decompressRaw cap z = .ok x)
    (h0 : x.code = 0) : ∃ y, decompressRaw cap (z ++ ext) = .ok y ∧ y.code = -8 := by
  unfold decompressRaw decompressFuel at *
  split at h
  · rename_i hl
    rw [if_pos (by rw [List.length_append]; omega)]
    obtain ⟨c1, c2⟩ := start_app cap z ext
    cases hs : start cap z with
    | error e => rw [hs] at h; cases h
    | ok v =>
      rw [hs] at h
      cases v with
      | ret w =>
        cases h
        obtain ⟨y, hy, h8⟩ := c2 x hs h0 hext
        rw [hy]
        exact ⟨y, rfl, h8⟩
      | go v =>
        obtain ⟨r', o', s'⟩ := v
        rw [c1 r' o' s' hs, List.length_append, show z.length + ext.length + 1 = (z.length + 1) + ext.length by omega]
        exact loop_app cap ext hext _ _ r' o' s' x h h0
  · cases h; cases h0

/-- Bytes after a complete stream are an error -/
theorem decompress_app (cap : Nat) (z ext out : Bytes) (hext : ext ≠ []) (h : decompress cap z = .ok (.ok out)) :
    decompress cap (z ++ ext) = .ok (.error (-8)) := by
  unfold decompress at *
  cases hr : decompressRaw cap z with
  | error e => rw [hr] at h; cases h
  | ok x =>
    rw [hr] at h
    dsimp only at h
    split at h
    · rename_i h0
      obtain ⟨y, hy, h8⟩ := decompressRaw_app cap z ext hext x hr h0
      rw [hy]
      dsimp only
      rw [if_neg (by rw [h8]; decide), h8]
    · cases h

end Verif.Lzo
