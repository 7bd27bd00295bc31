import Mathlib.Data.List.Infix
import Verif.Model.Update
/-!
C128: the check for a newer version.
-/
namespace Verif.Update

/-- Twelve hours, in milliseconds. -/
def halfDay : Nat := 12 * 60 * 60 * 1000

/-- A version that is checked for: neither a local nor a debug one. -/
def Checked (version : Text) : Prop :=
  ¬ "-local".toList <:+: version ∧ ¬ "-debug".toList <:+: version

/-- The times of the requests that got a proper answer. -/
def answered {V : Type} (l : List (Cmd × Out V × Bool)) : List Nat :=
  (l.filter (fun x => x.2.2 && x.1.answer.isSome)).map (fun x => x.1.now)

theorem contains_iff (s pat : Text) : contains s pat = true ↔ pat <:+: s := by
  simp only [contains, List.any_eq_true, List.mem_tails, List.isPrefixOf_iff_prefix]
  constructor
  · rintro ⟨t, h1, h2⟩
    exact h2.isInfix.trans h1.isInfix
  · rintro ⟨a, b, h⟩
    exact ⟨pat ++ b, ⟨a, by rw [← h]; simp⟩, ⟨b, rfl⟩⟩

theorem check_checked {V : Type} (S : Semver V) {version : Text} (hv : Checked version) (cache : Cache) (c : Cmd) :
    check S version cache c = if needCheck c.now cache then
      match c.answer with
      | none => (.failed, cache, true)
      | some tag => match c.stopped with
        | some k => (.nothing, some (c.now, tag.take k), true)
        | none => (compare S version (some (c.now, tag)), some (c.now, tag), true)
      else (compare S version cache, cache, false) := by
  unfold check
  have : ¬ (contains version "-local".toList || contains version "-debug".toList) = true := by
    rw [Bool.or_eq_true, contains_iff, contains_iff]
    rintro (h | h)
    · exact hv.1 h
    · exact hv.2 h
  rw [if_neg this]
  rfl

theorem needCheck_some {now t : Nat} {s : Text} : needCheck now (some (t, s)) = true ↔ t + halfDay + 1000 ≤ now := by
  simp only [needCheck, halfDay, decide_eq_true_iff]
  omega

/-- **C128**. Two requests that are answered are more than twelve hours apart, in every sequence of commands, whether
commands are stopped or not; and none comes less than twelve hours after the file was written. -/
theorem C128_requests {V : Type} (S : Semver V) (version : Text) (cache : Cache) (cs : List Cmd) :
    (answered (run S version cache cs)).Pairwise (fun a b => a + halfDay < b) ∧
      ∀ t s, cache = some (t, s) → ∀ b ∈ answered (run S version cache cs), t + halfDay < b := by
  induction cs generalizing cache with
  | nil => exact ⟨List.Pairwise.nil, fun _ _ _ b hb => by cases hb⟩
  | cons c cs ih =>
    rw [run]
    have key : ((check S version cache c).2.2 && c.answer.isSome) = true →
        (∃ s, (check S version cache c).2.1 = some (c.now, s)) ∧
          ∀ t s, cache = some (t, s) → t + halfDay < c.now := by
      intro h
      unfold check at h ⊢
      split
      · rename_i hl; rw [if_pos hl] at h; cases h
      · rename_i hl
        rw [if_neg hl] at h
        split
        · rename_i hn
          rw [if_pos hn] at h
          cases ha : c.answer with
          | none => rw [ha] at h; cases h
          | some tag =>
            refine ⟨?_, ?_⟩
            · dsimp only
              cases c.stopped with
              | none => exact ⟨_, rfl⟩
              | some k => exact ⟨_, rfl⟩
            · rintro t s rfl
              have := needCheck_some.1 hn
              omega
        · rename_i hn; rw [if_neg hn] at h; cases h
    have keep : ¬ ((check S version cache c).2.2 && c.answer.isSome) = true → (check S version cache c).2.1 = cache := by
      intro h
      unfold check at h ⊢
      split
      · rfl
      · rename_i hl
        rw [if_neg hl] at h
        split
        · rename_i hn
          rw [if_pos hn] at h
          cases ha : c.answer with
          | none => rfl
          | some tag =>
            rw [ha] at h
            dsimp only at h
            cases hs : c.stopped <;> rw [hs] at h <;> simp at h
        · rfl
    obtain ⟨ih1, ih2⟩ := ih (check S version cache c).2.1
    unfold answered
    rw [List.filter_cons]
    by_cases h : ((check S version cache c).2.2 && c.answer.isSome) = true
    · obtain ⟨⟨s', h1⟩, h2⟩ := key h
      rw [if_pos h, List.map_cons]
      have h3 := ih2 _ _ h1
      refine ⟨List.pairwise_cons.2 ⟨h3, ih1⟩, ?_⟩
      intro t s hc b hb
      have := h2 t s hc
      rcases List.mem_cons.1 hb with rfl | hb
      · exact this
      · have := h3 b hb; omega
    · rw [if_neg h]
      rw [keep h] at ih1 ih2 ⊢
      exact ⟨ih1, ih2⟩

/-- The file holds an answer that was given to one of the commands. -/
def From (cache : Cache) (seen : List Cmd) : Prop :=
  ∀ t s, cache = some (t, s) → ∃ c ∈ seen, c.now = t ∧ c.answer = some s

theorem check_from {V : Type} (S : Semver V) (version : Text) (cache : Cache) (seen : List Cmd) (c : Cmd)
    (h : From cache seen) (hs : c.stopped = none) : From (check S version cache c).2.1 (seen ++ [c]) := by
  have hk : From cache (seen ++ [c]) := by
    intro t s hc
    obtain ⟨d, h1, h2⟩ := h t s hc
    exact ⟨d, by simp [h1], h2⟩
  unfold check
  split
  · exact hk
  · split
    · cases ha : c.answer with
      | none => exact hk
      | some tag =>
        rw [hs]
        intro t s hc
        cases hc
        exact ⟨c, by simp, rfl, ha⟩
    · exact hk

theorem compare_newer {V : Type} (S : Semver V) {version : Text} {cache : Cache} {v : V}
    (h : compare S version cache = .newer v) :
    ∃ cur t ch s, S.parse version = some cur ∧ cache = some (t, ch :: s) ∧ S.parse s = some v ∧
      S.newer v cur = true := by
  unfold compare at h
  split at h
  · cases h
  · rename_i cur hcur
    split at h
    · cases h
    · rename_i t text
      split at h
      · cases h
      · rename_i rest hr
        split at h
        · cases h
        · rename_i latest hl
          split at h
          · rename_i hn
            cases h
            cases text with
            | nil => cases hr
            | cons ch s =>
              rw [dropByte] at hr
              split at hr
              · cases hr
                exact ⟨cur, t, ch, _, hcur, rfl, hl, hn⟩
              · cases hr
          · cases h

/-- **C128**. A version that is announced is newer than the running one and was the newest release according to an
answer that some command got, at most twelve hours (and a second) before: whatever happened to the other requests, if
no command was stopped during the writing. -/
theorem C128_announced {V : Type} (S : Semver V) (version : Text) (before : List Cmd) (cache : Cache)
    (hf : From cache before) (cs : List Cmd) (hs : ∀ c ∈ cs, c.stopped = none) (c : Cmd) (v : V) (b : Bool)
    (h : (c, Out.newer v, b) ∈ run S version cache cs) :
    ∃ cur d ch s, d ∈ before ++ cs ∧ d.answer = some (ch :: s) ∧ S.parse s = some v ∧ S.parse version = some cur ∧
      S.newer v cur = true ∧ c.now < d.now + halfDay + 1000 := by
  induction cs generalizing cache before with
  | nil => cases h
  | cons x cs ih =>
    rw [run] at h
    rcases List.mem_cons.1 h with h | h
    · rw [Prod.mk.injEq, Prod.mk.injEq] at h
      obtain ⟨rfl, h, -⟩ := h
      have hx : ∃ ca, compare S version ca = .newer v ∧ From ca (before ++ c :: cs) ∧ needCheck c.now ca = false := by
        have hk : From cache (before ++ c :: cs) := by
          intro t s hc
          obtain ⟨d, h1, h2⟩ := hf t s hc
          exact ⟨d, by simp [h1], h2⟩
        unfold check at h
        split at h
        · cases h
        · split at h
          · cases ha : c.answer with
            | none => rw [ha] at h; cases h
            | some tag =>
              rw [ha, hs c (by simp)] at h
              dsimp only at h
              refine ⟨_, h.symm, ?_, ?_⟩
              · intro t s hc
                cases hc
                exact ⟨c, by simp, rfl, ha⟩
              · rw [← Bool.not_eq_true, needCheck_some]; omega
          · rename_i hn
            exact ⟨_, h.symm, hk, by simpa using hn⟩
      obtain ⟨ca, h1, h2, h3⟩ := hx
      obtain ⟨cur, t, ch, s, e1, e2, e3, e4⟩ := compare_newer S h1
      obtain ⟨d, m1, m2, m3⟩ := h2 _ _ e2
      refine ⟨cur, d, ch, s, m1, m3, e3, e1, e4, ?_⟩
      rw [e2] at h3
      rw [← Bool.not_eq_true, needCheck_some] at h3
      omega
    · have := ih (before ++ [x]) (check S version cache x).2.1 (check_from S version cache before x hf (hs x (by simp)))
        (fun d hd => hs d (by simp [hd])) h
      simpa using this

/-- **C128**. After an answer that could be read every command of the next twelve hours says whether the release is
newer than the running version, without a request. -/
theorem C128_within {V : Type} (S : Semver V) (version : Text) (hv : Checked version) (cur : V)
    (hc : S.parse version = some cur) (t : Nat) (ch : Char) (hch : ch.utf8Size = 1) (s : Text) (latest : V)
    (hl : S.parse s = some latest) (cs : List Cmd) (hn : ∀ c ∈ cs, c.now ≤ t + halfDay) :
    ∀ x ∈ run S version (some (t, ch :: s)) cs, x.2.2 = false ∧
      (x.2.1 = .newer latest ∨ x.2.1 = .nothing) ∧ (x.2.1 = .newer latest ↔ S.newer latest cur = true) := by
  induction cs with
  | nil => intro x hx; cases hx
  | cons c cs ih =>
    have hnc : needCheck c.now (some (t, ch :: s)) = false := by
      rw [← Bool.not_eq_true, needCheck_some]
      have := hn c (by simp)
      omega
    have hch2 : check S version (some (t, ch :: s)) c =
        (compare S version (some (t, ch :: s)), some (t, ch :: s), false) := by
      rw [check_checked S hv, hnc]; rfl
    have hcmp : compare S version (some (t, ch :: s)) = if S.newer latest cur then .newer latest else .nothing := by
      unfold compare
      rw [hc]
      simp only [dropByte, hch, if_true, hl]
    intro x hx
    rw [run] at hx
    rw [hch2] at hx
    rcases List.mem_cons.1 hx with rfl | hx
    · dsimp only
      rw [hcmp]
      cases S.newer latest cur <;> simp
    · exact ih (fun d hd => hn d (by simp [hd])) x hx

/-- **C128**. When there is no proper answer the check fails, the file stays as it is, and the command goes on. -/
theorem C128_no_answer {V : Type} (S : Semver V) (version : Text) (cache : Cache) (now : Nat) :
    (check S version cache ⟨now, none, none⟩).2.1 = cache ∧
      ((check S version cache ⟨now, none, none⟩).2.2 = true → (check S version cache ⟨now, none, none⟩).1 = .failed) := by
  unfold check
  split
  · exact ⟨rfl, fun h => by cases h⟩
  · split
    · exact ⟨rfl, fun _ => rfl⟩
    · exact ⟨rfl, fun h => by cases h⟩

/-- **C128**. A local or a debug version never asks, never says anything and leaves the file alone. -/
theorem C128_local {V : Type} (S : Semver V) (version : Text) (hv : ¬ Checked version) (cache : Cache) (cs : List Cmd) :
    ∀ x ∈ run S version cache cs, x.2 = (.nothing, false) := by
  have hc : ∀ c, check S version cache c = (.nothing, cache, false) := by
    intro c
    unfold check
    rw [if_pos]
    rw [Bool.or_eq_true, contains_iff, contains_iff]
    by_contra h
    rw [not_or] at h
    exact hv h
  induction cs with
  | nil => intro x hx; cases hx
  | cons c cs ih =>
    intro x hx
    rw [run] at hx
    rw [hc] at hx
    rcases List.mem_cons.1 hx with rfl | hx
    · rfl
    · exact ih x hx

/-- **C128**, violated: when a command is stopped after the file was created and before the name was written, every
command of the next twelve hours crashes, since the file is empty. -/
theorem C128_violated_stopped {V : Type} (S : Semver V) (version : Text) (hv : Checked version) (cur : V)
    (hc : S.parse version = some cur) (t : Nat) (tag : Text) (cs : List Cmd) (hn : ∀ c ∈ cs, c.now ≤ t + halfDay) :
    ∀ x ∈ (run S version none (⟨t, some tag, some 0⟩ :: cs)).tail, x.2.1 = .crash := by
  have h0 : check S version none ⟨t, some tag, some 0⟩ = (.nothing, some (t, []), true) := by
    rw [check_checked S hv]; rfl
  rw [run]
  rw [h0, List.tail_cons]
  dsimp only
  induction cs with
  | nil => intro x hx; cases hx
  | cons c cs ih =>
    have hnc : needCheck c.now (some (t, [])) = false := by
      rw [← Bool.not_eq_true, needCheck_some]
      have := hn c (by simp)
      omega
    have h1 : check S version (some (t, [])) c = (.crash, some (t, []), false) := by
      rw [check_checked S hv, hnc]
      simp [compare, hc, dropByte]
    intro x hx
    rw [run] at hx
    rw [h1] at hx
    rcases List.mem_cons.1 hx with rfl | hx
    · rfl
    · exact ih (fun d hd => hn d (by simp [hd])) x hx

/-! ### Cases -/

/-- Numbers as versions. -/
def S : Semver Nat := ⟨fun t => if t ≠ [] ∧ t.all (fun c => '0' ≤ c && c ≤ '9') then
    some (t.foldl (fun n c => 10 * n + (c.toNat - 48)) 0) else none, fun a b => decide (b < a)⟩

example : Checked "1.14.1".toList := by unfold Checked; decide +kernel
example : ¬ Checked "1.14.1-local".toList := by unfold Checked; decide +kernel
example : run S "7".toList none
    [⟨0, none, none⟩, ⟨10, some "v8".toList, none⟩, ⟨20, none, none⟩, ⟨43201020, some "v9".toList, none⟩] =
    [(⟨0, none, none⟩, .failed, true), (⟨10, some "v8".toList, none⟩, .newer 8, true), (⟨20, none, none⟩, .newer 8, false),
      (⟨43201020, some "v9".toList, none⟩, .newer 9, true)] := by decide +kernel
example : run S "7".toList none [⟨10, some "v8".toList, some 0⟩, ⟨43200010, some "v8".toList, none⟩] =
    [(⟨10, some "v8".toList, some 0⟩, .nothing, true), (⟨43200010, some "v8".toList, none⟩, .crash, false)] := by
  decide +kernel

/-- **C128**, violated: a command that is stopped a little later leaves the name of another release. -/
theorem C128_violated_cut : run S "7".toList none [⟨10, some "v12".toList, some 2⟩, ⟨20, some "v12".toList, none⟩] =
    [(⟨10, some "v12".toList, some 2⟩, .nothing, true), (⟨20, some "v12".toList, none⟩, .nothing, false)] := by
  decide +kernel

end Verif.Update
