import Verif.Model.Preproc
/-!
Fuel of the preprocessor model: once a run answers anything but "out of fuel", more fuel does not
change the answer.
-/
namespace Verif.Preproc

/-- `b` is `a` unless `a` ran out of fuel. -/
def Le {α} (a b : Except PErr α) : Prop := a = .error .fuel ∨ a = b

theorem Le.rfl {α} {a : Except PErr α} : Le a a := .inr _root_.rfl

theorem Le.fuel {α} {b : Except PErr α} : Le (.error .fuel) b := .inl _root_.rfl

theorem Le.trans {α} {a b c : Except PErr α} (h : Le a b) (k : Le b c) : Le a c := by
  rcases h with h | h
  · exact .inl h
  · rw [h]; exact k

/-- All functions gain from more fuel. -/
def Mono (n : Nat) : Prop :=
  (∀ env site im q jw quote st toks buf,
    Le (walk n env site im q jw quote st toks buf) (walk (n + 1) env site im q jw quote st toks buf)) ∧
  (∀ env site st toks buf, Le (defineUse n env site st toks buf) (defineUse (n + 1) env site st toks buf)) ∧
  (∀ env site q depth st toks args arg,
    Le (readArgs n env site q depth st toks args arg) (readArgs (n + 1) env site q depth st toks args arg)) ∧
  (∀ env st toks buf, Le (directive n env st toks buf) (directive (n + 1) env st toks buf)) ∧
  (∀ env st cmd toks buf, Le (command n env st cmd toks buf) (command (n + 1) env st cmd toks buf)) ∧
  (∀ env st toks buf, Le (file n env st toks buf) (file (n + 1) env st toks buf)) ∧
  (∀ env st toks buf, Le (line n env st toks buf) (line (n + 1) env st toks buf))

/-- `.error e => .error e` on both sides. -/
theorem Le.bind {α β} {a b : Except PErr α} (h : Le a b) {F G : Except PErr α → Except PErr β}
    (hF : ∀ e, F (.error e) = .error e) (hFG : ∀ x, Le (F x) (G x)) :
    Le (F a) (G b) := by
  rcases h with h | h
  · rw [h, hF]; exact .inl _root_.rfl
  · rw [h]; exact hFG b

set_option simprocs false in
theorem mono (n : Nat) : Mono n := by
  induction n with
  | zero =>
    refine ⟨?_, ?_, ?_, ?_, ?_, ?_, ?_⟩ <;> intros <;> left
    · rw [walk]
    · rw [defineUse]
    · rw [readArgs]
    · rw [directive]
    · rw [command]
    · rw [file]
    · rw [line]
  | succ n ih =>
    obtain ⟨hw, hd, hr, hdir, hc, hf, hl⟩ := ih
    refine ⟨?_, ?_, ?_, ?_, ?_, ?_, ?_⟩
    · intro env site im q jw quote st toks buf
      cases toks with
      | nil => rw [walk.eq_def (n + 1), walk.eq_def (n + 1 + 1)]; dsimp only; exact .rfl
      | cons t rest =>
        rw [walk.eq_def (n + 1), walk.eq_def (n + 1 + 1)]; dsimp only
        split
        · split
          · exact .rfl
          split
          · exact .rfl
          split
          · rename_i h
            have := hd env (site.getD t.pos) st (t :: rest) buf
            rcases this with h | h
            · rw [h]; exact .fuel
            · rw [h]
              split
              · exact .rfl
              · exact hw ..
          · exact hw ..
        · split
          · have := hdir env st (t :: rest) buf
            rcases this with h | h
            · rw [h]; exact .fuel
            · rw [h]
              split
              · exact .rfl
              · exact hw ..
          split <;> exact hw ..
        · split
          · exact .rfl
          · exact hw ..
        all_goals first | exact hw .. | exact .rfl
    · intro env site st toks buf
      rw [defineUse.eq_def (n + 1), defineUse.eq_def (n + 1 + 1)]; dsimp only
      split
      · exact .rfl
      · split
        · exact .rfl
        · split
          · split
            · exact .rfl
            · split
              · exact .rfl
              · rename_i toks _ _ _ _ _ _ _ _ _ _ _ _ _
                rcases hr env site false 0 _ _ [] [] with h | h
                · rw [h]; exact .fuel
                · rw [h]
                  split
                  · exact .rfl
                  · split
                    · exact .rfl
                    · rcases hw env (some site) _ false true none _ _ [] with h | h
                      · rw [h]; exact .fuel
                      · rw [h]; exact .rfl
          · split
            · exact .rfl
            · rcases hw env (some site) _ false true none _ _ [] with h | h
              · rw [h]; exact .fuel
              · rw [h]; exact .rfl
          · exact .rfl
          · exact .rfl
    · intro env site q depth st toks args arg
      cases toks with
      | nil => rw [readArgs.eq_def (n + 1), readArgs.eq_def (n + 1 + 1)]; dsimp only; exact .rfl
      | cons t rest =>
        rw [readArgs.eq_def (n + 1), readArgs.eq_def (n + 1 + 1)]; dsimp only
        split
        · exact hr ..
        split
        · split
          · rcases hd env site st (t :: rest) [] with h | h
            · rw [h]; exact .fuel
            · rw [h]
              split
              · exact .rfl
              · exact hr ..
          · exact hr ..
        · exact hr ..
        · split
          · exact .rfl
          · exact hr ..
        all_goals exact hr ..
    · intro env st toks buf
      cases toks with
      | nil => rw [directive.eq_def (n + 1), directive.eq_def (n + 1 + 1)]; dsimp only; exact .rfl
      | cons t rest =>
        cases rest with
        | nil => rw [directive.eq_def (n + 1), directive.eq_def (n + 1 + 1)]; dsimp only; split <;> exact .rfl
        | cons c rest =>
          rw [directive.eq_def (n + 1), directive.eq_def (n + 1 + 1)]; dsimp only
          split
          · split
            · rcases hc env st c rest buf with h | h
              · rw [h]; exact .fuel
              · rw [h]; exact .rfl
            · exact .rfl
          · exact .rfl
    · intro env st cmd toks buf
      rw [command.eq_def (n + 1), command.eq_def (n + 1 + 1)]; dsimp only
      split
      · exact .rfl
      split
      · exact .rfl
      split
      · split
        · split
          · exact .rfl
          · rename_i found inner ws toks _
            rcases hf env { st with
              pragma := st.pragma.child, files := found :: st.files,
              included := st.included ++ [found], warns := st.warns ++ ws } inner buf with h | h
            · rw [h]; exact .fuel
            · rw [h]; exact .rfl
        · exact .rfl
      · exact .rfl
    · intro env st toks buf
      cases toks with
      | nil => rw [file.eq_def (n + 1), file.eq_def (n + 1 + 1)]; dsimp only; exact .rfl
      | cons t rest =>
        rw [file.eq_def (n + 1), file.eq_def (n + 1 + 1)]; dsimp only
        split
        · exact .rfl
        · rcases hl env st (t :: rest) buf with h | h
          · rw [h]; exact .fuel
          · rw [h]
            split
            · exact .rfl
            · exact hf ..
    · intro env st toks buf
      rw [line.eq_def (n + 1), line.eq_def (n + 1 + 1)]; dsimp only
      rcases hdir env st (skipWsOut st toks buf).1 (skipWsOut st toks buf).2 with h | h
      · rw [h]; exact .fuel
      · rw [h]
        split
        · exact .rfl
        · exact .rfl
        · split
          · rename_i st' toks' buf' _ _
            rcases hw env none none false true none st' toks' buf' with h | h
            · rw [h]; exact .fuel
            · rw [h]; exact .rfl
          · exact .rfl


theorem le_of_step {α} {f : Nat → Except PErr α} (h : ∀ n, Le (f n) (f (n + 1))) {n m : Nat}
    (hnm : n ≤ m) : Le (f n) (f m) := by
  induction m, hnm using Nat.le_induction with
  | base => exact .rfl
  | succ m _ ih => exact ih.trans (h m)

theorem eq_of_le {α} {f : Nat → Except PErr α} (h : ∀ n, Le (f n) (f (n + 1))) {n m : Nat}
    (hnm : n ≤ m) {r : Except PErr α} (hr : f n = r) (hne : r ≠ .error .fuel) : f m = r := by
  rcases le_of_step h hnm with h' | h'
  · exact absurd (hr.symm.trans h') hne
  · exact h'.symm.trans hr

theorem walk_more {env site im q jw quote st toks buf} {n m : Nat} (hnm : n ≤ m) {r : R}
    (hr : walk n env site im q jw quote st toks buf = r) (hne : r ≠ .error .fuel) :
    walk m env site im q jw quote st toks buf = r :=
  eq_of_le (f := fun n => walk n env site im q jw quote st toks buf)
    (fun n => (mono n).1 ..) hnm hr hne

theorem defineUse_more {env site st toks buf} {n m : Nat} (hnm : n ≤ m) {r : R}
    (hr : defineUse n env site st toks buf = r) (hne : r ≠ .error .fuel) :
    defineUse m env site st toks buf = r :=
  eq_of_le (f := fun n => defineUse n env site st toks buf) (fun n => (mono n).2.1 ..) hnm hr hne

theorem readArgs_more {env site q d st toks args arg} {n m : Nat} (hnm : n ≤ m) {r}
    (hr : readArgs n env site q d st toks args arg = r) (hne : r ≠ .error .fuel) :
    readArgs m env site q d st toks args arg = r :=
  eq_of_le (f := fun n => readArgs n env site q d st toks args arg)
    (fun n => (mono n).2.2.1 ..) hnm hr hne

theorem command_more {env st cmd toks buf} {n m : Nat} (hnm : n ≤ m) {r}
    (hr : command n env st cmd toks buf = r) (hne : r ≠ .error .fuel) :
    command m env st cmd toks buf = r :=
  eq_of_le (f := fun n => command n env st cmd toks buf) (fun n => (mono n).2.2.2.2.1 ..) hnm hr hne

theorem file_more {env st toks buf} {n m : Nat} (hnm : n ≤ m) {r : R}
    (hr : file n env st toks buf = r) (hne : r ≠ .error .fuel) : file m env st toks buf = r :=
  eq_of_le (f := fun n => file n env st toks buf) (fun n => (mono n).2.2.2.2.2.1 ..) hnm hr hne

theorem line_more {env st toks buf} {n m : Nat} (hnm : n ≤ m) {r : R}
    (hr : line n env st toks buf = r) (hne : r ≠ .error .fuel) : line m env st toks buf = r :=
  eq_of_le (f := fun n => line n env st toks buf) (fun n => (mono n).2.2.2.2.2.2 ..) hnm hr hne

end Verif.Preproc
