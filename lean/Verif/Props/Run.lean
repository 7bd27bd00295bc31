import Verif.Model.Run
import Verif.Props.Reporting
/-! C138: how a run of the program ends. -/
namespace Verif.Run
open Verif.Reporting

/-- The commands that begin by opening the project. -/
def OnProject (c : Cmd) : Prop := c ∈ [Cmd.check, .dev, .build, .release, .localization, .script, .value]

instance (c : Cmd) : Decidable (OnProject c) := by unfold OnProject; infer_instance

/-- The commands that need no project. -/
def Alone (c : Cmd) : Prop := c ∈ [Cmd.new, .utils, .wiki]

instance (c : Cmd) : Decidable (Alone c) := by unfold Alone; infer_instance

/-- None of the reports is an error. -/
def Clean (codes : List Code) : Prop := ∀ c ∈ codes, c.severity ≠ .error

/-- Every visible report can be turned into annotations (its places are in the files), and these are the lines. -/
def Lines (codes : List Code) (t : Text) : Prop :=
  ∃ as : List (List Annotation), (shown codes false).mapM annotations = some as ∧ t = (as.flatten.map Annotation.line).flatten

theorem lines_iff (codes : List Code) (t : Text) : ciAnnotations codes = some t ↔ Lines codes t := by
  constructor
  · exact C97_ci codes t
  · rintro ⟨as, h, rfl⟩
    unfold ciAnnotations
    unfold shown at h
    simp only [h, Option.bind_eq_bind, Option.bind_some, Option.pure_def, List.flatMap_def]

theorem clean_iff (codes : List Code) : failed codes = false ↔ Clean codes := by
  rw [← Bool.not_eq_true, C97_failed]
  unfold Clean
  simp

theorem onProject_command {c : Cmd} (h : OnProject c) (w : Course) (f : Folder) :
    command w f c = openThen w f ∧ annotates c = true ∧ (starts f c = true ∨ f.hemtt = false) := by
  unfold OnProject at h
  simp only [List.mem_cons, List.not_mem_nil, or_false] at h
  rcases h with rfl | rfl | rfl | rfl | rfl | rfl | rfl <;>
    refine ⟨rfl, rfl, ?_⟩ <;> cases hf : f.hemtt <;> simp [starts, hf]

/-- C138: a run on a project succeeds exactly if the project can be opened, the command comes to an end with reports none
of which is an error, and the annotations can be made. What earlier runs left does not matter. -/
theorem C138_status (withIncludes : Bool) (w : Course) (f : Folder) (c : Cmd) (h : OnProject c) :
    (execute withIncludes w f c).status = 0 ↔
      f.hemtt = true ∧ w.opening = .opens ∧ ∃ codes, w.body = .report codes ∧ Clean codes ∧ ∃ t, Lines codes t := by
  obtain ⟨h1, h2, h3⟩ := onProject_command h w f
  unfold execute
  rw [h1]
  unfold openThen
  rcases h3 with h3 | h3
  · rw [if_pos h3]
    cases hf : f.hemtt with
    | false => simp [finish]
    | true =>
      cases ho : w.opening with
      | failsBefore => simp [finish]
      | failsAfter => simp [finish]
      | opens =>
        cases hb : w.body with
        | error => simp [finish]
        | stop => simp [finish]
        | report codes =>
          simp only [finish, h2, if_true, Bool.not_true, Bool.false_eq_true, if_false, true_and, Result.report.injEq,
            exists_eq_left']
          cases hc : ciAnnotations codes with
          | none =>
            simp only [Nat.one_ne_zero, false_iff, not_and, not_exists]
            intro _ t ht
            rw [(lines_iff codes t).2 ht] at hc
            cases hc
          | some t =>
            simp only []
            constructor
            · intro hs
              refine ⟨(clean_iff codes).1 ?_, t, (lines_iff codes t).1 hc⟩
              cases hfl : failed codes with
              | false => rfl
              | true => rw [hfl] at hs; cases hs
            · rintro ⟨hs, _⟩
              rw [(clean_iff codes).2 hs]
              rfl
  · rw [h3]
    split <;> simp [finish]

/-- C138: after such a run, failed or not, the file of annotations holds exactly those of its reports, whatever it held
before (or even if it did not exist). All visible reports are shown. -/
theorem C138_annotations (withIncludes : Bool) (w : Course) (f : Folder) (c : Cmd) (h : OnProject c) (hf : f.hemtt = true)
    (ho : w.opening = .opens) (codes : List Code) (hb : w.body = .report codes) (t : Text) (ht : Lines codes t) :
    (execute withIncludes w f c).folder.annotations = some t ∧
      ∀ d, d ∈ (execute withIncludes w f c).shown ↔ ∃ k ∈ codes, Visible withIncludes k ∧ k.diagnostic = some d := by
  obtain ⟨h1, h2, h3⟩ := onProject_command h w f
  have h3 : starts f c = true := by
    rcases h3 with h3 | h3
    · exact h3
    · rw [hf] at h3; cases h3
  unfold execute
  rw [if_pos h3, h1]
  unfold openThen
  rw [hf, ho, hb]
  simp only [finish, h2, if_true, Bool.not_true, Bool.false_eq_true, if_false, (lines_iff codes t).2 ht, List.nil_append]
  exact ⟨trivial, fun d => C97_shown codes withIncludes d⟩

/-- C138: the commands that need no project can be run anywhere: they change nothing of what a project's runs leave, and
fail exactly if they end with an error (`wiki` never does). -/
theorem C138_alone (withIncludes : Bool) (w : Course) (f : Folder) (c : Cmd) (h : Alone c) :
    (execute withIncludes w f c).folder = f ∧
      ((execute withIncludes w f c).status = 0 ↔ c = .wiki ∨ ∃ codes, w.body = .report codes ∧ (c = .new → Clean codes)) := by
  unfold Alone at h
  simp only [List.mem_cons, List.not_mem_nil, or_false] at h
  rcases h with rfl | rfl | rfl
  · cases hb : w.body with
    | error => simp [execute, starts, command, finish, hb]
    | stop => simp [execute, starts, command, finish, hb]
    | report codes =>
      simp only [execute, starts, command, finish, hb, annotates, if_true, Bool.false_eq_true, if_false, true_and,
        reduceCtorEq, false_or, Result.report.injEq, exists_eq_left', forall_const]
      rw [← clean_iff]
      cases failed codes <;> simp
  · cases hb : w.body with
    | error => simp [execute, starts, command, finish, hb]
    | stop => simp [execute, starts, command, finish, hb]
    | report codes =>
      simp [execute, starts, command, finish, hb, annotates, failed, errors, filterCodes]
  · simp [execute, starts, command, finish, annotates, failed, errors, filterCodes]

/-- C138: an end other than by a report is never a success, whatever the command. -/
theorem C138_fails (withIncludes : Bool) (w : Course) (f : Folder) (c : Cmd)
    (h : ¬ ∃ codes, (command w f c).1 = .report codes) : (execute withIncludes w f c).status = 1 := by
  unfold execute
  split
  · cases hc : command w f c with
    | mk r g =>
      cases r with
      | report codes => rw [hc] at h; exact absurd ⟨codes, rfl⟩ h
      | error => rfl
      | stop => rfl
  · rfl

/-- C138: if an error is reported the run fails, whatever the command. -/
theorem C138_error (withIncludes : Bool) (w : Course) (f : Folder) (c : Cmd) (codes : List Code)
    (h : (command w f c).1 = .report codes) (he : ¬ Clean codes) : (execute withIncludes w f c).status = 1 := by
  have hf : failed codes = true := by
    cases hb : failed codes with
    | true => rfl
    | false => exact absurd ((clean_iff codes).1 hb) he
  unfold execute
  split
  · cases hc : command w f c with
    | mk r g =>
      rw [hc] at h
      subst h
      simp only [finish, hf, if_true]
      split
      · split
        · rfl
        · split <;> rfl
      · rfl
  · rfl

/-! #### Commands that do not open the project -/

/-- C138 is violated by `book`: where no command has been run on a project before, it opens the book and then fails, as if
something was wrong, because there is no file to write its (no) annotations to. -/
theorem C138_violated_book (withIncludes : Bool) (w : Course) (f : Folder) (h : f.annotations = none) :
    (command w f .book).1 = .report [] ∧ (execute withIncludes w f .book).status = 1 ∧
      (execute withIncludes w f .book).shown = [] := by
  refine ⟨rfl, ?_, ?_⟩
  · simp [execute, starts, command, finish, annotates, h]
  · simp [execute, starts, command, finish, annotates, h, shown, helps, warnings, errors, filterCodes]

/-- C138 is violated by `launch` (and `photoshoot`) when it ends without a build, as with `--quick`: the annotations of the
run before stay in the file. -/
theorem C138_violated_launch (withIncludes : Bool) (w : Course) (f : Folder) (c : Cmd) (hc : c = .launch ∨ c = .photoshoot)
    (hf : f.hemtt = true) (codes : List Code) (he : w.early = some (.report codes)) (old t : Text)
    (ha : f.annotations = some old) (ht : Lines codes t) :
    (execute withIncludes w f c).folder.annotations = some (old ++ t) := by
  rcases hc with rfl | rfl <;>
    simp [execute, starts, command, finish, annotates, hf, he, ha, (lines_iff codes t).2 ht]

/-- In a project whose annotations were never made, such a launch fails even if nothing was wrong. -/
theorem C138_violated_launch_fresh (withIncludes : Bool) (w : Course) (f : Folder) (c : Cmd)
    (hc : c = .launch ∨ c = .photoshoot) (he : w.early = some (.report [])) (ha : f.annotations = none) :
    (execute withIncludes w f c).status = 1 := by
  rcases hc with rfl | rfl <;> cases hf : f.hemtt <;>
    simp [execute, starts, command, finish, annotates, hf, he, ha]

/-! #### Examples -/

/-- A warning about the second line of a file of a project. -/
def exWarning : Code :=
  ⟨.warning, false, some ⟨.warning, "Old".toList,
    [⟨true, some "here".toList, ⟨"addons/main/config.cpp".toList, "a = 1;\nb = 2;\n".toList, false⟩, 7, 8⟩]⟩⟩

def exLine : Text := "2||2||1||2||warning||Old||here||addons/main/config.cpp\n".toList

theorem exLines : Lines [exWarning] exLine := (lines_iff _ _).1 (by decide +kernel)

theorem exClean : Clean [exWarning] := by
  intro c hc
  obtain rfl := List.mem_singleton.1 hc
  decide

/-- A check that finds one warning succeeds, and the annotations of the run before are gone. -/
example : (execute false ⟨none, .opens, .report [exWarning]⟩ ⟨true, some "old\n".toList⟩ .check).status = 0 ∧
    (execute false ⟨none, .opens, .report [exWarning]⟩ ⟨true, some "old\n".toList⟩ .check).folder.annotations = some exLine :=
  ⟨(C138_status _ _ _ _ (by decide)).2 ⟨rfl, rfl, _, rfl, exClean, _, exLines⟩,
    (C138_annotations _ _ _ _ (by decide) rfl rfl _ rfl _ exLines).1⟩

/-- With an error it fails. -/
example : (execute false ⟨none, .opens, .report [exWarning, { exWarning with severity := .error }]⟩ ⟨true, none⟩ .build).status
    = 1 :=
  C138_error _ _ _ _ _ rfl (fun h => h { exWarning with severity := .error } (by simp) rfl)

/-- `hemtt new` in an empty folder. -/
example : (execute false ⟨none, .failsBefore, .report []⟩ ⟨false, none⟩ .new).status = 0 :=
  (C138_alone _ _ _ _ (by decide)).2.2 (.inr ⟨[], rfl, fun _ _ h => absurd h (by simp)⟩)

/-- A file that cannot be read by `hemtt utils`. -/
example : (execute false ⟨none, .failsBefore, .error⟩ ⟨false, none⟩ .utils).status = 1 :=
  C138_fails _ _ _ _ (by rintro ⟨_, h⟩; cases h)

/-- The book, in a folder without a project. -/
example : (execute false ⟨none, .failsBefore, .error⟩ ⟨false, none⟩ .book).status = 1 :=
  (C138_violated_book _ _ _ rfl).2.1

/-- A quick launch after a check. -/
example : (execute false ⟨some (.report []), .opens, .report []⟩ ⟨true, some exLine⟩ .launch).folder.annotations
    = some (exLine ++ []) :=
  C138_violated_launch _ _ _ _ (.inl rfl) rfl [] rfl exLine [] rfl ⟨[], rfl, rfl⟩

end Verif.Run
