import Verif.Model.Check
import Verif.Props.Executor
/-!
C136: `hemtt check` says what a build would say.
-/
namespace Verif.Commands

open Verif.Executor (Stage Phase Executor Res runModules failed exitCode)
open Verif.Lints (Severity)
open Verif.Workspace (Addon)

variable {R E K W : Type}

/-- Something went wrong: the command stopped with an error, or its report holds one. -/
def Fails (sev : K → Severity) : Res W E K → Prop
  | (.ok r, _) => failed sev r = true
  | (.error _, _) => True

theorem fails_iff (sev : K → Severity) (x : Res W E K) : Fails sev x ↔ exitCode sev x = 1 := by
  obtain ⟨_ | r, w⟩ := x
  · simp [Fails, exitCode]
  · by_cases h : failed sev r = true <;> simp [Fails, exitCode, h]

theorem failed_append (sev : K → Severity) (a b : List K) : failed sev (a ++ b) = (failed sev a || failed sev b) := by
  simp only [failed, List.filter_append]
  cases List.filter (fun c => sev c == Severity.error) a <;> simp

/-- Going on after a result. -/
def next (sev : K → Severity) (x : Res W E K) (f : List K → W → Res W E K) : Res W E K :=
  match x with
  | (.error e, w) => (.error e, w)
  | (.ok r, w) => if failed sev r then (.ok r, w) else f r w

theorem next_of_fails {sev : K → Severity} {x : Res W E K} (h : Fails sev x) (f : List K → W → Res W E K) : next sev x f = x := by
  obtain ⟨_ | r, w⟩ := x
  · rfl
  · exact if_pos h

theorem fails_next {sev : K → Severity} {x : Res W E K} (h : Fails sev x) (f : List K → W → Res W E K) : Fails sev (next sev x f) := by
  rwa [next_of_fails h]

theorem next_of_ok {sev : K → Severity} {r : List K} (h : failed sev r = false) (w : W) (f : List K → W → Res W E K) :
    next sev (.ok r, w) f = f r w := if_neg (by simp [h])

theorem runModules_append (sev : K → Severity) (p : Phase) (ms ms' : List (Phase → W → Res W E K)) (acc : List K) (w : W)
    (ha : failed sev acc = false) :
    runModules sev p (ms ++ ms') acc w = next sev (runModules sev p ms acc w) (runModules sev p ms') := by
  induction ms generalizing acc w with
  | nil => exact (next_of_ok ha w _).symm
  | cons m ms ih =>
    rw [List.cons_append, runModules, runModules]
    split
    · rfl
    · split
      · rename_i h
        exact (if_pos h).symm
      · rename_i h
        exact ih _ _ (by simpa using h)

/-- A module without code for a phase at the end. -/
theorem runModules_last (sev : K → Severity) (p : Phase) (ms : List (Phase → W → Res W E K)) (m : Phase → W → Res W E K)
    (hm : ∀ w, m p w = (.ok [], w)) (w : W) : runModules sev p (ms ++ [m]) [] w = runModules sev p ms [] w := by
  rw [runModules_append sev p ms [m] [] w rfl]
  obtain ⟨_ | r, w'⟩ := runModules sev p ms [] w
  · rfl
  · unfold next
    dsimp only
    rw [runModules, hm]
    simp [runModules]

/-- The report so far only goes in front. -/
theorem runModules_acc (sev : K → Severity) (p : Phase) (ms : List (Phase → W → Res W E K)) (acc : List K) (w : W)
    (ha : failed sev acc = false) :
    runModules sev p ms acc w = match runModules sev p ms [] w with
      | (.error e, w) => (.error e, w)
      | (.ok r, w) => (.ok (acc ++ r), w) := by
  have key : ∀ (ms : List (Phase → W → Res W E K)) (acc a : List K) (w : W), failed sev acc = false → failed sev a = false →
      runModules sev p ms (acc ++ a) w = match runModules sev p ms a w with
      | (.error e, w) => (.error e, w)
      | (.ok r, w) => (.ok (acc ++ r), w) := by
    intro ms
    induction ms with
    | nil => intro acc a w _ _; rfl
    | cons m ms ih =>
      intro acc a w ha hb
      rw [runModules, runModules]
      rcases m p w with ⟨_ | r, w'⟩
      · rfl
      · dsimp only
        by_cases h : failed sev r = true
        · rw [if_pos (by simp [failed_append, h]), if_pos (by simp [failed_append, h]), List.append_assoc]
        · have h : failed sev r = false := by simpa using h
          rw [if_neg (by simp [failed_append, ha, hb, h]), if_neg (by simp [failed_append, hb, h]), List.append_assoc]
          exact ih acc _ w' ha (by simp [failed_append, hb, h])
  have := key ms acc [] w ha rfl
  rwa [List.append_nil] at this

theorem runStages_append (sev : K → Severity) (x : Executor W E K) (ss ss' : List Stage) (acc : List K) (w : W)
    (ha : failed sev acc = false) :
    x.runStages sev (ss ++ ss') acc w = next sev (x.runStages sev ss acc w) (x.runStages sev ss') := by
  induction ss generalizing acc w with
  | nil => exact (next_of_ok ha w _).symm
  | cons s ss ih =>
    rw [List.cons_append, Executor.runStages, Executor.runStages]
    split
    · rfl
    · split
      · rename_i h
        exact (if_pos h).symm
      · rename_i h
        exact ih _ _ (by simpa using h)

theorem runStages_congr (sev : K → Severity) (x y : Executor W E K) (ss : List Stage)
    (h : ∀ s ∈ ss, ∀ w, x.stage sev w s = y.stage sev w s) (acc : List K) (w : W) :
    x.runStages sev ss acc w = y.runStages sev ss acc w := by
  induction ss generalizing acc w with
  | nil => rfl
  | cons s ss ih =>
    rw [Executor.runStages, Executor.runStages, h s (by simp)]
    split
    · rfl
    · split
      · rfl
      · exact ih (fun s hs => h s (by simp [hs])) _ _

section
variable (acts : Acts R E K) (bc : PDriveOption → R → Res R E K) (pbos archive : R → Res R E K) (sev : K → Severity)

/-- The modules that `check` and `build` have in common, as they are written. -/
def common (pd : PDriveOption) : List (Phase → World R → Res (World R) E K) :=
  (globalModules ++ [Module.rapifier]).map (acts.asWritten bc pd).act

theorem act_binarize (pd : PDriveOption) (p : Phase) (hp : p ≠ .preBuild) (w : World R) :
    (acts.asWritten bc pd).act (.binarize true) p w = (acts.asWritten bc pd).act (.binarize false) p w := by
  cases p <;> first | rfl | exact absurd rfl hp

theorem act_files (pd : PDriveOption) (p : Phase) (hp : p = .init ∨ p = .check ∨ p = .preBuild) (w : World R) :
    (acts.asWritten bc pd).act .files p w = (.ok [], w) := by
  rcases hp with rfl | rfl | rfl <;> rfl

theorem modules_check (all : List Addon) (pd : PDriveOption) :
    ((check all).executor (acts.asWritten bc pd) pbos archive).modules =
      common acts bc pd ++ [(acts.asWritten bc pd).act (.binarize true)] := rfl

theorem modules_build (lower : Text → Text) (all : List Addon) (pd : PDriveOption) :
    ((build lower all [] false false).executor (acts.asWritten bc pd) pbos archive).modules =
      common acts bc pd ++ [(acts.asWritten bc pd).act (.binarize false)] ++ [(acts.asWritten bc pd).act .files] := rfl

/-- The phases before anything is built, without binarizing and without files. -/
theorem stage_early (lower : Text → Text) (all : List Addon) (pd : PDriveOption) (p : Phase) (hp : p = .init ∨ p = .check)
    (w : World R) :
    ((check all).executor (acts.asWritten bc pd) pbos archive).stage sev w (.phase p) =
      ((build lower all [] false false).executor (acts.asWritten bc pd) pbos archive).stage sev w (.phase p) := by
  have hne : p ≠ .preBuild := by rcases hp with rfl | rfl <;> decide
  rw [Executor.Executor.stage, Executor.Executor.stage, modules_check, modules_build,
    runModules_last _ _ _ _ (act_files acts bc pd p (by tauto)), runModules_append _ _ _ _ _ _ rfl, runModules_append _ _ _ _ _ _ rfl]
  congr 1
  funext r w
  rw [runModules, runModules, act_binarize acts bc pd p hne]

theorem stage_pre_check (all : List Addon) (pd : PDriveOption) (w : World R) :
    ((check all).executor (acts.asWritten bc pd) pbos archive).stage sev w (.phase .preBuild) =
      runModules sev .preBuild (common acts bc pd) [] w := by
  rw [Executor.Executor.stage, modules_check, runModules_last]
  intro w
  rfl

theorem stage_pre_build (lower : Text → Text) (all : List Addon) (pd : PDriveOption) (w : World R) :
    ((build lower all [] false false).executor (acts.asWritten bc pd) pbos archive).stage sev w (.phase .preBuild) =
      next sev (runModules sev .preBuild (common acts bc pd) [] w)
        (runModules sev .preBuild [(acts.asWritten bc pd).act (.binarize false)]) := by
  rw [Executor.Executor.stage, modules_build, runModules_last _ _ _ _ (act_files acts bc pd _ (by tauto)), runModules_append _ _ _ _ _ _ rfl]

end

/-! ### One after the other -/

/-- Doing one thing after the other, until one of them stops with an error or reports one; `acc` is the report so far. -/
def inOrder (sev : K → Severity) : List (W → Res W E K) → List K → W → Res W E K
  | [], acc, w => (.ok acc, w)
  | a :: l, acc, w => match a w with
    | (.error e, w) => (.error e, w)
    | (.ok r, w) => if failed sev r then (.ok (acc ++ r), w) else inOrder sev l (acc ++ r) w

theorem inOrder_cons (sev : K → Severity) {l l' : List (W → Res W E K)}
    (h : ∀ acc w, inOrder sev l acc w = inOrder sev l' acc w) (a : W → Res W E K) (acc : List K) (w : W) :
    inOrder sev (a :: l) acc w = inOrder sev (a :: l') acc w := by
  rw [inOrder, inOrder]
  simp only [h]

theorem inOrder_nothing (sev : K → Severity) (l : List (W → Res W E K)) (a : W → Res W E K) (h : ∀ w, a w = (.ok [], w))
    (acc : List K) (w : W) : inOrder sev (a :: l) acc w = inOrder sev l acc w := by
  rw [inOrder, h]
  simp [failed]

theorem runModules_inOrder (sev : K → Severity) (p : Phase) (ms : List (Phase → W → Res W E K)) (acc : List K) (w : W)
    (ha : failed sev acc = false) : runModules sev p ms acc w = inOrder sev (ms.map fun m => m p) acc w := by
  induction ms generalizing acc w with
  | nil => rfl
  | cons m ms ih =>
    rw [runModules, List.map_cons, inOrder]
    rcases m p w with ⟨_ | r, w'⟩
    · rfl
    · dsimp only
      rw [failed_append, ha, Bool.false_or]
      split
      · rfl
      · rename_i h
        exact ih _ _ (by simpa [failed_append, ha] using h)

theorem runStages_phase (sev : K → Severity) (x : Executor W E K) (p : Phase) (ss : List Stage) (acc : List K) (w : W)
    (ha : failed sev acc = false) :
    x.runStages sev (.phase p :: ss) acc w = next sev (runModules sev p x.modules acc w) (x.runStages sev ss) := by
  rw [Executor.runStages, Executor.Executor.stage, runModules_acc sev p x.modules acc w ha]
  rcases runModules sev p x.modules [] w with ⟨_ | r, w'⟩ <;> rfl

theorem runStages_one (sev : K → Severity) (x : Executor W E K) (p : Phase) (acc : List K) (w : W)
    (ha : failed sev acc = false) : x.runStages sev [.phase p] acc w = runModules sev p x.modules acc w := by
  rw [runStages_phase sev x p [] acc w ha]
  rcases runModules sev p x.modules acc w with ⟨_ | r, w'⟩
  · rfl
  · unfold next
    dsimp only
    split <;> rfl

/-! ### The claim -/

section
variable (acts : Acts R E K) (bc : PDriveOption → R → Res R E K) (pbos archive : R → Res R E K) (sev : K → Severity)

/-- An action on the rest of the world. -/
def onRest (f : R → Res R E K) (w : World R) : Res (World R) E K := ((f w.rest).1, { w with rest := (f w.rest).2 })

/-- Both commands do the same up to here. -/
theorem runs (pd : PDrives) (hpd : pd.check = pd.build) (lower : Text → Text) (all : List Addon) (w : World R) :
    ∃ x : Res (World R) E K,
      runCheck acts bc pbos archive sev pd all w =
        next sev x (fun r w => runModules sev .preBuild (common acts bc pd.build) r w) ∧
      runBuild acts bc pbos archive sev pd lower all false false w =
        next sev x (((build lower all [] false false).executor (acts.asWritten bc pd.build) pbos archive).runStages sev
          [.phase .preBuild, .build, .phase .postBuild]) := by
  refine ⟨((build lower all [] false false).executor (acts.asWritten bc pd.build) pbos archive).runStages sev
    [.phase .init, .phase .check] [] w, ?_, ?_⟩
  · unfold runCheck Executor.Executor.run
    rw [hpd]
    have e : ((check all).executor (acts.asWritten bc pd.build) pbos archive).stages = [.phase .init, .phase .check] ++ [.phase .preBuild] :=
      rfl
    rw [e, runStages_append _ _ _ _ _ _ rfl]
    rw [runStages_congr sev _ ((build lower all [] false false).executor (acts.asWritten bc pd.build) pbos archive) _
      (fun s hs w => by
        simp only [List.mem_cons, List.not_mem_nil, or_false] at hs
        rcases hs with rfl | rfl
        · exact stage_early acts bc pbos archive sev lower all _ _ (.inl rfl) w
        · exact stage_early acts bc pbos archive sev lower all _ _ (.inr rfl) w)]
    generalize Executor.Executor.runStages sev _ _ [] w = x
    obtain ⟨_ | r, w'⟩ := x
    · rfl
    · by_cases h : failed sev r = true
      · rw [next_of_fails (by exact h), next_of_fails (by exact h)]
      · have h : failed sev r = false := by simpa using h
        rw [next_of_ok h, next_of_ok h, runStages_one _ _ _ _ _ h, modules_check, runModules_append _ _ _ _ _ _ h]
        rcases runModules sev .preBuild (common acts bc pd.build) r w' with ⟨_ | r', w''⟩
        · rfl
        · unfold next
          dsimp only
          split
          · rfl
          · rename_i h'
            have h' : failed sev r' = false := by simpa using h'
            rw [runModules_inOrder _ _ _ _ _ h', List.map_cons, inOrder_nothing]
            · rfl
            · intro w; rfl
  · unfold runBuild Executor.Executor.run
    have e : ((build lower all [] false false).executor (acts.asWritten bc pd.build) pbos archive).stages =
        [.phase .init, .phase .check] ++ [.phase .preBuild, .build, .phase .postBuild] := rfl
    rw [e, runStages_append _ _ _ _ _ _ rfl]

/-- What `build` does after the modules it shares with `check`. -/
theorem after_common (pd : PDriveOption) (lower : Text → Text) (all : List Addon) (r : List K) (w : World R) (h : failed sev r = false) :
    ((build lower all [] false false).executor (acts.asWritten bc pd) pbos archive).runStages sev
        [.phase .preBuild, .build, .phase .postBuild] r w =
      next sev (runModules sev .preBuild (common acts bc pd) r w)
        (inOrder sev [onRest (acts.other (.binarize false) .preBuild), onRest pbos, onRest (acts.other .hooks .postBuild),
          fun w => onRest (acts.sqfPost w.required) w, onRest (acts.other .files .postBuild)]) := by
  rw [runStages_phase _ _ _ _ _ _ h, modules_build, List.append_assoc, runModules_append _ _ _ _ _ _ h]
  rcases runModules sev .preBuild (common acts bc pd) r w with ⟨_ | r', w'⟩
  · rfl
  · by_cases h' : failed sev r' = true
    · rw [next_of_fails (x := (.ok r', w')) (by exact h'), next_of_fails (by exact h'), next_of_fails (by exact h')]
    · have h' : failed sev r' = false := by simpa using h'
      rw [next_of_ok h', next_of_ok h', runModules_inOrder _ _ _ _ _ h', List.map_append, List.map_cons, List.map_nil]
      have e1 : (acts.asWritten bc pd).act (.binarize false) .preBuild = onRest (acts.other (.binarize false) .preBuild) := rfl
      rw [e1, List.singleton_append, inOrder, inOrder]
      rcases onRest (acts.other (.binarize false) .preBuild) w' with ⟨_ | b, w''⟩
      · rfl
      · dsimp only
        by_cases hb : failed sev b = true
        · rw [if_pos hb, if_pos hb, next_of_fails]
          show failed sev (r' ++ b) = true
          rw [failed_append, hb, Bool.or_true]
        · have hb : failed sev b = false := by simpa using hb
          have hrb : failed sev (r' ++ b) = false := by rw [failed_append, h', hb]; rfl
          rw [if_neg (by simp [hb]), if_neg (by simp [hb]), List.map_cons, inOrder_nothing]
          · rw [show inOrder sev (List.map (fun m : Phase → World R → Res (World R) E K => m .preBuild) []) (r' ++ b) w'' =
              (.ok (r' ++ b), w'') from rfl, next_of_ok hrb, Executor.runStages, inOrder]
            have e2 : ((build lower all [] false false).executor (acts.asWritten bc pd) pbos archive).stage sev w'' .build =
              onRest pbos w'' := rfl
            rw [e2]
            rcases onRest pbos w'' with ⟨_ | c, v⟩
            · rfl
            · dsimp only
              rw [failed_append, hrb, Bool.false_or]
              split
              · rfl
              · rename_i hc
                have hc : failed sev c = false := by simpa using hc
                have hrc : failed sev (r' ++ b ++ c) = false := by rw [failed_append, hrb, hc]; rfl
                rw [runStages_one _ _ _ _ _ hrc, runModules_inOrder _ _ _ _ _ hrc]
                show inOrder sev [_, _, _, _, _, _, _] _ _ = _
                rw [inOrder_nothing]
                · refine inOrder_cons sev (fun acc w => ?_) _ _ _
                  rw [inOrder_nothing]
                  · refine inOrder_cons sev (fun acc w => ?_) _ _ _
                    rw [inOrder_nothing]
                    · rw [inOrder_nothing]
                      · rfl
                      · intro w; rfl
                    · intro w; rfl
                  · intro w; rfl
                · intro w; rfl
          · intro w; rfl

/-- **C136**: what fails in `check` fails in `build`. If `hemtt check` stops with an error or reports one, then `hemtt build` ends
in the same way, with the same error or the same report. -/
theorem C136_fails (pd : PDrives) (hpd : pd.check = pd.build) (lower : Text → Text) (all : List Addon) (w : World R)
    (h : exitCode sev (runCheck acts bc pbos archive sev pd all w) = 1) :
    runBuild acts bc pbos archive sev pd lower all false false w = runCheck acts bc pbos archive sev pd all w := by
  rw [← fails_iff] at h
  obtain ⟨x, h1, h2⟩ := runs acts bc pbos archive sev pd hpd lower all w
  rw [h1] at h ⊢
  rw [h2]
  obtain ⟨_ | r, w'⟩ := x
  · rfl
  · by_cases hr : failed sev r = true
    · rw [next_of_fails (by exact hr), next_of_fails (by exact hr)]
    · have hr : failed sev r = false := by simpa using hr
      rw [next_of_ok hr] at h ⊢
      rw [next_of_ok hr, after_common _ _ _ _ _ _ _ _ _ _ hr, next_of_fails h]

/-- **C136**: what passes `check`. If nothing is wrong for `hemtt check`, `hemtt build` goes on where it ended: it binarizes, makes
the PBOs, runs the hooks and looks at the required versions after that, and copies files. Only these can fail, and what `check` has
reported is part of the report. -/
theorem C136_passes (pd : PDrives) (hpd : pd.check = pd.build) (lower : Text → Text) (all : List Addon) (w w' : World R)
    (r : List K) (h : runCheck acts bc pbos archive sev pd all w = (.ok r, w')) (hr : failed sev r = false) :
    runBuild acts bc pbos archive sev pd lower all false false w =
      inOrder sev [onRest (acts.other (.binarize false) .preBuild), onRest pbos, onRest (acts.other .hooks .postBuild),
        fun w => onRest (acts.sqfPost w.required) w, onRest (acts.other .files .postBuild)] r w' := by
  obtain ⟨x, h1, h2⟩ := runs acts bc pbos archive sev pd hpd lower all w
  rw [h1] at h
  rw [h2]
  obtain ⟨e | r', v⟩ := x
  · cases h
  · by_cases hr' : failed sev r' = true
    · rw [next_of_fails (by exact hr')] at h
      cases h
      rw [hr'] at hr
      cases hr
    · have hr' : failed sev r' = false := by simpa using hr'
      rw [next_of_ok hr'] at h ⊢
      rw [after_common _ _ _ _ _ _ _ _ _ _ hr', h, next_of_ok hr]

theorem fails_acc (p : Phase) (ms : List (Phase → W → Res W E K)) (acc : List K) (w : W) (ha : failed sev acc = false) :
    Fails sev (runModules sev p ms acc w) ↔ Fails sev (runModules sev p ms [] w) := by
  rw [runModules_acc sev p ms acc w ha]
  rcases runModules sev p ms [] w with ⟨_ | r, w'⟩
  · exact Iff.rfl
  · show failed sev (acc ++ r) = true ↔ failed sev r = true
    rw [failed_append, ha, Bool.false_or]

theorem fails_next_iff {x : Res W E K} {f : List K → W → Res W E K} :
    Fails sev (next sev x f) ↔ ∀ r w, x = (.ok r, w) → failed sev r = false → Fails sev (f r w) := by
  obtain ⟨e | r, w⟩ := x
  · constructor
    · intro _ r w h; cases h
    · intro _; trivial
  · by_cases h : failed sev r = true
    · rw [next_of_fails (by exact h)]
      constructor
      · intro _ r' w' e hf
        cases e
        rw [h] at hf
        cases hf
      · intro _; exact h
    · have h : failed sev r = false := by simpa using h
      rw [next_of_ok h]
      constructor
      · intro hf r' w' e _
        cases e
        exact hf
      · intro hf
        exact hf r w rfl h

theorem modules_release (all : List Addon) (noSign noArchive signs archives : Bool) (pd : PDriveOption) :
    ((release all false false noSign noArchive signs archives).executor (acts.asWritten bc pd) pbos archive).modules =
      common acts bc pd ++ ((acts.asWritten bc pd).act (.binarize false) :: (acts.asWritten bc pd).act .files ::
        if !noSign && signs then [(acts.asWritten bc pd).act .sign] else []) := by
  cases noSign <;> cases signs <;> rfl

/-- **C136**: what fails in `check` fails in `release`, which has other reports only if signing is refused. -/
theorem C136_release (pd : PDrives) (hpd : pd.check = pd.build) (all : List Addon)
    (noSign noArchive signs archives : Bool) (w : World R)
    (h : exitCode sev (runCheck acts bc pbos archive sev pd all w) = 1) :
    exitCode sev (runRelease acts bc pbos archive sev pd all noSign noArchive signs archives w) = 1 := by
  rw [← fails_iff] at h ⊢
  unfold runCheck Executor.Executor.run at h
  unfold runRelease Executor.Executor.run
  rw [hpd] at h
  have e : ((check all).executor (acts.asWritten bc pd.build) pbos archive).stages =
      [.phase .init, .phase .check, .phase .preBuild] := rfl
  have e' : ((release all false false noSign noArchive signs archives).executor (acts.asWritten bc pd.build) pbos archive).stages =
      .phase .init :: .phase .check :: .phase .preBuild :: .build :: .phase .postBuild ::
        Executor.releaseStages (if noArchive then false else archives) := rfl
  rw [e, runStages_phase _ _ _ _ _ _ rfl, fails_next_iff, modules_check] at h
  rw [e', runStages_phase _ _ _ _ _ _ rfl, fails_next_iff, modules_release]
  have hsign : ∀ p w acc, p ≠ .check → p ≠ .preRelease →
      inOrder sev ((if !noSign && signs then [(acts.asWritten bc pd.build).act .sign] else []).map fun m => m p) acc w =
        (.ok acc, w) := by
    intro p w acc h1 h2
    split
    · rw [List.map_cons, inOrder_nothing]
      · rfl
      · intro w
        cases p <;> first | rfl | exact absurd rfl h1 | exact absurd rfl h2
    · rfl
  have htail : ∀ p w acc, (p = .init ∨ p = .check ∨ p = .preBuild) → failed sev acc = false →
      runModules sev p ((acts.asWritten bc pd.build).act (.binarize false) :: (acts.asWritten bc pd.build).act .files ::
        if !noSign && signs then [(acts.asWritten bc pd.build).act .sign] else []) acc w =
      inOrder sev ((acts.asWritten bc pd.build).act (.binarize false) p ::
        (if !noSign && signs then [(acts.asWritten bc pd.build).act .sign] else []).map fun m => m p) acc w := by
    intro p w acc hp ha
    rw [runModules_inOrder _ _ _ _ _ ha, List.map_cons, List.map_cons]
    exact inOrder_cons sev (fun acc w => inOrder_nothing sev _ _ (act_files acts bc pd.build p hp) acc w) _ _ _
  have hbin : ∀ w acc, inOrder sev [(acts.asWritten bc pd.build).act (.binarize true) .init] acc w =
      inOrder sev [(acts.asWritten bc pd.build).act (.binarize false) .init] acc w := fun w acc => rfl
  intro r1 w1 hx1 hr1
  rw [runModules_append _ _ _ _ _ _ rfl] at hx1
  have hx1' : runModules sev .init (common acts bc pd.build ++ [(acts.asWritten bc pd.build).act (.binarize true)]) [] w =
      (.ok r1, w1) := by
    rw [runModules_append _ _ _ _ _ _ rfl, ← hx1]
    rcases runModules sev .init (common acts bc pd.build) [] w with ⟨_ | r, w'⟩
    · rfl
    · unfold next
      dsimp only
      split
      · rfl
      · rename_i hr
        have hr : failed sev r = false := by simpa using hr
        rw [htail _ _ _ (.inl rfl) hr, runModules_inOrder _ _ _ _ _ hr]
        rw [inOrder_cons sev (l' := []) (fun acc w => hsign .init w acc (by decide) (by decide))]
        rfl
  have h := h r1 w1 hx1' hr1
  rw [runStages_phase _ _ _ _ _ _ hr1, fails_next_iff, modules_check] at h
  rw [runStages_phase _ _ _ _ _ _ hr1, fails_next_iff, modules_release]
  intro r2 w2 hx2 hr2
  rw [runModules_append _ _ _ _ _ _ hr1] at hx2
  -- the report of `check` is that without the one of signing, which has changed nothing
  have : ∃ r, runModules sev .check (common acts bc pd.build ++ [(acts.asWritten bc pd.build).act (.binarize true)]) r1 w1 =
      (.ok r, w2) ∧ failed sev r = false := by
    rw [runModules_append _ _ _ _ _ _ hr1]
    rcases hc : runModules sev .check (common acts bc pd.build) r1 w1 with ⟨_ | r, w'⟩
    · rw [hc] at hx2
      cases hx2
    · rw [hc] at hx2
      by_cases hr : failed sev r = true
      · rw [next_of_fails (by exact hr)] at hx2
        cases hx2
        rw [hr] at hr2
        cases hr2
      · have hr : failed sev r = false := by simpa using hr
        rw [next_of_ok hr, htail _ _ _ (.inr (.inl rfl)) hr, inOrder] at hx2
        rw [next_of_ok hr, runModules_inOrder _ _ _ _ _ hr, List.map_cons, inOrder,
          act_binarize acts bc pd.build .check (by decide)]
        rcases hbb : (acts.asWritten bc pd.build).act (.binarize false) .check w' with ⟨_ | b, w''⟩
        · rw [hbb] at hx2
          cases hx2
        · rw [hbb] at hx2
          dsimp only at hx2 ⊢
          by_cases hb : failed sev b = true
          · rw [if_pos hb] at hx2
            cases hx2
            rw [failed_append, hb, Bool.or_true] at hr2
            cases hr2
          · have hb : failed sev b = false := by simpa using hb
            have hrb : failed sev (r ++ b) = false := by rw [failed_append, hr, hb]; rfl
            rw [if_neg (by simp [hb])] at hx2 ⊢
            refine ⟨r ++ b, ?_, hrb⟩
            have hw : w'' = w2 := by
              split at hx2
              · rw [List.map_cons, List.map_nil, inOrder] at hx2
                have es : (acts.asWritten bc pd.build).act .sign .check w'' = ((acts.other .sign .check w''.rest).1, w'') := rfl
                rw [es] at hx2
                cases hs : (acts.other .sign .check w''.rest).1 with
                | error e => rw [hs] at hx2; cases hx2
                | ok b' =>
                  rw [hs] at hx2
                  dsimp only at hx2
                  split at hx2
                  · exact (Prod.mk.inj hx2).2
                  · exact (Prod.mk.inj hx2).2
              · exact (Prod.mk.inj hx2).2
            rw [← hw]
            rfl
  obtain ⟨r, hc, hr⟩ := this
  have h := h r w2 hc hr
  rw [runStages_one _ _ _ _ _ hr, modules_check, fails_acc _ _ _ _ _ hr, runModules_append _ _ _ _ _ _ rfl] at h
  rw [runStages_phase _ _ _ _ _ _ hr2]
  refine fails_next ?_ _
  rw [modules_release, fails_acc _ _ _ _ _ hr2, runModules_append _ _ _ _ _ _ rfl]
  refine fails_next ?_ _
  rw [fails_next_iff] at h
  rcases hp : runModules sev .preBuild (common acts bc pd.build) [] w2 with ⟨_ | q, v⟩
  · trivial
  · by_cases hq : failed sev q = true
    · exact hq
    · have hq : failed sev q = false := by simpa using hq
      have := h q v hp hq
      rw [runModules_inOrder _ _ _ _ _ hq, List.map_cons, inOrder_nothing] at this
      · exact this
      · intro w; rfl

/-! ### What `check` does not say -/

theorem fails_module {p : Phase} {ms : List (Phase → W → Res W E K)} {m : Phase → W → Res W E K} (hm : m ∈ ms)
    (h : ∀ w, Fails sev (m p w)) (acc : List K) (w : W) : Fails sev (runModules sev p ms acc w) := by
  induction ms generalizing acc w with
  | nil => cases hm
  | cons a ms ih =>
    rw [runModules]
    rcases List.mem_cons.1 hm with rfl | hm
    · have := h w
      rcases hw : m p w with ⟨_ | r, w'⟩
      · trivial
      · rw [hw] at this
        dsimp only
        have hf : failed sev (acc ++ r) = true := by
          rw [failed_append]
          simp [show failed sev r = true from this]
        rw [if_pos hf]
        exact hf
    · rcases a p w with ⟨_ | r, w'⟩
      · trivial
      · dsimp only
        by_cases hf : failed sev (acc ++ r) = true
        · rw [if_pos hf]; exact hf
        · rw [if_neg hf]; exact ih hm _ _

theorem fails_stage {x : Executor W E K} {p : Phase} {ss : List Stage} (hs : .phase p ∈ ss) {m : Phase → W → Res W E K}
    (hm : m ∈ x.modules) (h : ∀ w, Fails sev (m p w)) (acc : List K) (w : W) : Fails sev (x.runStages sev ss acc w) := by
  induction ss generalizing acc w with
  | nil => cases hs
  | cons s ss ih =>
    rw [Executor.runStages]
    rcases List.mem_cons.1 hs with rfl | hs
    · have := fails_module sev hm h [] w
      rw [Executor.Executor.stage]
      rcases hw : runModules sev p x.modules [] w with ⟨_ | r, w'⟩
      · trivial
      · rw [hw] at this
        dsimp only
        have hf : failed sev (acc ++ r) = true := by
          rw [failed_append]
          simp [show failed sev r = true from this]
        rw [if_pos hf]
        exact hf
    · rcases x.stage sev w s with ⟨_ | r, w'⟩
      · trivial
      · dsimp only
        by_cases hf : failed sev (acc ++ r) = true
        · rw [if_pos hf]; exact hf
        · rw [if_neg hf]; exact ih hs _ _

/-- **C136**, violated: other settings. `hemtt check` goes by a setting of its own for the P drive: with `pdrive = "require"` only
for `hemtt build`, and no P drive, the build fails whatever `hemtt check` says. -/
theorem C136_violated_pdrive (pd : PDrives) (lower : Text → Text) (all : List Addon) (w : World R)
    (h : ∀ x, Fails sev (bc pd.build x)) :
    exitCode sev (runBuild acts bc pbos archive sev pd lower all false false w) = 1 := by
  rw [← fails_iff]
  unfold runBuild Executor.Executor.run
  refine fails_stage sev (p := .check) (m := (acts.asWritten bc pd.build).act (.binarize false)) ?_ ?_ ?_ _ _
  · show _ ∈ Executor.buildCommand
    decide
  · rw [modules_build]
    simp
  · intro w
    have := h w.rest
    show Fails sev ((bc pd.build w.rest).1, _)
    rcases hx : (bc pd.build w.rest).1 with _ | r
    · trivial
    · have e : bc pd.build w.rest = (.ok r, (bc pd.build w.rest).2) := by rw [← hx]
      rw [e] at this
      exact this

/-- **C136**, violated: signing. What only signing looks at, such as an addon with an empty folder, is not seen by `hemtt check`:
a release that is to be signed fails, whatever `hemtt check` says. -/
theorem C136_violated_sign (pd : PDrives) (all : List Addon) (noArchive archives : Bool) (w : World R)
    (h : ∀ x, Fails sev (acts.other .sign .check x)) :
    exitCode sev (runRelease acts bc pbos archive sev pd all false noArchive true archives w) = 1 := by
  rw [← fails_iff]
  unfold runRelease Executor.Executor.run
  refine fails_stage sev (p := .check) (m := (acts.asWritten bc pd.build).act .sign) ?_ ?_ ?_ _ _
  · show _ ∈ Executor.buildCommand ++ _
    exact List.mem_append_left _ (by decide)
  · rw [modules_release]
    simp
  · intro w
    have := h w.rest
    show Fails sev ((acts.other .sign .check w.rest).1, _)
    rcases hx : (acts.other .sign .check w.rest).1 with _ | r
    · trivial
    · have e : acts.other .sign .check w.rest = (.ok r, (acts.other .sign .check w.rest).2) := by rw [← hx]
      rw [e] at this
      exact this

end

/-! ### Cases that meet the hypotheses -/

namespace CheckDemo

/-- Modules that write down that they were there. A script has an error if `bad` is set, signing does not like an empty addon, and
the hooks and the files do not complain. -/
def demo (bad : Bool) : Acts (List String) String (String × Severity) :=
  { sqf := fun _ r => (.ok (if bad then [("syntax", .error)] else [("style", .help)]), r ++ ["scripts"])
    sqfPost := fun _ r => (.ok [], r ++ ["versions"])
    rapifier := fun r => (.ok [], fun _ => none, r ++ ["configs"])
    other := fun m p r =>
      if m = .sign ∧ p = .check then (.ok [("empty addon", .error)], r)
      else if m = .binarize false ∧ p = .preBuild then (.ok [], r ++ ["models"])
      else if m = .files then (.ok [], r ++ ["files"])
      else (.ok [], r) }

/-- Binarizing wants a P drive, which there is not, if the setting says so. -/
def demoCheck (o : PDriveOption) (r : List String) : Res (List String) String (String × Severity) :=
  (.ok (if o = .require then [("no P drive", .error)] else []), r)

def pack (r : List String) : Res (List String) String (String × Severity) := (.ok [], r ++ ["PBOs"])

def start : World (List String) := ⟨fun _ => none, []⟩

/-- A script with an error: both commands say so, and nothing is packed. -/
example : exitCode Prod.snd (runCheck (demo true) demoCheck pack pack Prod.snd ⟨.ignore, .ignore⟩ [] start) = 1 ∧
    (runBuild (demo true) demoCheck pack pack Prod.snd ⟨.ignore, .ignore⟩ id [] false false start).2.rest = ["scripts"] :=
  ⟨by rfl, by rfl⟩

/-- Nothing is wrong: `check` passes, and `build` goes on. -/
example : (runCheck (demo false) demoCheck pack pack Prod.snd ⟨.ignore, .ignore⟩ [] start).1 = .ok [("style", .help)] ∧
    (runBuild (demo false) demoCheck pack pack Prod.snd ⟨.ignore, .ignore⟩ id [] false false start).2.rest =
      ["scripts", "configs", "models", "PBOs", "versions", "files"] := ⟨by rfl, by rfl⟩

/-- The hypotheses of the violations can be met with a `check` that passes. -/
example : exitCode Prod.snd (runCheck (demo false) demoCheck pack pack Prod.snd ⟨.ignore, .require⟩ [] start) = 0 ∧
    (∀ x, Fails Prod.snd (demoCheck .require x)) ∧ ∀ x, Fails Prod.snd ((demo false).other .sign .check x) :=
  ⟨by rfl, fun _ => rfl, fun _ => rfl⟩

end CheckDemo

end Verif.Commands
