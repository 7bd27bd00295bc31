import Verif.Model.Executor
/-!
C39: the pipeline stops at the first failure.

Specification. An action is one phase of one module, the making of the PBOs, or the making of the archive. Every
action writes down that it ran (`recorded`); the actions written down are what the theorems speak about.
-/
namespace Verif.Executor

open Verif.Lints (Severity)

variable {W E K : Type}

/-- What can run. -/
inductive Action
  | module (i : Nat) (p : Phase) | build | archive
  deriving DecidableEq, Repr

/-- An action that also writes down that it ran. -/
def recorded (act : Action → W → Res W E K) (a : Action) (w : W × List Action) : Res (W × List Action) E K :=
  ((act a w.1).1, ((act a w.1).2, w.2 ++ [a]))

/-- The executor with `n` modules and the given stages. -/
def executor (n : Nat) (stages : List Stage) (act : Action → W → Res W E K) : Executor W E K :=
  ⟨(List.range n).map fun i p => act (.module i p), act .build, act .archive, stages⟩

/-- The actions of a stage, in order. -/
def actions (n : Nat) : Stage → List Action
  | .phase p => (List.range n).map fun i => .module i p
  | .build => [.build]
  | .archive => [.archive]

/-- All the actions, in order. -/
def schedule (n : Nat) (stages : List Stage) : List Action := stages.flatMap (actions n)

/-- Some code of the report is an error. -/
def HasError (sev : K → Severity) (r : List K) : Prop := ∃ c ∈ r, sev c = .error

/-- The actions run one after the other, each in the world the one before left, up to the first that reports an error
or aborts; the result is what they report together, or the error. -/
inductive Runs (sev : K → Severity) (act : Action → W → Res W E K) : W → List Action → Res W E K → Prop
  | nil (w) : Runs sev act w [] (.ok [], w)
  | good {a w r w1 l rs w2} : act a w = (.ok r, w1) → ¬ HasError sev r → Runs sev act w1 l (.ok rs, w2) →
      Runs sev act w (a :: l) (.ok (r ++ rs), w2)
  | later {a w r w1 l e w2} : act a w = (.ok r, w1) → ¬ HasError sev r → Runs sev act w1 l (.error e, w2) →
      Runs sev act w (a :: l) (.error e, w2)
  | bad {a w r w1} : act a w = (.ok r, w1) → HasError sev r → Runs sev act w [a] (.ok r, w1)
  | abort {a w e w1} : act a w = (.error e, w1) → Runs sev act w [a] (.error e, w1)

theorem failed_iff (sev : K → Severity) (r : List K) : failed sev r = true ↔ HasError sev r := by
  unfold failed HasError
  simp [List.filter_eq_nil_iff]

theorem failed_append (sev : K → Severity) (a b : List K) (h : failed sev a = false) :
    failed sev (a ++ b) = failed sev b := by
  have h' : ¬ HasError sev a := fun hc => by rw [(failed_iff sev a).2 hc] at h; exact Bool.noConfusion h
  rw [Bool.eq_iff_iff, failed_iff, failed_iff]
  constructor
  · rintro ⟨c, hc, hs⟩
    rcases List.mem_append.1 hc with hc | hc
    · exact absurd ⟨c, hc, hs⟩ h'
    · exact ⟨c, hc, hs⟩
  · rintro ⟨c, hc, hs⟩
    exact ⟨c, List.mem_append_right _ hc, hs⟩

/-- The flat loop. -/
def flat (sev : K → Severity) (act : Action → W → Res W E K) : List Action → List K → W → Res W E K
  | [], acc, w => (.ok acc, w)
  | a :: l, acc, w => match act a w with
    | (.error e, w) => (.error e, w)
    | (.ok r, w) => if failed sev (acc ++ r) then (.ok (acc ++ r), w) else flat sev act l (acc ++ r) w

theorem flat_append (sev : K → Severity) (act : Action → W → Res W E K) : ∀ l1 l2 acc w, failed sev acc = false →
    flat sev act (l1 ++ l2) acc w = match flat sev act l1 [] w with
      | (.error e, w) => (.error e, w)
      | (.ok r, w) => if failed sev (acc ++ r) then (.ok (acc ++ r), w) else flat sev act l2 (acc ++ r) w
  | l1, l2, acc, w, h => by
    have gen : ∀ l1 (acc' : List K) w, failed sev acc' = false →
        flat sev act (l1 ++ l2) (acc ++ acc') w = match flat sev act l1 acc' w with
          | (.error e, w) => (.error e, w)
          | (.ok r, w) => if failed sev (acc ++ r) then (.ok (acc ++ r), w) else flat sev act l2 (acc ++ r) w := by
      intro l1
      induction l1 with
      | nil =>
        intro acc' w h'
        simp only [List.nil_append, flat]
        rw [if_neg]
        rw [failed_append sev _ _ h, h']
        exact Bool.false_ne_true
      | cons a l1 ih =>
        intro acc' w h'
        simp only [List.cons_append, flat]
        split
        · rfl
        · rename_i r w' _
          have e1 : failed sev (acc ++ acc' ++ r) = failed sev r := failed_append sev _ _ (by
            rw [failed_append sev _ _ h, h'])
          have e2 : failed sev (acc' ++ r) = failed sev r := failed_append sev _ _ h'
          rw [e1, e2]
          by_cases hr : failed sev r = true
          · rw [if_pos hr, if_pos hr]
            dsimp only
            rw [← List.append_assoc, e1, if_pos hr]
          · rw [if_neg hr, if_neg hr, List.append_assoc]
            exact ih _ _ (by rw [e2]; simpa using hr)
    have := gen l1 [] w (by rfl)
    rwa [List.append_nil] at this

theorem runModules_eq (sev : K → Severity) (act : Action → W → Res W E K) (p : Phase) : ∀ (is : List Nat) acc w,
    runModules sev p (is.map fun i p => act (.module i p)) acc w = flat sev act (is.map fun i => .module i p) acc w
  | [], _, _ => rfl
  | i :: is, acc, w => by
    simp only [List.map_cons, runModules, flat]
    rcases act (.module i p) w with ⟨e | r, w⟩
    · rfl
    · dsimp only
      split
      · rfl
      · exact runModules_eq sev act p is _ _

theorem stage_eq (sev : K → Severity) (act : Action → W → Res W E K) (n : Nat) (stages : List Stage) (w : W) (s : Stage) :
    ∃ res, flat sev act (actions n s) [] w = res ∧
      (executor n stages act).stage sev w s = res := by
  cases s with
  | phase p => exact ⟨_, rfl, runModules_eq sev act p _ _ _⟩
  | build =>
    refine ⟨_, rfl, ?_⟩
    simp only [Executor.stage, executor, actions, flat, List.nil_append]
    rcases act .build w with ⟨e | r, w⟩
    · rfl
    · simp
  | archive =>
    refine ⟨_, rfl, ?_⟩
    simp only [Executor.stage, executor, actions, flat, List.nil_append]
    rcases act .archive w with ⟨e | r, w⟩
    · rfl
    · simp

theorem runStages_eq (sev : K → Severity) (act : Action → W → Res W E K) (n : Nat) (stages : List Stage) :
    ∀ (ss : List Stage) acc w, failed sev acc = false →
    (executor n stages act).runStages sev ss acc w = flat sev act (schedule n ss) acc w
  | [], _, _, _ => rfl
  | s :: ss, acc, w, h => by
    obtain ⟨res, h1, h2⟩ := stage_eq sev act n stages w s
    rw [Executor.runStages, h2, schedule, List.flatMap_cons, flat_append sev act _ _ _ _ h, h1]
    rcases res with ⟨e | r, w⟩
    · rfl
    · dsimp only
      split
      · rfl
      · rename_i hf
        exact runStages_eq sev act n stages ss _ _ (by simpa using hf)

theorem flat_runs (sev : K → Severity) (act : Action → W → Res W E K) : ∀ (l : List Action) acc w log,
    failed sev acc = false →
    ∃ ran res, ran <+: l ∧ Runs sev act w ran res ∧
      flat sev (recorded act) l acc (w, log) = (res.1.map (acc ++ ·), (res.2, log ++ ran)) ∧
      ((∀ r, res.1 = .ok r → ¬ HasError sev r → ran = l))
  | [], acc, w, log, _ => ⟨[], (.ok [], w), List.prefix_rfl, .nil w, by simp [flat, Except.map], fun _ _ _ => rfl⟩
  | a :: l, acc, w, log, h => by
    rcases ha : act a w with ⟨e | r, w1⟩
    · refine ⟨[a], (.error e, w1), ⟨l, rfl⟩, .abort ha, ?_, ?_⟩
      · simp [flat, recorded, ha, Except.map]
      · intro r hr
        simp at hr
    · by_cases hr : failed sev r = true
      · refine ⟨[a], (.ok r, w1), ⟨l, rfl⟩, .bad ha ((failed_iff sev r).1 hr), ?_, ?_⟩
        · simp only [flat, recorded, ha]
          rw [failed_append sev _ _ h, if_pos hr]
          rfl
        · intro r' hr' hn
          simp only [Except.ok.injEq] at hr'
          subst hr'
          exact absurd ((failed_iff sev r).1 hr) hn
      · have hr' : ¬ HasError sev r := fun hc => hr ((failed_iff sev r).2 hc)
        have hacc : failed sev (acc ++ r) = false := by
          rw [failed_append sev _ _ h]
          simpa using hr
        obtain ⟨ran, ⟨res, w2⟩, hp, hruns, heq, hall⟩ := flat_runs sev act l (acc ++ r) w1 (log ++ [a]) hacc
        have heq' : flat sev (recorded act) (a :: l) acc (w, log) =
            (res.map (acc ++ r ++ ·), (w2, log ++ [a] ++ ran)) := by
          simp only [flat, recorded, ha]
          rw [if_neg (by rw [hacc]; exact Bool.false_ne_true)]
          exact heq
        cases res with
        | error e =>
          refine ⟨a :: ran, (.error e, w2), List.cons_prefix_cons.2 ⟨rfl, hp⟩, .later ha hr' hruns, ?_, ?_⟩
          · rw [heq']
            simp [Except.map]
          · intro x hx
            simp at hx
        | ok rs =>
          refine ⟨a :: ran, (.ok (r ++ rs), w2), List.cons_prefix_cons.2 ⟨rfl, hp⟩, .good ha hr' hruns, ?_, ?_⟩
          · rw [heq']
            simp [Except.map]
          · intro x hx hn
            simp only [Except.ok.injEq] at hx
            subst hx
            rw [hall rs rfl (fun ⟨c, hc, hs⟩ => hn ⟨c, List.mem_append_right _ hc, hs⟩)]

/-- The executor runs the actions of its stages in order, one after the other, up to the first that reports an error or
aborts; all of them run unless one does. The report is all their reports together. -/
theorem C39_pipeline (sev : K → Severity) (act : Action → W → Res W E K) (n : Nat) (stages : List Stage) (w : W) :
    ∃ ran res w', (executor n stages (recorded act)).run sev (w, []) = (res, (w', ran)) ∧
      ran <+: schedule n stages ∧ Runs sev act w ran (res, w') ∧
      (∀ r, res = .ok r → ¬ HasError sev r → ran = schedule n stages) := by
  obtain ⟨ran, res, hp, hr, he, ha⟩ := flat_runs sev act (schedule n stages) [] w [] rfl
  refine ⟨ran, res.1, res.2, ?_, hp, hr, ha⟩
  rw [Executor.run, runStages_eq]
  · show flat sev (recorded act) (schedule n stages) [] (w, []) = _
    rw [he]
    rcases res with ⟨_ | _, _⟩ <;> simp [Except.map]
  · rfl

/-- Every action before the last one that ran neither aborted nor reported an error. -/
theorem runs_before {sev : K → Severity} {act : Action → W → Res W E K} {w : W} {ran : List Action} {res : Res W E K}
    (h : Runs sev act w ran res) : ∀ l1 a l2, ran = l1 ++ a :: l2 → l2 ≠ [] →
      ∃ w0 r w1, act a w0 = (.ok r, w1) ∧ ¬ HasError sev r := by
  induction h with
  | nil => intro l1 a l2 hx; simp at hx
  | good ha hn _ ih | later ha hn _ ih =>
    intro l1 b l2 hx hne
    cases l1 with
    | nil =>
      simp only [List.nil_append, List.cons.injEq] at hx
      obtain ⟨rfl, rfl⟩ := hx
      exact ⟨_, _, _, ha, hn⟩
    | cons c l1 =>
      simp only [List.cons_append, List.cons.injEq] at hx
      exact ih l1 b l2 hx.2 hne
  | bad | abort =>
    intro l1 b l2 hx hne
    cases l1 with
    | nil => simp only [List.nil_append, List.cons.injEq] at hx; exact absurd hx.2.symm hne
    | cons c l1 => simp at hx

/-- Nothing runs after a failure: when something ran after an action, that action neither aborted nor reported an
error. -/
theorem C39_stops (sev : K → Severity) (act : Action → W → Res W E K) (n : Nat) (stages : List Stage) (w : W)
    (l1 : List Action) (a : Action) (l2 : List Action)
    (h : ((executor n stages (recorded act)).run sev (w, [])).2.2 = l1 ++ a :: l2) (h2 : l2 ≠ []) :
    ∃ w0 r w1, act a w0 = (.ok r, w1) ∧ ¬ HasError sev r := by
  obtain ⟨ran, res, w', he, _, hr, _⟩ := C39_pipeline sev act n stages w
  rw [he] at h
  exact runs_before hr l1 a l2 h h2

/-- An archive is made only by a release that asks for one, and only after every module has gone through every phase
up to the release and the PBOs have been made, without any error. -/
theorem C39_archive (sev : K → Severity) (act : Action → W → Res W E K) (n : Nat) (noArchive archive : Bool) (w : W)
    (h : Action.archive ∈ ((executor n (releaseCommand noArchive archive) (recorded act)).run sev (w, [])).2.2) :
    noArchive = false ∧ archive = true ∧ ∃ rest,
      ((executor n (releaseCommand noArchive archive) (recorded act)).run sev (w, [])).2.2 =
        schedule n (buildCommand ++ [.phase .preRelease]) ++ .archive :: rest ∧
      ∀ a ∈ schedule n (buildCommand ++ [.phase .preRelease]), ∃ w0 r w1, act a w0 = (.ok r, w1) ∧ ¬ HasError sev r := by
  have hno : ∀ s : Stage, s ≠ .archive → Action.archive ∉ actions n s := by
    intro s hs
    cases s <;> simp [actions] at hs ⊢
  obtain ⟨ran, res, w', he, hp, hr, _⟩ := C39_pipeline sev act n (releaseCommand noArchive archive) w
  rw [he] at h ⊢
  dsimp only at h ⊢
  have hns : ∀ ss : List Stage, Stage.archive ∉ ss → Action.archive ∉ schedule n ss := by
    intro ss hss hm
    obtain ⟨s, hs, hm⟩ := List.mem_flatMap.1 hm
    exact hno s (fun hc => hss (hc ▸ hs)) hm
  have hflags : noArchive = false ∧ archive = true := by
    by_contra hc
    have : Action.archive ∉ schedule n (releaseCommand noArchive archive) := by
      apply hns
      cases noArchive <;> cases archive <;> first | (exact absurd ⟨rfl, rfl⟩ hc) | decide
    exact this (hp.subset h)
  obtain ⟨rfl, rfl⟩ := hflags
  refine ⟨rfl, rfl, ?_⟩
  have hsch : schedule n (releaseCommand false true) = schedule n (buildCommand ++ [.phase .preRelease]) ++
      .archive :: schedule n [.phase .postRelease] := by
    simp [schedule, releaseCommand, releaseStages, actions]
  have hnot : Action.archive ∉ schedule n (buildCommand ++ [.phase .preRelease]) := hns _ (by decide)
  obtain ⟨tail, htail⟩ := hp
  rw [hsch] at htail
  rcases List.append_eq_append_iff.1 htail with ⟨m, h1, h2⟩ | ⟨m, h1, h2⟩
  · rw [h1] at hnot
    exact absurd (List.mem_append_left m h) hnot
  · cases m with
    | nil =>
      rw [List.append_nil] at h1
      rw [h1] at h
      exact absurd h hnot
    | cons x m =>
      simp only [List.cons_append, List.cons.injEq] at h2
      obtain ⟨rfl, _⟩ := h2
      refine ⟨m, h1, ?_⟩
      intro a ha
      obtain ⟨p, q, hpq⟩ := List.append_of_mem ha
      rw [hpq] at h1
      exact runs_before hr p a (q ++ .archive :: m) (by rw [h1]; simp) (by simp)

theorem runs_flat {sev : K → Severity} {act : Action → W → Res W E K} {w : W} {l : List Action} {res : Res W E K}
    (h : Runs sev act w l res) : ∀ r, res.1 = .ok r → ¬ HasError sev r → ∀ acc log, failed sev acc = false →
      flat sev (recorded act) l acc (w, log) = (.ok (acc ++ r), (res.2, log ++ l)) := by
  induction h with
  | nil w =>
    intro r hr _ acc log _
    simp only [Except.ok.injEq] at hr
    subst hr
    simp [flat]
  | good ha hg _ ih =>
    intro r hr hn acc log hacc
    simp only [Except.ok.injEq] at hr
    subst hr
    have hf := failed_append sev acc _ hacc ▸ (Bool.eq_false_iff.2 fun hc => hg ((failed_iff sev _).1 hc))
    simp only [flat, recorded, ha]
    rw [if_neg (by rw [hf]; exact Bool.false_ne_true)]
    rw [ih _ rfl (fun ⟨c, hc, hs⟩ => hn ⟨c, List.mem_append_right _ hc, hs⟩) _ _ hf]
    simp
  | later => intro r hr; simp at hr
  | bad _ hb =>
    intro r hr hn
    simp only [Except.ok.injEq] at hr
    exact absurd (hr ▸ hb) hn
  | abort => intro r hr; simp at hr

/-- The exit code is zero exactly when every action of every stage ran and none reported an error. -/
theorem C39_exit_code (sev : K → Severity) (act : Action → W → Res W E K) (n : Nat) (stages : List Stage) (w : W) :
    exitCode sev ((executor n stages (recorded act)).run sev (w, [])) = 0 ↔
      ∃ r w', Runs sev act w (schedule n stages) (.ok r, w') ∧ ¬ HasError sev r := by
  obtain ⟨ran, res, w', he, hp, hr, hall⟩ := C39_pipeline sev act n stages w
  rw [he]
  constructor
  · intro h
    cases res with
    | error e => simp [exitCode] at h
    | ok r =>
      have hn : ¬ HasError sev r := by
        intro hc
        rw [exitCode, if_pos ((failed_iff sev r).2 hc)] at h
        exact absurd h (by decide)
      rw [hall r rfl hn] at hr
      exact ⟨r, w', hr, hn⟩
  · rintro ⟨r, w2, hr2, hn⟩
    have := runs_flat hr2 r rfl hn [] [] rfl
    have he' : (executor n stages (recorded act)).run sev (w, []) = (.ok r, (w2, schedule n stages)) := by
      rw [Executor.run, runStages_eq]
      · exact this
      · rfl
    rw [← he, he', exitCode, if_neg (fun hf => hn ((failed_iff sev _).1 hf))]

/-- `hemtt check` makes neither PBOs nor an archive, and `hemtt build` no archive. -/
theorem C39_commands (sev : K → Severity) (act : Action → W → Res W E K) (n : Nat) (w : W) :
    (Action.build ∉ ((executor n checkCommand (recorded act)).run sev (w, [])).2.2) ∧
    (Action.archive ∉ ((executor n checkCommand (recorded act)).run sev (w, [])).2.2) ∧
    (Action.archive ∉ ((executor n buildCommand (recorded act)).run sev (w, [])).2.2) := by
  have key : ∀ (ss : List Stage) (a : Action), a ∉ schedule n ss →
      a ∉ ((executor n ss (recorded act)).run sev (w, [])).2.2 := by
    intro ss a ha hm
    obtain ⟨ran, res, w', he, hp, _, _⟩ := C39_pipeline sev act n ss w
    rw [he] at hm
    exact ha (hp.subset hm)
  refine ⟨key _ _ ?_, key _ _ ?_, key _ _ ?_⟩ <;>
    simp [schedule, checkCommand, buildCommand, buildStages, actions]

/-- An error in the last phase of a release comes too late: the archive has been made. -/
theorem C39_archive_before_post_release (sev : K → Severity) (act : Action → W → Res W E K) (n : Nat) (w : W)
    (hgood : ∀ a w, (∀ i, a ≠ .module i .postRelease) → ∃ r w', act a w = (.ok r, w') ∧ ¬ HasError sev r) :
    Action.archive ∈ ((executor n (releaseCommand false true) (recorded act)).run sev (w, [])).2.2 := by
  obtain ⟨ran, res, w', he, hp, hr, hall⟩ := C39_pipeline sev act n (releaseCommand false true) w
  rw [he]
  dsimp only
  by_contra hc
  -- a run that ends early ends with an action that fails
  have hend : ∀ {w l} {x : Res W E K}, Runs sev act w l x → (∀ a ∈ l, ∀ i, a ≠ .module i .postRelease) →
      ∃ r, x.1 = .ok r ∧ ¬ HasError sev r := by
    intro w l x hx
    induction hx with
    | nil => exact fun _ => ⟨[], rfl, fun ⟨_, h, _⟩ => by simp at h⟩
    | good ha hg _ ih =>
      intro hl
      obtain ⟨r, h1, h2⟩ := ih (fun a ha => hl a (List.mem_cons_of_mem _ ha))
      simp only [Except.ok.injEq] at h1
      subst h1
      refine ⟨_, rfl, ?_⟩
      rintro ⟨c, hc, hs⟩
      rcases List.mem_append.1 hc with hc | hc
      · exact hg ⟨c, hc, hs⟩
      · exact h2 ⟨c, hc, hs⟩
    | later ha hg _ ih =>
      intro hl
      obtain ⟨r, h1, h2⟩ := ih (fun a ha => hl a (List.mem_cons_of_mem _ ha))
      simp at h1
    | bad ha hb =>
      intro hl
      obtain ⟨r, w', h1, h2⟩ := hgood _ _ (hl _ (List.mem_singleton.2 rfl))
      rw [ha] at h1
      simp only [Prod.mk.injEq, Except.ok.injEq] at h1
      exact absurd (h1.1 ▸ hb) h2
    | abort ha =>
      intro hl
      obtain ⟨r, w', h1, h2⟩ := hgood _ _ (hl _ (List.mem_singleton.2 rfl))
      rw [ha] at h1
      simp at h1
  have hsch : schedule n (releaseCommand false true) = schedule n (buildCommand ++ [.phase .preRelease]) ++
      .archive :: schedule n [.phase .postRelease] := by
    simp [schedule, releaseCommand, releaseStages, actions]
  have hpre : ran <+: schedule n (buildCommand ++ [.phase .preRelease]) := by
    obtain ⟨tail, htail⟩ := hp
    rw [hsch] at htail
    rcases List.append_eq_append_iff.1 htail with ⟨m, h1, h2⟩ | ⟨m, h1, h2⟩
    · exact ⟨m, h1.symm⟩
    · cases m with
      | nil =>
        rw [h1, List.append_nil]
        exact List.prefix_rfl
      | cons y m =>
        simp only [List.cons_append, List.cons.injEq] at h2
        rw [h1, ← h2.1] at hc
        simp at hc
  obtain ⟨r, h1, h2⟩ := hend hr (by
    intro a ha i hcon
    have := hpre.subset ha
    subst hcon
    simp [schedule, buildCommand, buildStages, actions] at this)
  have := hall r h1 h2
  rw [this, hsch] at hc
  simp at hc

/-! ### Cases: three modules; the second reports an error in its second phase. -/

/-- Codes are their severities; a module with number 1 reports an error in `check`, the others a warning. -/
def sampleAct : Action → Nat → Res Nat Unit Severity := fun a w =>
  (.ok [if a = .module 1 .check then .error else .warning], w + 1)

example : ((executor 3 (releaseCommand false true) (recorded sampleAct)).run id (0, [])) =
    (.ok [.warning, .warning, .warning, .warning, .error],
      (5, [.module 0 .init, .module 1 .init, .module 2 .init, .module 0 .check, .module 1 .check])) := by decide +kernel
example : exitCode id ((executor 3 (releaseCommand false true) (recorded sampleAct)).run id (0, [])) = 1 := by
  decide +kernel
example : Action.archive ∈ ((executor 1 (releaseCommand false true) (recorded sampleAct)).run id (0, [])).2.2 := by
  decide +kernel
/-- A code of severity `bug` does not stop the pipeline. -/
example : ((executor 2 buildCommand (recorded fun _ w => ((.ok [Severity.bug] : Except Unit _), w + 1))).run id
    (0, [])).2.1 = 9 := by decide +kernel

end Verif.Executor
