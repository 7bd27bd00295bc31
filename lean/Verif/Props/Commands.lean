import Verif.Model.Commands
import Verif.Props.Reporting
import Mathlib.Data.List.TakeWhile
/-!
C98: which addons the commands build. C99: the lints about required versions. C100: the warning about a version that is not out
yet. C101: which scripts are compiled. C102: byte order marks.
-/
namespace Verif.Commands

open Verif.Workspace (Location Addon)
open Verif.Release (folder)
open Verif.Executor (Stage Phase Executor Res runModules failed)
open Verif.Lints (Severity)

/-! ## C98 -/

theorem prefix_slash (e f : Text) : (e ++ ['/']) <+: (f ++ ['/']) ↔ split '/' e <+: split '/' f := by
  constructor
  · rintro ⟨t, ht⟩
    have h : split '/' f ++ [[]] = split '/' e ++ split '/' t := by
      have h1 := Reporting.split_append' '/' f []
      have h2 := Reporting.split_append' '/' e t
      have : e ++ '/' :: t = f ++ ['/'] := by rw [← ht]; simp
      rw [this] at h2
      rw [← h2, h1]
      rfl
    have h3 : split '/' e <+: split '/' f ++ [[]] := ⟨_, h.symm⟩
    rcases List.prefix_concat_iff.1 h3 with h4 | h4
    · rw [h4] at h
      have h5 : split '/' t = [] := by simpa using h
      exact absurd h5 (split_ne_nil _ _)
    · exact h4
  · rintro ⟨ps, hps⟩
    rcases ps with _ | ⟨q, ps⟩
    · rw [List.append_nil] at hps
      have : e = f := by rw [← joinWith_split '/' e, ← joinWith_split '/' f, hps]
      rw [this]
      exact List.prefix_rfl
    · have h1 : f = e ++ '/' :: joinWith '/' (q :: ps) := by
        have hsp : split '/' (joinWith '/' (q :: ps)) = q :: ps := split_joinWith (by simp) fun x hx =>
          split_pieces (s := f) x (by rw [← hps]; simp at hx ⊢; tauto)
        rw [← joinWith_split '/' f, ← hps, ← joinWith_split '/' (e ++ '/' :: joinWith '/' (q :: ps)),
          Reporting.split_append', hsp]
      refine ⟨joinWith '/' (q :: ps) ++ ['/'], ?_⟩
      rw [h1]
      simp

/-- The addons named with `--just`; all of them if none is. -/
def Just (lower : Text → Text) (just : List Text) (n : Text) : Prop := just = [] ∨ ∃ j ∈ just, lower j = lower n

/-- What an addon that `dev` builds is like. -/
def Built (lower : Text → Text) (args : DevArgs) (just launch exclude : List Text) (a : Addon) : Prop :=
  Just lower just a.name ∧
    (a.name ∈ launch ∨
      (a.location = .optionals → args.allOptionals = true ∨ a.name ∈ args.optional) ∧
      ∀ e ∈ exclude, e ≠ Release.Location.show a.location ∧ e ≠ Release.Location.show a.location ++ '/' :: a.name)

theorem show_noSlash (l : Location) : '/' ∉ Release.Location.show l := by cases l <;> decide

theorem excluded_iff (a : Addon) (h : '/' ∉ a.name) (e : Text) : startsWith (e ++ ['/']) (folder a ++ ['/']) = true ↔
    e = Release.Location.show a.location ∨ e = Release.Location.show a.location ++ '/' :: a.name := by
  rw [startsWith, List.isPrefixOf_iff_prefix, prefix_slash, folder, split_append (show_noSlash _), split_of_not_mem h]
  constructor
  · intro hp
    have he := joinWith_split '/' e
    rcases hs : split '/' e with _ | ⟨x, _ | ⟨y, _ | ⟨z, t⟩⟩⟩
    · exact absurd hs (split_ne_nil _ _)
    · rw [hs] at hp he
      obtain ⟨t, ht⟩ := hp
      simp at ht
      left
      rw [← he, ht.1]
      rfl
    · rw [hs] at hp he
      obtain ⟨t, ht⟩ := hp
      simp at ht
      right
      rw [← he, ht.1, ht.2.1]
      rfl
    · rw [hs] at hp
      have := hp.length_le
      simp at this
  · rintro (rfl | rfl)
    · rw [split_of_not_mem (show_noSlash _)]
      exact ⟨[a.name], rfl⟩
    · rw [split_append (show_noSlash _), split_of_not_mem h]
      exact List.prefix_rfl

theorem contains_map (lower : Text → Text) (just : List Text) (n : Text) :
    (just.map lower).contains n = true ↔ ∃ j ∈ just, lower j = n := by
  rw [List.contains_iff_mem, List.mem_map]

theorem devFilter_iff (lower : Text → Text) (args : DevArgs) (just launch exclude : List Text) (a : Addon) (h : '/' ∉ a.name) :
    devFilter lower args (just.map lower) launch exclude a = true ↔ Built lower args just launch exclude a := by
  have hj : (!(just.map lower).isEmpty && !(just.map lower).contains (lower a.name)) = false ↔ Just lower just a.name := by
    rcases just with _ | ⟨j, js⟩
    · simp [Just]
    · rw [show ((j :: js).map lower).isEmpty = false from rfl, Bool.not_false, Bool.true_and, Bool.not_eq_false',
        contains_map, Just]
      exact ⟨.inr, fun h => h.resolve_left (by simp)⟩
  have hl : launch.any (· == a.name) = true ↔ a.name ∈ launch := by simp
  have ho : (a.location == .optionals && !args.allOptionals && !args.optional.contains a.name) = false ↔
      (a.location = .optionals → args.allOptionals = true ∨ a.name ∈ args.optional) := by
    cases a.location <;> cases args.allOptionals <;> simp
  have he : (!exclude.any fun e => startsWith (e ++ ['/']) (folder a ++ ['/'])) = true ↔ ∀ e ∈ exclude,
      e ≠ Release.Location.show a.location ∧ e ≠ Release.Location.show a.location ++ '/' :: a.name := by
    rw [Bool.not_eq_true', List.any_eq_false]
    refine forall₂_congr fun e _ => ?_
    rw [excluded_iff a h]
    tauto
  unfold devFilter Built
  by_cases h1 : Just lower just a.name
  · rw [if_neg (by rw [hj.2 h1]; simp)]
    by_cases h2 : a.name ∈ launch
    · rw [if_pos (hl.2 h2)]
      simp [h1, h2]
    · rw [if_neg (fun h => h2 (hl.1 h))]
      by_cases h3 : a.location = .optionals → args.allOptionals = true ∨ a.name ∈ args.optional
      · rw [if_neg (by rw [ho.2 h3]; simp), he]
        exact ⟨fun h => ⟨h1, .inr ⟨h3, h⟩⟩, fun h => (h.2.resolve_left h2).2⟩
      · rw [if_pos (by
          cases hb : (a.location == .optionals && !args.allOptionals && !args.optional.contains a.name)
          · exact absurd (ho.1 hb) h3
          · rfl)]
        simp only [Bool.false_eq_true, false_iff]
        exact fun h => h3 (h.2.resolve_left h2).1
  · rw [if_pos (by
      cases hb : (!(just.map lower).isEmpty && !(just.map lower).contains (lower a.name))
      · exact absurd (hj.1 hb) h1
      · rfl)]
    simp only [Bool.false_eq_true, false_iff]
    exact fun h => h1 h.1

/-- C98: `hemtt dev` and `hemtt launch` build exactly the addons named with `--just` (all if none is), in whatever case, of which
those in `optionals` only if they are asked for, without those the project excludes, in the order they were found; addons a launch
configuration asks for are built even if they are excluded. An addon is excluded by its folder or by the folder of all addons;
nothing else excludes it. -/
theorem C98_dev (lower : Text → Text) (all : List Addon) (args : DevArgs) (just launch exclude : List Text) (fb rapify : Bool)
    (pl : Plan) (hn : ∀ a ∈ all, '/' ∉ a.name) (h : dev lower all args just launch exclude fb rapify = .ok pl) :
    ∃ p : Addon → Bool, pl.addons = all.filter p ∧
      ∀ a ∈ all, p a = true ↔ Built lower args just launch exclude a := by
  unfold dev at h
  dsimp only at h
  split at h
  · cases h
  · cases h
    exact ⟨_, rfl, fun a ha => devFilter_iff lower args just launch exclude a (hn a ha)⟩

/-- C98: it fails exactly if an addon named with `-o` is not built, be it that there is none of that name, that it is excluded, or
that it is not named with `--just`; and it names one. -/
theorem C98_dev_fails (lower : Text → Text) (all : List Addon) (args : DevArgs) (just launch exclude : List Text)
    (fb rapify : Bool) (hn : ∀ a ∈ all, '/' ∉ a.name) :
    ((∃ o, dev lower all args just launch exclude fb rapify = .error o) ↔
      ∃ o ∈ args.optional, ∀ a ∈ all, a.name = o → ¬ Built lower args just launch exclude a) ∧
    ∀ o, dev lower all args just launch exclude fb rapify = .error o →
      o ∈ args.optional ∧ ∀ a ∈ all, a.name = o → ¬ Built lower args just launch exclude a := by
  have key : ∀ o, (!(all.filter (devFilter lower args (just.map lower) launch exclude)).any fun a => a.name == o) = true ↔
      ∀ a ∈ all, a.name = o → ¬ Built lower args just launch exclude a := by
    intro o
    rw [Bool.not_eq_true', List.any_eq_false]
    constructor
    · intro h a ha hao hb
      exact h a (List.mem_filter.2 ⟨ha, (devFilter_iff lower args just launch exclude a (hn a ha)).2 hb⟩) (by simpa using hao)
    · intro h a ha hao
      have := List.mem_filter.1 ha
      exact h a this.1 (by simpa using hao) ((devFilter_iff lower args just launch exclude a (hn a this.1)).1 this.2)
  have hs : ∀ o, dev lower all args just launch exclude fb rapify = .error o →
      o ∈ args.optional ∧ ∀ a ∈ all, a.name = o → ¬ Built lower args just launch exclude a := by
    intro o h
    unfold dev at h
    dsimp only at h
    split at h
    · rename_i x hx
      cases h
      have h5 := List.find?_some hx
      exact ⟨List.mem_of_find?_eq_some hx, (key o).1 h5⟩
    · cases h
  refine ⟨⟨fun ⟨o, ho⟩ => ⟨o, hs o ho⟩, fun ⟨o, ho, hb⟩ => ?_⟩, hs⟩
  unfold dev
  dsimp only
  split
  · exact ⟨_, rfl⟩
  · rename_i hx
    exact absurd ((key o).2 hb) (by simpa using List.find?_eq_none.1 hx o ho)

/-- C98: `hemtt build` builds exactly the addons named with `--just`, all if none is, be they optional or excluded from `dev`. -/
theorem C98_build (lower : Text → Text) (all : List Addon) (just : List Text) (noBin noRap : Bool) :
    ∃ p : Addon → Bool, (build lower all just noBin noRap).addons = all.filter p ∧
      ∀ a ∈ all, p a = true ↔ Just lower just a.name := by
  rcases just with _ | ⟨j, js⟩
  · exact ⟨fun _ => true, by simp [build], fun a _ => by simp [Just]⟩
  · exact ⟨fun a => ((j :: js).map lower).contains (lower a.name), by simp [build], fun a _ => by
      rw [contains_map, Just]
      exact ⟨.inr, fun h => h.resolve_left (by simp)⟩⟩

/-- C98: what was there from before is kept exactly if addons are named with `--just`. -/
theorem C98_kept (lower : Text → Text) (all : List Addon) (args : DevArgs) (just launch exclude : List Text) (fb rapify : Bool)
    (pl : Plan) (h : dev lower all args just launch exclude fb rapify = .ok pl) (noBin noRap : Bool) :
    (pl.keep = true ↔ just ≠ []) ∧ ((build lower all just noBin noRap).keep = true ↔ just ≠ []) := by
  unfold dev at h
  dsimp only at h
  split at h
  · cases h
  · cases h
    constructor <;> cases just <;> simp [build]

namespace Example98

def a1 : Addon := ⟨"main".toList, .addons, []⟩
def a2 : Addon := ⟨"dev_tools".toList, .addons, []⟩
def a3 : Addon := ⟨"ace".toList, .optionals, []⟩
def args (o : List Text) : DevArgs := ⟨false, o, false, false⟩

/-- An optional addon is asked for, another addon excluded. -/
example : (dev id [a1, a2, a3] (args ["ace".toList]) [] [] ["addons/dev_tools".toList] false true).map (·.addons) = .ok [a1, a3] := by
  decide +kernel
/-- A slash at the end of what is to be excluded, and it is not. -/
example : (dev id [a1, a2] (args []) [] [] ["addons/dev_tools/".toList] false true).map (·.addons) = .ok [a1, a2] := by decide +kernel
/-- An optional addon that exists but is excluded is not found. -/
example : dev id [a1, a3] (args ["ace".toList]) [] [] ["optionals".toList] false true = .error "ace".toList := by decide +kernel
/-- A launch configuration asks for it. -/
example : (dev id [a1, a3] (args []) [] ["ace".toList] ["optionals".toList] false true).map (·.addons) = .ok [a1, a3] := by
  decide +kernel
example : ∀ a ∈ [a1, a2, a3], '/' ∉ a.name := by decide +kernel

end Example98

/-! ## C99 -/

/-- The plans of the commands. -/
def IsCommand (pl : Plan) : Prop :=
  (∃ all, pl = check all) ∨
  (∃ lower all args just launch exclude fb rapify, dev lower all args just launch exclude fb rapify = .ok pl) ∨
  (∃ lower all just noBin noRap, pl = build lower all just noBin noRap) ∨
  ∃ all noBin noRap noSign noArchive signs archives, pl = release all noBin noRap noSign noArchive signs archives

section
variable {R E K : Type}

/-- The modules with scripts checked as if nothing were known of required versions. -/
def Acts.blind (acts : Acts R E K) : Acts R E K := { acts with sqf := fun _ => acts.sqf fun _ => none }

theorem act_blind (acts : Acts R E K) (m : Module) (p : Phase) (h : ¬ (m = .sqf ∧ p = .preBuild)) :
    acts.blind.act m p = acts.act m p := by
  cases m <;> cases p <;> first | rfl | exact absurd ⟨rfl, rfl⟩ h

theorem act_required (acts : Acts R E K) (m : Module) (p : Phase) (h : ¬ (m = .rapifier ∧ p = .preBuild)) (w : World R) :
    (acts.act m p w).2.required = w.required := by
  cases m <;> cases p <;> first | rfl | exact absurd ⟨rfl, rfl⟩ h

theorem runModules_blind (sev : K → Severity) (acts : Acts R E K) (p : Phase) (ms : List Module)
    (h : ∀ m ∈ ms, ¬ (m = .sqf ∧ p = .preBuild)) (acc : List K) (w : World R) :
    runModules sev p (ms.map acts.blind.act) acc w = runModules sev p (ms.map acts.act) acc w := by
  induction ms generalizing acc w with
  | nil => rfl
  | cons m ms ih =>
    simp only [List.map_cons, runModules, act_blind acts m p (h m (by simp))]
    split
    · rfl
    · rw [ih fun x hx => h x (by simp [hx])]

theorem runModules_required (sev : K → Severity) (acts : Acts R E K) (p : Phase) (ms : List Module)
    (h : ∀ m ∈ ms, ¬ (m = .rapifier ∧ p = .preBuild)) (acc : List K) (w : World R) :
    (runModules sev p (ms.map acts.act) acc w).2.required = w.required := by
  induction ms generalizing acc w with
  | nil => rfl
  | cons m ms ih =>
    simp only [List.map_cons, runModules]
    have hr := act_required acts m p (h m (by simp)) w
    split
    · rename_i e w' heq
      rw [heq] at hr
      exact hr
    · rename_i r w' heq
      rw [heq] at hr
      split
      · exact hr
      · rw [ih (fun x hx => h x (by simp [hx])), hr]

/-- The modules before the first that sets versions cannot see any. -/
theorem runModules_pre (sev : K → Severity) (acts : Acts R E K) (l1 l2 : List Module) (h1 : ∀ m ∈ l1, m ≠ .rapifier)
    (h2 : ∀ m ∈ l2, m ≠ .sqf) (acc : List K) (w : World R) (hw : w.required = fun _ => none) :
    runModules sev .preBuild ((l1 ++ l2).map acts.blind.act) acc w = runModules sev .preBuild ((l1 ++ l2).map acts.act) acc w := by
  induction l1 generalizing acc w with
  | nil => exact runModules_blind sev acts _ _ (fun m hm => fun h => h2 m hm h.1) acc w
  | cons m ms ih =>
    have hm : acts.blind.act m .preBuild w = acts.act m .preBuild w := by
      by_cases hs : m = .sqf
      · subst hs
        simp only [Acts.act, Acts.blind, hw]
      · rw [act_blind acts m _ (fun h => hs h.1)]
    have hr := act_required acts m .preBuild (fun h => h1 m (by simp) h.1) w
    simp only [List.cons_append, List.map_cons, runModules, hm]
    split
    · rfl
    · rename_i r w' heq
      rw [heq] at hr
      split
      · rfl
      · exact ih (fun x hx => h1 x (by simp [hx])) _ _ (hr.trans hw)

/-- A plan whose modules all check scripts before one sets versions, and that goes through that phase once. -/
structure Early (pl : Plan) (l1 l2 : List Module) (s1 s2 : List Stage) : Prop where
  modules : pl.modules = l1 ++ l2
  noRap : ∀ m ∈ l1, m ≠ .rapifier
  noSqf : ∀ m ∈ l2, m ≠ .sqf
  stages : pl.stages = s1 ++ .phase .preBuild :: s2
  before : ∀ s ∈ s1, s ≠ .phase .preBuild
  after : ∀ s ∈ s2, s ≠ .phase .preBuild

theorem stage_blind (sev : K → Severity) (pl : Plan) (acts : Acts R E K) (pbos archive : R → Res R E K) (s : Stage)
    (h : s ≠ .phase .preBuild) (w : World R) :
    (pl.executor acts.blind pbos archive).stage sev w s = (pl.executor acts pbos archive).stage sev w s := by
  cases s with
  | phase p => exact runModules_blind sev acts p _ (fun m _ hc => h (by rw [hc.2])) [] w
  | build => rfl
  | archive => rfl

theorem stage_required (sev : K → Severity) (pl : Plan) (acts : Acts R E K) (pbos archive : R → Res R E K) (s : Stage)
    (h : s ≠ .phase .preBuild) (w : World R) :
    ((pl.executor acts pbos archive).stage sev w s).2.required = w.required := by
  cases s with
  | phase p => exact runModules_required sev acts p _ (fun m _ hc => h (by rw [hc.2])) [] w
  | build => rfl
  | archive => rfl

theorem runStages_blind (sev : K → Severity) (pl : Plan) (acts : Acts R E K) (pbos archive : R → Res R E K) (ss : List Stage)
    (h : ∀ s ∈ ss, s ≠ .phase .preBuild) (acc : List K) (w : World R) :
    (pl.executor acts.blind pbos archive).runStages sev ss acc w = (pl.executor acts pbos archive).runStages sev ss acc w := by
  induction ss generalizing acc w with
  | nil => rfl
  | cons s ss ih =>
    simp only [Executor.runStages, stage_blind sev pl acts pbos archive s (h s (by simp))]
    split
    · rfl
    · rw [ih fun x hx => h x (by simp [hx])]

theorem early_blind (sev : K → Severity) (pl : Plan) (acts : Acts R E K) (pbos archive : R → Res R E K) {l1 l2 : List Module}
    {s1 s2 : List Stage} (he : Early pl l1 l2 s1 s2) (acc : List K) (w : World R) (hw : w.required = fun _ => none) :
    (pl.executor acts.blind pbos archive).runStages sev (s1 ++ .phase .preBuild :: s2) acc w =
      (pl.executor acts pbos archive).runStages sev (s1 ++ .phase .preBuild :: s2) acc w := by
  obtain ⟨hm, hr, hs, hst, hb, ha⟩ := he
  clear hst
  induction s1 generalizing acc w with
  | nil =>
    simp only [List.nil_append, Executor.runStages]
    have : (pl.executor acts.blind pbos archive).stage sev w (.phase .preBuild) =
        (pl.executor acts pbos archive).stage sev w (.phase .preBuild) := by
      show runModules sev .preBuild (pl.modules.map acts.blind.act) [] w = runModules sev .preBuild (pl.modules.map acts.act) [] w
      rw [hm]
      exact runModules_pre sev acts l1 l2 hr hs [] w hw
    rw [this]
    split
    · rfl
    · rw [runStages_blind sev pl acts pbos archive s2 ha]
  | cons s s1 ih =>
    simp only [List.cons_append, Executor.runStages, stage_blind sev pl acts pbos archive s (hb s (by simp))]
    have hreq := stage_required sev pl acts pbos archive s (hb s (by simp)) w
    split
    · rfl
    · rename_i r w' heq
      rw [heq] at hreq
      split
      · rfl
      · exact ih _ _ (hreq.trans hw) fun x hx => hb x (by simp [hx])

theorem command_early (pl : Plan) (h : IsCommand pl) : ∃ l1 l2 s1 s2, Early pl l1 l2 s1 s2 := by
  have hg : ∀ m ∈ globalModules, m ≠ .rapifier := by decide
  rcases h with ⟨all, rfl⟩ | ⟨lower, all, args, just, launch, exclude, fb, rapify, h⟩ | ⟨lower, all, just, noBin, noRap, rfl⟩ |
    ⟨all, noBin, noRap, noSign, noArchive, signs, archives, rfl⟩
  · exact ⟨globalModules, [.rapifier, .binarize true], [.phase .init, .phase .check], [], rfl, hg, by decide, rfl, by decide,
      by decide⟩
  · unfold dev at h
    dsimp only at h
    split at h
    · cases h
    · cases h
      refine ⟨globalModules, (if rapify && !args.noRap then [.rapifier] else []) ++ [.files, .filePatching] ++
        (if fb || args.binarize then [.binarize false] else []), [.phase .init, .phase .check],
        [.build, .phase .postBuild], by simp, hg, ?_, rfl, by decide, by decide⟩
      cases rapify <;> cases args.noRap <;> cases fb <;> cases args.binarize <;> decide
  · refine ⟨globalModules, (if noRap then [] else [.rapifier]) ++ (if noBin then [] else [.binarize false]) ++ [.files],
      [.phase .init, .phase .check], [.build, .phase .postBuild], by simp [build, buildModules], hg, ?_, rfl, by decide, by decide⟩
    cases noRap <;> cases noBin <;> decide
  · refine ⟨globalModules, (if noRap then [] else [.rapifier]) ++ (if noBin then [] else [.binarize false]) ++ [.files] ++
        (if !noSign && signs then [.sign] else []),
      [.phase .init, .phase .check],
      [.build, .phase .postBuild] ++ Executor.releaseStages (if noArchive then false else archives),
      by simp [release, buildModules], hg, ?_, rfl, by decide, ?_⟩
    · cases noRap <;> cases noBin <;> cases noSign <;> cases signs <;> decide
    · cases noArchive <;> cases archives <;> decide

/-- C99: scripts are checked before any config has been read: every command does exactly what it would do if it were not known of
any addon which version it requires. This holds whatever the modules do. -/
theorem C99_never (sev : K → Severity) (pl : Plan) (h : IsCommand pl) (acts : Acts R E K) (pbos archive : R → Res R E K) (r : R) :
    (pl.executor acts pbos archive).run sev ⟨fun _ => none, r⟩ =
      (pl.executor acts.blind pbos archive).run sev ⟨fun _ => none, r⟩ := by
  obtain ⟨l1, l2, s1, s2, he⟩ := command_early pl h
  have hst : ∀ a : Acts R E K, (pl.executor a pbos archive).run sev ⟨fun _ => none, r⟩ =
      (pl.executor a pbos archive).runStages sev (s1 ++ .phase .preBuild :: s2) [] ⟨fun _ => none, r⟩ := by
    intro a
    rw [← he.stages]
    rfl
  rw [hst, hst, early_blind sev pl acts pbos archive he [] _ rfl]

/-- C99, in violation of what the lint `required_version` (S01) is for: no command ever reports that a script uses a command newer
than what the config of its addon requires. For any scripts, adding the reports of the lint (for the versions known of their
addons) to those of the module makes no difference. -/
theorem C99_violated (sev : K → Severity) (pl : Plan) (h : IsCommand pl) (acts : Acts R E K) (pbos archive : R → Res R E K) (r : R)
    (since : Bytes → Option Nat) (code : Bytes × Nat × Sqf.Span → K) (scripts : List (Text × List Sqf.Stmt)) :
    (pl.executor { acts with
        sqf := fun req r => ((acts.sqf req r).1.map (· ++ scripts.flatMap fun s =>
          (SqfLint.commandVersions since (req s.1) s.2).map code), (acts.sqf req r).2) } pbos archive).run sev ⟨fun _ => none, r⟩ =
      (pl.executor acts pbos archive).run sev ⟨fun _ => none, r⟩ := by
  rw [C99_never sev pl h, C99_never sev pl h acts]
  congr 2
  simp only [Acts.blind]
  congr 1
  funext _ r
  have : (scripts.flatMap fun s => (SqfLint.commandVersions since none s.2).map code) = [] := by
    simp [SqfLint.commandVersions]
  rw [this]
  rcases acts.sqf (fun _ => none) r with ⟨_ | _, _⟩ <;> simp [Except.map]

end

namespace Example99

/-- The rapifier reads that the addon requires version 2.00, and the lint is given what is known. -/
def acts : Acts Unit Unit (Option (Nat × Nat)) where
  sqf req r := (.ok [req "main".toList], r)
  sqfPost req r := (.ok [req "main".toList], r)
  rapifier r := (.ok [], fun n => if n = "main".toList then some (2, 0) else none, r)
  other _ _ r := (.ok [], r)

def none' (r : Unit) : Res Unit Unit (Option (Nat × Nat)) := (.ok [], r)

/-- Scripts are linted without it; it is known when the version is compared with the stable one. -/
example : (((build id [Example98.a1] [] false false).executor acts none' none').run (fun _ => .warning) ⟨fun _ => none, ()⟩).1.toOption =
    some [none, some (2, 0)] := by decide +kernel
/-- `hemtt check` does not get there. -/
example : (((check [Example98.a1]).executor acts none' none').run (fun _ => .warning) ⟨fun _ => none, ()⟩).1.toOption =
    some [none] := by decide +kernel
/-- Without rapifying nothing is known. -/
example : (((build id [Example98.a1] [] false true).executor acts none' none').run (fun _ => .warning) ⟨fun _ => none, ()⟩).1.toOption =
    some [none, none] := by decide +kernel

end Example99

/-! ## C100 -/

section
variable {R E K : Type}

theorem act_post (acts : Acts R E K) (f : (Text → Option (Nat × Nat)) → R → Res R E K) (m : Module) (p : Phase) (h : p ≠ .postBuild) :
    ({ acts with sqfPost := f } : Acts R E K).act m p = acts.act m p := by
  cases m <;> cases p <;> first | rfl | exact absurd rfl h

theorem runModules_post (sev : K → Severity) (acts : Acts R E K) (f : (Text → Option (Nat × Nat)) → R → Res R E K) (p : Phase)
    (h : p ≠ .postBuild) (ms : List Module) (acc : List K) (w : World R) :
    runModules sev p (ms.map ({ acts with sqfPost := f } : Acts R E K).act) acc w = runModules sev p (ms.map acts.act) acc w := by
  induction ms generalizing acc w with
  | nil => rfl
  | cons m ms ih =>
    simp only [List.map_cons, runModules, act_post acts f m p h]
    split
    · rfl
    · rw [ih]

/-- C100, an exception: `hemtt check` never compares required versions with the stable one: it makes no difference what that would
report. -/
theorem C100_check (sev : K → Severity) (all : List Addon) (acts : Acts R E K) (pbos archive : R → Res R E K) (w : World R)
    (f : (Text → Option (Nat × Nat)) → R → Res R E K) :
    ((check all).executor { acts with sqfPost := f } pbos archive).run sev w = ((check all).executor acts pbos archive).run sev w := by
  have key : ∀ (ss : List Stage), (∀ s ∈ ss, s = .phase .init ∨ s = .phase .check ∨ s = .phase .preBuild) → ∀ acc w,
      ((check all).executor { acts with sqfPost := f } pbos archive).runStages sev ss acc w =
        ((check all).executor acts pbos archive).runStages sev ss acc w := by
    intro ss
    induction ss with
    | nil => intros; rfl
    | cons s ss ih =>
      intro hs acc w
      have : ((check all).executor { acts with sqfPost := f } pbos archive).stage sev w s =
          ((check all).executor acts pbos archive).stage sev w s := by
        rcases hs s (by simp) with rfl | rfl | rfl <;>
          exact runModules_post sev acts f _ (by decide) _ [] w
      simp only [Executor.runStages, this]
      split
      · rfl
      · rw [ih fun x hx => hs x (by simp [hx])]
  exact key Verif.Executor.checkCommand (by decide) [] w

end

/-- A version as it is read from a config: `libs/common/src/version.rs:167-174`. -/
def version (major minor : Nat) : Ver.Version := ⟨major, minor, 0, none, none⟩

theorem newer_iff {a b c d : Nat} (hb : b < 256) (hd : d < 256) :
    newer (version a b) (version c d) = true ↔ 256 * c + d < 256 * a + b := by
  unfold newer Ver.partialCmp version
  dsimp only
  by_cases h1 : a = c
  · subst h1
    by_cases h2 : b = d
    · subst h2; simp
    · rw [if_neg (by simp), if_pos h2]
      simp [Nat.compare_eq_gt]
  · rw [if_pos h1]
    simp only [beq_iff_eq, Option.some.injEq, Nat.compare_eq_gt]
    omega

/-- The number of a version. -/
def num (v : Ver.Version) : Nat := 256 * v.major + v.minor

/-- The versions are made of numbers below 256, as those of the game are. -/
def Sane (l : List (Text × Option Ver.Version)) : Prop :=
  ∀ n v, (n, some v) ∈ l → ∃ a b, v = version a b ∧ a < 256 ∧ b < 256

theorem highest_spec (l : List (Text × Option Ver.Version)) (hs : Sane l) (M m : Nat) (hM : M < 256) (hm : m < 256)
    (by_ : List Text) : ∃ M' m', M' < 256 ∧ m' < 256 ∧ (highest l (version M m, by_)).1 = version M' m' ∧
      256 * M + m ≤ 256 * M' + m' ∧ (∀ n v, (n, some v) ∈ l → num v ≤ 256 * M' + m') ∧
      (256 * M' + m' = 256 * M + m ∨ ∃ n, (n, some (version M' m')) ∈ l) ∧
      (highest l (version M m, by_)).2 = (if version M' m' = version M m then by_ else []) ++
        (l.filter fun x => x.2 == some (version M' m')).map (·.1) := by
  induction l generalizing M m by_ with
  | nil => exact ⟨M, m, hM, hm, rfl, le_refl _, by simp, .inl rfl, by simp [highest]⟩
  | cons x l ih =>
    obtain ⟨n, o⟩ := x
    have hs' : Sane l := fun n v h => hs n v (by simp [h])
    cases o with
    | none =>
      obtain ⟨M', m', h1, h2, h3, h4, h5, h6, h7⟩ := ih hs' M m hM hm by_
      refine ⟨M', m', h1, h2, h3, h4, ?_, ?_, ?_⟩
      · intro n' v hv
        simp at hv
        exact h5 n' v hv
      · rcases h6 with h6 | ⟨k, h6⟩
        · exact .inl h6
        · exact .inr ⟨k, by simp [h6]⟩
      · rw [highest, h7]
        simp
    | some v =>
      obtain ⟨a, b, rfl, ha, hb⟩ := hs n v (by simp)
      have hinj : ∀ c d, d < 256 → (version a b = version c d ↔ 256 * a + b = 256 * c + d) := by
        intro c d hd
        simp only [version, Ver.Version.mk.injEq, and_true]
        omega
      rw [highest]
      dsimp only
      by_cases hn : newer (version a b) (version M m) = true
      · rw [if_pos hn]
        rw [newer_iff hb hm] at hn
        obtain ⟨M', m', h1, h2, h3, h4, h5, h6, h7⟩ := ih hs' a b ha hb [n]
        refine ⟨M', m', h1, h2, h3, by omega, ?_, ?_, ?_⟩
        · intro n' v hv
          rcases List.mem_cons.1 hv with hv | hv
          · cases hv; exact h4
          · exact h5 n' v hv
        · right
          rcases h6 with h6 | ⟨k, h6⟩
          · refine ⟨n, ?_⟩
            rw [← (hinj M' m' h2).2 h6.symm]
            simp
          · exact ⟨k, by simp [h6]⟩
        · rw [h7]
          have hne : version M' m' ≠ version M m := by
            simp only [version, ne_eq, Ver.Version.mk.injEq, and_true]
            omega
          rw [if_neg hne, List.filter_cons]
          by_cases he : version M' m' = version a b
          · simp [he]
          · have he' : ¬ version a b = version M' m' := fun h => he h.symm
            simp [he, he']
      · rw [if_neg hn]
        rw [newer_iff hb hm] at hn
        by_cases he : version a b = version M m
        · rw [if_pos he]
          obtain ⟨M', m', h1, h2, h3, h4, h5, h6, h7⟩ := ih hs' M m hM hm (by_ ++ [n])
          refine ⟨M', m', h1, h2, h3, h4, ?_, ?_, ?_⟩
          · intro n' v hv
            rcases List.mem_cons.1 hv with hv | hv
            · cases hv
              rw [num]
              simp only [version] at *
              omega
            · exact h5 n' v hv
          · rcases h6 with h6 | ⟨k, h6⟩
            · exact .inl h6
            · exact .inr ⟨k, by simp [h6]⟩
          · rw [h7, List.filter_cons]
            by_cases hq : version M' m' = version M m
            · simp [hq, he]
            · have hq' : ¬ version M m = version M' m' := fun h => hq h.symm
              simp [hq, he, hq']
        · rw [if_neg he]
          have hlt : 256 * a + b < 256 * M + m := by
            rw [hinj M m hm] at he
            omega
          obtain ⟨M', m', h1, h2, h3, h4, h5, h6, h7⟩ := ih hs' M m hM hm by_
          refine ⟨M', m', h1, h2, h3, h4, ?_, ?_, ?_⟩
          · intro n' v hv
            rcases List.mem_cons.1 hv with hv | hv
            · cases hv
              show 256 * a + b ≤ _
              omega
            · exact h5 n' v hv
          · rcases h6 with h6 | ⟨k, h6⟩
            · exact .inl h6
            · exact .inr ⟨k, by simp [h6]⟩
          · rw [h7, List.filter_cons]
            have hq : ¬ version a b = version M' m' := by
              rw [hinj M' m' h2]
              omega
            simp [hq]

/-- C100: a build warns that a version is not out yet exactly if an addon requires one above the stable. -/
theorem C100_reported (stable : Nat) (l : List (Text × Option Ver.Version)) (hs : Sane l) :
    (futureVersion stable l).isSome = true ↔ ∃ n v, (n, some v) ∈ l ∧ stable < num v := by
  obtain ⟨M, m, h1, h2, h3, h4, h5, h6, h7⟩ := highest_spec l hs 0 0 (by omega) (by omega) []
  unfold futureVersion
  rw [show (⟨0, 0, 0, none, none⟩ : Ver.Version) = version 0 0 from rfl]
  dsimp only
  rw [h3]
  simp only [version, SqfLint.wikiVersion, h1, h2, if_true]
  constructor
  · intro h
    split at h
    · rename_i hlt
      rcases h6 with h6 | ⟨n, h6⟩
      · omega
      · exact ⟨n, _, h6, hlt⟩
    · cases h
  · rintro ⟨n, v, hv, hlt⟩
    rw [if_pos (lt_of_lt_of_le hlt (h5 n v hv))]
    rfl

/-- C100: it gives the highest version any addon requires, and names exactly the addons that require it, in their order. -/
theorem C100_named (stable : Nat) (l : List (Text × Option Ver.Version)) (hs : Sane l) (w : Nat) (names : List Text)
    (h : futureVersion stable l = some (w, names)) :
    (∃ n v, (n, some v) ∈ l ∧ num v = w) ∧ (∀ n v, (n, some v) ∈ l → num v ≤ w) ∧
      names = (l.filter fun x => x.2.map num == some w).map (·.1) := by
  obtain ⟨M, m, h1, h2, h3, h4, h5, h6, h7⟩ := highest_spec l hs 0 0 (by omega) (by omega) []
  unfold futureVersion at h
  rw [show (⟨0, 0, 0, none, none⟩ : Ver.Version) = version 0 0 from rfl] at h
  dsimp only at h
  split at h
  swap
  · cases h
  rename_i hlt
  rw [h3] at h hlt
  simp only [version, SqfLint.wikiVersion, h1, h2, if_true] at h hlt
  rw [Option.some.injEq, Prod.mk.injEq] at h
  obtain ⟨rfl, rfl⟩ := h
  refine ⟨?_, h5, ?_⟩
  · rcases h6 with h6 | ⟨n, h6⟩
    · omega
    · exact ⟨n, _, h6, rfl⟩
  · have h8 : (highest l (version 0 0, [])).2 = (l.filter fun x => x.2 == some (version M m)).map (·.1) := by
      rw [h7]; simp
    show (highest l (version 0 0, [])).2 = _
    rw [h8]
    congr 1
    refine List.filter_congr fun x hx => ?_
    obtain ⟨n, _ | v⟩ := x
    · simp
    · obtain ⟨a, b, rfl, ha, hb⟩ := hs n v hx
      rw [Bool.eq_iff_iff]
      simp only [beq_iff_eq, Option.some.injEq, Option.map_some, num, version, Ver.Version.mk.injEq, and_true]
      omega

/-- C100, an exception: a major version that does not fit into a byte counts as zero. -/
theorem C100_large (stable major minor : Nat) (n : Text) (hM : 256 ≤ major) (hm : minor ≤ stable) :
    futureVersion stable [(n, some (version major minor))] = none := by
  have hh : highest [(n, some (version major minor))] (⟨0, 0, 0, none, none⟩, []) = (version major minor, [n]) := by
    have : newer (version major minor) ⟨0, 0, 0, none, none⟩ = true := by
      unfold newer Ver.partialCmp version
      dsimp only
      rw [if_pos (by omega)]
      simp only [beq_iff_eq, Option.some.injEq, Nat.compare_eq_gt]
      omega
    simp [highest, this]
  have hw : SqfLint.wikiVersion major minor ≤ stable := by
    unfold SqfLint.wikiVersion
    rw [if_neg (by omega)]
    split <;> omega
  unfold futureVersion
  rw [hh]
  exact if_neg (by show ¬ stable < SqfLint.wikiVersion major minor; omega)

example : futureVersion (256 * 2 + 18) [("main".toList, some (version 2 20)), ("ui".toList, none), ("fx".toList, some (version 2 18)),
    ("ai".toList, some (version 2 20))] = some (256 * 2 + 20, ["main".toList, "ai".toList]) := by decide +kernel
example : Sane [("main".toList, some (version 2 20)), ("ui".toList, none)] := by
  intro n v h
  simp at h
  exact ⟨2, 20, h.2, by omega, by omega⟩

/-! ## C101 -/

theorem dropWhile_dot (b e : Text) (he : '.' ∉ e) : (b ++ '.' :: e).reverse.dropWhile (· ≠ '.') = '.' :: b.reverse ∧
    ((b ++ '.' :: e).reverse.takeWhile (· ≠ '.')).reverse = e := by
  have h1 : (b ++ '.' :: e).reverse = e.reverse ++ ('.' :: b.reverse) := by simp
  have h2 : ∀ x ∈ e.reverse, (decide (x ≠ '.')) = true := by
    intro x hx
    have : x ∈ e := by simpa using hx
    simp
    rintro rfl
    exact he this
  rw [h1]
  constructor
  · rw [List.dropWhile_append_of_pos h2]
    simp
  · rw [List.takeWhile_append_of_pos h2]
    simp

theorem dot_split (name : Text) (h : '.' ∈ name) : ∃ b e, name = b ++ '.' :: e ∧ '.' ∉ e := by
  have h1 := List.takeWhile_append_dropWhile (p := fun x : Char => decide (x ≠ '.')) (l := name.reverse)
  rcases h2 : name.reverse.dropWhile (fun x => decide (x ≠ '.')) with _ | ⟨d, r⟩
  · exfalso
    rw [List.dropWhile_eq_nil_iff] at h2
    have := h2 '.' (by simpa using h)
    simp at this
  · have hd : d = '.' := by
      have h3 := List.head?_dropWhile_not (fun x : Char => decide (x ≠ '.')) name.reverse
      rw [h2] at h3
      simpa using h3
    subst hd
    rw [h2] at h1
    refine ⟨r.reverse, (name.reverse.takeWhile fun x => decide (x ≠ '.')).reverse, ?_, ?_⟩
    · have := congrArg List.reverse h1
      simpa using this.symm
    · intro hm
      have := List.mem_takeWhile_imp (List.mem_reverse.1 hm)
      simp at this

theorem extension_iff (name e : Text) : extension name = some e ↔ ∃ b, b ≠ [] ∧ name = b ++ '.' :: e ∧ '.' ∉ e := by
  constructor
  · intro h
    by_cases hd : '.' ∈ name
    · obtain ⟨b, e', rfl, he'⟩ := dot_split name hd
      obtain ⟨h1, h2⟩ := dropWhile_dot b e' he'
      unfold extension at h
      rw [h1] at h
      rcases hb : b.reverse with _ | ⟨x, r⟩
      · rw [hb] at h; cases h
      · rw [hb] at h
        dsimp only at h
        rw [h2] at h
        cases h
        refine ⟨b, ?_, rfl, he'⟩
        rintro rfl
        simp at hb
    · unfold extension at h
      have : name.reverse.dropWhile (· ≠ '.') = [] := by
        rw [List.dropWhile_eq_nil_iff]
        intro x hx
        simp
        rintro rfl
        exact hd (by simpa using hx)
      rw [this] at h
      cases h
  · rintro ⟨b, hb, rfl, he⟩
    obtain ⟨h1, h2⟩ := dropWhile_dot b e he
    unfold extension
    rw [h1]
    rcases hb' : b.reverse with _ | ⟨x, r⟩
    · exact absurd (by simpa using hb') hb
    · dsimp only
      rw [h2]

/-- C101: the scripts that are compiled are the files of the addons that end in `.sqf`, with something before it, and not in
`.inc.sqf`. -/
theorem C101_which (walk : Addon → List (List Text)) (addons : List Addon) (a : Addon) (f : List Text) :
    (a, f) ∈ scripts walk addons ↔ a ∈ addons ∧ f ∈ walk a ∧
      (∃ b, b ≠ [] ∧ f.getLastD [] = b ++ ".sqf".toList) ∧ ¬ ∃ b, f.getLastD [] = b ++ ".inc.sqf".toList := by
  have hs : ∀ n : Text, isScript n = true ↔ (∃ b, b ≠ [] ∧ n = b ++ ".sqf".toList) ∧ ¬ ∃ b, n = b ++ ".inc.sqf".toList := by
    intro n
    unfold isScript
    rw [Bool.and_eq_true, beq_iff_eq, extension_iff, Bool.not_eq_true', ← Bool.not_eq_true, List.isSuffixOf_iff_suffix]
    have h1 : '.' ∉ "sqf".toList := by decide
    have h2 : (".sqf".toList : Text) = '.' :: "sqf".toList := by decide
    rw [h2]
    refine and_congr ⟨fun ⟨b, h, h', _⟩ => ⟨b, h, h'⟩, fun ⟨b, h, h'⟩ => ⟨b, h, h', h1⟩⟩ (not_congr ?_)
    exact ⟨fun ⟨b, h⟩ => ⟨b, h.symm⟩, fun ⟨b, h⟩ => ⟨b, h.symm⟩⟩
  unfold scripts
  simp only [List.mem_flatMap, List.mem_map, List.mem_filter, Prod.mk.injEq]
  constructor
  · rintro ⟨a', ha, f', ⟨hf, hn⟩, rfl, rfl⟩
    exact ⟨ha, hf, (hs _).1 hn⟩
  · rintro ⟨ha, hf, hn⟩
    exact ⟨a, ha, f, ⟨hf, (hs _).2 hn⟩, rfl, rfl⟩

/-- C101: the compiled script is beside the script and has a `c` more at the end of its name; so no two get in each other's way. -/
theorem C101_name (d : List Text) (b : Text) : compiled (d ++ [b ++ ".sqf".toList]) = d ++ [b ++ ".sqfc".toList] := by
  obtain ⟨h1, _⟩ := dropWhile_dot b "sqf".toList (by decide)
  have h2 : (".sqf".toList : Text) = '.' :: "sqf".toList := by decide
  have h3 : (".sqfc".toList : Text) = '.' :: "sqfc".toList := by decide
  unfold compiled withExtension
  rw [h2, h3]
  simp only [List.getLastD_concat, List.dropLast_concat, h1, List.reverse_reverse]

/-- A line of the text begins with `force ` and a blank: it looks like the settings of an addon. -/
def HasForceLine (t : Text) : Prop := ∃ l ∈ split '\n' t, "force ".toList <+: l

theorem hasPart_iff (p s : Text) : hasPart p s = true ↔ p <:+: s := by
  induction s with
  | nil => simp [hasPart]
  | cons c s ih =>
    rw [hasPart, Bool.or_eq_true, ih, List.isPrefixOf_iff_prefix, List.infix_cons_iff]

theorem joinWith_append' (c : Char) (l : List Text) (q : Text) (r : List Text) (h : l ≠ []) :
    joinWith c (l ++ q :: r) = joinWith c l ++ c :: joinWith c (q :: r) := by
  match l, h with
  | [p], _ => rfl
  | p :: p' :: t, _ =>
    have := joinWith_append' c (p' :: t) q r (by simp)
    simp only [List.cons_append, joinWith] at this ⊢
    rw [this]
    simp

theorem split_head {c : Char} {p : Text} (hp : c ∉ p) (r : Text) : ∃ l ∈ split c (p ++ r), p <+: l := by
  have key : ∃ h t, split c (p ++ r) = (p ++ h) :: t := by
    induction p with
    | nil =>
      rcases hs : split c r with _ | ⟨h, t⟩
      · exact absurd hs (split_ne_nil _ _)
      · exact ⟨h, t, by simpa using hs⟩
    | cons a p ih =>
      obtain ⟨h, t, he⟩ := ih fun hm => hp (by simp [hm])
      refine ⟨h, t, ?_⟩
      have hac : a ≠ c := fun e => hp (by simp [e])
      simp only [List.cons_append, split, if_neg hac, he]
  obtain ⟨h, t, he⟩ := key
  exact ⟨p ++ h, by simp [he], List.prefix_append _ _⟩

theorem line_prefix {c : Char} {p : Text} (hp : c ∉ p) (t : Text) :
    (p <+: t ∨ (c :: p) <:+: t) ↔ ∃ l ∈ split c t, p <+: l := by
  constructor
  · rintro (⟨r, rfl⟩ | ⟨x, r, rfl⟩)
    · exact split_head hp r
    · obtain ⟨l, hl, h⟩ := split_head hp r
      refine ⟨l, ?_, h⟩
      have : x ++ (c :: p) ++ r = x ++ c :: (p ++ r) := by simp
      rw [this, Reporting.split_append']
      simp [hl]
  · rintro ⟨l, hl, r, rfl⟩
    obtain ⟨L1, L2, hs⟩ := List.append_of_mem hl
    have ht := joinWith_split c t
    have hj : ∃ y, joinWith c ((p ++ r) :: L2) = p ++ y := by
      rcases L2 with _ | ⟨q, L2⟩
      · exact ⟨r, rfl⟩
      · exact ⟨r ++ c :: joinWith c (q :: L2), by simp [joinWith]⟩
    obtain ⟨y, hy⟩ := hj
    rw [hs] at ht
    by_cases h1 : L1 = []
    · subst h1
      left
      rw [List.nil_append, hy] at ht
      exact ⟨y, ht⟩
    · right
      rw [joinWith_append' c L1 _ L2 h1, hy] at ht
      exact ⟨joinWith c L1, y, by simpa using ht⟩

theorem settings_iff (t : Text) : settings t = true ↔ HasForceLine t := by
  unfold settings HasForceLine startsWith
  rw [Bool.or_eq_true, List.isPrefixOf_iff_prefix, hasPart_iff, ← line_prefix (by decide)]
  have : ("\nforce ".toList : Text) = '\n' :: "force ".toList := by decide
  rw [this]

section
variable {P S K E B : Type}

theorem compileFiles_ok (T : Tools P S K E B) (err : K → Bool) (l : List (Addon × List Text)) (rep : List K)
    (out : List (List Text × B)) (h : compileFiles T err l = .ok (rep, out)) :
    (∀ k, k ∈ rep ↔ ∃ a f r o, (a, f) ∈ l ∧ compileFile T err a f = .ok (r, o) ∧ k ∈ r) ∧
    (∀ x, x ∈ out ↔ ∃ a f r, (a, f) ∈ l ∧ compileFile T err a f = .ok (r, some x)) ∧
    ∀ a f, (a, f) ∈ l → ∃ r o, compileFile T err a f = .ok (r, o) := by
  induction l generalizing rep out with
  | nil =>
    rw [compileFiles] at h
    cases h
    simp
  | cons x l ih =>
    obtain ⟨a, f⟩ := x
    rw [compileFiles] at h
    split at h
    · cases h
    rename_i r o hr
    split at h
    · cases h
    rename_i r' o' hr'
    cases h
    obtain ⟨h1, h2, h3⟩ := ih r' o' hr'
    refine ⟨fun k => ?_, fun y => ?_, fun a' f' hm => ?_⟩
    · rw [List.mem_append, h1]
      constructor
      · rintro (hk | ⟨a', f', r'', o'', hm, hc, hk⟩)
        · exact ⟨a, f, r, o, by simp, hr, hk⟩
        · exact ⟨a', f', r'', o'', by simp [hm], hc, hk⟩
      · rintro ⟨a', f', r'', o'', hm, hc, hk⟩
        rcases List.mem_cons.1 hm with he | hm
        · cases he
          rw [hr] at hc
          cases hc
          exact .inl hk
        · exact .inr ⟨a', f', r'', o'', hm, hc, hk⟩
    · rw [List.mem_append, h2, Option.mem_toList]
      constructor
      · rintro (hk | ⟨a', f', r'', hm, hc⟩)
        · subst hk
          exact ⟨a, f, r, by simp, hr⟩
        · exact ⟨a', f', r'', by simp [hm], hc⟩
      · rintro ⟨a', f', r'', hm, hc⟩
        rcases List.mem_cons.1 hm with he | hm
        · cases he
          rw [hr] at hc
          cases hc
          exact .inl rfl
        · exact .inr ⟨a', f', r'', hm, hc⟩
    · rcases List.mem_cons.1 hm with he | hm
      · cases he
        exact ⟨r, o, hr⟩
      · exact h3 a' f' hm

/-- C101: what is written is exactly, for each script that can be preprocessed and parsed and in which no lint finds an error, the
compiled script. -/
theorem C101_written (T : Tools P S K E B) (err : K → Bool) (walk : Addon → List (List Text)) (addons : List Addon)
    (rep : List K) (out : List (List Text × B)) (h : compileScripts T err walk addons = .ok (rep, out)) (path : List Text) (b : B) :
    (path, b) ∈ out ↔ ∃ a f p s, (a, f) ∈ scripts walk addons ∧ T.pre f = .ok p ∧ T.parse p = .ok s ∧
      (∀ k ∈ T.lint a p s, err k = false) ∧ path = compiled f ∧ b = T.compile p s := by
  rw [(compileFiles_ok T err _ rep out h).2.1]
  constructor
  · rintro ⟨a, f, r, hm, hc⟩
    unfold compileFile at hc
    split at hc
    · cases hc
    · cases hc
    rename_i p hp
    split at hc
    · rename_i s hs
      simp only [Except.ok.injEq, Prod.mk.injEq] at hc
      obtain ⟨_, hc⟩ := hc
      split at hc
      · cases hc
      · rename_i hl
        cases hc
        exact ⟨a, f, p, s, hm, hp, hs, by simpa using hl, rfl, rfl⟩
    · cases hc
    · cases hc
  · rintro ⟨a, f, p, s, hm, hp, hs, hl, rfl, rfl⟩
    refine ⟨a, f, T.warnings p ++ T.lint a p s, hm, ?_⟩
    have : (T.lint a p s).any err = false := by simpa using hl
    simp [compileFile, hp, hs, this]

/-- C101: what is reported is exactly the error of the preprocessor or its warnings, and the errors of the parser or what the lints
find, for each script; but errors of the parser, other than those in single characters, are not reported for a script in which a
line begins with `force `. -/
theorem C101_reported (T : Tools P S K E B) (err : K → Bool) (walk : Addon → List (List Text)) (addons : List Addon)
    (rep : List K) (out : List (List Text × B)) (h : compileScripts T err walk addons = .ok (rep, out)) (k : K) :
    k ∈ rep ↔ ∃ a f, (a, f) ∈ scripts walk addons ∧ (T.pre f = .code k ∨ ∃ p, T.pre f = .ok p ∧
      (k ∈ T.warnings p ∨ (∃ s, T.parse p = .ok s ∧ k ∈ T.lint a p s) ∨ (∃ ks, T.parse p = .lexing ks ∧ k ∈ ks) ∨
        ∃ ks, T.parse p = .parsing ks ∧ k ∈ ks ∧ ¬ HasForceLine (T.text p))) := by
  rw [(compileFiles_ok T err _ rep out h).1]
  refine exists_congr fun a => exists_congr fun f => ?_
  constructor
  · rintro ⟨r, o, hm, hc, hk⟩
    refine ⟨hm, ?_⟩
    unfold compileFile at hc
    split at hc
    · rename_i k' hp
      cases hc
      simp at hk
      exact .inl (hk ▸ hp)
    · cases hc
    rename_i p hp
    refine .inr ⟨p, hp, ?_⟩
    split at hc
    · rename_i s hs
      cases hc
      rcases List.mem_append.1 hk with hk | hk
      · exact .inl hk
      · exact .inr (.inl ⟨s, hs, hk⟩)
    · rename_i ks hs
      cases hc
      rcases List.mem_append.1 hk with hk | hk
      · exact .inl hk
      · split at hk
        · cases hk
        · rename_i hf
          exact .inr (.inr (.inr ⟨ks, hs, hk, fun hl => hf ((settings_iff _).2 hl)⟩))
    · rename_i ks hs
      cases hc
      rcases List.mem_append.1 hk with hk | hk
      · exact .inl hk
      · exact .inr (.inr (.inl ⟨ks, hs, hk⟩))
  · rintro ⟨hm, hk⟩
    obtain ⟨r, o, hc⟩ := (compileFiles_ok T err _ rep out h).2.2 a f hm
    refine ⟨r, o, hm, hc, ?_⟩
    unfold compileFile at hc
    rcases hk with hp | ⟨p, hp, hk⟩
    · rw [hp] at hc
      cases hc
      simp
    · rw [hp] at hc
      dsimp only at hc
      rcases hk with hk | ⟨s, hs, hk⟩ | ⟨ks, hs, hk⟩ | ⟨ks, hs, hk, hf⟩
      · split at hc <;> cases hc <;> simp [hk]
      · rw [hs] at hc
        cases hc
        simp [hk]
      · rw [hs] at hc
        cases hc
        simp [hk]
      · rw [hs] at hc
        have : settings (T.text p) = false := by
          rw [← Bool.not_eq_true]
          exact fun h => hf ((settings_iff _).1 h)
        rw [this] at hc
        cases hc
        simp [hk]

/-- C101: it stops without a report exactly if a script cannot be preprocessed for a reason that has no report. -/
theorem C101_aborts (T : Tools P S K E B) (err : K → Bool) (walk : Addon → List (List Text)) (addons : List Addon) :
    (∃ e, compileScripts T err walk addons = .error e) ↔ ∃ a f e, (a, f) ∈ scripts walk addons ∧ T.pre f = .other e := by
  have hf : ∀ a f, (∃ e, compileFile T err a f = .error e) ↔ ∃ e, T.pre f = .other e := by
    intro a f
    unfold compileFile
    constructor
    · rintro ⟨e, h⟩
      split at h
      · cases h
      · rename_i e' he
        exact ⟨e', he⟩
      · split at h <;> cases h
    · rintro ⟨e, h⟩
      rw [h]
      exact ⟨e, rfl⟩
  unfold compileScripts
  generalize scripts walk addons = l
  induction l with
  | nil => simp [compileFiles]
  | cons x l ih =>
    obtain ⟨a, f⟩ := x
    constructor
    · rintro ⟨e, h⟩
      rw [compileFiles] at h
      split at h
      · rename_i e' he
        obtain ⟨e'', h''⟩ := (hf a f).1 ⟨e', he⟩
        exact ⟨a, f, e'', by simp, h''⟩
      · split at h
        · rename_i e' he
          obtain ⟨a', f', e'', hm, h''⟩ := ih.1 ⟨e', he⟩
          exact ⟨a', f', e'', by simp [hm], h''⟩
        · cases h
    · rintro ⟨a', f', e, hm, he⟩
      rw [compileFiles]
      split
      · exact ⟨_, rfl⟩
      · rename_i r o hr
        rcases List.mem_cons.1 hm with hx | hm
        · cases hx
          obtain ⟨e', he'⟩ := (hf a f).2 ⟨e, he⟩
          rw [hr] at he'
          cases he'
        · obtain ⟨e', he'⟩ := ih.2 ⟨a', f', e, hm, he⟩
          rw [he']
          exact ⟨_, rfl⟩

/-- C101: if it goes through and no error is reported, every script has been compiled, but for those that cannot be parsed and in
which a line begins with `force `. (Reports of the preprocessor that end it are errors, and there is an error among those of the
parser.) -/
theorem C101_all (T : Tools P S K E B) (err : K → Bool) (walk : Addon → List (List Text)) (addons : List Addon)
    (rep : List K) (out : List (List Text × B)) (h : compileScripts T err walk addons = .ok (rep, out))
    (hcode : ∀ f k, T.pre f = .code k → err k = true) (hpar : ∀ p ks, T.parse p = .parsing ks → ∃ k ∈ ks, err k = true)
    (hlex : ∀ p ks, T.parse p = .lexing ks → ∃ k ∈ ks, err k = true) (hno : ∀ k ∈ rep, err k = false) (a : Addon) (f : List Text)
    (hm : (a, f) ∈ scripts walk addons) :
    (∃ b, (compiled f, b) ∈ out) ∨ ∃ p ks, T.pre f = .ok p ∧ T.parse p = .parsing ks ∧ HasForceLine (T.text p) := by
  have hr := C101_reported T err walk addons rep out h
  have hno' : ∀ k, err k = true → k ∉ rep := fun k hk hm => by simp [hno k hm] at hk
  rcases hp : T.pre f with p | k | e
  · rcases hs : T.parse p with s | ks | ks
    · left
      refine ⟨T.compile p s, (C101_written T err walk addons rep out h _ _).2 ⟨a, f, p, s, hm, hp, hs, fun k hk => ?_, rfl, rfl⟩⟩
      exact hno k ((hr k).2 ⟨a, f, hm, .inr ⟨p, hp, .inr (.inl ⟨s, hs, hk⟩)⟩⟩)
    · right
      refine ⟨p, ks, rfl, hs, ?_⟩
      by_contra hl
      obtain ⟨k, hk, he⟩ := hpar p ks hs
      exact hno' k he ((hr k).2 ⟨a, f, hm, .inr ⟨p, hp, .inr (.inr (.inr ⟨ks, hs, hk, hl⟩))⟩⟩)
    · obtain ⟨k, hk, he⟩ := hlex p ks hs
      exact absurd ((hr k).2 ⟨a, f, hm, .inr ⟨p, hp, .inr (.inr (.inl ⟨ks, hs, hk⟩))⟩⟩) (hno' k he)
  · exact absurd ((hr k).2 ⟨a, f, hm, .inl hp⟩) (hno' k (hcode f k hp))
  · obtain ⟨e', he'⟩ := (C101_aborts T err walk addons).2 ⟨a, f, e, hm, hp⟩
    rw [h] at he'
    cases he'

end

namespace Example101

def main : Addon := ⟨"main".toList, .addons, []⟩
/-- Four files; the parser accepts what does not begin with a bracket. -/
def T : Tools Text Text Bool Unit Text where
  pre f := .ok (if f = ["a.sqf".toList] then "x = 1;".toList else if f = ["b.sqf".toList] then "[;\nforce ace = 1;".toList
    else "[".toList)
  warnings _ := [false]
  text p := p
  parse p := if "[".toList.isPrefixOf p then .parsing [true] else .ok p
  lint _ _ _ := [false]
  compile p _ := p
def walk (fs : List String) (_ : Addon) : List (List Text) := fs.map fun f => [f.toList]

/-- A broken script with a line that looks like a setting is left out, and nobody is told. -/
example : compileScripts T id (walk ["a.sqf", "b.sqf", "c.inc.sqf", "D.SQF"]) [main] =
    .ok ([false, false, false], [(["a.sqfc".toList], "x = 1;".toList)]) := by rfl
/-- Without it there is an error. -/
example : compileScripts T id (walk ["c.sqf"]) [main] = .ok ([false, true], []) := by rfl

end Example101

/-! ## C102 -/

/-- C102: the files with a byte order mark that are reported are exactly those that begin with it and have an extension that is not
`p3d`, `rtm`, `bin` or `paa`, in the order they were met, each once for every time it was met; unless the path of the file, with
that of the project, has `.hemttout` in it. -/
theorem C102_reported (project : Text) (walk : List (List Text × Bytes)) :
    ∃ p : List Text × Bytes → Bool, bomCheck project walk = (walk.filter p).map (·.1) ∧ ∀ f, p f = true ↔
      (∃ rest, f.2 = 0xEF :: 0xBB :: 0xBF :: rest) ∧
      (∃ b e, b ≠ [] ∧ f.1.getLastD [] = b ++ '.' :: e ∧ '.' ∉ e ∧
        e ∉ ["p3d".toList, "rtm".toList, "bin".toList, "paa".toList]) ∧
      ¬ ".hemttout".toList <:+: (project ++ '/' :: joinWith '/' f.1) := by
  refine ⟨_, rfl, fun f => ?_⟩
  have h1 : (3 ≤ f.2.length && f.2.take 3 == [0xEF, 0xBB, 0xBF]) = true ↔ ∃ rest, f.2 = 0xEF :: 0xBB :: 0xBF :: rest := by
    rw [Bool.and_eq_true, decide_eq_true_iff, beq_iff_eq]
    constructor
    · rintro ⟨_, h⟩
      exact ⟨f.2.drop 3, by rw [← List.take_append_drop 3 f.2, h]; simp⟩
    · rintro ⟨r, h⟩
      rw [h]
      simp
  have h2 : looksForBom (project ++ '/' :: joinWith '/' f.1) (f.1.getLastD []) = true ↔
      (∃ b e, b ≠ [] ∧ f.1.getLastD [] = b ++ '.' :: e ∧ '.' ∉ e ∧
        e ∉ ["p3d".toList, "rtm".toList, "bin".toList, "paa".toList]) ∧
      ¬ ".hemttout".toList <:+: (project ++ '/' :: joinWith '/' f.1) := by
    unfold looksForBom
    rw [Bool.and_eq_true, Bool.not_eq_true', ← Bool.not_eq_true, hasPart_iff, and_comm]
    refine and_congr ?_ Iff.rfl
    rw [Option.any_eq_true]
    constructor
    · rintro ⟨e, he, hi⟩
      obtain ⟨b, hb, hn, hd⟩ := (extension_iff _ _).1 he
      exact ⟨b, e, hb, hn, hd, by simpa [ignoredExtensions] using hi⟩
    · rintro ⟨b, e, hb, hn, hd, hi⟩
      exact ⟨e, (extension_iff _ _).2 ⟨b, hb, hn, hd⟩, by simpa [ignoredExtensions] using hi⟩
  rw [Bool.and_eq_true, h1, h2]
  tauto

/-- The file with the prefix of an addon has no extension. -/
example : bomCheck "/p".toList [(["addons".toList, "$PBOPREFIX$".toList], [0xEF, 0xBB, 0xBF, 65]),
    (["addons".toList, "a.sqf".toList], [0xEF, 0xBB, 0xBF, 65]), (["addons".toList, "a.P3D".toList], [0xEF, 0xBB, 0xBF]),
    (["addons".toList, "a.p3d".toList], [0xEF, 0xBB, 0xBF]), (["addons".toList, "b.sqf".toList], [65])] =
    [["addons".toList, "a.sqf".toList], ["addons".toList, "a.P3D".toList]] := by decide +kernel

end Verif.Commands
