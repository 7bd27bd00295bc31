import Verif.Lib.Rapifier
/-! C130: rapifying the configs of the addons. -/
namespace Verif.Rapifier
open Verif.Commands (extension withExtension extension_iff Pre)
open Verif.Workspace (Addon Location)

theorem globs_some {glob : Text → Option (Text → Bool)} : ∀ {ps : List Text} {gs}, globs glob ps = some gs →
    ∀ m, m ∈ gs ↔ ∃ p ∈ ps, glob p = some m
  | [], gs, h => by cases h; simp
  | p :: ps, gs, h => by
    rw [globs] at h
    rcases hp : glob p with _ | m0
    · rw [hp] at h; cases h
    · rw [hp] at h
      dsimp only at h
      rcases hr : globs glob ps with _ | gs'
      · rw [hr] at h; cases h
      · rw [hr] at h
        cases h
        intro m
        simp [globs_some hr m, hp, eq_comm]

theorem globs_none {glob : Text → Option (Text → Bool)} : ∀ {ps : List Text}, globs glob ps = none ↔ ∃ p ∈ ps, glob p = none
  | [] => by simp [globs]
  | p :: ps => by
    rw [globs]
    rcases hp : glob p with _ | m0
    · simp [hp]
    · simp [hp, globs_none (ps := ps)]

theorem mem_entriesOf {glob : Text → Option (Text → Bool)} {toml : Addon → Option Toml} {walk : Addon → List Path} {a : Addon} {l}
    (h : entriesOf glob toml walk a = some l) (x : Addon × Path) :
    x ∈ l ↔ x.1 = a ∧ x.2 ∈ walk a ∧ canRapify (x.2.getLastD []) = true ∧
      ∀ t, toml a = some t → t.enabled = true ∧ ¬ ∃ pat ∈ t.exclude, ∃ m, glob pat = some m ∧ m (asStr x.2) = true := by
  obtain ⟨a', p⟩ := x
  unfold entriesOf at h
  rcases ht : toml a with _ | t
  · rw [ht] at h
    cases h
    simp only [List.mem_map, List.mem_filter, Prod.mk.injEq]
    constructor
    · rintro ⟨q, ⟨h1, h2⟩, rfl, rfl⟩
      exact ⟨rfl, h1, h2, by simp⟩
    · rintro ⟨rfl, h1, h2, _⟩
      exact ⟨p, ⟨h1, h2⟩, rfl, rfl⟩
  · rw [ht] at h
    dsimp only at h
    by_cases he : t.enabled = true
    · rw [if_pos he] at h
      rcases hg : globs glob t.exclude with _ | gs
      · rw [hg] at h; cases h
      · rw [hg] at h
        cases h
        have hm := globs_some hg
        simp only [List.mem_map, List.mem_filter, Bool.and_eq_true, Bool.not_eq_true', ← Bool.not_eq_true, List.any_eq_true,
          Prod.mk.injEq]
        constructor
        · rintro ⟨q, ⟨h1, h2, h3⟩, rfl, rfl⟩
          refine ⟨rfl, h1, h2, fun t' ht' => ?_⟩
          cases ht'
          exact ⟨he, fun ⟨pat, hp, m, hm1, hm2⟩ => h3 ⟨m, (hm m).2 ⟨pat, hp, hm1⟩, hm2⟩⟩
        · rintro ⟨rfl, h1, h2, h3⟩
          refine ⟨p, ⟨h1, h2, fun ⟨m, hm1, hm2⟩ => ?_⟩, rfl, rfl⟩
          obtain ⟨pat, hp, hg'⟩ := (hm m).1 hm1
          exact (h3 t rfl).2 ⟨pat, hp, m, hg', hm2⟩
    · rw [if_neg he] at h
      cases h
      simp only [List.not_mem_nil, false_iff]
      rintro ⟨_, _, _, h3⟩
      exact he (h3 t rfl).1

theorem entries_cases {glob : Text → Option (Text → Bool)} {toml : Addon → Option Toml} {walk : Addon → List Path} :
    ∀ {as : List Addon} {l}, entries glob toml walk as = some l →
      ∀ x, x ∈ l ↔ ∃ a ∈ as, ∃ l', entriesOf glob toml walk a = some l' ∧ x ∈ l'
  | [], l, h => by cases h; simp
  | a :: as, l, h => by
    rw [entries] at h
    rcases ha : entriesOf glob toml walk a with _ | l0
    · rw [ha] at h; cases h
    · rw [ha] at h
      dsimp only at h
      rcases hr : entries glob toml walk as with _ | l1
      · rw [hr] at h; cases h
      · rw [hr] at h
        cases h
        intro x
        simp [entries_cases hr x, ha]

theorem entries_some {glob : Text → Option (Text → Bool)} {toml : Addon → Option Toml} {walk : Addon → List Path} :
    ∀ {as : List Addon} {l}, entries glob toml walk as = some l → ∀ a ∈ as, ∃ l', entriesOf glob toml walk a = some l'
  | [], _, _ => by simp
  | a :: as, l, h => by
    rw [entries] at h
    rcases ha : entriesOf glob toml walk a with _ | l0
    · rw [ha] at h; cases h
    · rw [ha] at h
      dsimp only at h
      rcases hr : entries glob toml walk as with _ | l1
      · rw [hr] at h; cases h
      · intro a' ha'
        rcases List.mem_cons.1 ha' with rfl | ha'
        · exact ⟨_, ha⟩
        · exact entries_some hr a' ha'

theorem entries_none {glob : Text → Option (Text → Bool)} {toml : Addon → Option Toml} {walk : Addon → List Path} :
    ∀ {as : List Addon}, entries glob toml walk as = none ↔ ∃ a ∈ as, entriesOf glob toml walk a = none
  | [] => by simp [entries]
  | a :: as => by
    rw [entries]
    rcases ha : entriesOf glob toml walk a with _ | l0
    · simp [ha]
    · simp [ha, entries_none (as := as)]

/-- C130: the files that are rapified are those of the addons that end in `.cpp`, `.rvmat` or `.ext`, with something before it,
unless the addon's settings turn rapifying off or one of its patterns matches the whole path from the root of the project, with a
slash in front. -/
theorem C130_which {glob : Text → Option (Text → Bool)} {toml : Addon → Option Toml} {walk : Addon → List Path} {addons : List Addon}
    {l : List (Addon × Path)} (h : entries glob toml walk addons = some l) (a : Addon) (p : Path) :
    (a, p) ∈ l ↔ a ∈ addons ∧ p ∈ walk a ∧
      (∃ b, b ≠ [] ∧ (p.getLastD [] = b ++ ".cpp".toList ∨ p.getLastD [] = b ++ ".rvmat".toList ∨
        p.getLastD [] = b ++ ".ext".toList)) ∧
      ∀ t, toml a = some t → t.enabled = true ∧
        ¬ ∃ pat ∈ t.exclude, ∃ m, glob pat = some m ∧ m (p.flatMap ('/' :: ·)) = true := by
  rw [entries_cases h, ← canRapify_iff]
  constructor
  · rintro ⟨a', ha', l', hl', hx⟩
    obtain ⟨rfl, h1, h2, h3⟩ := (mem_entriesOf hl' _).1 hx
    exact ⟨ha', h1, h2, h3⟩
  · rintro ⟨ha, h1, h2, h3⟩
    obtain ⟨l', hl'⟩ := entries_some h a ha
    exact ⟨a, ha, l', hl', (mem_entriesOf hl' _).2 ⟨rfl, h1, h2, h3⟩⟩

/-- C130: nothing is rapified and the build ends exactly if a pattern of an addon that is rapified is not one. -/
theorem C130_pattern (glob : Text → Option (Text → Bool)) (toml : Addon → Option Toml) (walk : Addon → List Path)
    (addons : List Addon) : entries glob toml walk addons = none ↔
      ∃ a ∈ addons, ∃ t, toml a = some t ∧ t.enabled = true ∧ ∃ pat ∈ t.exclude, glob pat = none := by
  rw [entries_none]
  refine exists_congr fun a => and_congr_right fun _ => ?_
  unfold entriesOf
  rcases toml a with _ | t
  · simp
  · dsimp only
    by_cases he : t.enabled = true
    · rw [if_pos he, Option.map_eq_none_iff, globs_none]
      constructor
      · exact fun h => ⟨t, rfl, he, h⟩
      · rintro ⟨t', h1, _, h2⟩
        cases h1
        exact h2
    · rw [if_neg he]
      constructor
      · intro h; cases h
      · rintro ⟨t', h1, h2, _⟩
        cases h1
        exact absurd h2 he

/-- C130: the result for a file `x.cpp` is the file `x.bin` beside it, the other files are replaced by their result. -/
theorem C130_where (d : Path) (b : Text) (hb : b ≠ []) :
    outPath (d ++ [b ++ ".cpp".toList]) = d ++ [b ++ ".bin".toList] ∧
      outPath (d ++ [b ++ ".rvmat".toList]) = d ++ [b ++ ".rvmat".toList] ∧
      outPath (d ++ [b ++ ".ext".toList]) = d ++ [b ++ ".ext".toList] := by
  have e2 : (".rvmat".toList : Text) = '.' :: "rvmat".toList := by decide
  have e3 : (".ext".toList : Text) = '.' :: "ext".toList := by decide
  refine ⟨outPath_cpp d b hb, ?_, ?_⟩
  · rw [e2]; exact outPath_same d b _ hb (.inl rfl)
  · rw [e3]; exact outPath_same d b _ hb (.inr rfl)

example : outPath ["addons".toList, "main".toList, "config.cpp".toList] = ["addons".toList, "main".toList, "config.bin".toList] := by
  decide
example : outPath ["addons".toList, "main".toList, "a.b.cpp".toList] = ["addons".toList, "main".toList, "a.b.bin".toList] := by
  decide

section
variable {P C K E : Type} (T : Tools P C K E)

theorem jobs_apart (l : List (Addon × Path)) (w : Files) (hn : (l.map Prod.snd).Nodup)
    (hc : ∀ e ∈ l, canRapify (e.2.getLastD []) = true)
    (hr : ∀ e ∈ l, ∀ e' ∈ l, e.2 ≠ e'.2 → outPath e.2 ∉ (T.pre e'.2).reads w) : Apart (jobs T l) w := by
  intro i j a b ha hb hij p hp
  unfold jobs at ha hb
  rw [List.getElem?_map, Option.map_eq_some_iff] at ha hb
  obtain ⟨x, hx, rfl⟩ := ha
  obtain ⟨y, hy, rfl⟩ := hb
  have hxy : x.2 ≠ y.2 := by
    intro e
    have h1 : (l.map Prod.snd)[i]? = some x.2 := by simp [hx]
    have h2 : (l.map Prod.snd)[j]? = some y.2 := by simp [hy]
    have hlt : i < (l.map Prod.snd).length := (List.getElem?_eq_some_iff.1 h1).1
    exact hij ((List.getElem?_inj hlt hn).1 (by rw [h1, h2, e]))
  have hxm := List.mem_of_getElem? hx
  have hym := List.mem_of_getElem? hy
  rw [rapify_writes T w _ p hp, rapify_reads]
  exact ⟨hr x hxm y hym hxy, fun hw => hxy (outPath_inj (hc x hxm) (hc y hym) (rapify_writes T w _ _ hw))⟩

/-- C130: no matter in which order the threads take their steps: when they have finished, each file that is a config without errors
has its binary form at its place, every other path has what it had before, and about each file is said what is said when it is
handled alone. This holds if no file of the list reads the result for another one. -/
theorem C130_threads {glob : Text → Option (Text → Bool)} {toml : Addon → Option Toml} {walk : Addon → List Path}
    {addons : List Addon} {l : List (Addon × Path)} (h : entries glob toml walk addons = some l) (hn : (l.map Prod.snd).Nodup)
    {w w' : Files} {js' : List (Job (Except E (List K)))}
    (hr : ∀ e ∈ l, ∀ e' ∈ l, e.2 ≠ e'.2 → outPath e.2 ∉ (T.pre e'.2).reads w)
    (hs : Steps (w, jobs T l) (w', js')) (hd : ∀ j ∈ js', ∃ r, j = .done r) :
    (∀ e ∈ l, ∀ b, Made T w e.2 (.ok b) → w' (outPath e.2) = some b) ∧
      (∀ q, (∀ e ∈ l, (∃ r, Made T w e.2 r) → q ≠ outPath e.2) → w' q = w q) ∧
      ∃ rs : List (Except E (List K)), js' = rs.map .done ∧ List.Forall₂ (fun e r => Said T w e.2 r) l rs := by
  have hc : ∀ e ∈ l, canRapify (e.2.getLastD []) = true := fun e he =>
    (canRapify_iff _).2 ((C130_which h e.1 e.2).1 he).2.2.1
  obtain ⟨h1, h2, h3⟩ := threads (jobs_apart T l w hn hc hr) hs hd
  refine ⟨fun e he b hm => ?_, fun q hq => h3 q fun a ha hqa => ?_, l.map fun e => ((rapify T e.2).run w).1, ?_, ?_⟩
  · obtain ⟨k1, k2⟩ := rapify_made T w e.2 hm
    rw [← k2 b rfl]
    exact h2 _ (List.mem_map.2 ⟨e, he, rfl⟩) _ ((k1 _).2 rfl)
  · obtain ⟨e, he, rfl⟩ := List.mem_map.1 ha
    by_cases hm : ∃ r, Made T w e.2 r
    · exact hq e he hm (rapify_writes T w _ _ hqa)
    · rw [rapify_unmade T w _ hm] at hqa; simp at hqa
  · rw [h1, jobs, List.map_map, List.map_map]
    rfl
  · exact List.forall₂_map_right_iff.2 (List.forall₂_same.2 fun e _ => rapify_said T w e.2)

/-- C130: the report is that of all the files, in the order of the files and not of the threads. -/
theorem C130_report (rss : List (List K)) :
    report (E := E) (rss.map fun ks => Job.done (.ok ks)) = some (.ok rss.flatten) := by
  induction rss with
  | nil => rfl
  | cons ks rss ih => simp [report, ih, Except.map]

/-- C130: when a file could not be read or its result could not be written, the module fails. -/
theorem C130_fails (rs : List (Except E (List K))) (h : ∃ e, .error e ∈ rs) :
    ∃ e, .error e ∈ rs ∧ report (rs.map Job.done) = some (.error e) := by
  induction rs with
  | nil => simp at h
  | cons r rs ih =>
    rcases r with e | ks
    · exact ⟨e, by simp, rfl⟩
    · obtain ⟨e, he⟩ := h
      obtain ⟨e', h1, h2⟩ := ih ⟨e, by simpa using he⟩
      exact ⟨e', List.mem_cons_of_mem _ h1, by simp [report, h2, Except.map]⟩

/-- C130: whatever has happened so far, the threads can finish. -/
theorem C130_finishes (l : List (Addon × Path)) {w w' : Files} {js' : List (Job (Except E (List K)))}
    (hs : Steps (w, jobs T l) (w', js')) :
    ∃ w'' js'', Steps (w', js') (w'', js'') ∧ Steps (w, jobs T l) (w'', js'') ∧ ∀ j ∈ js'', ∃ r, j = Job.done r := by
  obtain ⟨w'', js'', h1, h2⟩ := finishes js' w'
  exact ⟨w'', js'', h1, hs.trans h1, h2⟩

end

/-! ### What does not hold -/

/-- A law of patterns: one that begins with a plain character matches only what begins with it. -/
def Anchored (glob : Text → Option (Text → Bool)) : Prop :=
  ∀ c r m, glob (c :: r) = some m → c ∉ "?*[".toList → ∀ s, m s = true → ∃ t, s = c :: t

/-- C130: a pattern as the documentation has it, which begins with the name of a folder or file of the addon, excludes nothing:
the files are those that are rapified without any pattern. -/
theorem C130_violated_exclude {glob : Text → Option (Text → Bool)} (hg : Anchored glob) {toml : Addon → Option Toml}
    {walk : Addon → List Path} {addons : List Addon} {l : List (Addon × Path)} (h : entries glob toml walk addons = some l)
    (ht : ∀ a ∈ addons, ∀ t, toml a = some t → ∀ pat ∈ t.exclude, ∃ c r, pat = c :: r ∧ c ∉ "/?*[".toList)
    (hw : ∀ a ∈ addons, [] ∉ walk a) (x : Addon × Path) :
    x ∈ l ↔ ∃ l', entries glob (fun a => (toml a).map fun t => { t with exclude := [] }) walk addons = some l' ∧ x ∈ l' := by
  obtain ⟨a, p⟩ := x
  rcases hl' : entries glob (fun a => (toml a).map fun t => { t with exclude := [] }) walk addons with _ | l'
  · obtain ⟨a', _, t, h1, _, pat, h2, _⟩ := (C130_pattern _ _ _ _).1 hl'
    rw [Option.map_eq_some_iff] at h1
    obtain ⟨t', _, rfl⟩ := h1
    simp at h2
  · rw [C130_which h]
    refine Iff.trans ?_ (b := (a, p) ∈ l') ⟨fun h => ⟨_, hl', h⟩, fun ⟨_, h1, h2⟩ => by rw [hl'] at h1; cases h1; exact h2⟩
    rw [C130_which hl']
    refine and_congr_right fun ha => and_congr_right fun hp => and_congr_right fun _ => ?_
    constructor
    · intro hh t h1
      rw [Option.map_eq_some_iff] at h1
      obtain ⟨t', h1, rfl⟩ := h1
      exact ⟨(hh t' h1).1, by simp⟩
    · intro hh t h1
      refine ⟨(hh { t with exclude := [] } (by rw [h1]; rfl)).1, ?_⟩
      rintro ⟨pat, hpat, m, hm, hmp⟩
      obtain ⟨c, r, rfl, hc⟩ := ht a ha t h1 pat hpat
      rcases p with _ | ⟨d, p⟩
      · exact hw a ha hp
      · obtain ⟨s, hs⟩ := hg c r m hm (fun hc' => hc (by simp at hc' ⊢; tauto)) _ hmp
        rw [List.flatMap_cons, List.cons_append, List.cons.injEq] at hs
        exact hc (by simp [← hs.1])

namespace Demo

/-- Patterns without special characters. -/
def plain (p : Text) : Option (Text → Bool) := some fun s => s == p

theorem plain_anchored : Anchored plain := by
  intro c r m h _ s hs
  cases h
  exact ⟨r, by simpa using hs⟩

def banana : Addon := ⟨"banana".toList, .addons, []⟩
def at' (n : String) : Path := ["addons".toList, "banana".toList, n.toList]
def walk : Addon → List Path := fun _ => [at' "config.cpp", at' "script_component.hpp", at' "a.rvmat", at' "b.rvmat", at' "x.RVMAT"]
def toml (pats : List String) : Addon → Option Toml := fun _ => some ⟨true, pats.map String.toList⟩

/-- The pattern of the documentation's kind has no effect, the whole path does. -/
example : entries plain (toml ["a.rvmat"]) walk [banana] =
    some [(banana, at' "config.cpp"), (banana, at' "a.rvmat"), (banana, at' "b.rvmat")] := by decide
example : entries plain (toml ["/addons/banana/a.rvmat"]) walk [banana] =
    some [(banana, at' "config.cpp"), (banana, at' "b.rvmat")] := by decide

/-- A small preprocessor: a file that begins with `#` stands for `b.rvmat`. A config is any text, its binary form has a NUL in
front. -/
def tools : Tools Bytes Bytes String String where
  pre p := .read p fun
    | none => .done (.other "not found")
    | some (35 :: _) => .read (at' "b.rvmat") fun
      | none => .done (.code "no include")
      | some b => .done (.ok b)
    | some b => .done (.ok b)
  warnings _ := []
  noRapify b := b == [78]
  parse b := if b = [] then .error ["empty"] else .ok b
  lintWarnings _ := ["warning"]
  lintErrors b := if b = [69] then ["error"] else []
  rapify b := .ok (0 :: b)

def files (a : Bytes) : Files := fun p =>
  if p = at' "config.cpp" then some [67] else if p = at' "a.rvmat" then some a else if p = at' "b.rvmat" then some [66] else none

def list : List (Addon × Path) := [(banana, at' "config.cpp"), (banana, at' "a.rvmat"), (banana, at' "b.rvmat")]

theorem list_is : entries plain (fun _ => none) walk [banana] = some list := by decide

/-- The hypotheses of `C130_threads` for a folder in which no file reads another one's result. -/
example : (list.map Prod.snd).Nodup ∧
    (∀ e ∈ list, ∀ e' ∈ list, e.2 ≠ e'.2 → outPath e.2 ∉ (tools.pre e'.2).reads (files [65])) ∧
    Made tools (files [65]) (at' "config.cpp") (.ok [0, 67]) ∧ ¬ ∃ r, Made tools (files [78]) (at' "a.rvmat") r := by
  refine ⟨by decide, by decide, ⟨[67], [67], rfl, rfl, rfl, rfl, rfl⟩, ?_⟩
  rintro ⟨r, q, c, h1, h2, h3, h4, h5⟩
  have : q = [78] := by
    have e : (tools.pre (at' "a.rvmat")).run (files [78]) = .ok [78] := rfl
    rw [e] at h1
    exact (Pre.ok.inj h1).symm
  subst this
  cases h4

end Demo

open Demo in
/-- C130: when one file that is replaced by its result includes another one, what is written for it depends on which thread is
faster: it may be made of the other's text or of the other's binary form. -/
theorem C130_violated_threads :
    ∃ (w₁ w₂ : Files) (js₁ js₂ : List (Job (Except String (List String)))),
      entries plain (fun _ => none) walk [banana] = some list ∧
      Steps (files [35], jobs tools list) (w₁, js₁) ∧ Steps (files [35], jobs tools list) (w₂, js₂) ∧
      report js₁ = some (.ok ["warning", "warning", "warning"]) ∧ report js₂ = some (.ok ["warning", "warning", "warning"]) ∧
      w₁ (at' "a.rvmat") = some [0, 66] ∧ w₂ (at' "a.rvmat") = some [0, 0, 66] := by
  have s0 := finish (rapify tools (at' "config.cpp")) (files [35]) (jobs tools list) 0 rfl
  have s2 := (s0.trans (finish (rapify tools (at' "a.rvmat")) _ _ 1 rfl)).trans
    (finish (rapify tools (at' "b.rvmat")) _ _ 2 rfl)
  have t2 := (s0.trans (finish (rapify tools (at' "b.rvmat")) _ _ 2 rfl)).trans
    (finish (rapify tools (at' "a.rvmat")) _ _ 1 rfl)
  refine ⟨_, _, _, _, list_is, s2, t2, ?_, ?_, ?_, ?_⟩
  · rfl
  · rfl
  · rfl
  · rfl

end Verif.Rapifier
