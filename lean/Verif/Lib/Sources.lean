import Verif.Spec.Sources
import Verif.Props.Rapifier
/-! The work for one script, and what of it does not depend on other files. -/
namespace Verif.Sources
open Verif.Rapifier
open Verif.Commands (Pre Parsed compiled settings scripts C101_name C101_which)
open Verif.Workspace (Addon)

section
variable {P S K E : Type} (T : Tools P S K E) (err : K → Bool) (w : Files) (a : Addon) (f : Path)

theorem script_reads : (compileScript T err a f).reads w = (T.pre f).reads w := by
  rw [compileScript, bind_reads]
  suffices H : ∀ j : Job (Except E (List K)), j = _ → j.reads w = [] by rw [H _ rfl, List.append_nil]
  rintro j rfl
  rcases (T.pre f).run w with q | k | e
  · dsimp only
    rcases T.parse q with s | ks | ks
    · dsimp only
      split_ifs
      · rfl
      · rcases T.compile q s <;> rfl
    · rfl
    · rfl
  · rfl
  · rfl

theorem no_error {l : List K} : l.any err = false ↔ ∀ k ∈ l, err k = false := by simp

theorem script_unmade (hm : ¬ ∃ r, Made T err w a f r) : (compileScript T err a f).writes w = [] := by
  rw [compileScript, bind_writes]
  rcases h : (T.pre f).run w with q | k | e
  · dsimp only
    rcases h' : T.parse q with s | ks | ks
    · dsimp only
      split_ifs with h1
      · rfl
      · exact absurd ⟨_, q, s, h, h', (no_error err).1 (by simpa using h1), rfl⟩ hm
    · rfl
    · rfl
  · rfl
  · rfl

theorem script_made {r : Except E Bytes} (hm : Made T err w a f r) :
    (∀ q, q ∈ (compileScript T err a f).writes w ↔ q = compiled f) ∧
      ∀ b, r = .ok b → ((compileScript T err a f).run w).2 (compiled f) = some b := by
  obtain ⟨q, s, h, h', h1, hr⟩ := hm
  rw [compileScript, bind_writes, bind_run, h]
  dsimp only
  rw [h']
  dsimp only
  rw [(no_error err).2 h1]
  simp only [Bool.false_eq_true, if_false]
  rw [hr]
  rcases r with e | b
  · simp [Job.writes]
  · simp [Job.writes, Job.run, put_same]

theorem script_writes : ∀ q ∈ (compileScript T err a f).writes w, q = compiled f := by
  by_cases hm : ∃ r, Made T err w a f r
  · obtain ⟨r, hr⟩ := hm
    exact fun q => ((script_made T err w a f hr).1 q).1
  · rw [script_unmade T err w a f hm]; simp

theorem script_said : Said T err w a f ((compileScript T err a f).run w).1 := by
  rw [compileScript, bind_run]
  rcases h : (T.pre f).run w with q | k | e
  · dsimp only
    rcases h' : T.parse q with s | ks | ks
    · dsimp only
      split_ifs with h1
      · obtain ⟨k, hk, he⟩ := List.any_eq_true.1 h1
        exact .lint h h' (.inl ⟨k, hk, he⟩)
      · rcases hc : T.compile q s with e | b
        · exact .compile ⟨q, s, h, h', (no_error err).1 (by simpa using h1), hc⟩
        · exact .lint h h' (.inr ⟨b, hc⟩)
    · dsimp only
      split_ifs with hs
      · obtain ⟨l, hl, hp⟩ := (Commands.settings_iff _).1 hs
        rw [List.append_nil]
        exact .settings h h' hl hp
      · exact .parsing h h' fun l hl hp => hs ((Commands.settings_iff _).2 ⟨l, hl, hp⟩)
    · exact .lexing h h'
  · exact .pre h
  · exact .other h

end

/-- A script and its compiled form. -/
theorem script_names {walk : Addon → List Path} {addons : List Addon} {a : Addon} {f : Path} (h : (a, f) ∈ scripts walk addons) :
    ∃ d b, b ≠ [] ∧ f = d ++ [b ++ ".sqf".toList] ∧ compiled f = d ++ [b ++ ".sqfc".toList] := by
  obtain ⟨_, _, ⟨b, hb, hn⟩, _⟩ := (C101_which _ _ _ _).1 h
  have hf := last_split hn (by simp)
  refine ⟨f.dropLast, b, hb, hf, ?_⟩
  conv_lhs => rw [hf]
  exact C101_name _ _

/-- Reading gives the same if what is read is the same. -/
theorem run_congr {α : Type} (r : Reading α) {w w' : Files} (h : ∀ p ∈ r.reads w, w' p = w p) :
    r.run w' = r.run w ∧ r.reads w' = r.reads w := by
  induction r with
  | done a => exact ⟨rfl, rfl⟩
  | read p k ih =>
    have hp : w' p = w p := h p (by simp [Reading.reads])
    have := ih (w p) fun q hq => h q (by simp [Reading.reads, hq])
    simp only [Reading.run, Reading.reads, hp]
    exact ⟨this.1, by rw [this.2]⟩

theorem made_congr {P C K E : Type} (T : Rapifier.Tools P C K E) {w w' : Files} {p : Path}
    (h : ∀ q ∈ (T.pre p).reads w, w' q = w q) (r : Except E Bytes) : Rapifier.Made T w' p r ↔ Rapifier.Made T w p r := by
  unfold Rapifier.Made
  rw [(run_congr (T.pre p) h).1]

/-- Results of scripts are not results of configs. -/
theorem sqfc_ne {d : Path} {b : Text} {p : Path} (hp : canRapify (p.getLastD []) = true)
    (h : outPath p = d ++ [b ++ ".sqfc".toList]) : False := by
  have es : (".sqfc".toList : Text) = ".sqf".toList ++ ['c'] := by decide
  have eb : (".bin".toList : Text) = ".bi".toList ++ ['n'] := by decide
  have ev : (".rvmat".toList : Text) = ".rvma".toList ++ ['t'] := by decide
  have ex : (".ext".toList : Text) = ".ex".toList ++ ['t'] := by decide
  rcases outPath_kinds hp with ⟨d', b', _, _, ho⟩ | ⟨ho, d', b', _, hp' | hp'⟩
  · rw [ho] at h
    have := (List.append_inj' h rfl).2
    rw [List.cons.injEq, es, eb] at this
    exact absurd (last_ne this.1) (by decide)
  · rw [ho, hp'] at h
    have := (List.append_inj' h rfl).2
    rw [List.cons.injEq, es, ev] at this
    exact absurd (last_ne this.1) (by decide)
  · rw [ho, hp'] at h
    have := (List.append_inj' h rfl).2
    rw [List.cons.injEq, es, ex] at this
    exact absurd (last_ne this.1) (by decide)

end Verif.Sources
