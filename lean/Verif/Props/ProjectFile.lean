import Verif.Model.ProjectFile
import Verif.Props.Commands
/-!
C114: where a project's launch configurations and lints come from. Also lemmas about `str::replace`.
-/
namespace Verif.ProjectFile
open Verif.Commands (hasPart hasPart_iff)

/-! ### `str::replace` -/

theorem prefix_stop {p u v : Text} {c : Char} (hc : c ∉ p) : p <+: u ++ c :: v ↔ p <+: u := by
  constructor
  · rintro ⟨t, ht⟩
    rcases List.append_eq_append_iff.1 ht with ⟨a, ha, hb⟩ | ⟨a, ha, hb⟩
    · exact ⟨a, ha.symm⟩
    · cases a with
      | nil => exact ⟨[], by simpa using ha⟩
      | cons x a =>
        injection hb with h1 h2
        subst h1
        exact absurd (by rw [ha]; simp) hc
  · exact fun h => h.trans (List.prefix_append _ _)

theorem replaceFrom_split {pat rep : Text} {c : Char} (hc : c ∉ pat) :
    ∀ (u : Text) (k : Nat) (v : Text), k ≤ u.length →
      replaceFrom pat rep k (u ++ c :: v) = replaceFrom pat rep k u ++ replaceFrom pat rep 0 (c :: v)
  | [], 0, v, _ => by simp [replaceFrom]
  | _ :: u, k + 1, v, h => by
    rw [List.cons_append, replaceFrom, replaceFrom]
    exact replaceFrom_split hc u k v (by simpa using h)
  | a :: u, 0, v, _ => by
    rw [List.cons_append, replaceFrom.eq_3, replaceFrom.eq_3]
    have e : pat.isPrefixOf (a :: (u ++ c :: v)) = pat.isPrefixOf (a :: u) := by
      rw [Bool.eq_iff_iff, List.isPrefixOf_iff_prefix, List.isPrefixOf_iff_prefix, ← List.cons_append, prefix_stop hc]
    rw [e]
    by_cases hp : pat.isPrefixOf (a :: u) = true
    · rw [if_pos hp, if_pos hp, replaceFrom_split hc u _ v (by
        have := (List.isPrefixOf_iff_prefix.1 hp).length_le
        simp only [List.length_cons] at this
        omega), List.append_assoc]
    · rw [if_neg hp, if_neg hp, replaceFrom_split hc u 0 v (Nat.zero_le _), List.cons_append]

theorem replaceFrom_stop {pat rep : Text} {c : Char} (hc : c ∉ pat) (hn : pat ≠ []) (v : Text) :
    replaceFrom pat rep 0 (c :: v) = c :: replaceFrom pat rep 0 v := by
  rw [replaceFrom, if_neg]
  intro h
  obtain ⟨t, ht⟩ := List.isPrefixOf_iff_prefix.1 h
  cases pat with
  | nil => exact hn rfl
  | cons x p =>
    injection ht with h1 _
    subst h1
    exact hc List.mem_cons_self

/-- A character that the pattern does not have in it separates. -/
theorem replaceAll_stop {pat rep : Text} {c : Char} (hc : c ∉ pat) (hn : pat ≠ []) (u v : Text) :
    replaceAll pat rep (u ++ c :: v) = replaceAll pat rep u ++ c :: replaceAll pat rep v := by
  unfold replaceAll
  rw [replaceFrom_split hc u 0 v (Nat.zero_le _), replaceFrom_stop hc hn]

theorem replaceAll_none {pat rep : Text} (s : Text) (h : ¬ pat <:+: s) : replaceAll pat rep s = s := by
  unfold replaceAll
  induction s with
  | nil => rfl
  | cons c s ih =>
    rw [List.infix_cons_iff] at h
    rw [replaceFrom, if_neg fun e => h (.inl (List.isPrefixOf_iff_prefix.1 e)), ih fun e => h (.inr e)]

theorem replaceFrom_drop {pat rep : Text} : ∀ (k : Nat) (s : Text),
    replaceFrom pat rep k s = replaceFrom pat rep 0 (s.drop k)
  | 0, s => by simp
  | k + 1, [] => by simp [replaceFrom]
  | k + 1, c :: s => by rw [replaceFrom, replaceFrom_drop k s, List.drop_succ_cons]

/-- An occurrence at the front. -/
theorem replaceAll_hit {pat rep : Text} (hn : pat ≠ []) (s : Text) :
    replaceAll pat rep (pat ++ s) = rep ++ replaceAll pat rep s := by
  unfold replaceAll
  cases pat with
  | nil => exact absurd rfl hn
  | cons x p =>
    rw [List.cons_append, replaceFrom, if_pos (List.isPrefixOf_iff_prefix.2 ⟨s, by simp⟩), replaceFrom_drop]
    simp

theorem replaceAll_miss {pat rep : Text} {c : Char} {s : Text} (h : ¬ pat <+: c :: s) :
    replaceAll pat rep (c :: s) = c :: replaceAll pat rep s := by
  unfold replaceAll
  rw [replaceFrom, if_neg fun e => h (List.isPrefixOf_iff_prefix.1 e)]

/-- The text is cut at occurrences of the pattern, the pieces are joined by the replacement; no occurrence is left
inside a piece or begins before the one that is cut out behind it. -/
inductive Replaced (pat rep : Text) : Text → Text → Prop
  | none {s} (h : ¬ pat <:+: s) : Replaced pat rep s s
  | hit {u s t} (h : ∀ n, n < u.length → ¬ pat <+: (u ++ pat ++ s).drop n) (r : Replaced pat rep s t) :
      Replaced pat rep (u ++ pat ++ s) (u ++ rep ++ t)

theorem Replaced.cons {pat rep s t : Text} {c : Char} (h : ¬ pat <+: c :: s) (r : Replaced pat rep s t) :
    Replaced pat rep (c :: s) (c :: t) := by
  cases r with
  | none hs =>
    refine .none fun e => ?_
    rcases List.infix_cons_iff.1 e with e | e
    · exact h e
    · exact hs e
  | @hit u s t hu r =>
    have := Replaced.hit (pat := pat) (rep := rep) (u := c :: u) (s := s) (t := t) (by
      intro n hn
      cases n with
      | zero => simpa using h
      | succ n => simpa using hu n (by simpa using hn)) r
    simpa using this

theorem replaced (pat rep : Text) (hn : pat ≠ []) : ∀ (n : Nat) (s : Text), s.length ≤ n →
    Replaced pat rep s (replaceAll pat rep s)
  | n, [], _ => .none (by simpa [List.infix_nil] using hn)
  | 0, _ :: _, h => absurd h (by simp)
  | n + 1, c :: s, h => by
    by_cases hp : pat <+: c :: s
    · obtain ⟨t, ht⟩ := hp
      rw [← ht, replaceAll_hit hn]
      have hl : t.length ≤ n := by
        have := congrArg List.length ht
        have := List.length_pos_iff.2 hn
        simp only [List.length_append, List.length_cons] at *
        omega
      have := Replaced.hit (pat := pat) (rep := rep) (u := []) (by simp) (replaced pat rep hn n t hl)
      simpa using this
    · rw [replaceAll_miss hp]
      exact .cons hp (replaced pat rep hn n s (by simpa using h))

/-! ## C114 -/

variable {O L R : Type} {env : Env O L R} {project launch lints : Beside} {c : File O L R}

/-- **C114**. What the TOML reader sees of `project.toml` is the file's text in which every `[hemtt.launch]` is
`[hemtt.launch.default]`, and nothing else is changed. -/
theorem C114_heading (t : Text) : Replaced "[hemtt.launch]".toList "[hemtt.launch.default]".toList t (modern t) :=
  replaced _ _ (by decide) t.length t (Nat.le_refl _)

example : modern "name = \"x\"\n[hemtt.launch]\nworkshop = []\n".toList =
    "name = \"x\"\n[hemtt.launch.default]\nworkshop = []\n".toList := by decide +kernel
example : modern "[[hemtt.launch][hemtt.launch.a]".toList = "[[hemtt.launch.default][hemtt.launch.a]".toList := by
  decide +kernel

theorem fromFile_ok (h : fromFile env project launch lints = .ok c) :
    ∃ t f src, project = some (some t) ∧ env.project (modern t) = some f ∧ f.pfx ≠ [] ∧
      launchSource env f.launch launch = .ok src ∧ env.inherit src = some c.launch ∧
      lintsSource env f.lints lints = .ok c.lints ∧ c.pfx = f.pfx ∧ c.rest = f.rest := by
  unfold fromFile at h
  split at h
  · cases h
  · cases h
  · rename_i t
    split at h
    · cases h
    · rename_i f hf
      split at h
      · cases h
      · rename_i hp
        split at h
        · cases h
        · rename_i src hs
          split at h
          · cases h
          · rename_i la hl
            split at h
            · split at h
              · cases h
              · rename_i li hli
                cases h
                exact ⟨t, f, src, rfl, hf, hp, hs, hl, hli, rfl, rfl⟩
            · cases h

/-- What a source of settings beside the project file may give. -/
theorem launchSource_ok {own src : List (Text × L)} (h : launchSource env own launch = .ok src) :
    (launch = none ∧ src = own) ∨ ∃ t, launch = some (some t) ∧ own = [] ∧ env.launchToml t = some src ∧
      ¬ "[hemtt.launch".toList <:+: t := by
  unfold launchSource at h
  split at h
  · injection h with h
    exact .inl ⟨rfl, h.symm⟩
  · split at h
    · rename_i he
      split at h
      · cases h
      · rename_i t
        split at h
        · cases h
        · rename_i hh
          split at h
          · cases h
          · rename_i l hl
            injection h with h
            subst h
            exact .inr ⟨t, rfl, by simpa using he, hl, fun e => hh ((hasPart_iff _ _).2 e)⟩
    · cases h

theorem lintsSource_ok {own src : Lints O} (h : lintsSource env own lints = .ok src) :
    (lints = none ∧ src = own) ∨ ∃ t, lints = some (some t) ∧ own.config = [] ∧ own.sqf = [] ∧
      env.lintsToml t = some src ∧ ¬ "[lints.".toList <:+: t := by
  unfold lintsSource at h
  split at h
  · injection h with h
    exact .inl ⟨rfl, h.symm⟩
  · split at h
    · rename_i he
      split at h
      · cases h
      · rename_i t
        split at h
        · cases h
        · rename_i hh
          split at h
          · cases h
          · rename_i l hl
            injection h with h
            subst h
            simp only [Lints.isEmpty, Bool.and_eq_true, List.isEmpty_iff] at he
            exact .inr ⟨t, rfl, he.1, he.2, hl, fun e => hh ((hasPart_iff _ _).2 e)⟩
    · cases h

/-- **C114**. If the settings can be read, then the launch configurations are those of `launch.toml` if there is such a
file, and then `project.toml` has none; if there is no such file they are those of `project.toml`. (What is read is then
subject to inheritance.) -/
theorem C114_launch (h : fromFile env project launch lints = .ok c) :
    ∃ t f, project = some (some t) ∧ env.project (modern t) = some f ∧ f.pfx ≠ [] ∧
      ((launch = none ∧ env.inherit f.launch = some c.launch) ∨
        ∃ l src, launch = some (some l) ∧ f.launch = [] ∧ env.launchToml l = some src ∧
          env.inherit src = some c.launch) := by
  obtain ⟨t, f, src, h1, h2, h3, h4, h5, _⟩ := fromFile_ok h
  refine ⟨t, f, h1, h2, h3, ?_⟩
  rcases launchSource_ok h4 with ⟨a, b⟩ | ⟨l, a, b, d, _⟩
  · exact .inl ⟨a, b ▸ h5⟩
  · exact .inr ⟨l, src, a, b, d, h5⟩

/-- **C114**. Likewise the lints and `lints.toml`; `project.toml` then has none for config or SQF. -/
theorem C114_lints (h : fromFile env project launch lints = .ok c) :
    ∃ t f, project = some (some t) ∧ env.project (modern t) = some f ∧
      ((lints = none ∧ c.lints = f.lints) ∨
        ∃ l, lints = some (some l) ∧ f.lints.config = [] ∧ f.lints.sqf = [] ∧ env.lintsToml l = some c.lints) := by
  obtain ⟨t, f, src, h1, h2, _, _, _, h6, _⟩ := fromFile_ok h
  refine ⟨t, f, h1, h2, ?_⟩
  rcases lintsSource_ok h6 with ⟨a, b⟩ | ⟨l, a, b, d, e, _⟩
  · exact .inl ⟨a, b⟩
  · exact .inr ⟨l, a, b, d, e⟩

/-- **C114**. Where both files say something, that is an error that names the conflict. For the launch configurations it
is the first one that is found. -/
theorem C114_conflict_launch {t : Text} {f : File O L R} {l : Option Text} (hf : env.project (modern t) = some f)
    (hp : f.pfx ≠ []) (hl : f.launch ≠ []) :
    fromFile env (some (some t)) (some l) lints = .error .launchConflict := by
  have e : launchSource env f.launch (some l) = .error .launchConflict := by
    cases l <;> simp [launchSource, hl]
  simp only [fromFile, hf, hp, if_false, e]

theorem C114_conflict_lints {t : Text} {f : File O L R} {l : Option Text} {la : List (Text × L)}
    (hf : env.project (modern t) = some f)
    (hp : f.pfx ≠ []) (hl : f.lints.config ≠ [] ∨ f.lints.sqf ≠ []) (ha : env.inherit f.launch = some la)
    (hv : env.version f.rest = true) :
    fromFile env (some (some t)) none (some l) = .error .lintsConflict := by
  have e : lintsSource env f.lints (some l) = .error .lintsConflict := by
    have e : f.lints.isEmpty = false := by
      rw [Bool.eq_false_iff]
      simp only [Lints.isEmpty, ne_eq, Bool.and_eq_true, List.isEmpty_iff]
      rintro ⟨a, b⟩
      exact hl.elim (· a) (· b)
    cases l <;> simp [lintsSource, e]
  have e2 : launchSource env f.launch none = .ok f.launch := rfl
  simp only [fromFile, hf, hp, if_false, e2, ha, hv, if_true, e]

/-- **C114, violated**. Lints for stringtables are left out of the comparison: those in `project.toml` are dropped without
a word if there is a `lints.toml`. -/
theorem C114_violated_stringtables {t l : Text} {f : File O L R} {la : List (Text × L)} {li : Lints O}
    (hf : env.project (modern t) = some f) (hp : f.pfx ≠ []) (hc : f.lints.config = []) (hs : f.lints.sqf = [])
    (ha : env.inherit f.launch = some la) (hv : env.version f.rest = true) (hl : env.lintsToml l = some li)
    (hh : ¬ "[lints.".toList <:+: l) :
    fromFile env (some (some t)) none (some (some l)) = .ok ⟨f.pfx, li, la, f.rest⟩ := by
  have e : lintsSource env f.lints (some (some l)) = .ok li := by
    rw [lintsSource, if_pos (by simp [Lints.isEmpty, hc, hs])]
    rw [if_neg fun e => hh ((hasPart_iff _ _).1 e), hl]
  have e2 : launchSource env f.launch none = .ok f.launch := rfl
  simp only [fromFile, hf, hp, if_false, e2, ha, hv, if_true, e]

/-- **C114, violated**. That a heading is not needed in `lints.toml` is found by looking for `[lints.` anywhere in its
text: a comment, or a value, that has it is refused as well. -/
theorem C114_violated_comment {t l : Text} {f : File O L R} {la : List (Text × L)}
    (hf : env.project (modern t) = some f) (hp : f.pfx ≠ []) (hc : f.lints.config = []) (hs : f.lints.sqf = [])
    (ha : env.inherit f.launch = some la) (hv : env.version f.rest = true) (hh : "[lints.".toList <:+: l) :
    fromFile env (some (some t)) none (some (some l)) = .error .lintsHeading := by
  have e : lintsSource env f.lints (some (some l)) = .error .lintsHeading := by
    rw [lintsSource, if_pos (by simp [Lints.isEmpty, hc, hs])]
    rw [if_pos ((hasPart_iff _ _).2 hh)]
  have e2 : launchSource env f.launch none = .ok f.launch := rfl
  simp only [fromFile, hf, hp, if_false, e2, ha, hv, if_true, e]

/-- A reader for the examples: `project.toml` has a prefix, a lint for stringtables and, if the text has the new heading in
it, a launch configuration; `lints.toml` has a lint for SQF. -/
def toy : Env Bool Nat Unit where
  project t := some ⟨"abe".toList, ⟨[], [], [("sorted".toList, false)]⟩,
    if hasPart newHeading t then [("default".toList, 1)] else [], ()⟩
  launchToml _ := some [("default".toList, 2)]
  lintsToml _ := some ⟨[], [("unused".toList, true)], []⟩
  inherit := some
  version _ := true

example : fromFile toy (some (some "[hemtt.launch]".toList)) (some (some "[default]".toList)) none =
    .error .launchConflict :=
  C114_conflict_launch rfl (by decide) (by decide +kernel)
/-- `sorted = false` for stringtables is lost. -/
example : (fromFile toy (some (some [])) none (some (some "[sqf]\nunused = true\n".toList))).map (·.lints) =
    .ok ⟨[], [("unused".toList, true)], []⟩ := by
  rw [C114_violated_stringtables (li := ⟨[], [("unused".toList, true)], []⟩) (f := ⟨"abe".toList,
    ⟨[], [], [("sorted".toList, false)]⟩, [], ()⟩) rfl (by decide) rfl rfl rfl rfl rfl (by
      rw [← hasPart_iff]; decide +kernel)]
  rfl
example : "[lints.".toList <:+: "# was [lints.sqf] before\n[sqf]\n".toList :=
  ⟨"# was ".toList, "sqf] before\n[sqf]\n".toList, by decide +kernel⟩

end Verif.ProjectFile
