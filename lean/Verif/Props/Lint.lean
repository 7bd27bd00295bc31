import Verif.Model.Lint
import Mathlib.Data.List.Nodup
/-!
C38: the lint policy cannot be weakened by configuration.

Specification. `Chosen` says what the configuration of a lint is, option by option, from the project's override and the
lint's default. `History` are the managers that can be built. Nothing here mentions `config`, `apply` or `check`.
-/
namespace Verif.Lints

variable {T C : Type}

/-- The configuration of a lint under the project's overrides: what the override sets, else the default. -/
structure Chosen (configs : Text → Option Override) (l : Lint T C) (c : Config) : Prop where
  default : configs l.ident = none → c = l.default
  enabled : ∀ o, configs l.ident = some o → ∀ b, o.enabled = some b → c.enabled = b
  enabled' : ∀ o, configs l.ident = some o → o.enabled = none → c.enabled = l.default.enabled
  severity : ∀ o, configs l.ident = some o → ∀ s, o.severity = some s → c.severity = s
  severity' : ∀ o, configs l.ident = some o → o.severity = none → c.severity = l.default.severity
  options : ∀ o, configs l.ident = some o → ∀ k v, o.options k = some v → c.options k = some v
  options' : ∀ o, configs l.ident = some o → ∀ k, o.options k = none → c.options k = l.default.options k

/-- The managers reached from a new one by any registrations, those that were refused included. -/
inductive History (configs : Text → Option Override) : Manager T C → Prop
  | new : History configs (Manager.new configs)
  | extend {m m' ls} : History configs m → m.extend ls = .ok m' → History configs m'
  | group {m m' ls r} : History configs m → m.pushGroup ls r = .ok m' → History configs m'

/-- A lint is registered, alone or in a group. -/
def Registered (m : Manager T C) (l : Lint T C) : Prop := l ∈ m.lints ∨ ∃ g ∈ m.groups, l ∈ g.lints

theorem chosen_config (m : Manager T C) (l : Lint T C) : Chosen m.configs l (m.config l) := by
  constructor <;> unfold Manager.config
  · intro h
    rw [h]
  all_goals
    intro o h
    rw [h]
    simp only [Override.apply]
  · intro b hb; rw [hb]; rfl
  · intro hb; rw [hb]; rfl
  · intro b hb; rw [hb]; rfl
  · intro hb; rw [hb]; rfl
  · intro k v hk; rw [hk]
  · intro k hk; rw [hk]

theorem chosen_unique {configs : Text → Option Override} {l : Lint T C} {c d : Config}
    (hc : Chosen configs l c) (hd : Chosen configs l d) : c = d := by
  cases h : configs l.ident with
  | none => rw [hc.default h, hd.default h]
  | some o =>
    have h1 : c.enabled = d.enabled := by
      cases hb : o.enabled with
      | none => rw [hc.enabled' o h hb, hd.enabled' o h hb]
      | some b => rw [hc.enabled o h b hb, hd.enabled o h b hb]
    have h2 : c.severity = d.severity := by
      cases hb : o.severity with
      | none => rw [hc.severity' o h hb, hd.severity' o h hb]
      | some b => rw [hc.severity o h b hb, hd.severity o h b hb]
    have h3 : c.options = d.options := by
      funext k
      cases hb : o.options k with
      | none => rw [hc.options' o h k hb, hd.options' o h k hb]
      | some b => rw [hc.options o h k b hb, hd.options o h k b hb]
    cases c; cases d
    simp_all

theorem chosen_eq {m : Manager T C} {l : Lint T C} {c : Config} (h : Chosen m.configs l c) : m.config l = c :=
  chosen_unique (chosen_config m l) h

theorem extend_ok {m m' : Manager T C} {ls} (h : m.extend ls = .ok m') :
    m.check ls = [] ∧ m' = { m with lints := m.lints ++ ls } := by
  unfold Manager.extend at h
  split at h
  · rename_i hc
    simp only [Except.ok.injEq] at h
    exact ⟨hc, h.symm⟩
  · simp at h

theorem group_ok {m m' : Manager T C} {ls r} (h : m.pushGroup ls r = .ok m') :
    m.check ls = [] ∧ m' = { m with groups := m.groups ++ [⟨ls, r⟩] } := by
  unfold Manager.pushGroup at h
  split at h
  · rename_i hc
    simp only [Except.ok.injEq] at h
    exact ⟨hc, h.symm⟩
  · simp at h

theorem history_configs {configs} {m : Manager T C} (h : History configs m) : m.configs = configs := by
  induction h with
  | new => rfl
  | extend _ hm ih => rw [(extend_ok hm).2]; exact ih
  | group _ hm ih => rw [(group_ok hm).2]; exact ih

/-- A lint passes `check`: its name is new, and its override does not weaken it. -/
theorem lintErrors_nil (m : Manager T C) (l : Lint T C) : lintErrors m l = [] ↔
    (∀ x ∈ m.lints, x.ident ≠ l.ident) ∧ (m.configs l.ident ≠ none →
      l.minimum.rank ≤ (m.config l).severity.rank ∧ (l.minimum = .error → (m.config l).enabled = true)) := by
  unfold lintErrors Manager.config overrideErrors
  cases h : m.configs l.ident with
  | none => simp
  | some o =>
    simp only [List.append_eq_nil_iff, ite_eq_right_iff, List.cons_ne_nil, imp_false, not_lt, not_and, ne_eq,
      List.any_eq_true, decide_eq_true_eq, not_exists, reduceCtorEq, not_false_eq_true, true_imp_iff]
    constructor
    · rintro ⟨h1, h2, h3⟩
      refine ⟨h1, h2, fun hm => ?_⟩
      cases he : (o.apply l.default).enabled with
      | true => rfl
      | false => exact absurd hm (h3 he)
    · rintro ⟨h1, h2, h3⟩
      exact ⟨h1, h2, fun he hm => by rw [h3 hm] at he; exact Bool.noConfusion he⟩

theorem history_inv {configs} {m : Manager T C} (h : History configs m) : ∀ l, Registered m l →
    configs l.ident ≠ none →
      ∀ c, Chosen configs l c → l.minimum.rank ≤ c.severity.rank ∧ (l.minimum = .error → c.enabled = true) := by
  have key : ∀ {m : Manager T C} {ls}, History configs m → m.check ls = [] → ∀ l ∈ ls, configs l.ident ≠ none →
      ∀ c, Chosen configs l c → l.minimum.rank ≤ c.severity.rank ∧ (l.minimum = .error → c.enabled = true) := by
    intro m ls hm hc l hl hn c hch
    have hcf := history_configs hm
    have := (lintErrors_nil m l).1 (by
      unfold Manager.check at hc
      exact List.flatMap_eq_nil_iff.1 hc l hl)
    rw [← hcf] at hch hn
    have h2 := this.2 hn
    rw [chosen_eq hch] at h2
    exact h2
  induction h with
  | new => rintro l (hl | ⟨g, hg, _⟩) <;> simp [Manager.new] at *
  | extend hm he ih =>
    obtain ⟨hc, rfl⟩ := extend_ok he
    rintro l (hl | hg)
    · simp only [List.mem_append] at hl
      rcases hl with hl | hl
      · exact ih l (.inl hl)
      · exact key hm hc l hl
    · exact ih l (.inr hg)
  | group hm he ih =>
    obtain ⟨hc, rfl⟩ := group_ok he
    rintro l (hl | ⟨g, hg, hl⟩)
    · exact ih l (.inl hl)
    · simp only [List.mem_append, List.mem_singleton] at hg
      rcases hg with hg | rfl
      · exact ih l (.inr ⟨g, hg, hl⟩)
      · exact key hm hc l hl

/-- No configuration lowers the severity of a registered lint below its minimum. (The default severity of every lint of
the code base is at least its minimum; the manager does not check it.) -/
theorem C38_minimum_severity {configs} {m : Manager T C} (h : History configs m) (l : Lint T C) (hl : Registered m l)
    (hd : l.minimum.rank ≤ l.default.severity.rank) (c : Config) (hc : Chosen configs l c) :
    l.minimum.rank ≤ c.severity.rank := by
  by_cases hn : configs l.ident = none
  · rw [hc.default hn]
    exact hd
  · exact (history_inv h l hl hn c hc).1

/-- No configuration disables a registered lint whose minimum severity is error. -/
theorem C38_not_disabled {configs} {m : Manager T C} (h : History configs m) (l : Lint T C) (hl : Registered m l)
    (he : l.minimum = .error) (hd : l.default.enabled = true) (c : Config) (hc : Chosen configs l c) :
    c.enabled = true := by
  by_cases hn : configs l.ident = none
  · rw [hc.default hn]
    exact hd
  · exact (history_inv h l hl hn c hc).2 he

/-- When a registration is accepted. -/
theorem C38_accepted {configs} {m : Manager T C} (h : History configs m) (ls : List (Lint T C)) :
    (∃ m', m.extend ls = .ok m') ↔ ∀ l ∈ ls, (∀ x ∈ m.lints, x.ident ≠ l.ident) ∧
      (configs l.ident ≠ none → ∀ c, Chosen configs l c →
        l.minimum.rank ≤ c.severity.rank ∧ (l.minimum = .error → c.enabled = true)) := by
  have hcf := history_configs h
  have : m.check ls = [] ↔ ∀ l ∈ ls, (∀ x ∈ m.lints, x.ident ≠ l.ident) ∧
      (configs l.ident ≠ none → ∀ c, Chosen configs l c →
        l.minimum.rank ≤ c.severity.rank ∧ (l.minimum = .error → c.enabled = true)) := by
    unfold Manager.check
    rw [List.flatMap_eq_nil_iff]
    refine forall_congr' fun l => imp_congr_right fun _ => ?_
    rw [lintErrors_nil, hcf]
    refine and_congr_right fun _ => imp_congr_right fun _ => ?_
    constructor
    · intro hx c hc
      rw [← hcf] at hc
      rw [← chosen_eq hc]
      exact hx
    · intro hx
      have := chosen_config m l
      rw [hcf] at this
      exact hx _ this
  rw [← this]
  unfold Manager.extend
  split <;> simp_all

theorem groupConfigs_spec (m : Manager T C) (k : Text) (c : Config) : ∀ (ls : List (Lint T C)) (acc : Text → Option Config),
    (ls.map (·.ident)).Nodup → (∀ l ∈ ls, acc l.ident = none) →
    (m.groupConfigs ls acc k = some c ↔ acc k = some c ∨ ∃ l ∈ ls, l.ident = k ∧ (m.config l).enabled = true ∧ c = m.config l)
  | [], acc, _, _ => by simp [Manager.groupConfigs]
  | l :: ls, acc, hn, ha => by
    rw [Manager.groupConfigs]
    simp only [List.map_cons, List.nodup_cons, List.mem_map, not_exists, not_and] at hn
    rw [groupConfigs_spec m k c ls _ hn.2]
    · simp only [List.mem_cons, exists_eq_or_imp]
      by_cases he : (m.config l).enabled = true
      · rw [if_pos he]
        simp only [he, true_and]
        by_cases hk : k = l.ident
        · subst hk
          simp only [if_true, Option.some.injEq, ha l (List.mem_cons_self ..), reduceCtorEq, false_or, true_and]
          constructor
          · rintro (rfl | h)
            · exact .inl rfl
            · exact .inr h
          · rintro (rfl | h)
            · exact .inl rfl
            · exact .inr h
        · rw [if_neg hk]
          constructor
          · rintro (h | h)
            · exact .inl h
            · exact .inr (.inr h)
          · rintro (h | ⟨h, _⟩ | h)
            · exact .inl h
            · exact absurd h.symm hk
            · exact .inr h
      · rw [if_neg he]
        simp [he]
    · intro l' hl'
      split
      · dsimp only
        rw [if_neg (fun h => hn.1 l' hl' h)]
        exact ha l' (List.mem_cons_of_mem _ hl')
      · exact ha l' (List.mem_cons_of_mem _ hl')

/-- What a run reports: the codes of the enabled lints, each run with its configuration; and the codes of each group
with an enabled lint, run with the configurations of its enabled lints. -/
theorem C38_run {configs} {m : Manager T C} (h : History configs m)
    (hg : ∀ g ∈ m.groups, (g.lints.map (·.ident)).Nodup) (t : T) (x : C) :
    x ∈ m.run t ↔
      (∃ l ∈ m.lints, ∃ c, Chosen configs l c ∧ c.enabled = true ∧ ∃ r ∈ l.runners, x ∈ r c t) ∨
      (∃ g ∈ m.groups, (∃ l ∈ g.lints, ∃ c, Chosen configs l c ∧ c.enabled = true) ∧ ∃ cs : Text → Option Config,
        (∀ k c, cs k = some c ↔ ∃ l ∈ g.lints, l.ident = k ∧ Chosen configs l c ∧ c.enabled = true) ∧
        x ∈ g.runner cs t) := by
  have hcf := history_configs h
  have hch : ∀ l c, Chosen configs l c ↔ c = m.config (T := T) (C := C) l := by
    intro l c
    rw [← hcf]
    exact ⟨fun h => (chosen_eq h).symm, fun h => h ▸ chosen_config m l⟩
  simp only [hch]
  unfold Manager.run
  rw [List.mem_append, List.mem_flatMap, List.mem_flatMap]
  refine or_congr ?_ ?_
  · refine exists_congr fun l => and_congr_right fun _ => ?_
    unfold Manager.runLint
    constructor
    · intro hx
      split at hx
      · rename_i he
        exact ⟨_, rfl, he, List.mem_flatMap.1 hx⟩
      · simp at hx
    · rintro ⟨c, rfl, he, hx⟩
      rw [if_pos he]
      exact List.mem_flatMap.2 hx
  · refine exists_congr fun g => and_congr_right fun hgm => ?_
    unfold Manager.runGroup
    have hs : ∀ k c, m.groupConfigs g.lints (fun _ => none) k = some c ↔
        ∃ l ∈ g.lints, l.ident = k ∧ c = m.config l ∧ c.enabled = true := by
      intro k c
      rw [groupConfigs_spec m k c g.lints _ (hg g hgm) (fun _ _ => rfl)]
      simp only [reduceCtorEq, false_or]
      refine exists_congr fun l => and_congr_right fun _ => and_congr_right fun _ => ?_
      constructor
      · rintro ⟨h1, rfl⟩; exact ⟨rfl, h1⟩
      · rintro ⟨rfl, h1⟩; exact ⟨h1, rfl⟩
    constructor
    · intro hx
      split at hx
      · rename_i he
        obtain ⟨l, hl, he⟩ := List.any_eq_true.1 he
        exact ⟨⟨l, hl, _, rfl, he⟩, _, hs, hx⟩
      · simp at hx
    · rintro ⟨⟨l, hl, c, rfl, he⟩, cs, hcs, hx⟩
      rw [if_pos (List.any_eq_true.2 ⟨l, hl, he⟩)]
      have : cs = m.groupConfigs g.lints (fun _ => none) := by
        funext k
        cases hk : cs k with
        | some c => exact ((hs k c).2 ((hcs k c).1 hk)).symm
        | none =>
          cases hk' : m.groupConfigs g.lints (fun _ => none) k with
          | none => rfl
          | some c =>
            have := (hcs k c).2 ((hs k c).1 hk')
            rw [hk] at this
            exact absurd this (by simp)
      rw [← this]
      exact hx

/-- Put together: whatever the project configures, a lint registered alone whose minimum severity is error reports all
it has to say, at a severity of at least error. -/
theorem C38_error_lints_report {configs} {m : Manager T C} (h : History configs m)
    (hg : ∀ g ∈ m.groups, (g.lints.map (·.ident)).Nodup) (l : Lint T C) (hl : l ∈ m.lints)
    (he : l.minimum = .error) (hd : l.default.enabled = true) (hs : Severity.error.rank ≤ l.default.severity.rank)
    (t : T) : ∃ c, Chosen configs l c ∧ Severity.error.rank ≤ c.severity.rank ∧
      ∀ r ∈ l.runners, ∀ x ∈ r c t, x ∈ m.run t := by
  have hch := chosen_config m l
  rw [history_configs h] at hch
  refine ⟨_, hch, ?_, fun r hr x hx => ?_⟩
  · rw [← he]
    exact C38_minimum_severity h l (.inl hl) (he ▸ hs) _ hch
  · exact (C38_run h hg t x).2 (.inl ⟨l, hl, _, hch, C38_not_disabled h l (.inl hl) he hd _ hch, r, hr, hx⟩)

/-- A name is checked against the lints registered alone only: a lint can be registered alone and in a group, and twice
in one call. -/
theorem C38_same_name_accepted (configs : Text → Option Override) (l : Lint T C) (hn : configs l.ident = none) :
    ∃ m : Manager T C, (Manager.new configs).extend [l, l] = .ok m ∧ m.lints = [l, l] := by
  refine ⟨⟨[l, l], [], configs⟩, ?_, rfl⟩
  rw [Manager.extend, if_pos]
  · rfl
  · simp [Manager.check, lintErrors, Manager.new, hn]

/-- What an entry of the project file says of a lint: on or off, a severity, or all of it. Whatever it does not say stays as
it is by default. -/
inductive Says : ConfigFile → Config → Config → Prop
  | enabled {b d} : Says (.enabled b) d { d with enabled := b }
  | severity {s d} : Says (.severity s) d { d with severity := s }
  | full {o d c} : (∀ b, o.enabled = some b → c.enabled = b) → (o.enabled = none → c.enabled = d.enabled) →
      (∀ s, o.severity = some s → c.severity = s) → (o.severity = none → c.severity = d.severity) →
      (∀ k v, o.options k = some v → c.options k = some v) → (∀ k, o.options k = none → c.options k = d.options k) →
      Says (.full o) d c

/-- A registered lint has the configuration the entry of the project file says. -/
theorem C38_entry {file : Text → Option ConfigFile} {m : Manager T C}
    (h : History (fun k => (file k).map ConfigFile.override) m) (l : Lint T C) (e : ConfigFile) (he : file l.ident = some e) :
    Says e l.default (m.config l) := by
  have hc : m.configs l.ident = some e.override := by
    rw [history_configs h]
    simp [he]
  have hm : m.config l = e.override.apply l.default := by rw [Manager.config, hc]
  rw [hm]
  cases e with
  | enabled b => exact .enabled
  | severity s => exact .severity
  | full o =>
    refine .full ?_ ?_ ?_ ?_ ?_ ?_
    · intro b hb; simp [ConfigFile.override, Override.apply, hb]
    · intro hb; simp [ConfigFile.override, Override.apply, hb]
    · intro b hb; simp [ConfigFile.override, Override.apply, hb]
    · intro hb; simp [ConfigFile.override, Override.apply, hb]
    · intro k v hb; simp [ConfigFile.override, Override.apply, hb]
    · intro k hb; simp [ConfigFile.override, Override.apply, hb]

/-! ### Cases -/

/-- An entry that says everything. -/
example : History (T := Unit) (C := Nat) (fun k => (if k = ['a'] then
      some (ConfigFile.full ⟨some true, some .error, fun _ => none⟩) else none).map ConfigFile.override)
    (.new fun k => (if k = ['a'] then
      some (ConfigFile.full ⟨some true, some .error, fun _ => none⟩) else none).map ConfigFile.override) := .new

/-- A lint that reports its severity. -/
def sample (i : Text) (d m : Severity) : Lint Unit Nat := ⟨i, ⟨true, d, fun _ => none⟩, m, [fun c _ => [c.severity.rank]]⟩
/-- The project turns `a` into an error and switches `b` off. -/
def sampleConfigs : Text → Option Override := fun k =>
  if k = ['a'] then some ⟨none, some .error, fun _ => none⟩ else if k = ['b'] then some ⟨some false, none, fun _ => none⟩
  else none
def sampleLints : List (Lint Unit Nat) :=
  [sample ['a'] .warning .help, sample ['b'] .warning .warning, sample ['c'] .error .error]
def sampleManager : Manager Unit Nat := ⟨sampleLints, [], sampleConfigs⟩

theorem sample_history : History sampleConfigs sampleManager :=
  .extend .new (ls := sampleLints) (by rfl)

example : sampleManager.run () = [4, 4] := by decide +kernel
example : ∃ c, Chosen sampleConfigs (sample ['c'] .error .error) c ∧ Severity.error.rank ≤ c.severity.rank ∧
    ∀ r ∈ (sample ['c'] .error .error).runners, ∀ x ∈ r c (), x ∈ sampleManager.run () :=
  C38_error_lints_report sample_history (by simp [sampleManager]) _ (by simp [sampleManager, sampleLints]) rfl rfl
    (by decide) ()
/-- Switching off the error lint, or lowering `b`, is refused. -/
example : (Manager.new (T := Unit) (C := Nat) fun _ => some ⟨some false, none, fun _ => none⟩).check
    [sample ['c'] .error .error] = [.disabled ['c']] := by decide +kernel
example : (Manager.new (T := Unit) (C := Nat) fun _ => some ⟨none, some .help, fun _ => none⟩).check
    [sample ['b'] .warning .warning] = [.severity ['b']] := by decide +kernel

end Verif.Lints
