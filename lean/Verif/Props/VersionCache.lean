import Verif.Spec.VersionUse
/-!
C139: which version the parts of a run use.
-/
namespace Verif.VersionCache
open Verif.Hooks (Prog Node Files Stop Code Ran Outcome)
open Verif.VersionUse (told place entries)

variable {D V : Type}

/-- What is kept is what would be read. -/
def Fresh (src : Source D V) (s : St D V) : Prop := ∀ v, s.kept = some v → src.read s.disk = some v

theorem get_fresh {src : Source D V} {s : St D V} (h : Fresh src s) :
    get src s = (src.read s.disk).map fun v => (v, ⟨s.disk, some v⟩) := by
  obtain ⟨d, k⟩ := s
  cases k with
  | none =>
    simp only [get]
    cases src.read d <;> rfl
  | some v =>
    have := h v rfl
    simp only [get] at this ⊢
    rw [this]
    rfl

/-- The state of a run beside that without anything kept. -/
def lift (v : V) (d : D) : St D V := ⟨d, some v⟩

theorem get_lift (src : Source D V) (v : V) (d : D) : get src (lift v d) = some (v, lift v d) := rfl

theorem known_eq (src : Source D V) (s : St D V) : (files src).versionKnown s = (get src s).isSome := rfl

theorem script_eq (src : Source D V) (s : St D V) (name : Text) :
    (files src).script s name = node src s (src.script s.disk name) := rfl

theorem script_eq' (src : Source D V) (v : V) (d : D) (name : Text) :
    (VersionUse.files src v).script d name = place v (src.script d name) := rfl

theorem hook_eq (src : Source D V) (s : St D V) (phase name : Text) :
    (files src).hook s phase name = node src s (src.hook s.disk phase name) := rfl

theorem list_eq (src : Source D V) (s : St D V) (phase : Text) : (files src).list s phase = src.list s.disk phase := rfl

theorem inv_eq (src : Source D V) (s : St D V) : (files src).invalidate s = ⟨s.disk, none⟩ := rfl

theorem eval_lift (v : V) (callI : St D V → Text → Except Stop (St D V × Bool)) (callS : D → Text → Except Stop (D × Bool))
    (hc : ∀ d name, callI (lift v d) name = (callS d name).map fun r => (lift v r.1, r.2)) :
    ∀ (p : Script D V) (f : Bool) (d : D), Hooks.eval callI (withVersion v p) f (lift v d) =
      (Hooks.eval callS (told v p) f d).map fun o => ⟨lift v o.world, o.fatal, o.failed⟩ := by
  intro p
  induction p with
  | done => intro f d; rfl
  | throw => intro f d; rfl
  | fatal k ih => intro f d; exact ih true d
  | step g k ih => intro f d; exact ih d f (g d)
  | version k ih => intro f d; exact ih v f d
  | script n k ih =>
    intro f d
    simp only [withVersion, told, Hooks.eval]
    rw [hc d n]
    cases callS d n with
    | error e => rfl
    | ok r => exact ih r.2 f r.1

/-- A file that is run while `v` is kept. -/
theorem runWith_lift (src : Source D V) (v : V) (callI : St D V → Text → Except Stop (St D V × Bool))
    (callS : D → Text → Except Stop (D × Bool))
    (hc : ∀ d name, callI (lift v d) name = (callS d name).map fun r => (lift v r.1, r.2)) (name : Text) (x : Place D V) (d : D) :
    Hooks.runWith (files src) callI name (node src (lift v d) x) (lift v d) =
      (Hooks.runWith (VersionUse.files src v) callS name (place v x) d).map fun r => (lift v r.1, r.2) := by
  cases x with
  | missing => rfl
  | folder => rfl
  | unreadable => rfl
  | file p =>
    have := eval_lift v callI callS hc p false d
    simp only [Hooks.runWith, files, VersionUse.files, node, place, get, lift, Hooks.eval, Option.isSome, Bool.true_eq_false,
      if_false] at this ⊢
    rw [this]
    cases Hooks.eval callS (told v p) false d <;> rfl

theorem callScript_lift (src : Source D V) (v : V) : ∀ (n : Nat) (d : D) (name : Text),
    Hooks.callScript (files src) n (lift v d) name =
      (Hooks.callScript (VersionUse.files src v) n d name).map fun r => (lift v r.1, r.2) := by
  intro n
  induction n with
  | zero => intro d name; rfl
  | succ n ih =>
    intro d name
    have h := fun x => runWith_lift src v _ _ ih (Hooks.withExtension name "rhai".toList) x d
    simp only [Hooks.callScript]
    rw [script_eq, script_eq']
    simp only [show (lift v d).disk = d from rfl]
    cases hx : src.script d (Hooks.withExtension name "rhai".toList) with
    | missing => rfl
    | folder => rfl
    | unreadable => rfl
    | file p =>
      have h := h (.file p)
      simp only [node, place, get, lift] at h ⊢
      rw [h]
      cases hr : Hooks.runWith (VersionUse.files src v) (Hooks.callScript (VersionUse.files src v) n)
        (Hooks.withExtension name "rhai".toList) (.file (told v p)) d with
      | error e => cases e <;> rfl
      | ok r => rfl

/-- A hook that is started with nothing wrong kept. -/
theorem run_fresh (src : Source D V) (n : Nat) (name : Text) (x : Place D V) {s : St D V} (h : Fresh src s) :
    Hooks.run (files src) n name (node src s x) s = match src.read s.disk with
      | none => .error .panic
      | some v => (Hooks.run (VersionUse.files src v) n name (place v x) s.disk).map fun r => (lift v r.1, r.2) := by
  have hg := get_fresh h
  cases hr : src.read s.disk with
  | none =>
    rw [hr] at hg
    simp [Hooks.run, Hooks.runWith, known_eq, hg]
  | some v =>
    rw [hr] at hg
    have hg : get src s = some (v, lift v s.disk) := hg
    dsimp only
    have key := runWith_lift src v _ _ (callScript_lift src v n) name x s.disk
    rw [Hooks.run, Hooks.run, ← key]
    cases x with
    | missing => simp [Hooks.runWith, known_eq, hg, get_lift, node]
    | folder => simp [Hooks.runWith, known_eq, hg, get_lift, node]
    | unreadable => simp [Hooks.runWith, known_eq, hg, get_lift, node]
    | file p => simp [Hooks.runWith, known_eq, hg, get_lift, node, Hooks.eval]

/-- What is left of a folder of hooks if the state is forgotten. -/
def Ran.disk (r : Ran (St D V)) : Ran D := ⟨r.world.disk, r.codes, r.started⟩

theorem runEntries_go {W : Type} (fs : Files W) (n : Nat) (phase name : Text) (rest : List Text) (w : W)
    (h1 : fs.hook w phase name ≠ .missing) (h2 : fs.hook w phase name ≠ .folder) :
    Hooks.runEntries fs n phase (name :: rest) w = (Hooks.run fs n (phase ++ '/' :: name) (fs.hook w phase name) w).bind fun q =>
      (Hooks.runEntries fs n phase rest (fs.invalidate q.1)).map fun r => ⟨r.world, q.2 ++ r.codes, name :: r.started⟩ := by
  rw [Hooks.runEntries]
  revert h1 h2
  cases fs.hook w phase name with
  | missing => intro h1; exact absurd rfl h1
  | folder => intro _ h2; exact absurd rfl h2
  | unreadable =>
    intro _ _
    dsimp only
    cases Hooks.run fs n (phase ++ '/' :: name) .unreadable w with
    | error e => rfl
    | ok q => simp only [Except.bind]; cases Hooks.runEntries fs n phase rest (fs.invalidate q.1) <;> rfl
  | file p =>
    intro _ _
    dsimp only
    cases Hooks.run fs n (phase ++ '/' :: name) (.file p) w with
    | error e => rfl
    | ok q => simp only [Except.bind]; cases Hooks.runEntries fs n phase rest (fs.invalidate q.1) <;> rfl

theorem entries_go (src : Source D V) (n : Nat) (phase name : Text) (rest : List Text) (d : D)
    (h1 : src.hook d phase name ≠ .missing) (h2 : src.hook d phase name ≠ .folder) :
    entries src n phase (name :: rest) d = match src.read d with
      | none => .error .panic
      | some v => (Hooks.run (VersionUse.files src v) n (phase ++ '/' :: name) (place v (src.hook d phase name)) d).bind fun q =>
        (entries src n phase rest q.1).map fun r => ⟨r.world, q.2 ++ r.codes, name :: r.started⟩ := by
  rw [entries]
  revert h1 h2
  cases src.hook d phase name with
  | missing => intro h1; exact absurd rfl h1
  | folder => intro _ h2; exact absurd rfl h2
  | unreadable =>
    intro _ _
    dsimp only
    cases src.read d with
    | none => rfl
    | some v =>
      dsimp only
      cases Hooks.run (VersionUse.files src v) n (phase ++ '/' :: name) (place v .unreadable) d with
      | error e => rfl
      | ok q => simp only [Except.bind]; cases entries src n phase rest q.1 <;> rfl
  | file p =>
    intro _ _
    dsimp only
    cases src.read d with
    | none => rfl
    | some v =>
      dsimp only
      cases Hooks.run (VersionUse.files src v) n (phase ++ '/' :: name) (place v (.file p)) d with
      | error e => rfl
      | ok q => simp only [Except.bind]; cases entries src n phase rest q.1 <;> rfl

theorem entries_fresh (src : Source D V) (n : Nat) (phase : Text) : ∀ (l : List Text) (s : St D V), Fresh src s →
    (Hooks.runEntries (files src) n phase l s).map Ran.disk = entries src n phase l s.disk ∧
      ∀ r, Hooks.runEntries (files src) n phase l s = .ok r → Fresh src r.world := by
  intro l
  induction l with
  | nil =>
    intro s h
    refine ⟨rfl, ?_⟩
    intro r hr
    obtain rfl := Except.ok.inj hr
    exact h
  | cons name l ih =>
    intro s h
    by_cases hm : src.hook s.disk phase name = .missing
    · have : (files src).hook s phase name = .missing := by rw [hook_eq, hm]; rfl
      rw [Hooks.runEntries, entries, this, hm]
      exact ih s h
    by_cases hf : src.hook s.disk phase name = .folder
    · have : (files src).hook s phase name = .folder := by rw [hook_eq, hf]; rfl
      rw [Hooks.runEntries, entries, this, hf]
      exact ih s h
    have hn : (files src).hook s phase name ≠ .missing ∧ (files src).hook s phase name ≠ .folder := by
      rw [hook_eq]
      revert hm hf
      cases src.hook s.disk phase name with
      | missing => intro hm; exact absurd rfl hm
      | folder => intro _ hf; exact absurd rfl hf
      | unreadable => intro _ _; exact ⟨nofun, nofun⟩
      | file p =>
        intro _ _
        simp only [node]
        cases get src s <;> exact ⟨nofun, nofun⟩
    rw [runEntries_go _ _ _ _ _ _ hn.1 hn.2, entries_go _ _ _ _ _ _ hm hf, hook_eq, run_fresh src n _ _ h]
    cases src.read s.disk with
    | none => exact ⟨rfl, fun r hr => by cases hr⟩
    | some v =>
      dsimp only
      cases Hooks.run (VersionUse.files src v) n (phase ++ '/' :: name) (place v (src.hook s.disk phase name)) s.disk with
      | error e => exact ⟨rfl, fun r hr => by cases hr⟩
      | ok q =>
        obtain ⟨d', codes⟩ := q
        have := ih ⟨d', none⟩ (fun v hv => by cases hv)
        simp only [Except.map, Except.bind, inv_eq, lift] at this ⊢
        obtain ⟨h1, h2⟩ := this
        rw [← h1]
        revert h2
        cases Hooks.runEntries (files src) n phase l ⟨d', none⟩ with
        | error e => intro _; exact ⟨rfl, fun r hr => by cases hr⟩
        | ok r =>
          intro h2
          refine ⟨rfl, fun r' hr => ?_⟩
          obtain rfl := Except.ok.inj hr
          exact h2 r rfl

/-- The hooks of a phase, in their order, without anything kept. -/
def hooksOf (src : Source D V) (n : Nat) (phase : Text) (d : D) : Except Stop (Ran D) :=
  match src.list d phase with
  | none => .ok ⟨d, [], []⟩
  | some l => entries src n phase (l.insertionSort (fun a b => StringtableXml.textLe a b = true)) d

/-- **C139.** Keeping the version changes nothing for hooks: what the hooks of a phase do is what they do if each is told the
version that can be read when it starts. And what is kept after them is not out of date. -/
theorem C139_hooks (src : Source D V) (n : Nat) (phase : Text) {s : St D V} (h : Fresh src s) :
    (Hooks.runFolder (files src) n true phase s).map Ran.disk = hooksOf src n phase s.disk ∧
      ∀ r, Hooks.runFolder (files src) n true phase s = .ok r → Fresh src r.world := by
  rw [Hooks.runFolder, hooksOf, if_neg (by decide)]
  rw [list_eq]
  cases src.list s.disk phase with
  | none =>
    refine ⟨rfl, ?_⟩
    intro r hr
    obtain rfl := Except.ok.inj hr
    exact h
  | some l => exact entries_fresh src n phase _ s h

/-- The other parts of a run do not change the version. -/
def Quiet (src : Source D V) (others : Stage → D → Except Stop (D × Bool)) : Prop :=
  ∀ st d d' b, others st d = .ok (d', b) → src.read d' = src.read d

theorem stage_fresh {src : Source D V} {n : Nat} {sign : Bool} {others : Stage → D → Except Stop (D × Bool)} (hq : Quiet src others)
    {st : Stage} {s : St D V} {r : Run D V} (h : Fresh src s) (hr : stage src n sign others st s = .ok r) :
    Fresh src r.state ∧ (∀ u ∈ r.uses, src.read u.2.1 = some u.2.2) := by
  rw [stage] at hr
  have hh : ∀ q, stageHooks src n st s = .ok q → Fresh src q.world := by
    intro q hq
    rw [stageHooks] at hq
    cases hp : st.phase with
    | none =>
      rw [hp] at hq
      obtain rfl := Except.ok.inj hq
      exact h
    | some phase =>
      rw [hp] at hq
      exact (C139_hooks src n phase h).2 q hq
  revert hr hh
  generalize stageHooks src n st s = hooks
  intro hr hh
  cases hooks with
  | error e => cases hr
  | ok q =>
    have hf := hh q rfl
    dsimp only at hr
    split at hr
    · obtain rfl := Except.ok.inj hr
      exact ⟨hf, by simp⟩
    · cases ho : others st q.world.disk with
      | error e => rw [ho] at hr; cases hr
      | ok o =>
        obtain ⟨d, b⟩ := o
        rw [ho] at hr
        cases b with
        | true =>
          obtain rfl := Except.ok.inj hr
          exact ⟨hf, by simp⟩
        | false =>
          have hf' : Fresh src (⟨d, q.world.kept⟩ : St D V) := by
            intro v hv
            rw [hq st _ _ _ ho]
            exact hf v hv
          dsimp only at hr
          cases hu : st.use sign with
          | none =>
            rw [hu] at hr
            obtain rfl := Except.ok.inj hr
            exact ⟨hf', by simp⟩
          | some u =>
            rw [hu, get_fresh hf'] at hr
            dsimp only at hr
            cases hv : src.read d with
            | none => rw [hv] at hr; cases hr
            | some v =>
              rw [hv] at hr
              obtain rfl := Except.ok.inj hr
              refine ⟨?_, ?_⟩
              · intro w hw
                obtain rfl := Option.some.inj hw
                exact hv
              · simp [hv]

theorem stages_fresh {src : Source D V} {n : Nat} {sign : Bool} {others : Stage → D → Except Stop (D × Bool)} (hq : Quiet src others) :
    ∀ (l : List Stage) {s : St D V} {r : Run D V}, Fresh src s → stages src n sign others l s = .ok r →
      Fresh src r.state ∧ ∀ u ∈ r.uses, src.read u.2.1 = some u.2.2 := by
  intro l
  induction l with
  | nil =>
    intro s r h hr
    obtain rfl := Except.ok.inj hr
    exact ⟨h, by simp⟩
  | cons st l ih =>
    intro s r h hr
    rw [stages] at hr
    cases h1 : stage src n sign others st s with
    | error e => rw [h1] at hr; cases hr
    | ok r1 =>
      rw [h1] at hr
      obtain ⟨hf, hu⟩ := stage_fresh hq h h1
      dsimp only at hr
      split at hr
      · obtain rfl := Except.ok.inj hr
        exact ⟨hf, hu⟩
      · cases h2 : stages src n sign others l r1.state with
        | error e => rw [h2] at hr; cases hr
        | ok r2 =>
          rw [h2] at hr
          obtain rfl := Except.ok.inj hr
          obtain ⟨hf2, hu2⟩ := ih hf h2
          refine ⟨hf2, ?_⟩
          intro u hm
          rcases List.mem_append.mp hm with h | h
          · exact hu u h
          · exact hu2 u h

/-- **C139.** In a release, whatever its hooks do, the version in the PBOs, in the name of the key and in the name of the archive is
each time the one that can be read at that moment. -/
theorem C139_moment {src : Source D V} {n : Nat} {sign archive : Bool} {others : Stage → D → Except Stop (D × Bool)}
    (hq : Quiet src others) {d : D} {r : Run D V} (hr : release src n sign archive others d = .ok r) :
    ∀ u d' v, (u, d', v) ∈ r.uses → src.read d' = some v := by
  intro u d' v hm
  rw [release, get_fresh (s := ⟨d, none⟩) (fun v hv => by cases hv)] at hr
  dsimp only at hr
  cases hd : src.read d with
  | none => rw [hd] at hr; cases hr
  | some v0 =>
    rw [hd] at hr
    refine (stages_fresh hq _ ?_ hr).2 _ hm
    intro w hw
    obtain rfl := Option.some.inj hw
    exact hd

/-- The hooks of a stage do not change the version. -/
def Keeps (src : Source D V) (n : Nat) (st : Stage) : Prop :=
  ∀ phase d r, st.phase = some phase → hooksOf src n phase d = .ok r → src.read r.world = src.read d

theorem stage_same {src : Source D V} {n : Nat} {sign : Bool} {others : Stage → D → Except Stop (D × Bool)} (hq : Quiet src others)
    {st : Stage} (hk : Keeps src n st) {s : St D V} {r : Run D V} (h : Fresh src s) (hr : stage src n sign others st s = .ok r) :
    src.read r.state.disk = src.read s.disk ∧ ∀ u ∈ r.uses, src.read u.2.1 = src.read s.disk := by
  rw [stage] at hr
  have hh : ∀ q, stageHooks src n st s = .ok q → src.read q.world.disk = src.read s.disk := by
    intro q hq
    rw [stageHooks] at hq
    cases hp : st.phase with
    | none =>
      rw [hp] at hq
      obtain rfl := Except.ok.inj hq
      rfl
    | some phase =>
      rw [hp] at hq
      have := (C139_hooks src n phase h).1
      dsimp only at hq
      rw [hq] at this
      exact hk phase s.disk _ hp this.symm
  revert hr hh
  generalize stageHooks src n st s = hooks
  intro hr hh
  cases hooks with
  | error e => cases hr
  | ok q =>
    have hf := hh q rfl
    dsimp only at hr
    split at hr
    · obtain rfl := Except.ok.inj hr
      exact ⟨hf, by simp⟩
    · cases ho : others st q.world.disk with
      | error e => rw [ho] at hr; cases hr
      | ok o =>
        obtain ⟨d, b⟩ := o
        rw [ho] at hr
        cases b with
        | true =>
          obtain rfl := Except.ok.inj hr
          exact ⟨hf, by simp⟩
        | false =>
          have hd : src.read d = src.read s.disk := by rw [hq st _ _ _ ho, hf]
          dsimp only at hr
          cases hu : st.use sign with
          | none =>
            rw [hu] at hr
            obtain rfl := Except.ok.inj hr
            exact ⟨hd, by simp⟩
          | some u =>
            rw [hu] at hr
            dsimp only at hr
            cases hg : get src ⟨d, q.world.kept⟩ with
            | none => rw [hg] at hr; cases hr
            | some x =>
              have hx : x.2.disk = d := by
                simp only [get] at hg
                split at hg
                · obtain rfl := Option.some.inj hg; rfl
                · split at hg
                  · obtain rfl := Option.some.inj hg; rfl
                  · cases hg
              rw [hg] at hr
              obtain rfl := Except.ok.inj hr
              refine ⟨?_, ?_⟩
              · show src.read x.2.disk = _
                rw [hx, hd]
              · simp [hd]

theorem stages_same {src : Source D V} {n : Nat} {sign : Bool} {others : Stage → D → Except Stop (D × Bool)} (hq : Quiet src others) :
    ∀ (l : List Stage) {s : St D V} {r : Run D V}, (∀ st ∈ l, Keeps src n st) → Fresh src s → stages src n sign others l s = .ok r →
      ∀ u ∈ r.uses, src.read u.2.1 = src.read s.disk := by
  intro l
  induction l with
  | nil =>
    intro s r _ h hr
    obtain rfl := Except.ok.inj hr
    simp
  | cons st l ih =>
    intro s r hk h hr
    rw [stages] at hr
    cases h1 : stage src n sign others st s with
    | error e => rw [h1] at hr; cases hr
    | ok r1 =>
      rw [h1] at hr
      obtain ⟨hd, hu⟩ := stage_same hq (hk st (by simp)) h h1
      dsimp only at hr
      split at hr
      · obtain rfl := Except.ok.inj hr
        exact hu
      · cases h2 : stages src n sign others l r1.state with
        | error e => rw [h2] at hr; cases hr
        | ok r2 =>
          rw [h2] at hr
          obtain rfl := Except.ok.inj hr
          intro u hm
          rcases List.mem_append.mp hm with h' | h'
          · exact hu u h'
          · rw [ih (fun st hs => hk st (by simp [hs])) (stage_fresh hq h h1).1 h2 u h', hd]

theorem stage_uses {src : Source D V} {n : Nat} {sign : Bool} {others : Stage → D → Except Stop (D × Bool)} {st : Stage} {s : St D V}
    {r : Run D V} (hr : stage src n sign others st s = .ok r) (hf : r.failed = false) : r.uses.map (·.1) = (st.use sign).toList := by
  rw [stage] at hr
  cases hh : stageHooks src n st s with
  | error e => rw [hh] at hr; cases hr
  | ok q =>
    rw [hh] at hr
    dsimp only at hr
    split at hr
    · obtain rfl := Except.ok.inj hr
      cases hf
    · cases ho : others st q.world.disk with
      | error e => rw [ho] at hr; cases hr
      | ok o =>
        obtain ⟨d, b⟩ := o
        rw [ho] at hr
        cases b with
        | true =>
          obtain rfl := Except.ok.inj hr
          cases hf
        | false =>
          dsimp only at hr
          cases hu : st.use sign with
          | none =>
            rw [hu] at hr
            obtain rfl := Except.ok.inj hr
            rfl
          | some u =>
            rw [hu] at hr
            dsimp only at hr
            cases hg : get src ⟨d, q.world.kept⟩ with
            | none => rw [hg] at hr; cases hr
            | some x =>
              rw [hg] at hr
              obtain rfl := Except.ok.inj hr
              rfl

theorem stages_uses {src : Source D V} {n : Nat} {sign : Bool} {others : Stage → D → Except Stop (D × Bool)} :
    ∀ (l : List Stage) {s : St D V} {r : Run D V}, stages src n sign others l s = .ok r → r.failed = false →
      r.uses.map (·.1) = l.flatMap fun st => (st.use sign).toList := by
  intro l
  induction l with
  | nil =>
    intro s r hr _
    obtain rfl := Except.ok.inj hr
    rfl
  | cons st l ih =>
    intro s r hr hf
    rw [stages] at hr
    cases h1 : stage src n sign others st s with
    | error e => rw [h1] at hr; cases hr
    | ok r1 =>
      rw [h1] at hr
      dsimp only at hr
      split at hr
      · rename_i hx
        obtain rfl := Except.ok.inj hr
        rw [hf] at hx
        cases hx
      · rename_i hx
        cases h2 : stages src n sign others l r1.state with
        | error e => rw [h2] at hr; cases hr
        | ok r2 =>
          rw [h2] at hr
          obtain rfl := Except.ok.inj hr
          have := stage_uses h1 (by simpa using hx)
          simp only [List.map_append, List.flatMap_cons]
          rw [this, ih h2 hf]

/-- **C139.** A release that succeeds uses the version for the PBOs, then for the key if it signs, then for the archive if it makes one. -/
theorem C139_used {src : Source D V} {n : Nat} {sign archive : Bool} {others : Stage → D → Except Stop (D × Bool)} {d : D} {r : Run D V}
    (hr : release src n sign archive others d = .ok r) (hf : r.failed = false) :
    r.uses.map (·.1) = [Use.pbos] ++ (if sign then [Use.key] else []) ++ (if archive then [Use.archive] else []) := by
  rw [release] at hr
  cases hg : get src ⟨d, none⟩ with
  | none => rw [hg] at hr; cases hr
  | some x =>
    rw [hg] at hr
    rw [stages_uses _ hr hf]
    cases sign <;> cases archive <;> rfl

/-- **C139.** If only hooks of `pre_build` change the version, the PBOs, the key and the archive have the same one. -/
theorem C139_same {src : Source D V} {n : Nat} {sign archive : Bool} {others : Stage → D → Except Stop (D × Bool)}
    (hq : Quiet src others) (hk : ∀ st, st ≠ .preBuild → Keeps src n st) {d : D} {r : Run D V}
    (hr : release src n sign archive others d = .ok r) :
    ∀ a ∈ r.uses, ∀ b ∈ r.uses, a.2.2 = b.2.2 := by
  intro a ha b hb
  have hm := C139_moment hq hr
  have h1 := hm a.1 a.2.1 a.2.2 ha
  have h2 := hm b.1 b.2.1 b.2.2 hb
  suffices h : src.read a.2.1 = src.read b.2.1 by
    rw [h1, h2] at h
    exact Option.some.inj h
  clear hm h1 h2
  rw [release, get_fresh (s := ⟨d, none⟩) (fun v hv => by cases hv)] at hr
  dsimp only at hr
  cases hd : src.read d with
  | none => rw [hd] at hr; cases hr
  | some v0 =>
    rw [hd] at hr
    have hfr : Fresh src (⟨d, some v0⟩ : St D V) := by
      intro w hw
      obtain rfl := Option.some.inj hw
      exact hd
    have hr : stages src n sign others (plan archive) ⟨d, some v0⟩ = .ok r := hr
    rw [plan, List.append_assoc, List.cons_append, stages] at hr
    cases h1 : stage src n sign others .preBuild ⟨d, some v0⟩ with
    | error e => rw [h1] at hr; cases hr
    | ok r1 =>
      rw [h1] at hr
      dsimp only at hr
      have hnone : r1.uses = [] := by
        rw [stage] at h1
        cases hh : stageHooks src n .preBuild ⟨d, some v0⟩ with
        | error e => rw [hh] at h1; cases h1
        | ok q =>
          rw [hh] at h1
          dsimp only at h1
          split at h1
          · obtain rfl := Except.ok.inj h1; rfl
          · cases ho : others .preBuild q.world.disk with
            | error e => rw [ho] at h1; cases h1
            | ok o =>
              obtain ⟨d', b⟩ := o
              rw [ho] at h1
              cases b <;> (obtain rfl := Except.ok.inj h1; rfl)
      split at hr
      · obtain rfl := Except.ok.inj hr
        rw [hnone] at ha
        cases ha
      · cases h2 : stages src n sign others ([.build, .postBuild, .preRelease] ++ ((if archive then [.archive] else []) ++ [.postRelease]))
            r1.state with
        | error e => rw [h2] at hr; cases hr
        | ok r2 =>
          rw [h2] at hr
          obtain rfl := Except.ok.inj hr
          have hl : ∀ st ∈ ([.build, .postBuild, .preRelease] ++ ((if archive then [.archive] else []) ++ [.postRelease]) : List Stage),
              Keeps src n st := by
            intro st hs
            refine hk st ?_
            rintro rfl
            revert hs
            cases archive <;> decide
          have hsame := stages_same hq _ hl (stage_fresh hq hfr h1).1 h2
          simp only [hnone, List.nil_append] at ha hb
          rw [hsame a ha, hsame b hb]

/-! ### Cases -/

/-- A disk for examples: the number that is the version (0 for none that can be read), and what scripts have written down. -/
abbrev Disk := Nat × List Nat

def bump (k : Nat) : Script Disk Nat := .step (fun d => (k, d.2)) fun _ => .done
def note (next : Script Disk Nat) : Script Disk Nat := .version fun v => .step (fun d => (d.1, d.2 ++ [v])) fun _ => next

/-- Hooks by the name of the phase, scripts by theirs. -/
def project (hooks : Text → List (Text × Script Disk Nat)) (scripts : List (Text × Script Disk Nat)) : Source Disk Nat where
  hook _ phase name := match (hooks phase).find? fun e => e.1 = name with
    | some e => .file e.2
    | none => .missing
  script _ name := match scripts.find? fun e => e.1 = name with
    | some e => .file e.2
    | none => .missing
  list _ phase := some ((hooks phase).map (·.1))
  read d := if d.1 = 0 then none else some d.1

def nothing : Stage → Disk → Except Stop (Disk × Bool) := fun _ d => .ok (d, false)

/-- What is seen of a run. -/
def seen (r : Except Stop (Run Disk Nat)) : Option (Disk × List (Use × Nat)) :=
  match r with
  | .ok r => some (r.state.disk, r.uses.map fun u => (u.1, u.2.2))
  | .error _ => none

/-- Two hooks before the build, of which the first changes the version: the second is told the new one, and so are the rest. -/
def bumped : Source Disk Nat := project (fun p =>
  if p = "pre_build".toList then [("1.rhai".toList, note (bump 8)), ("2.rhai".toList, note .done)]
  else if p = "pre_release".toList then [("1.rhai".toList, note .done)] else []) []

example : seen (release bumped 5 true true nothing (7, [])) = some ((8, [7, 8, 8]), [(.pbos, 8), (.key, 8), (.archive, 8)]) := by
  decide +kernel

example : Quiet bumped nothing := by
  intro st d d' b h
  obtain rfl := congrArg Prod.fst (Except.ok.inj h)
  rfl

/-- Hooks of `pre_build` only: the hypotheses of `C139_same` are met. -/
def early : Source Disk Nat := project (fun p => if p = "pre_build".toList then [("1.rhai".toList, note (bump 8))] else []) []

example : (∀ st, st ≠ .preBuild → Keeps early 5 st) ∧
    seen (release early 5 true true nothing (7, [])) = some ((8, [7]), [(.pbos, 8), (.key, 8), (.archive, 8)]) := by
  refine ⟨?_, by decide +kernel⟩
  intro st hst phase d r hp hr
  have he : early.list d phase = some [] := by
    cases st <;> first | exact absurd rfl hst | (obtain rfl := Option.some.inj hp; rfl) | cases hp
  rw [hooksOf, he] at hr
  obtain rfl := Except.ok.inj hr
  rfl

/-- If a hook before the release changes it, the PBOs have the old version inside an archive with the new one in its name. -/
def late : Source Disk Nat := project (fun p => if p = "pre_release".toList then [("1.rhai".toList, bump 8)] else []) []

example : seen (release late 5 true true nothing (7, [])) = some ((8, []), [(.pbos, 7), (.key, 8), (.archive, 8)]) := by decide +kernel

/-- **C139, violated by the code.** A script that a hook runs after it changed the version is told the old version, though the
script runs on its own after that change (`hemtt script` would tell it the new one). -/
theorem C139_violated_script : ∃ (src : Source Disk Nat) (d : Disk),
    seen (release src 5 true true nothing d) = some ((8, [7]), [(.pbos, 8), (.key, 8), (.archive, 8)]) ∧
      (Hooks.runFile (files src) 5 "note".toList ⟨(8, []), none⟩).toOption.map (fun r => r.1.disk) = some (8, [8]) :=
  ⟨project (fun p => if p = "pre_build".toList then
      [("1.rhai".toList, .step (fun d => (8, d.2)) fun _ => .script "note".toList fun _ => .done)] else [])
    [("note.rhai".toList, note .done)], (7, []), by decide +kernel, by decide +kernel⟩

/-- **C139, violated by the code.** A hook that leaves no version that can be read makes the next hook abort the program. -/
theorem C139_violated_abort : ∃ (src : Source Disk Nat) (d : Disk),
    release src 5 true true nothing d matches .error .panic :=
  ⟨project (fun p => if p = "pre_build".toList then [("1.rhai".toList, bump 0), ("2.rhai".toList, .done)] else []) [], (7, []), by
    decide +kernel⟩

end Verif.VersionCache
