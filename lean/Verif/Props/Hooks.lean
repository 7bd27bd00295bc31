import Verif.Model.Hooks
import Verif.Lib.StringtableXml
/-!
C104: which hooks run, and in which order. C105: what makes the build fail. C106: the file of a script. C107: hooks that
do not parse.
-/
namespace Verif.Hooks
open Verif.StringtableXml (textLe textLe_iff)

variable {W : Type}

/-! ## What hooks do, one after the other -/

/-- A hook that ran: its name, what it came to, and the state before it. -/
structure Turn (W : Type) where
  name : Text
  before : W
  outcome : Outcome W

/-- A folder is worked through in the order of `names`: what is not a file when its turn comes is passed over, everything
else runs, and the version is forgotten after each hook. -/
inductive Worked (fs : Files W) (n : Nat) (phase : Text) : List Text → W → List (Turn W) → W → Prop
  | nil (w) : Worked fs n phase [] w [] w
  | skip {name rest w ts w'} (h : fs.hook w phase name = .missing ∨ fs.hook w phase name = .folder)
      (r : Worked fs n phase rest w ts w') : Worked fs n phase (name :: rest) w ts w'
  | hook {name rest w p o ts w'} (h : fs.hook w phase name = .file p) (v : fs.versionKnown w = true)
      (e : eval (callScript fs n) p false w = .ok o) (r : Worked fs n phase rest (fs.invalidate o.world) ts w') :
      Worked fs n phase (name :: rest) w (⟨name, w, o⟩ :: ts) w'

/-- The code a hook that ran leads to. -/
def Turn.codes (phase : Text) (t : Turn W) : List Code :=
  match t.outcome.failed, t.outcome.fatal with
  | true, _ => [.runtime (phase ++ '/' :: t.name)]
  | false, true => [.fatal (phase ++ '/' :: t.name)]
  | false, false => []

theorem worked_of {fs : Files W} {n phase} : ∀ {names : List Text} {w : W} {r : Ran W},
    runEntries fs n phase names w = .ok r →
    ∃ ts, Worked fs n phase names w ts r.world ∧ r.started = ts.map (·.name) ∧
      r.codes = ts.flatMap (Turn.codes phase)
  | [], w, r, h => by
    rw [runEntries] at h
    injection h with h
    subst h
    exact ⟨[], .nil w, rfl, rfl⟩
  | name :: rest, w, r, h => by
    rw [runEntries] at h
    split at h
    · rename_i e
      obtain ⟨ts, h1, h2, h3⟩ := worked_of h
      exact ⟨ts, .skip (.inl e) h1, h2, h3⟩
    · rename_i e
      obtain ⟨ts, h1, h2, h3⟩ := worked_of h
      exact ⟨ts, .skip (.inr e) h1, h2, h3⟩
    · split at h
      · simp at h
      rename_i w1 codes hr
      split at h
      · simp at h
      rename_i r1 h1
      injection h with h
      subst h
      unfold run runWith at hr
      split at hr
      · simp at hr
      rename_i hv
      split at hr
      · rename_i p e
        split at hr
        · simp at hr
        rename_i o ho
        injection hr with hr
        injection hr with hw hc
        subst hw
        obtain ⟨ts, g1, g2, g3⟩ := worked_of h1
        refine ⟨⟨name, w, o⟩ :: ts, .hook e (by simpa using hv) ho g1, ?_, ?_⟩
        · simp [g2]
        · rw [List.flatMap_cons, ← g3, ← hc]
          congr 1
          unfold codesOf Turn.codes
          cases o.failed <;> cases o.fatal <;> rfl
      · simp at hr

theorem Worked.sublist {fs : Files W} {n phase names w ts w'} (h : Worked fs n phase names w ts w') :
    (ts.map (·.name)).Sublist names := by
  induction h with
  | nil => exact List.Sublist.slnil
  | skip _ _ ih => exact ih.cons _
  | hook _ _ _ _ ih => exact ih.cons_cons _

/-- The order of names: that of their characters. -/
def before (a b : Text) : Prop := a < b

/-- **C104**. Hooks of a phase that are there when the phase begins run one after the other, in the order of their names
and each at most once. The report has one code for every hook that was stopped by an error or called `fatal`, in this
order, and none for others. Where an error is passed on instead, or the program aborts, there is no report. -/
theorem C104_order {fs : Files W} {n phase w r l} (hl : fs.list w phase = some l) (hn : l.Nodup)
    (h : runFolder fs n true phase w = .ok r) :
    ∃ names ts, names.Perm l ∧ names.Pairwise before ∧ Worked fs n phase names w ts r.world ∧
      r.started = ts.map (·.name) ∧ r.started.Pairwise before ∧ r.codes = ts.flatMap (Turn.codes phase) := by
  unfold runFolder at h
  rw [if_neg (by simp), hl] at h
  obtain ⟨ts, h1, h2, h3⟩ := worked_of h
  have hp := List.perm_insertionSort (fun a b => textLe a b = true) l
  have hs : (l.insertionSort (fun a b => textLe a b = true)).Pairwise before := by
    have tot : Std.Total (fun a b : Text => textLe a b = true) := ⟨fun a b => by
      rw [textLe_iff, textLe_iff]; exact List.le_total a b⟩
    have tr : IsTrans Text (fun a b => textLe a b = true) := ⟨fun a b c => by
      rw [textLe_iff, textLe_iff, textLe_iff]; exact List.le_trans⟩
    have s := List.pairwise_insertionSort (fun a b => textLe a b = true) l
    have nd : (l.insertionSort (fun a b => textLe a b = true)).Nodup := hp.nodup_iff.2 hn
    refine List.Pairwise.imp ?_ (s.and nd)
    rintro a b ⟨h1, h2⟩
    rw [textLe_iff] at h1
    by_contra hlt
    exact h2 (List.le_antisymm h1 (List.not_lt.1 hlt))
  exact ⟨_, ts, hp, hs, h1, h2, h2 ▸ List.Pairwise.sublist h1.sublist hs, h3⟩

theorem Worked.all {fs : Files W} {n phase names w ts w'} (hc : ∀ u v, fs.hook u phase = fs.hook v phase)
    (h : Worked fs n phase names w ts w') (x : Text) :
    x ∈ ts.map (·.name) ↔ x ∈ names ∧ ∃ p, fs.hook w phase x = .file p := by
  induction h with
  | nil => simp
  | @skip name rest w ts w' e _ ih =>
    rw [ih]
    constructor
    · rintro ⟨h1, h2⟩
      exact ⟨List.mem_cons_of_mem _ h1, h2⟩
    · rintro ⟨h1, p, h2⟩
      rcases List.mem_cons.1 h1 with rfl | h1
      · rw [h2] at e
        simp at e
      · exact ⟨h1, p, h2⟩
  | @hook name rest w p o ts w' e _ _ _ ih =>
    rw [List.map_cons, List.mem_cons, ih, hc (fs.invalidate o.world) w]
    constructor
    · rintro (rfl | ⟨h1, h2⟩)
      · exact ⟨List.mem_cons_self, p, e⟩
      · exact ⟨List.mem_cons_of_mem _ h1, h2⟩
    · rintro ⟨h1, h2⟩
      rcases List.mem_cons.1 h1 with rfl | h1
      · exact .inl rfl
      · exact .inr ⟨h1, h2⟩

/-- **C104**. If hooks leave the folder as it is, every file in it runs, whatever its extension is, and whatever comes of
the hooks before it. -/
theorem C104_all {fs : Files W} {n phase w r l} (hl : fs.list w phase = some l)
    (hc : ∀ u v, fs.hook u phase = fs.hook v phase) (h : runFolder fs n true phase w = .ok r) (x : Text) :
    x ∈ r.started ↔ x ∈ l ∧ ∃ p, fs.hook w phase x = .file p := by
  unfold runFolder at h
  rw [if_neg (by simp), hl] at h
  obtain ⟨ts, h1, h2, -⟩ := worked_of h
  rw [h2, h1.all hc, (List.perm_insertionSort _ l).mem_iff]

/-- **C104**. No hook runs if there is no folder `.hemtt/hooks` when the command begins, or none for the phase. -/
theorem C104_off (fs : Files W) (n : Nat) (phase : Text) (w : W) :
    runFolder fs n false phase w = .ok ⟨w, [], []⟩ ∧
      (fs.list w phase = none → runFolder fs n true phase w = .ok ⟨w, [], []⟩) := by
  refine ⟨by simp [runFolder], fun h => ?_⟩
  unfold runFolder
  rw [if_neg (by simp), h]

theorem entries_stop {fs : Files W} {n phase} : ∀ {names : List Text} {w : W} {e : Stop},
    runEntries fs n phase names w = .error e →
    ∃ l x r ts w', names = l ++ x :: r ∧ Worked fs n phase l w ts w' ∧ (fs.versionKnown w' = false ∧ e = .panic ∨
      fs.hook w' phase x = .unreadable ∧ e = .error ∨
      ∃ p, fs.hook w' phase x = .file p ∧ eval (callScript fs n) p false w' = .error e)
  | [], w, e, h => by
    rw [runEntries] at h
    simp at h
  | name :: rest, w, e, h => by
    rw [runEntries] at h
    split at h
    · rename_i hk
      obtain ⟨l, x, r, ts, w', h1, h2, h3⟩ := entries_stop h
      exact ⟨name :: l, x, r, ts, w', by rw [h1]; rfl, .skip (.inl hk) h2, h3⟩
    · rename_i hk
      obtain ⟨l, x, r, ts, w', h1, h2, h3⟩ := entries_stop h
      exact ⟨name :: l, x, r, ts, w', by rw [h1]; rfl, .skip (.inr hk) h2, h3⟩
    · rename_i hm hf
      cases hk : fs.hook w phase name with
      | missing => exact absurd hk hm
      | folder => exact absurd hk hf
      | unreadable =>
        rw [hk] at h
        unfold run runWith at h
        refine ⟨[], name, rest, [], w, rfl, .nil w, ?_⟩
        cases hv : fs.versionKnown w
        · rw [hv, if_pos rfl] at h
          injection h with h
          exact .inl ⟨rfl, h.symm⟩
        · rw [hv, if_neg (by simp)] at h
          injection h with h
          exact .inr (.inl ⟨hk, h.symm⟩)
      | file p =>
        rw [hk] at h
        unfold run runWith at h
        cases hv : fs.versionKnown w
        · rw [hv, if_pos rfl] at h
          injection h with h
          exact ⟨[], name, rest, [], w, rfl, .nil w, .inl ⟨hv, h.symm⟩⟩
        · rw [hv, if_neg (by simp)] at h
          dsimp only at h
          cases he : eval (callScript fs n) p false w with
          | error e' =>
            rw [he] at h
            injection h with h
            subst h
            exact ⟨[], name, rest, [], w, rfl, .nil w, .inr (.inr ⟨p, hk, he⟩)⟩
          | ok o =>
            rw [he] at h
            dsimp only at h
            split at h
            · rename_i e' hr
              injection h with h
              subst h
              obtain ⟨l, x, r, ts, w', h1, h2, h3⟩ := entries_stop hr
              exact ⟨name :: l, x, r, _, w', by rw [h1]; rfl, .hook hk hv he h2, h3⟩
            · simp at h

/-- **C104**. The phase is only broken off at a hook that cannot be read, at one before which the version of the project
is not known (the program aborts), or at one in which scripts call each other without end. The hooks before it have run. -/
theorem C104_broken_off {fs : Files W} {n phase w l e} (hl : fs.list w phase = some l)
    (h : runFolder fs n true phase w = .error e) :
    ∃ done x rest ts w', (done ++ x :: rest).Perm l ∧ Worked fs n phase done w ts w' ∧
      (fs.versionKnown w' = false ∧ e = .panic ∨ fs.hook w' phase x = .unreadable ∧ e = .error ∨
        ∃ p, fs.hook w' phase x = .file p ∧ eval (callScript fs n) p false w' = .error e) := by
  unfold runFolder at h
  rw [if_neg (by simp), hl] at h
  obtain ⟨l1, x, r, ts, w', h1, h2, h3⟩ := entries_stop h
  exact ⟨l1, x, r, ts, w', h1 ▸ List.perm_insertionSort (fun a b => textLe a b = true) l, h2, h3⟩

/-! ## C105 -/

/-- A script that never calls `fatal` and is never stopped by an error, whatever it finds. -/
inductive Harmless : Prog W → Prop
  | done : Harmless .done
  | step {f k} (h : ∀ w, Harmless (k w)) : Harmless (.step f k)
  | script {name k} (h : ∀ b, Harmless (k b)) : Harmless (.script name k)

theorem eval_harmless {call : W → Text → Except Stop (W × Bool)} : ∀ {p : Prog W}, Harmless p → ∀ {w o},
    eval call p false w = .ok o → o.fatal = false ∧ o.failed = false := by
  intro p h
  induction h with
  | done =>
    intro w o h
    rw [eval] at h
    injection h with h
    subst h
    exact ⟨rfl, rfl⟩
  | step _ ih =>
    intro w o h
    rw [eval] at h
    exact ih _ h
  | script _ ih =>
    intro w o h
    rw [eval] at h
    split at h
    · simp at h
    · exact ih _ h

/-- A run in which `fatal` was called keeps that. -/
theorem eval_keeps {call : W → Text → Except Stop (W × Bool)} : ∀ (p : Prog W) {w o},
    eval call p true w = .ok o → o.fatal = true
  | .done, w, o, h => by
    rw [eval] at h
    injection h with h
    subst h
    rfl
  | .throw, w, o, h => by
    rw [eval] at h
    injection h with h
    subst h
    rfl
  | .fatal k, w, o, h => by
    rw [eval] at h
    exact eval_keeps k h
  | .step f k, w, o, h => by
    rw [eval] at h
    exact eval_keeps (k w) h
  | .script n k, w, o, h => by
    rw [eval] at h
    split at h
    · simp at h
    · exact eval_keeps _ h

/-- A script gets to a call of `fatal`, or to an error, on its own. -/
inductive Reaches (call : W → Text → Except Stop (W × Bool)) : Prog W → W → Prop
  | throw (w) : Reaches call .throw w
  | fatal (k w) : Reaches call (.fatal k) w
  | step {f k w} (h : Reaches call (k w) (f w)) : Reaches call (.step f k) w
  | script {name k w w' b} (e : call w name = .ok (w', b)) (h : Reaches call (k b) w') :
      Reaches call (.script name k) w

theorem reaches_iff {call : W → Text → Except Stop (W × Bool)} : ∀ (p : Prog W) {w o},
    eval call p false w = .ok o → (Reaches call p w ↔ o.fatal = true ∨ o.failed = true)
  | .done, w, o, h => by
    rw [eval] at h
    injection h with h
    subst h
    exact ⟨fun h => (by cases h), fun h => (by simp at h)⟩
  | .throw, w, o, h => by
    rw [eval] at h
    injection h with h
    subst h
    exact ⟨fun _ => .inr rfl, fun _ => .throw w⟩
  | .fatal k, w, o, h => by
    rw [eval] at h
    exact ⟨fun _ => .inl (eval_keeps k h), fun _ => .fatal k w⟩
  | .step f k, w, o, h => by
    rw [eval] at h
    rw [← reaches_iff (k w) h]
    exact ⟨fun h => by cases h; assumption, .step⟩
  | .script n k, w, o, h => by
    rw [eval] at h
    split at h
    · simp at h
    rename_i w' b e
    rw [← reaches_iff (k b) h]
    refine ⟨fun h => ?_, .script e⟩
    cases h with
    | script e' h =>
      rw [e] at e'
      injection e' with e'
      injection e' with e1 e2
      subst e1 e2
      exact h

/-- **C105**. The report of a phase has no code exactly if none of its hooks, itself, called `fatal` or was stopped by an
error. -/
theorem C105_fails {fs : Files W} {n phase w r} (h : runFolder fs n true phase w = .ok r) {l} (hl : fs.list w phase = some l) :
    ∃ names ts, Worked fs n phase names w ts r.world ∧ r.started = ts.map (·.name) ∧
      (r.codes = [] ↔ ∀ t ∈ ts, ∀ p, fs.hook t.before phase t.name = .file p →
        ¬ Reaches (callScript fs n) p t.before) := by
  unfold runFolder at h
  rw [if_neg (by simp), hl] at h
  obtain ⟨ts, h1, h2, h3⟩ := worked_of h
  refine ⟨_, ts, h1, h2, ?_⟩
  rw [h3, List.flatMap_eq_nil_iff]
  generalize l.insertionSort (fun a b => textLe a b = true) = names at h1
  have key : ∀ t ∈ ts, (Turn.codes phase t = [] ↔ ∀ p, fs.hook t.before phase t.name = .file p →
      ¬ Reaches (callScript fs n) p t.before) := by
    clear h2 h3 h hl
    generalize r.world = wr at h1
    induction h1 with
    | nil => simp
    | skip _ _ ih => exact ih
    | @hook name rest w p o ts w' e v he _ ih =>
      intro t ht
      rcases List.mem_cons.1 ht with rfl | ht
      · have hr := reaches_iff p he
        constructor
        · intro hc q hq
          rw [e] at hq
          injection hq with hq
          subst hq
          rw [hr]
          revert hc
          unfold Turn.codes
          cases o.failed <;> cases o.fatal <;> simp
        · intro hc
          have := hc p e
          rw [hr] at this
          revert this
          unfold Turn.codes
          cases o.failed <;> cases o.fatal <;> simp
      · exact ih t ht
  exact ⟨fun h t ht => (key t ht).1 (h t ht), fun h t ht => (key t ht).2 (h t ht)⟩

/-- **C105**, what does not hold of the code: a script that a hook runs with `HEMTT.script` may be missing, call `fatal`
or fail, and the build goes on. If the hooks themselves are harmless, the report is empty, whatever the scripts do that
they call. -/
theorem C105_violated {fs : Files W} {n phase w r}
    (hh : ∀ w' x p, fs.hook w' phase x = .file p → Harmless p)
    (h : runFolder fs n true phase w = .ok r) : r.codes = [] := by
  cases hl : fs.list w phase with
  | none =>
    rw [(C104_off fs n phase w).2 hl] at h
    injection h with h
    subst h
    rfl
  | some l =>
    unfold runFolder at h
    rw [if_neg (by simp), hl] at h
    obtain ⟨ts, h1, -, h3⟩ := worked_of h
    rw [h3, List.flatMap_eq_nil_iff]
    clear h3 h hl
    generalize l.insertionSort (fun a b => textLe a b = true) = names at h1
    generalize r.world = wr at h1
    induction h1 with
    | nil => simp
    | skip _ _ ih => exact ih
    | hook e v he _ ih =>
      intro t ht
      rcases List.mem_cons.1 ht with rfl | ht
      · obtain ⟨h1, h2⟩ := eval_harmless (hh _ _ _ e) he
        simp only [Turn.codes, h1, h2]
      · exact ih t ht

/-- **C105**. A script run with `hemtt script` that calls `fatal` or is stopped by an error, or is missing, has exactly
one code in the report; any other has none. -/
theorem C105_script {fs : Files W} {n name w w' c} (h : runFile fs n name w = .ok (w', c)) :
    (fs.script w (withExtension name "rhai".toList) = .missing ∧ c = [.notFound name]) ∨
      ∃ p, fs.script w (withExtension name "rhai".toList) = .file p ∧
        (Reaches (callScript fs n) p w → ∃ x, c = [x]) ∧ (¬ Reaches (callScript fs n) p w → c = []) := by
  unfold runFile at h
  dsimp only at h
  split at h
  · rename_i e
    injection h with h
    injection h with h1 h2
    exact .inl ⟨e, h2.symm⟩
  rename_i hne
  split at h
  · rename_i w1 c1 hr
    injection h with h
    injection h with h1 h2
    subst h2
    unfold run runWith at hr
    split at hr
    · simp at hr
    split at hr
    · rename_i p e
      split at hr
      · simp at hr
      rename_i o ho
      injection hr with hr
      injection hr with h3 h4
      have := reaches_iff p ho
      refine .inr ⟨p, e, fun h => ?_, fun h => ?_⟩
      · rw [this] at h
        rw [← h4]
        unfold codesOf
        revert h
        cases o.failed <;> cases o.fatal <;> simp
      · rw [this] at h
        rw [← h4]
        unfold codesOf
        revert h
        cases o.failed <;> cases o.fatal <;> simp
    · simp at hr
  · simp at h

/-! ## C106 -/

/-- **C106**. A name without a dot in its last part stands for the file with `.rhai` added. -/
theorem C106_plain (folder name : Text) (h : '.' ∉ name) (hs : '/' ∉ name) (hf : folder = [] ∨ folder.getLast? = some '/') :
    withExtension (folder ++ name) "rhai".toList = folder ++ name ++ ".rhai".toList := by
  have e : (folder ++ name).reverse.dropWhile (fun c => c ≠ '.' ∧ c ≠ '/') = folder.reverse := by
    rw [List.reverse_append, List.dropWhile_append_of_pos]
    · rcases hf with rfl | hf
      · rfl
      · obtain ⟨l, rfl⟩ := List.getLast?_eq_some_iff.1 hf
        rw [List.reverse_append]
        rfl
    · intro c hc
      rw [List.mem_reverse] at hc
      have h1 : c ≠ '.' := fun e => h (e ▸ hc)
      have h2 : c ≠ '/' := fun e => hs (e ▸ hc)
      simp [h1, h2]
  unfold withExtension
  dsimp only
  rw [e]
  rcases hf with rfl | hf
  · rfl
  · obtain ⟨l, rfl⟩ := List.getLast?_eq_some_iff.1 hf
    rw [List.reverse_append]
    rfl

/-- **C106**, what does not hold of the code: in a name with a dot in its last part, what follows the last dot is
replaced. `hemtt script tools.v2` runs `tools.rhai`, even where there is a `tools.v2.rhai`. -/
theorem C106_violated (name rest : Text) (h : '.' ∉ rest) (hs : '/' ∉ rest) :
    withExtension (name ++ '.' :: rest) "rhai".toList = name ++ ".rhai".toList := by
  have e : (name ++ '.' :: rest).reverse.dropWhile (fun c => c ≠ '.' ∧ c ≠ '/') = '.' :: name.reverse := by
    rw [List.reverse_append, List.reverse_cons, List.append_assoc, List.dropWhile_append_of_pos]
    · rfl
    · intro c hc
      rw [List.mem_reverse] at hc
      have h1 : c ≠ '.' := fun e => h (e ▸ hc)
      have h2 : c ≠ '/' := fun e => hs (e ▸ hc)
      simp [h1, h2]
  unfold withExtension
  dsimp only
  rw [e]
  simp

/-! ## C107 -/

theorem initEntries_iff {parses : Text → Bool} {phase} : ∀ {l : List Entry} {bad},
    initEntries parses phase l = some bad →
    ∀ x, x ∈ bad ↔ ∃ e ∈ l, ∃ s, e.text = some s ∧ parses s = false ∧ x = (phase, e.name)
  | [], bad, h, x => by
    rw [initEntries] at h
    injection h with h
    subst h
    simp
  | e :: l, bad, h, x => by
    rw [initEntries] at h
    split at h
    · simp at h
    rename_i s hs
    split at h
    · simp at h
    rename_i r hr
    have ih := initEntries_iff hr x
    injection h with h
    subst h
    cases hp : parses s
    · rw [if_neg (by simp), List.mem_cons, ih]
      constructor
      · rintro (rfl | ⟨e', h1, h2⟩)
        · exact ⟨e, List.mem_cons_self, s, hs, hp, rfl⟩
        · exact ⟨e', List.mem_cons_of_mem _ h1, h2⟩
      · rintro ⟨e', h1, s', h2, h3, h4⟩
        rcases List.mem_cons.1 h1 with rfl | h1
        · exact .inl h4
        · exact .inr ⟨e', h1, s', h2, h3, h4⟩
    · rw [if_pos rfl, ih]
      constructor
      · rintro ⟨e', h1, h2⟩
        exact ⟨e', List.mem_cons_of_mem _ h1, h2⟩
      · rintro ⟨e', h1, s', h2, h3, h4⟩
        rcases List.mem_cons.1 h1 with rfl | h1
        · rw [hs] at h2
          injection h2 with h2
          subst h2
          rw [hp] at h3
          simp at h3
        · exact ⟨e', h1, s', h2, h3, h4⟩

theorem initEntries_ok {parses : Text → Bool} {phase} : ∀ {l : List Entry},
    (∃ bad, initEntries parses phase l = some bad) ↔ ∀ e ∈ l, e.text ≠ none
  | [] => by simp [initEntries]
  | e :: l => by
    rw [initEntries, List.forall_mem_cons, ← initEntries_ok (l := l) (parses := parses) (phase := phase)]
    cases e.text with
    | none => simp
    | some s =>
      cases initEntries parses phase l with
      | none => simp
      | some r => simp

theorem initPhases_iff {parses : Text → Bool} {dirs : Text → Option (List Entry)} : ∀ {ps : List Text} {bad},
    initPhases parses dirs ps = some bad →
    ∀ x, x ∈ bad ↔ ∃ p ∈ ps, ∃ l, dirs p = some l ∧ ∃ e ∈ l, ∃ s, e.text = some s ∧ parses s = false ∧ x = (p, e.name)
  | [], bad, h, x => by
    rw [initPhases] at h
    injection h with h
    subst h
    simp
  | p :: ps, bad, h, x => by
    rw [initPhases] at h
    split at h
    · rename_i hd
      rw [initPhases_iff h x]
      constructor
      · rintro ⟨q, h1, h2⟩
        exact ⟨q, List.mem_cons_of_mem _ h1, h2⟩
      · rintro ⟨q, h1, l, h2, h3⟩
        rcases List.mem_cons.1 h1 with rfl | h1
        · rw [hd] at h2
          simp at h2
        · exact ⟨q, h1, l, h2, h3⟩
    · rename_i es hd
      split at h
      · simp at h
      rename_i r hr
      split at h
      · simp at h
      rename_i r' hr'
      injection h with h
      subst h
      rw [List.mem_append, initEntries_iff hr x, initPhases_iff hr' x]
      constructor
      · rintro (h | ⟨q, h1, h2⟩)
        · exact ⟨p, List.mem_cons_self, es, hd, h⟩
        · exact ⟨q, List.mem_cons_of_mem _ h1, h2⟩
      · rintro ⟨q, h1, l, h2, h3⟩
        rcases List.mem_cons.1 h1 with rfl | h1
        · rw [hd] at h2
          injection h2 with h2
          subst h2
          exact .inl h3
        · exact .inr ⟨q, h1, l, h2, h3⟩

theorem initPhases_ok {parses : Text → Bool} {dirs : Text → Option (List Entry)} : ∀ {ps : List Text},
    (∃ bad, initPhases parses dirs ps = some bad) ↔ ∀ p ∈ ps, ∀ l, dirs p = some l → ∀ e ∈ l, e.text ≠ none
  | [] => by simp [initPhases]
  | p :: ps => by
    rw [initPhases, List.forall_mem_cons, ← initPhases_ok (ps := ps) (parses := parses) (dirs := dirs)]
    cases hd : dirs p with
    | none => simp
    | some l =>
      have h1 := initEntries_ok (l := l) (parses := parses) (phase := p)
      have h2 : (∀ l', some l = some l' → ∀ e ∈ l', e.text ≠ none) ↔ ∀ e ∈ l, e.text ≠ none :=
        ⟨fun h => h l rfl, fun h l' e => by injection e with e; subst e; exact h⟩
      dsimp only
      rw [h2, ← h1]
      cases initEntries parses p l with
      | none => simp
      | some r =>
        cases initPhases parses dirs ps with
        | none => simp
        | some r' => simp

/-- **C107**. With a folder `.hemtt/hooks`, every file in the folder of a phase that the script engine cannot parse is
reported before anything is built, and nothing else is. -/
theorem C107_reported {parses dirs on bad} (h : init parses true dirs = some (on, bad)) (phase name : Text) :
    on = true ∧ ((phase, name) ∈ bad ↔
      (phase = "pre_build".toList ∨ phase = "post_build".toList ∨ phase = "pre_release".toList ∨
        phase = "post_release".toList) ∧
      ∃ l, dirs phase = some l ∧ ∃ e ∈ l, e.name = name ∧ ∃ s, e.text = some s ∧ parses s = false) := by
  unfold init at h
  rw [if_pos rfl, Option.map_eq_some_iff] at h
  obtain ⟨b, h1, h2⟩ := h
  injection h2 with h2 h3
  subst h2 h3
  refine ⟨rfl, ?_⟩
  rw [initPhases_iff h1]
  constructor
  · rintro ⟨p, hp, l, hl, e, he, s, hs, hf, hx⟩
    injection hx with hx1 hx2
    subst hx1 hx2
    exact ⟨by simpa [phases] using hp, l, hl, e, he, rfl, s, hs, hf⟩
  · rintro ⟨hp, l, hl, e, he, hx, s, hs, hf⟩
    exact ⟨phase, by simpa [phases] using hp, l, hl, e, he, s, hs, hf, by rw [hx]⟩

/-- **C107**. The check itself ends with an error exactly if there is something in the folder of a phase that cannot be
read as text; a sub-folder is enough, although it would be passed over when the hooks run (C104). -/
theorem C107_error (parses : Text → Bool) (dirs : Text → Option (List Entry)) :
    init parses true dirs = none ↔ ∃ p ∈ phases, ∃ l, dirs p = some l ∧ ∃ e ∈ l, e.text = none := by
  unfold init
  rw [if_pos rfl, Option.map_eq_none_iff]
  have h := initPhases_ok (parses := parses) (dirs := dirs) (ps := phases)
  constructor
  · intro hn
    by_contra hc
    rw [hn] at h
    obtain ⟨b, hb⟩ := h.2 fun p hp l hl e he ht => hc ⟨p, hp, l, hl, e, he, ht⟩
    simp at hb
  · rintro ⟨p, hp, l, hl, e, he, ht⟩
    by_contra hc
    obtain ⟨b, hb⟩ := Option.ne_none_iff_exists'.1 hc
    exact h.1 ⟨b, hb⟩ p hp l hl e he ht

/-- **C107**. Without the folder no hook is looked at, and hooks are off. -/
theorem C107_off (parses : Text → Bool) (dirs : Text → Option (List Entry)) :
    init parses false dirs = some (false, []) := rfl

/-! ### Examples -/

/-- The state counts the hooks that ran. `a` calls `fatal`, `b.txt` throws, `c` runs a script that calls `fatal`. -/
def toy : Files Nat where
  hook := fun _ _ x =>
    if x = ['a'] then .file (.step (· + 1) fun _ => .fatal .done)
    else if x = "b.txt".toList then .file (.step (· + 1) fun _ => .throw)
    else if x = ['c'] then .file (.step (· + 1) fun _ => .script "s.x".toList fun _ => .done)
    else .folder
  script := fun _ x => if x = "s.rhai".toList then .file (.fatal .throw) else .missing
  list := fun _ p => if p = ['p'] then some [['c'], "b.txt".toList, ['d'], ['a']] else if p = ['q'] then some [['c']] else none
  versionKnown := fun _ => true
  invalidate := id

/-- What is seen of a phase. -/
def seen : Except Stop (Ran Nat) → Option (Nat × List Code × List Text)
  | .ok r => some (r.world, r.codes, r.started)
  | .error _ => none

example : seen (runFolder toy 5 true ['p'] 0) =
    some (3, [.fatal "p/a".toList, .runtime "p/b.txt".toList], [['a'], "b.txt".toList, ['c']]) := by decide +kernel
example : seen (runFolder toy 5 true ['q'] 0) = some (1, [], [['c']]) := by decide +kernel
example : toy.list 0 ['p'] = some [['c'], "b.txt".toList, ['d'], ['a']] ∧
    [['c'], "b.txt".toList, ['d'], ['a']].Nodup := by decide +kernel
example : ∀ u v, toy.hook u ['p'] = toy.hook v ['p'] := fun _ _ => rfl

/-- The hook of phase `q` in a project where it is the only one: harmless, while its script calls `fatal` and throws. -/
example : Harmless (.step (· + 1) fun _ => .script "s.x".toList fun _ => .done : Prog Nat) :=
  .step fun _ => .script fun _ => .done

/-- The same script run by hand is reported. -/
example : (match runFile toy 5 "s.x".toList 0 with | .ok (_, c) => c | .error _ => []) =
    [.runtime "scripts/s.rhai".toList] := by decide +kernel
example : withExtension "sub/tools.v2".toList "rhai".toList = "sub/tools.rhai".toList := by decide +kernel
example : withExtension "v1.0/tools".toList "rhai".toList = "v1.0/tools.rhai".toList := by decide +kernel

/-- Without a version no hook runs: the program aborts. -/
example : seen (runFolder { toy with versionKnown := fun _ => false } 5 true ['p'] 0) = none := by decide +kernel

/-- Two hooks that do not parse, in different phases; and a folder inside a folder of hooks. -/
def toyDirs (sub : Bool) (p : Text) : Option (List Entry) :=
  if p = "pre_build".toList then some [⟨['a'], some ['!']⟩, ⟨['b'], some []⟩]
  else if p = "post_release".toList then some ([⟨['c'], some ['!']⟩] ++ if sub then [⟨['d'], none⟩] else [])
  else none

example : init (· = []) true (toyDirs false) = some (true, [("pre_build".toList, ['a']), ("post_release".toList, ['c'])]) := by
  decide +kernel
example : init (· = []) true (toyDirs true) = none := by decide +kernel

end Verif.Hooks
