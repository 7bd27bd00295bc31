import Verif.Lib.SqfBlocks
/-! C71: event handlers (S02). -/
namespace Verif.SqfLint
open Verif.Sqf Verif.SqfLex

variable {NS : Type} [DecidableEq NS] {W : EventWiki NS} {user : Bytes → Bool} {ignore : Lints.Config → Option (List Bytes)}
  {required : Option (Nat × Nat)}

/-- The name of the event an expression gives: a text, or the first of an array. -/
inductive EventName : Expr → Bytes → Span → Prop where
  | text (t : Bytes) (sp : Span) (w : Wrapper) : EventName (.str t sp w) t sp
  | first {e : Expr} {t : Bytes} {sp : Span} (es : List Expr) (sp' : Span) : EventName e t sp → EventName (.arr (e :: es) sp') t sp

/-- An expression adds a handler (or does something else with the handlers) of the event `id`, with the command `c`. -/
inductive Handles : Expr → Bytes → Bytes → Span → Prop where
  | unary (c : Bytes) {e : Expr} {id : Bytes} {sp : Span} (sp' : Span) : EventName e id sp → Handles (.un (.named c) e sp') c id sp
  | binary (c : Bytes) (l : Expr) {e : Expr} {id : Bytes} {sp : Span} (sp' : Span) : EventName e id sp →
      Handles (.bin (.named c) l e sp') c id sp

theorem eventId_iff : ∀ {e : Expr} {t : Bytes} {sp : Span}, eventId e = some (t, sp) ↔ EventName e t sp := by
  intro e t sp
  constructor
  · intro h
    fun_induction eventId e with
    | case1 s sp' w => cases h; exact .text ..
    | case2 e es sp' ih => exact .first _ _ (ih h)
    | case3 => cases h
  · intro h
    induction h with
    | text => rfl
    | first es sp' _ ih => rw [eventId]; exact ih

omit [DecidableEq NS] in
theorem eventUse_iff {e : Expr} {ns : List NS} {c id : Bytes} {sp : Span} :
    eventUse W e = some (ns, c, id, sp) ↔ Handles e c id sp ∧ ns = W.byCommand c := by
  constructor
  · intro h
    unfold eventUse at h
    split at h
    · rw [Option.map_eq_some_iff] at h
      obtain ⟨i, hi, h⟩ := h
      cases h
      exact ⟨.binary _ _ _ (eventId_iff.1 hi), rfl⟩
    · rw [Option.map_eq_some_iff] at h
      obtain ⟨i, hi, h⟩ := h
      cases h
      exact ⟨.unary _ _ (eventId_iff.1 hi), rfl⟩
    · cases h
  · rintro ⟨h, rfl⟩
    cases h <;> (rename_i h; rw [eventUse, eventId_iff.2 h]; rfl)

/-- What is checked at all: a command for events of the wiki that is not about user actions, with the name of an event. -/
def Checked (W : EventWiki NS) (user : Bytes → Bool) (ss : List Stmt) (c id : Bytes) (sp : Span) : Prop :=
  ∃ e, Written ss e ∧ Handles e c id sp ∧ W.byCommand c ≠ [] ∧ user c = false

/-- The configuration does not suppress a command. -/
def Active (ignore : Lints.Config → Option (List Bytes)) (config : Option Lints.Config) (c : Bytes) : Prop :=
  ∀ k, config = some k → k.enabled = true ∧ ∀ l, ignore k = some l → c ∉ l

theorem mem_runner {configs : Text → Option Lints.Config} {ss : List Stmt} {r : EventReport} :
    r ∈ eventRunner W user ignore required configs ss ↔ ∃ c id sp, Checked W user ss c id sp ∧
      (r ∈ checkUnknown ignore (configs eventUnknown) (W.byCommand c) c id sp (W.handlers id) ∨
       r ∈ checkVersion required (W.byCommand c) c sp (W.handlers id)) := by
  rw [eventRunner, List.mem_flatMap]
  constructor
  · rintro ⟨e, he, h⟩
    rw [mem_walkSs] at he
    unfold checkEvent at h
    split at h
    · cases h
    · rename_i ns c id sp hu
      obtain ⟨hh, rfl⟩ := eventUse_iff.1 hu
      split at h
      · cases h
      rename_i hne
      split at h
      · cases h
      rename_i hus
      rw [List.mem_append] at h
      exact ⟨c, id, sp, ⟨e, he, hh, by simpa using hne, by simpa using hus⟩, h⟩
  · rintro ⟨c, id, sp, ⟨e, he, hh, hne, hus⟩, h⟩
    refine ⟨e, (mem_walkSs e ss).2 he, ?_⟩
    unfold checkEvent
    rw [eventUse_iff.2 ⟨hh, rfl⟩]
    dsimp only
    rw [if_neg (by simpa using hne), if_neg (by simp [hus]), List.mem_append]
    exact h

theorem checkUnknown_eq (config : Option Lints.Config) (ns : List NS) (c id : Bytes) (sp : Span) (eh : List (NS × Option Nat)) :
    (Active ignore config c → checkUnknown ignore config ns c id sp eh =
      if eh = [] then [.unknown c id sp ((config.map (·.severity)).getD .warning)]
      else if ∃ n ∈ ns, ∃ h ∈ eh, h.1 = n then [] else [.incorrect c id sp]) ∧
    (¬Active ignore config c → checkUnknown ignore config ns c id sp eh = []) := by
  have hact : Active ignore config c ↔ ¬(config.any (fun k => !k.enabled) = true) ∧
      ¬(config.any (fun k => (ignore k).any fun l => l.contains c) = true) := by
    cases config with
    | none => simp [Active]
    | some k =>
      simp only [Active, Option.some.injEq, Option.any_some, Bool.not_eq_true', Bool.not_eq_false]
      constructor
      · intro h
        obtain ⟨h1, h2⟩ := h k rfl
        refine ⟨h1, ?_⟩
        cases hi : ignore k with
        | none => simp
        | some l => simpa using h2 l hi
      · rintro ⟨h1, h2⟩ k' rfl
        refine ⟨h1, ?_⟩
        intro l hl
        rw [hl] at h2
        simpa using h2
  rw [hact]
  unfold checkUnknown
  constructor
  · rintro ⟨h1, h2⟩
    rw [if_neg h1, if_neg h2]
    cases eh with
    | nil => simp
    | cons x xs =>
      simp only [List.isEmpty_cons, Bool.false_eq_true, if_false, reduceCtorEq, List.any_eq_true, decide_eq_true_eq]
  · intro h
    by_cases h1 : config.any (fun k => !k.enabled) = true
    · rw [if_pos h1]
    · rw [if_neg h1, if_pos]
      by_contra h2
      exact h ⟨h1, h2⟩

/-- C71: an event is reported as unknown exactly if the wiki has no event of that name at all. -/
theorem C71_unknown {configs : Text → Option Lints.Config} {ss : List Stmt} {c id : Bytes} {sp : Span} {sev : Lints.Severity} :
    .unknown c id sp sev ∈ eventRunner W user ignore required configs ss ↔
      Checked W user ss c id sp ∧ Active ignore (configs eventUnknown) c ∧ W.handlers id = [] ∧
      (∀ k, configs eventUnknown = some k → sev = k.severity) ∧ (configs eventUnknown = none → sev = .warning) := by
  rw [mem_runner]
  have hv : ∀ ns c' sp' eh, EventReport.unknown c id sp sev ∉ checkVersion (NS := NS) required ns c' sp' eh := by
    intro ns c' sp' eh h
    unfold checkVersion at h
    repeat' split at h
    all_goals simp at h
  have hs : sev = ((configs eventUnknown).map (·.severity)).getD .warning ↔
      (∀ k, configs eventUnknown = some k → sev = k.severity) ∧ (configs eventUnknown = none → sev = .warning) := by
    cases configs eventUnknown <;> simp
  rw [← hs]
  constructor
  · rintro ⟨c', id', sp', hc, h | h⟩
    · by_cases ha : Active ignore (configs eventUnknown) c'
      · rw [(checkUnknown_eq _ _ _ _ _ _).1 ha] at h
        split at h
        · rename_i he
          cases List.mem_singleton.1 h
          exact ⟨hc, ha, he, rfl⟩
        · split at h <;> simp at h
      · rw [(checkUnknown_eq _ _ _ _ _ _).2 ha] at h
        cases h
    · exact absurd h (hv _ _ _ _)
  · rintro ⟨hc, ha, he, rfl⟩
    refine ⟨c, id, sp, hc, .inl ?_⟩
    rw [(checkUnknown_eq _ _ _ _ _ _).1 ha, if_pos he]
    simp

/-- C71: a command is reported as the wrong one exactly if the wiki knows the event, but only for things the command is not
for. -/
theorem C71_incorrect {configs : Text → Option Lints.Config} {ss : List Stmt} {c id : Bytes} {sp : Span} :
    .incorrect c id sp ∈ eventRunner W user ignore required configs ss ↔
      Checked W user ss c id sp ∧ Active ignore (configs eventUnknown) c ∧ W.handlers id ≠ [] ∧
      ∀ h ∈ W.handlers id, h.1 ∉ W.byCommand c := by
  rw [mem_runner]
  have hv : ∀ ns c' sp' eh, EventReport.incorrect c id sp ∉ checkVersion (NS := NS) required ns c' sp' eh := by
    intro ns c' sp' eh h
    unfold checkVersion at h
    repeat' split at h
    all_goals simp at h
  constructor
  · rintro ⟨c', id', sp', hc, h | h⟩
    · by_cases ha : Active ignore (configs eventUnknown) c'
      · rw [(checkUnknown_eq _ _ _ _ _ _).1 ha] at h
        split at h
        · simp at h
        · rename_i he
          split at h
          · cases h
          · rename_i hn
            cases List.mem_singleton.1 h
            exact ⟨hc, ha, he, fun x hx hm => hn ⟨_, hm, x, hx, rfl⟩⟩
      · rw [(checkUnknown_eq _ _ _ _ _ _).2 ha] at h
        cases h
    · exact absurd h (hv _ _ _ _)
  · rintro ⟨hc, ha, he, hn⟩
    refine ⟨c, id, sp, hc, .inl ?_⟩
    rw [(checkUnknown_eq _ _ _ _ _ _).1 ha, if_neg he, if_neg]
    · simp
    · rintro ⟨n, hn', x, hx, rfl⟩
      exact hn x hx hn'

/-- C71: a handler is reported as too new exactly if the first event of that name for one of the things the command is for came
with a version newer than the required one. The message has the name of the command, not of the event. -/
theorem C71_version {configs : Text → Option Lints.Config} {ss : List Stmt} {c : Bytes} {sp : Span} {v : Nat} :
    .version c sp v ∈ eventRunner W user ignore required configs ss ↔
      ∃ id, Checked W user ss c id sp ∧ ∃ major minor, required = some (major, minor) ∧ wikiVersion major minor < v ∧
        ∃ pre n post, W.handlers id = pre ++ (n, some v) :: post ∧ n ∈ W.byCommand c ∧ ∀ h ∈ pre, h.1 ∉ W.byCommand c := by
  rw [mem_runner]
  have hu : ∀ config ns c' id' sp' eh, EventReport.version c sp v ∉ checkUnknown (NS := NS) ignore config ns c' id' sp' eh := by
    intro config ns c' id' sp' eh h
    unfold checkUnknown at h
    repeat' split at h
    all_goals simp at h
  constructor
  · rintro ⟨c', id, sp', hc, h | h⟩
    · exact absurd h (hu _ _ _ _ _ _)
    · unfold checkVersion at h
      split at h
      · cases h
      · rename_i major minor
        split at h
        · rename_i n w hf
          split at h
          · rename_i hlt
            cases List.mem_singleton.1 h
            rw [List.find?_eq_some_iff_append] at hf
            obtain ⟨hn, pre, post, he, hp⟩ := hf
            exact ⟨id, hc, major, minor, rfl, hlt, pre, n, post, he, by simpa using hn, fun x hx => by simpa using hp x hx⟩
          · cases h
        · cases h
  · rintro ⟨id, hc, major, minor, rfl, hlt, pre, n, post, he, hn, hp⟩
    refine ⟨c, id, sp, hc, .inr ?_⟩
    have hf : (W.handlers id).find? (fun h => (W.byCommand c).contains h.1) = some (n, some v) := by
      rw [List.find?_eq_some_iff_append]
      exact ⟨by simpa using hn, pre, post, he, fun x hx => by simpa using hp x hx⟩
    unfold checkVersion
    dsimp only
    rw [hf]
    dsimp only
    rw [if_pos hlt]
    simp

theorem groupConfigs_none {T C : Type} (m : Lints.Manager T C) (k : Text) : ∀ (ls : List (Lints.Lint T C)) (acc : Text → Option Lints.Config),
    acc k = none → (∀ l ∈ ls, l.ident = k → (m.config l).enabled = false) → m.groupConfigs ls acc k = none
  | [], acc, h, _ => h
  | l :: ls, acc, h, hl => by
    rw [Lints.Manager.groupConfigs]
    refine groupConfigs_none m k ls _ ?_ fun l' h' => hl l' (List.mem_cons_of_mem _ h')
    split
    · rename_i he
      dsimp only
      rw [if_neg]
      · exact h
      · intro hk
        rw [hl l List.mem_cons_self hk.symm] at he
        cases he
    · exact h

theorem flatMap_congr' {α β : Type} {l : List α} {f g : α → List β} (h : ∀ x ∈ l, f x = g x) : l.flatMap f = l.flatMap g := by
  rw [List.flatMap_def, List.flatMap_def, List.map_congr_left h]

/-- C71: turning the lint about unknown events off (the other two cannot be turned off) does not turn it off: everything is
reported as before, and what it is to ignore is reported too. -/
theorem C71_off_violated {m m' : Lints.Manager (List Stmt) EventReport} {runner : (Text → Option Lints.Config) → List Stmt → List EventReport}
    (hr : runner = eventRunner W user ignore required) (hm : m.pushGroup (eventLints _ _) runner = .ok m')
    (hoff : ∀ l ∈ eventLints _ _, l.ident = eventUnknown → (m.config l).enabled = false) (ss : List Stmt) :
    m.runGroup ss ⟨eventLints _ _, runner⟩ = eventRunner W user (fun _ => none) required (fun _ => none) ss := by
  have hch : m.check (eventLints _ _) = [] := by
    unfold Lints.Manager.pushGroup at hm
    by_contra h
    rw [if_neg h] at hm
    cases hm
  have hon : ∀ l ∈ eventLints (List Stmt) EventReport, l.minimum = .error → l.default.enabled = true → (m.config l).enabled = true := by
    intro l hl hmin hd
    have := List.flatMap_eq_nil_iff.1 hch l hl
    unfold Lints.lintErrors at this
    have h2 := (List.append_eq_nil_iff.1 this).2
    unfold Lints.Manager.config
    cases ho : m.configs l.ident with
    | none => exact hd
    | some o =>
      rw [ho] at h2
      unfold Lints.overrideErrors at h2
      have h3 := (List.append_eq_nil_iff.1 h2).2
      by_contra hne
      rw [if_pos ⟨by simpa using hne, hmin⟩] at h3
      cases h3
  subst hr
  have h0 := hoff ⟨eventUnknown, ⟨true, .warning, fun _ => none⟩, .warning, []⟩ (by simp [eventLints]) rfl
  have h1 := hon ⟨"event_incorrect_command".toList, ⟨true, .error, fun _ => none⟩, .error, []⟩ (by simp [eventLints]) rfl rfl
  have h2 := hon ⟨"event_insufficient_version".toList, ⟨true, .error, fun _ => none⟩, .error, []⟩ (by simp [eventLints]) rfl rfl
  unfold Lints.Manager.runGroup
  have hany : ((eventLints (List Stmt) EventReport).any fun l => (m.config l).enabled) = true :=
    List.any_eq_true.2 ⟨⟨"event_incorrect_command".toList, ⟨true, .error, fun _ => none⟩, .error, []⟩,
      List.mem_cons_of_mem _ List.mem_cons_self, h1⟩
  rw [if_pos hany]
  unfold eventRunner
  have hc : m.groupConfigs (eventLints (List Stmt) EventReport) (fun _ => none) eventUnknown = none := by
    refine groupConfigs_none m eventUnknown (eventLints _ _) _ rfl ?_
    exact hoff
  dsimp only
  rw [hc]
  rfl

/-- C71: names of events in the list of what is to be ignored have no effect: only names of commands have. -/
theorem C71_ignore_violated {configs : Text → Option Lints.Config} {ss : List Stmt}
    (h : ∀ e c id sp k l, Written ss e → Handles e c id sp → configs eventUnknown = some k → ignore k = some l → c ∉ l) :
    eventRunner W user ignore required configs ss = eventRunner W user (fun _ => none) required configs ss := by
  unfold eventRunner
  refine flatMap_congr' fun e he => ?_
  rw [mem_walkSs] at he
  unfold checkEvent
  cases hu : eventUse W e with
  | none => rfl
  | some p =>
    obtain ⟨ns, c, id, sp⟩ := p
    obtain ⟨hh, rfl⟩ := eventUse_iff.1 hu
    dsimp only
    congr 2
    congr 1
    have : Active ignore (configs eventUnknown) c ↔ Active (fun _ => none) (configs eventUnknown) c := by
      constructor
      · exact fun ha k hk => ⟨(ha k hk).1, fun l hl => (nomatch hl)⟩
      · exact fun ha k hk => ⟨(ha k hk).1, fun l hl => h e c id sp k l he hh hk hl⟩
    by_cases ha : Active ignore (configs eventUnknown) c
    · rw [(checkUnknown_eq _ _ _ _ _ _).1 ha, (checkUnknown_eq _ _ _ _ _ _).1 (this.1 ha)]
    · rw [(checkUnknown_eq _ _ _ _ _ _).2 ha, (checkUnknown_eq _ _ _ _ _ _).2 (fun h => ha (this.2 h))]

/-! ### Examples -/

/-- Two kinds of events: `false` for objects, `true` for missions. -/
def sampleWiki : EventWiki Bool where
  byCommand c := if c = ascii "addEventHandler" then [false] else if c = ascii "addMissionEventHandler" then [true] else []
  handlers i := if i = ascii "Fired" then [(false, some 256)] else if i = ascii "Draw3D" then [(true, some 300)] else []

/-- `call { _u addEventHandler ["…", …] }` -/
def handlerScript (c i : String) : List Stmt :=
  [.expr (.un (.named (ascii "call")) (.code [.expr (.bin (.named (ascii c)) (.var (ascii "_u") (0, 2))
    (.arr [.str (ascii i) (20, 28) .double, .code [] [] (30, 32)] (19, 33)) (3, 18)) (0, 33)] [] (0, 34)) (0, 4)) (0, 34)]

example : eventRunner sampleWiki (fun _ => false) (fun _ => none) (some (1, 0)) (fun _ => none) (handlerScript "addEventHandler" "Healed") =
    [.unknown (ascii "addEventHandler") (ascii "Healed") (20, 28) .warning] := by decide +kernel
example : eventRunner sampleWiki (fun _ => false) (fun _ => none) (some (1, 0)) (fun _ => none) (handlerScript "addEventHandler" "Draw3D") =
    [.incorrect (ascii "addEventHandler") (ascii "Draw3D") (20, 28)] := by decide +kernel
example : eventRunner sampleWiki (fun _ => false) (fun _ => none) (some (1, 0)) (fun _ => none) (handlerScript "addMissionEventHandler" "Draw3D") =
    [.version (ascii "addMissionEventHandler") (20, 28) 300] := by decide +kernel

/-- A project that turns the lint off is accepted, and gets the report. -/
example : ∃ m m' : Lints.Manager (List Stmt) EventReport,
    m.pushGroup (eventLints _ _) (eventRunner sampleWiki (fun _ => false) (fun _ => none) none) = .ok m' ∧
    (∀ l ∈ eventLints (List Stmt) EventReport, l.ident = eventUnknown → (m.config l).enabled = false) ∧
    m.runGroup (handlerScript "addEventHandler" "Healed") ⟨eventLints _ _, eventRunner sampleWiki (fun _ => false) (fun _ => none) none⟩ =
      [.unknown (ascii "addEventHandler") (ascii "Healed") (20, 28) .warning] := by
  have hcfg : ∀ l ∈ eventLints (List Stmt) EventReport, l.ident = eventUnknown → ((Lints.Manager.new (T := List Stmt) (C := EventReport)
      fun k => if k = eventUnknown then some ⟨some false, none, fun _ => none⟩ else none).config l).enabled = false := by
    intro l hl he
    unfold Lints.Manager.config Lints.Manager.new
    dsimp only
    rw [if_pos he]
    rfl
  have hok : (Lints.Manager.new (T := List Stmt) (C := EventReport)
      fun k => if k = eventUnknown then some ⟨some false, none, fun _ => none⟩ else none).pushGroup (eventLints _ _)
      (eventRunner sampleWiki (fun _ => false) (fun _ => none) none) = .ok { (Lints.Manager.new (T := List Stmt) (C := EventReport)
      fun k => if k = eventUnknown then some ⟨some false, none, fun _ => none⟩ else none) with
        groups := [⟨eventLints _ _, eventRunner sampleWiki (fun _ => false) (fun _ => none) none⟩] } := by
    unfold Lints.Manager.pushGroup
    rw [if_pos (by decide +kernel)]
    rfl
  exact ⟨_, _, hok, hcfg, (C71_off_violated rfl hok hcfg _).trans (by decide +kernel)⟩

end Verif.SqfLint
