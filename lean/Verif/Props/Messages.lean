import Verif.Model.Messages
/-!
C119: messages between the program and the game.
-/
namespace Verif.Messages

theorem readExact_append {n : Nat} {a b : Bytes} (h : a.length = n) : readExact n (a ++ b) = (some a, b) := by
  subst h
  simp [readExact]

theorem look_frame {m : Bytes} (hm : m.length < 2 ^ 32) {before between there rest : Bytes}
    (h : there ++ before = frame m ++ rest) : look before between there = some (some m, rest ++ between) := by
  unfold look
  rw [h, frame, List.append_assoc, readExact_append (leBytes_length 4 _)]
  dsimp only
  rw [leValue_leBytes_of_lt (by simpa using hm), List.append_assoc, readExact_append rfl]

theorem frames_cons (m : Bytes) (ms : List Bytes) : frames (m :: ms) = frame m ++ frames ms := by simp [frames]
theorem frames_append (a b : List Bytes) : frames (a ++ b) = frames a ++ frames b := by simp [frames]

/-- What arrives when only whole messages arrive. -/
def whole (s : List (List Bytes × List Bytes)) : List (Bytes × Bytes) := s.map fun x => (frames x.1, frames x.2)
/-- All messages, in the order in which they were sent. -/
def sent (s : List (List Bytes × List Bytes)) : List Bytes := s.flatMap fun x => x.1 ++ x.2

theorem look_whole (p a b : List Bytes) (h : ∀ m ∈ p ++ a, m.length < 2 ^ 32) :
    look (frames a) (frames b) (frames p) =
      some ((p ++ a).head?, frames ((p ++ a).tail ++ b)) := by
  cases hpa : p ++ a with
  | nil =>
    obtain ⟨rfl, rfl⟩ := List.append_eq_nil_iff.1 hpa
    simp [look, readExact, frames]
  | cons m t =>
    have h1 : frames p ++ frames a = frame m ++ frames t := by rw [← frames_append, hpa, frames_cons]
    rw [look_frame (h m (by rw [hpa]; simp)) h1, ← frames_append]
    rfl

/-- **C119**. While only whole messages arrive, the messages that are read are those that were sent, in that order; what was not
read yet is still there, and the program does not stop. -/
theorem C119_whole (s : List (List Bytes × List Bytes)) (h : ∀ m ∈ sent s, m.length < 2 ^ 32) :
    ∃ got left, run (whole s) [] = some (got, frames left) ∧ got ++ left = sent s := by
  suffices key : ∀ (s : List (List Bytes × List Bytes)) (p : List Bytes), (∀ m ∈ p ++ sent s, m.length < 2 ^ 32) →
      ∃ got left, run (whole s) (frames p) = some (got, frames left) ∧ got ++ left = p ++ sent s by
    simpa [frames] using key s [] (by simpa using h)
  intro s
  induction s with
  | nil => exact fun p _ => ⟨[], p, rfl, by simp [sent]⟩
  | cons x s ih =>
    intro p hp
    obtain ⟨a, b⟩ := x
    have hs : sent ((a, b) :: s) = a ++ b ++ sent s := by simp [sent]
    rw [hs] at hp ⊢
    have h1 := look_whole p a b (fun m hm => hp m (by simp only [List.mem_append] at hm ⊢; tauto))
    obtain ⟨got, left, h2, h3⟩ := ih ((p ++ a).tail ++ b) (fun m hm => hp m (by
      simp only [List.mem_append] at hm ⊢
      rcases hm with (hm | hm) | hm
      · have := List.mem_of_mem_tail hm
        simp only [List.mem_append] at this
        tauto
      · tauto
      · tauto))
    refine ⟨(p ++ a).head?.toList ++ got, left, ?_, ?_⟩
    · rw [show whole ((a, b) :: s) = (frames a, frames b) :: whole s from rfl, run, h1]
      dsimp only
      rw [h2]
      rfl
    · rw [List.append_assoc, h3]
      cases hpa : p ++ a with
      | nil =>
        obtain ⟨rfl, rfl⟩ := List.append_eq_nil_iff.1 hpa
        simp
      | cons m t =>
        have : p ++ (a ++ b ++ sent s) = (p ++ a) ++ (b ++ sent s) := by simp
        rw [this, hpa]
        simp

theorem run_append (s t : List (Bytes × Bytes)) (there : Bytes) :
    run (s ++ t) there = (run s there).bind fun (g, l) => (run t l).map fun (g', l') => (g ++ g', l') := by
  induction s generalizing there with
  | nil => simp [run]
  | cons x s ih =>
    obtain ⟨a, b⟩ := x
    rw [List.cons_append, run, run]
    cases look a b there with
    | none => rfl
    | some q =>
      dsimp only
      rw [ih]
      cases run s q.2 with
      | none => rfl
      | some r =>
        dsimp only [Option.bind_some, Option.map_some]
        cases run t r.2 with
        | none => rfl
        | some u => simp

theorem run_idle (k : Nat) (p : List Bytes) (hk : p.length ≤ k) (h : ∀ m ∈ p, m.length < 2 ^ 32) :
    run (List.replicate k ([], [])) (frames p) = some (p, []) := by
  induction k generalizing p with
  | zero =>
    cases p with
    | nil => rfl
    | cons m t => simp at hk
  | succ k ih =>
    have h1 := look_whole p [] [] (by simpa using h)
    rw [List.replicate_succ, run]
    rw [show look [] [] (frames p) = look (frames []) (frames []) (frames p) from rfl, h1]
    dsimp only
    simp only [List.append_nil]
    cases p with
    | nil => rw [List.tail_nil, ih [] (by simp) (by simp)]; rfl
    | cons m t =>
      rw [List.tail_cons, ih t (by simpa using hk) (fun m hm => h m (List.mem_cons_of_mem _ hm))]
      rfl

/-- **C119**. When the reader has looked often enough after the last message, it has read every message once. -/
theorem C119_delivered (s : List (List Bytes × List Bytes)) (k : Nat) (h : ∀ m ∈ sent s, m.length < 2 ^ 32)
    (hk : (sent s).length ≤ k) : run (whole s ++ List.replicate k ([], [])) [] = some (sent s, []) := by
  obtain ⟨got, left, h1, h2⟩ := C119_whole s h
  have hl : left.length ≤ k := by
    have := congrArg List.length h2
    rw [List.length_append] at this
    omega
  rw [run_append, h1, Option.bind_some]
  dsimp only
  rw [run_idle k left hl (fun m hm => h m (by rw [← h2]; exact List.mem_append_right _ hm)), Option.map_some, h2]

/-- **C119**, what does not hold of the code: the length and the message are sent one after the other. If the length is there when
the reader looks and the message is not, the program stops. -/
theorem C119_violated_body {m got : Bytes} {rest : List (Bytes × Bytes)} (h0 : got.length < m.length)
    (hm : m.length < 2 ^ 32) : run ((le32 m.length, got) :: rest) [] = none := by
  have : look (le32 m.length) got [] = none := by
    unfold look
    rw [List.nil_append, show le32 m.length = le32 m.length ++ [] by simp, readExact_append (leBytes_length 4 _)]
    dsimp only
    rw [leValue_leBytes_of_lt (by simpa using hm), readExact, if_pos (by simpa using h0)]
  rw [run, this]

theorem leValue_ge (xs : Bytes) (b : UInt8) (ys : Bytes) : 256 ^ xs.length * b.toNat ≤ leValue (xs ++ b :: ys) := by
  induction xs with
  | nil => simp [leValue]
  | cons x xs ih =>
    rw [List.cons_append, leValue, List.length_cons, Nat.pow_succ]
    nlinarith

/-- **C119**, what does not hold of the code: when a part of the length is there as the reader looks, that part is lost. What
follows is taken for a length, and the program stops. Messages begin with a brace. -/
theorem C119_violated_length {k : Nat} {t : Bytes} {rest : List (Bytes × Bytes)} (hk : 0 < k) (hk' : k < 4)
    (h1 : 3 ≤ t.length) (h2 : t.length < 31487) :
    run (((frame (0x7b :: t)).take k, []) :: ((frame (0x7b :: t)).drop k, []) :: rest) [] = none := by
  have hlen : (frame (0x7b :: t)).length = 5 + t.length := by
    rw [frame, List.length_append, leBytes_length, List.length_cons]
    omega
  have e1 : look ((frame (0x7b :: t)).take k) [] [] = some (none, []) := by
    unfold look
    rw [List.nil_append, readExact, if_pos (by rw [List.length_take]; omega)]
    rfl
  have e2 : look ((frame (0x7b :: t)).drop k) [] [] = none := by
    unfold look
    rw [List.nil_append, readExact, if_neg (by rw [List.length_drop]; omega)]
    dsimp only
    have hd : (frame (0x7b :: t)).drop k = (le32 (t.length + 1)).drop k ++ 0x7b :: t := by
      rw [frame, List.drop_append_of_le_length (by rw [leBytes_length]; omega)]
      rfl
    have hdl : ((le32 (t.length + 1)).drop k).length = 4 - k := by rw [List.length_drop, leBytes_length]
    have ht : ((frame (0x7b :: t)).drop k).take 4 =
        (le32 (t.length + 1)).drop k ++ 0x7b :: t.take (k - 1) := by
      rw [hd, List.take_append, List.take_of_length_le (by omega), hdl,
        show 4 - (4 - k) = (k - 1) + 1 by omega, List.take_succ_cons]
    have hv := leValue_ge ((le32 (t.length + 1)).drop k) 0x7b (t.take (k - 1))
    rw [← ht, hdl] at hv
    have hp : 256 ^ 1 ≤ 256 ^ (4 - k) := Nat.pow_le_pow_right (by decide) (by omega)
    have hb : (0x7b : UInt8).toNat = 123 := rfl
    rw [hb] at hv
    have hbig : 31488 ≤ leValue (((frame (0x7b :: t)).drop k).take 4) := by
      refine Nat.le_trans ?_ hv
      omega
    rw [readExact, if_pos]
    rw [List.append_nil, List.length_drop, List.length_drop, hlen]
    exact Nat.lt_of_lt_of_le (by omega) hbig
  rw [run, e1]
  dsimp only
  rw [run, e2]
  rfl

/-! ### missions -/

theorem splitOnce_first {p s t : Text} (hp : p ≠ [])
    (h : ∀ a b, a ++ p ++ b = s ++ p ++ t → s.length ≤ a.length) : splitOnce p (s ++ p ++ t) = some (s, t) := by
  induction s with
  | nil =>
    cases p with
    | nil => exact absurd rfl hp
    | cons c p =>
      rw [List.nil_append, List.cons_append, splitOnce, if_pos]
      · simp
      · rw [List.isPrefixOf_iff_prefix]
        exact ⟨t, rfl⟩
  | cons c s ih =>
    rw [List.cons_append, List.cons_append, splitOnce, if_neg, ih]
    · rfl
    · intro a b hab
      have := h (c :: a) b (by simpa using hab)
      simpa using this
    · intro hpre
      obtain ⟨u, hu⟩ := List.isPrefixOf_iff_prefix.1 hpre
      have := h [] u (by simpa using hu)
      simp at this

/-- The folder of the profile is not itself in a folder of that name, and does not end with the beginning of it. -/
def Plain (profile file : Text) : Prop :=
  ∀ a b, a ++ autotest ++ b = missionPath profile file → profile.length ≤ a.length

theorem splitOnce_none {p : Text} (hp : p ≠ []) : ∀ {s : Text}, ¬ p <:+: s → splitOnce p s = none
  | [], _ => by rw [splitOnce, if_neg hp]
  | c :: s, h => by
    rw [splitOnce, if_neg, splitOnce_none hp (fun h' => h (h'.trans (List.suffix_cons c s).isInfix))]
    · rfl
    · intro hpre
      exact h (List.isPrefixOf_iff_prefix.1 hpre).isInfix

/-- What is done with messages that come one after the other. -/
def routeAll (actions : List (List Text)) : Option Text → List Message → List Routed
  | _, [] => []
  | current, m :: ms => (route actions current m).1 :: routeAll actions (route actions current m).2 ms

/-- The message does not say which mission of a profile runs: it is a line of the log, data, or the path of a mission that
is not in a folder `autotest`. -/
def Message.SameMission : Message → Prop
  | .mission path => ¬ autotest <:+: path
  | _ => True

/-- What is to be done with a message while action `i` has the mission that runs. -/
def Message.forAction (i : Nat) : Message → Routed
  | .mission _ => .noted
  | .log _ => .logged
  | .other m => .action i m

/-- **C119**. When the game says which mission it runs, all it says after that, until it names another, is given to the first
action that has the mission. -/
theorem C119_mission {actions : List (List Text)} {profile file : Text} {current : Option Text} {i : Nat} (ms : List Message)
    (hs : ∀ m ∈ ms, m.SameMission)
    (hp : Plain profile file) (hf : '\\' ∉ file) (hi : i < actions.length) (ha : file ∈ actions[i])
    (hb : ∀ j (hj : j < i), file ∉ actions[j]) :
    routeAll actions current (.mission (missionPath profile file) :: ms) = .noted :: ms.map (Message.forAction i) := by
  have hn : note (missionPath profile file) current = some file := by
    unfold note missionPath
    rw [splitOnce_first (by decide) hp]
    simp only [Option.some.injEq]
    rw [List.filter_eq_self]
    intro c hc
    simp only [ne_eq, decide_eq_true_eq]
    rintro rfl
    exact hf hc
  have hx : actions.findIdx? (fun ms => ms.contains file) = some i := by
    rw [List.findIdx?_eq_some_iff_getElem]
    refine ⟨hi, by simpa using ha, ?_⟩
    intro j hj
    simpa using hb j hj
  have key : routeAll actions (some file) ms = ms.map (Message.forAction i) := by
    induction ms with
    | nil => rfl
    | cons m ms ih =>
      have ih := ih (fun x hx => hs x (List.mem_cons_of_mem _ hx))
      have hm := hs m List.mem_cons_self
      rw [routeAll, List.map_cons]
      cases m with
      | mission path =>
        have : note path (some file) = some file := by unfold note; rw [splitOnce_none (by decide) hm]
        simp only [route, this, ih, Message.forAction]
      | log t => simp only [route, ih, Message.forAction]
      | other m => simp only [route, hx, ih, Message.forAction]
  rw [routeAll]
  simp only [route, hn, key]

/-- **C119**. Before the game has said which mission it runs, its messages are dropped. -/
theorem C119_before (actions : List (List Text)) (m : Bytes) : route actions none (.other m) = (.dropped, none) := rfl

/-- **C119**, what does not hold of the code: a message in a mission that no action has stops the program. -/
theorem C119_violated_unknown {actions : List (List Text)} {profile file : Text} {current : Option Text} {m : Bytes}
    (hp : Plain profile file) (hf : '\\' ∉ file) (ha : ∀ ms ∈ actions, file ∉ ms) :
    (route actions (route actions current (.mission (missionPath profile file))).2 (.other m)).1 = .stopped := by
  have hn : note (missionPath profile file) current = some file := by
    unfold note missionPath
    rw [splitOnce_first (by decide) hp]
    simp only [Option.some.injEq]
    rw [List.filter_eq_self]
    intro c hc
    simp only [ne_eq, decide_eq_true_eq]
    rintro rfl
    exact hf hc
  have hx : actions.findIdx? (fun ms => ms.contains file) = none := by
    rw [List.findIdx?_eq_none_iff]
    intro ms hms
    simpa using ha ms hms
  simp only [route, hn, hx]

/-- **C119**, what does not hold of the code: with the profile in a folder that is in a folder `autotest`, the mission of an
action is taken for one that no action has. -/
theorem C119_violated_profile : ∃ profile file : Text,
    (route [[file]] (route [[file]] none (.mission (missionPath profile file))).2 (.other [])).1 = .stopped :=
  ⟨"C:\\autotest\\tmp".toList, "photoshoot.VR".toList, by decide +kernel⟩

theorem plain_of {profile file : Text}
    (h : ∀ i < profile.length, autotest.isPrefixOf ((missionPath profile file).drop i) = false) : Plain profile file := by
  intro a b hab
  rcases Nat.lt_or_ge a.length profile.length with hl | hl
  · have := h a.length hl
    rw [← hab, List.append_assoc, List.drop_left] at this
    rw [List.isPrefixOf_iff_prefix.2 ⟨b, rfl⟩] at this
    cases this
  · exact hl

example : routeAll [["other.VR".toList], ["photoshoot.VR".toList]] none
    (.mission (missionPath "C:\\tmp".toList "photoshoot.VR".toList) ::
      [.other [1], .log "x".toList, .mission "C:\\x.VR".toList, .other [2]]) =
    [.noted, .action 1 [1], .logged, .noted, .action 1 [2]] :=
  C119_mission [.other [1], .log "x".toList, .mission "C:\\x.VR".toList, .other [2]] (by
      intro m hm
      simp only [List.mem_cons, List.not_mem_nil, or_false] at hm
      rcases hm with rfl | rfl | rfl | rfl
      · trivial
      · trivial
      · show ¬ autotest <:+: _
        decide +kernel
      · trivial)
    (plain_of (by decide +kernel)) (by decide) (by decide) (by decide +kernel) (by decide +kernel)
example : run (whole [([[1, 2]], [[3]]), ([], []), ([[], [4]], [])] ++ List.replicate 4 ([], [])) [] =
    some ([[1, 2], [3], [], [4]], []) :=
  C119_delivered [([[1, 2]], [[3]]), ([], []), ([[], [4]], [])] 4 (by decide) (by decide)

end Verif.Messages
