import Verif.Spec.Rapifier
import Verif.Props.Commands
import Mathlib.Data.List.Forall2
/-! Work of several threads that do not read or write what the others write. -/
namespace Verif.Rapifier
open Verif.Commands (extension withExtension extension_iff Pre)
open Verif.Workspace (Addon)

theorem put_same (w : Files) (p : Path) (b : Bytes) : w.put p b p = some b := by simp [Files.put]
theorem put_other (w : Files) {p q : Path} (b : Bytes) (h : q ≠ p) : w.put p b q = w q := by simp [Files.put, h]

/-- Nothing that some work writes is read or written by other work. -/
def Apart {α : Type} (js : List (Job α)) (w : Files) : Prop :=
  ∀ (i j : Nat) a b, js[i]? = some a → js[j]? = some b → i ≠ j → ∀ p ∈ a.writes w, p ∉ b.reads w ∧ p ∉ b.writes w

/-- How far the work of a thread has come: `v` are the files as it would have them alone. -/
def Along {α : Type} (a : Job α) (w : Files) (c : Job α) (now : Files) : Prop :=
  ∃ v : Files, c.run v = a.run w ∧ (∀ p ∈ c.reads v, p ∈ a.reads w) ∧ (∀ p ∈ c.writes v, p ∈ a.writes w) ∧
    (∀ p, p ∈ a.reads w ∨ p ∈ a.writes w → now p = v p) ∧ ∀ p, p ∉ a.writes w → v p = w p

theorem along {α : Type} {js : List (Job α)} {w : Files} (hi : Apart js w) {s : Files × List (Job α)} (h : Steps (w, js) s) :
    s.2.length = js.length ∧ (∀ (i : Nat) a, js[i]? = some a → ∃ c, s.2[i]? = some c ∧ Along a w c s.1) ∧
      ∀ p, (∀ a ∈ js, p ∉ a.writes w) → s.1 p = w p := by
  induction h with
  | refl =>
    refine ⟨rfl, fun i a ha => ⟨a, ha, w, rfl, fun _ h => h, fun _ h => h, fun _ _ => rfl, fun _ _ => rfl⟩, fun _ _ => rfl⟩
  | tail h1 h2 ih =>
    obtain ⟨hl, hj, hp⟩ := ih
    cases h2 with
    | @read now cs i p k hc =>
      refine ⟨by simpa using hl, fun j a ha => ?_, hp⟩
      obtain ⟨c, hc', v, h1, h2, h3, h4, h5⟩ := hj j a ha
      dsimp only at *
      by_cases hij : i = j
      · subst hij
        rw [hc] at hc'
        cases hc'
        have hlt : i < cs.length := (List.getElem?_eq_some_iff.1 hc).1
        have he : now p = v p := h4 p (.inl (h2 p (by simp [Job.reads])))
        refine ⟨k (now p), by simp [hlt], v, ?_, fun q hq => h2 q ?_, fun q hq => h3 q ?_, h4, h5⟩
        · rw [he, ← h1, Job.run]
        · rw [he] at hq; simp [Job.reads, hq]
        · rw [he] at hq; simpa [Job.writes] using hq
      · exact ⟨c, by rw [List.getElem?_set_ne hij]; exact hc', v, h1, h2, h3, h4, h5⟩
    | @write now cs i p b k hc =>
      have hlt : i < cs.length := (List.getElem?_eq_some_iff.1 hc).1
      dsimp only at *
      have hlt' : i < js.length := hl ▸ hlt
      have hai : js[i]? = some js[i] := List.getElem?_eq_getElem hlt'
      have hpw : p ∈ (js[i]).writes w := by
        obtain ⟨c, hc', v, h1, h2, h3, h4, h5⟩ := hj i _ hai
        rw [hc] at hc'
        cases hc'
        exact h3 p (by simp [Job.writes])
      refine ⟨by simpa using hl, fun j a ha => ?_, fun q hq => ?_⟩
      · obtain ⟨c, hc', v, h1, h2, h3, h4, h5⟩ := hj j a ha
        by_cases hij : i = j
        · subst hij
          rw [hc] at hc'
          cases hc'
          rw [hai] at ha
          cases ha
          refine ⟨k, by simp [hlt], v.put p b, by rw [← h1, Job.run], fun q hq => h2 q (by simpa [Job.reads] using hq),
            fun q hq => h3 q (by simp [Job.writes, hq]), fun q hq => ?_, fun q hq => ?_⟩
          · by_cases e : q = p
            · subst e; rw [put_same, put_same]
            · rw [put_other _ _ e, put_other _ _ e]; exact h4 q hq
          · have e : q ≠ p := fun e => hq (e ▸ hpw)
            rw [put_other _ _ e]; exact h5 q hq
        · refine ⟨c, by rw [List.getElem?_set_ne hij]; exact hc', v, h1, h2, h3, fun q hq => ?_, h5⟩
          have hno := hi i j _ a hai ha hij p hpw
          have e : q ≠ p := by
            rintro rfl
            rcases hq with hq | hq
            · exact hno.1 hq
            · exact hno.2 hq
          rw [put_other _ _ e]; exact h4 q hq
      · have e : q ≠ p := fun e => hq _ (List.mem_of_getElem? hai) (e ▸ hpw)
        rw [put_other _ _ e]; exact hp q hq

/-- When all have finished, each has done what it does alone. -/
theorem threads {α : Type} {js : List (Job α)} {w : Files} (hi : Apart js w) {w' : Files} {js' : List (Job α)}
    (h : Steps (w, js) (w', js')) (hd : ∀ j ∈ js', ∃ r, j = .done r) :
    js' = js.map (fun a => .done (a.run w).1) ∧ (∀ a ∈ js, ∀ p ∈ a.writes w, w' p = (a.run w).2 p) ∧
      ∀ p, (∀ a ∈ js, p ∉ a.writes w) → w' p = w p := by
  obtain ⟨hl, hj, hp⟩ := along hi h
  dsimp only at hl hj hp
  have key : ∀ (i : Nat) a, js[i]? = some a → js'[i]? = some (.done (a.run w).1) ∧ ∀ p ∈ a.writes w, w' p = (a.run w).2 p := by
    intro i a ha
    obtain ⟨c, hc, v, h1, h2, h3, h4, h5⟩ := hj i a ha
    obtain ⟨r, rfl⟩ := hd c (List.mem_of_getElem? hc)
    rw [← h1]
    exact ⟨hc, fun p hp => h4 p (.inr hp)⟩
  refine ⟨?_, fun a ha p hpa => ?_, hp⟩
  · apply List.ext_getElem?
    intro i
    rw [List.getElem?_map]
    rcases he : js[i]? with _ | a
    · rw [List.getElem?_eq_none_iff] at he
      simp [hl, he]
    · exact (key i a he).1
  · obtain ⟨i, hi⟩ := List.getElem?_of_mem ha
    exact (key i a hi).2 p hpa

theorem Steps.trans {α : Type} {s t u : Files × List (Job α)} (h : Steps s t) (h' : Steps t u) : Steps s u := by
  induction h' with
  | refl => exact h
  | tail _ h2 ih => exact .tail ih h2

/-- The work of one thread can be finished. -/
theorem finish {α : Type} (a : Job α) : ∀ (w : Files) (js : List (Job α)) (i : Nat), js[i]? = some a →
    Steps (w, js) ((a.run w).2, js.set i (.done (a.run w).1)) := by
  induction a with
  | done r =>
    intro w js i h
    have : js.set i (.done r) = js := by
      apply List.ext_getElem?
      intro j
      by_cases hij : i = j
      · subst hij
        have := (List.getElem?_eq_some_iff.1 h).1
        simp [this]
        exact (List.getElem?_eq_some_iff.1 h).2.symm
      · rw [List.getElem?_set_ne hij]
    simp only [Job.run, this]
    exact .refl
  | read p k ih =>
    intro w js i h
    have hlt := (List.getElem?_eq_some_iff.1 h).1
    have := ih (w p) w (js.set i (k (w p))) i (by simp [hlt])
    rw [List.set_set] at this
    exact (Steps.tail .refl (.read h)).trans this
  | write p b k ih =>
    intro w js i h
    have hlt := (List.getElem?_eq_some_iff.1 h).1
    have := ih (w.put p b) (js.set i k) i (by simp [hlt])
    rw [List.set_set] at this
    exact (Steps.tail .refl (.write h)).trans this

/-- From every state the threads can finish. -/
theorem finishes {α : Type} (js : List (Job α)) (w : Files) :
    ∃ w' js', Steps (w, js) (w', js') ∧ ∀ j ∈ js', ∃ r, j = Job.done r := by
  suffices H : ∀ n, n ≤ js.length → ∃ w' js', Steps (w, js) (w', js') ∧ js'.length = js.length ∧
      ∀ i < n, ∃ r, js'[i]? = some (Job.done r) by
    obtain ⟨w', js', h1, h2, h3⟩ := H js.length (le_refl _)
    refine ⟨w', js', h1, fun j hj => ?_⟩
    obtain ⟨i, hi⟩ := List.getElem?_of_mem hj
    obtain ⟨r, hr⟩ := h3 i (h2 ▸ (List.getElem?_eq_some_iff.1 hi).1)
    exact ⟨r, by rw [hi] at hr; exact Option.some.inj hr⟩
  intro n
  induction n with
  | zero => exact fun _ => ⟨w, js, .refl, rfl, by simp⟩
  | succ n ih =>
    intro hn
    obtain ⟨w', js', h1, h2, h3⟩ := ih (by omega)
    have hlt : n < js'.length := by omega
    have hget : js'[n]? = some js'[n] := List.getElem?_eq_getElem hlt
    refine ⟨_, _, h1.trans (finish _ w' js' n hget), by simpa using h2, fun i hi => ?_⟩
    by_cases e : n = i
    · subst e
      exact ⟨(js'[n].run w').1, by simp [hlt]⟩
    · rw [List.getElem?_set_ne e]
      exact h3 i (by omega)

/-! ### Reading first -/

theorem bind_run {α β : Type} (r : Reading α) (f : α → Job β) (w : Files) : (r.bind f).run w = (f (r.run w)).run w := by
  induction r with
  | done a => rfl
  | read p k ih => simp only [Reading.bind, Job.run, Reading.run]; exact ih _

theorem bind_reads {α β : Type} (r : Reading α) (f : α → Job β) (w : Files) :
    (r.bind f).reads w = r.reads w ++ (f (r.run w)).reads w := by
  induction r with
  | done a => rfl
  | read p k ih => simp only [Reading.bind, Job.reads, Reading.reads, Reading.run]; rw [ih]; rfl

theorem bind_writes {α β : Type} (r : Reading α) (f : α → Job β) (w : Files) :
    (r.bind f).writes w = (f (r.run w)).writes w := by
  induction r with
  | done a => rfl
  | read p k ih => simp only [Reading.bind, Job.writes, Reading.run]; exact ih _

/-! ### The work for one file -/

section
variable {P C K E : Type} (T : Tools P C K E) (w : Files) (p : Path)

theorem made_unique {r r' : Except E Bytes} (h : Made T w p r) (h' : Made T w p r') : r = r' := by
  obtain ⟨q, c, h1, h2, _, _, rfl⟩ := h
  obtain ⟨q', c', h1', h2', _, _, rfl⟩ := h'
  rw [h1] at h1'; cases h1'
  rw [h2] at h2'; cases h2'
  rfl

theorem rapify_reads : (rapify T p).reads w = (T.pre p).reads w := by
  rw [rapify, bind_reads]
  suffices H : ∀ j : Job (Except E (List K)), j = _ → j.reads w = [] by rw [H _ rfl, List.append_nil]
  rintro j rfl
  rcases (T.pre p).run w with q | k | e
  · dsimp only
    rcases T.parse q with ks | c
    · rfl
    · dsimp only
      split_ifs
      · rfl
      · rfl
      · rcases T.rapify c <;> rfl
  · rfl
  · rfl

theorem rapify_said : Said T w p ((rapify T p).run w).1 := by
  rw [rapify, bind_run]
  rcases h : (T.pre p).run w with q | k | e
  · dsimp only
    rcases h' : T.parse q with ks | c
    · exact .parse h h'
    · dsimp only
      split_ifs with h1 h2
      · exact .lint h h' fun _ _ => .inl (by simpa using h1)
      · exact .lint h h' fun _ _ => .inr h2
      · rcases hr : T.rapify c with e | b
        · exact .rapify ⟨q, c, h, h', by simpa using h1, by simpa using h2, hr⟩
        · exact .lint h h' fun e he => by rw [hr] at he; cases he
  · exact .pre h
  · exact .other h

theorem rapify_unmade (hm : ¬ ∃ r, Made T w p r) : (rapify T p).writes w = [] := by
  rw [rapify, bind_writes]
  rcases h : (T.pre p).run w with q | k | e
  · dsimp only
    rcases h' : T.parse q with ks | c
    · rfl
    · dsimp only
      split_ifs with h1 h2
      · rfl
      · rfl
      · exact absurd ⟨_, q, c, h, h', by simpa using h1, by simpa using h2, rfl⟩ hm
  · rfl
  · rfl

theorem rapify_made {r : Except E Bytes} (hm : Made T w p r) :
    (∀ q, q ∈ (rapify T p).writes w ↔ q = outPath p) ∧ ∀ b, r = .ok b → ((rapify T p).run w).2 (outPath p) = some b := by
  obtain ⟨q, c, h, h', h1, h2, hr⟩ := hm
  rw [rapify, bind_writes, bind_run, h]
  dsimp only
  rw [h']
  simp only [h1, h2, List.isEmpty_nil, Bool.not_true, Bool.false_eq_true, if_false]
  rw [hr]
  rcases r with e | b
  · simp [Job.writes]
  · simp [Job.writes, Job.run, put_same]

theorem rapify_writes : ∀ q ∈ (rapify T p).writes w, q = outPath p := by
  by_cases hm : ∃ r, Made T w p r
  · obtain ⟨r, hr⟩ := hm
    exact fun q => ((rapify_made T w p hr).1 q).1
  · rw [rapify_unmade T w p hm]; simp

end

/-! ### Where results go -/

theorem last_split {p : Path} {n : Text} (h : p.getLastD [] = n) (hn : n ≠ []) : p = p.dropLast ++ [n] := by
  rcases List.eq_nil_or_concat p with rfl | ⟨d, x, rfl⟩
  · exact absurd h.symm hn
  · simp at h; simp [h]

theorem withExtension_dot {b e e' : Text} (he : '.' ∉ e) : withExtension (b ++ '.' :: e) e' = b ++ '.' :: e' := by
  unfold withExtension
  have : (b ++ '.' :: e).reverse.dropWhile (· ≠ '.') = '.' :: b.reverse := by
    rw [List.reverse_append, List.reverse_cons, List.append_assoc, List.dropWhile_append_of_pos]
    · simp
    · intro c hc
      have : c ≠ '.' := fun e => he (e ▸ List.mem_reverse.1 hc)
      simpa using this
  rw [this]
  simp

theorem canRapify_iff (n : Text) : canRapify n = true ↔
    ∃ b, b ≠ [] ∧ (n = b ++ ".cpp".toList ∨ n = b ++ ".rvmat".toList ∨ n = b ++ ".ext".toList) := by
  have h0 : ∀ e : Text, '.' ∉ e → (extension n = some e ↔ ∃ b, b ≠ [] ∧ n = b ++ '.' :: e) := fun e he => by
    rw [extension_iff]
    exact ⟨fun ⟨b, h1, h2, _⟩ => ⟨b, h1, h2⟩, fun ⟨b, h1, h2⟩ => ⟨b, h1, h2, he⟩⟩
  have h1 := h0 "cpp".toList (by decide)
  have h2 := h0 "rvmat".toList (by decide)
  have h3 := h0 "ext".toList (by decide)
  have e1 : (".cpp".toList : Text) = '.' :: "cpp".toList := by decide
  have e2 : (".rvmat".toList : Text) = '.' :: "rvmat".toList := by decide
  have e3 : (".ext".toList : Text) = '.' :: "ext".toList := by decide
  rw [e1, e2, e3]
  unfold canRapify
  simp only [List.contains_eq_mem, List.mem_cons, List.not_mem_nil, or_false, decide_eq_true_eq, h1, h2, h3]
  constructor
  · rintro (⟨b, hb, h⟩ | ⟨b, hb, h⟩ | ⟨b, hb, h⟩)
    · exact ⟨b, hb, .inl h⟩
    · exact ⟨b, hb, .inr (.inl h)⟩
    · exact ⟨b, hb, .inr (.inr h)⟩
  · rintro ⟨b, hb, h | h | h⟩
    · exact .inl ⟨b, hb, h⟩
    · exact .inr (.inl ⟨b, hb, h⟩)
    · exact .inr (.inr ⟨b, hb, h⟩)

theorem outPath_cpp (d : Path) (b : Text) (hb : b ≠ []) : outPath (d ++ [b ++ ".cpp".toList]) = d ++ [b ++ ".bin".toList] := by
  have e1 : (".cpp".toList : Text) = '.' :: "cpp".toList := by decide
  have e2 : (".bin".toList : Text) = '.' :: "bin".toList := by decide
  have hx : extension (b ++ '.' :: "cpp".toList) = some "cpp".toList := (extension_iff _ _).2 ⟨b, hb, rfl, by decide⟩
  have hl : (d ++ [b ++ '.' :: "cpp".toList]).getLastD [] = b ++ '.' :: "cpp".toList := by simp
  rw [e1, e2]
  unfold outPath
  rw [hl, hx]
  dsimp only
  rw [if_pos (by decide), withExtension_dot (by decide), List.dropLast_concat]

theorem outPath_same (d : Path) (b e : Text) (hb : b ≠ []) (h : e = "rvmat".toList ∨ e = "ext".toList) :
    outPath (d ++ [b ++ '.' :: e]) = d ++ [b ++ '.' :: e] := by
  have hx : extension (b ++ '.' :: e) = some e := (extension_iff _ _).2 ⟨b, hb, rfl, by rcases h with rfl | rfl <;> decide⟩
  have hl : (d ++ [b ++ '.' :: e]).getLastD [] = b ++ '.' :: e := by simp
  unfold outPath
  rw [hl, hx]
  dsimp only
  rw [if_neg (by rcases h with rfl | rfl <;> decide)]

/-- The three kinds of files. -/
theorem outPath_kinds {p : Path} (h : canRapify (p.getLastD []) = true) :
    (∃ d b, b ≠ [] ∧ p = d ++ [b ++ ".cpp".toList] ∧ outPath p = d ++ [b ++ ".bin".toList]) ∨
      outPath p = p ∧ ∃ d b, b ≠ [] ∧ (p = d ++ [b ++ ".rvmat".toList] ∨ p = d ++ [b ++ ".ext".toList]) := by
  have e2 : (".rvmat".toList : Text) = '.' :: "rvmat".toList := by decide
  have e3 : (".ext".toList : Text) = '.' :: "ext".toList := by decide
  obtain ⟨b, hb, hn⟩ := (canRapify_iff _).1 h
  rcases hn with hn | hn | hn
  · have := last_split hn (by simp)
    refine .inl ⟨p.dropLast, b, hb, this, ?_⟩
    conv_lhs => rw [this]
    exact outPath_cpp _ _ hb
  · have := last_split hn (by simp)
    refine .inr ⟨?_, p.dropLast, b, hb, .inl this⟩
    conv_lhs => rw [this, e2]
    rw [outPath_same _ _ _ hb (.inl rfl), ← e2]
    exact this.symm
  · have := last_split hn (by simp)
    refine .inr ⟨?_, p.dropLast, b, hb, .inr this⟩
    conv_lhs => rw [this, e3]
    rw [outPath_same _ _ _ hb (.inr rfl), ← e3]
    exact this.symm

theorem suffix_ne {b b' e e' : Text} (h : b ++ e = b' ++ e') (hl : e.length = e'.length) : e = e' :=
  (List.append_inj' h hl).2

theorem last_ne {b b' e e' : Text} {x y : Char} (h : b ++ (e ++ [x]) = b' ++ (e' ++ [y])) : x = y := by
  have := congrArg List.getLast? h
  simpa [← List.append_assoc] using this

/-- No two files have the same result. -/
theorem outPath_inj {p p' : Path} (h : canRapify (p.getLastD []) = true) (h' : canRapify (p'.getLastD []) = true)
    (he : outPath p = outPath p') : p = p' := by
  have eb : (".bin".toList : Text) = ".bi".toList ++ ['n'] := by decide
  have ev : (".rvmat".toList : Text) = ".rvma".toList ++ ['t'] := by decide
  have ex : (".ext".toList : Text) = ".ex".toList ++ ['t'] := by decide
  have key : ∀ (d d' : Path) (b b' : Text), d ++ [b ++ ".bin".toList] = d' ++ [b' ++ ".rvmat".toList] ∨
      d ++ [b ++ ".bin".toList] = d' ++ [b' ++ ".ext".toList] → False := by
    rintro d d' b b' (hh | hh)
    · have := (List.append_inj' hh rfl).2
      rw [List.cons.injEq, eb, ev] at this
      exact absurd (last_ne this.1) (by decide)
    · have := (List.append_inj' hh rfl).2
      rw [List.cons.injEq, eb, ex] at this
      exact absurd (last_ne this.1) (by decide)
  rcases outPath_kinds h with ⟨d, b, hb, hp, ho⟩ | ⟨ho, d, b, hb, hp⟩ <;>
    rcases outPath_kinds h' with ⟨d', b', hb', hp', ho'⟩ | ⟨ho', d', b', hb', hp'⟩
  · rw [ho, ho'] at he
    obtain ⟨h1, h2⟩ := List.append_inj' he rfl
    rw [List.cons.injEq] at h2
    rw [hp, hp', h1, List.append_cancel_right h2.1]
  · rw [ho, ho'] at he
    exact absurd (by rcases hp' with hp' | hp' <;> [left; right] <;> rw [he, hp']) (key d d' b b')
  · rw [ho, ho'] at he
    exact absurd (by rcases hp with hp | hp <;> [left; right] <;> rw [← he, hp]) (key d' d b' b)
  · rw [← ho, he, ho']

end Verif.Rapifier
