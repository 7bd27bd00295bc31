import Verif.Model.Links
/-! Lemmas: following links. -/
namespace Verif.Links

/-- A path all of which are folders. -/
def Plain (fs : Fs) (p : Path) : Prop := ∀ s, s <+: p → s ≠ [] → fs s = some .dir

/-- A path on which there are folders, or nothing. -/
def Clear (fs : Fs) (p : Path) : Prop := ∀ s, s <+: p → s ≠ [] → fs s = some .dir ∨ fs s = none

theorem Plain.clear {fs : Fs} {p : Path} (h : Plain fs p) : Clear fs p := fun s hs h0 => .inl (h s hs h0)

theorem plain_nil (fs : Fs) : Plain fs [] := fun s hs h0 => absurd (List.prefix_nil.1 hs) h0

theorem Plain.left {fs : Fs} {p q : Path} (h : Plain fs (p ++ q)) : Plain fs p :=
  fun s hs h0 => h s (hs.trans (List.prefix_append _ _)) h0

theorem Clear.left {fs : Fs} {p q : Path} (h : Clear fs (p ++ q)) : Clear fs p :=
  fun s hs h0 => h s (hs.trans (List.prefix_append _ _)) h0

theorem prefix_snoc {s d : Path} {n : Name} : s <+: d ++ [n] ↔ s <+: d ∨ s = d ++ [n] := by
  constructor
  · intro h
    rcases List.prefix_concat_iff.1 h with h | h
    · exact .inr h
    · exact .inl h
  · rintro (h | rfl)
    · exact h.trans (List.prefix_append _ _)
    · exact List.prefix_rfl

theorem Plain.snoc {fs : Fs} {p : Path} {n : Name} (h : Plain fs p) (hn : fs (p ++ [n]) = some .dir) : Plain fs (p ++ [n]) := by
  intro s hs h0
  rcases prefix_snoc.1 hs with h1 | rfl
  · exact h s h1 h0
  · exact hn

theorem walk_plain (fs : Fs) : ∀ (rest d : Path), (∀ s, s <+: rest → s ≠ [] → fs (d ++ s) = some .dir) → ∀ more : Path,
    walk fs d (rest ++ more) = walk fs (d ++ rest) more := by
  intro rest
  induction rest with
  | nil => intro d _ more; simp
  | cons n rest ih =>
    intro d h more
    have hn : fs (d ++ [n]) = some .dir := h [n] (by simp) (by simp)
    rw [List.cons_append, walk, hn]
    dsimp only
    rw [ih (d ++ [n]) (by
      intro s hs h0
      have := h (n :: s) (by simpa using hs) (by simp)
      simpa using this) more]
    simp

theorem walk_of_plain {fs : Fs} {p : Path} (h : Plain fs p) (more : Path) : walk fs [] (p ++ more) = walk fs p more := by
  have := walk_plain fs p [] (by intro s hs h0; simpa using h s hs h0) more
  simpa using this

theorem real_plain {fs : Fs} {p : Path} (h : Plain fs p) (k : Nat) : real k fs p = some p := by
  have := walk_of_plain h []
  rw [List.append_nil] at this
  cases k <;> simp [real, this, walk]

theorem real_link {fs : Fs} {d t : Path} {n : Name} (h : Plain fs d) (hl : fs (d ++ [n]) = some (.link t)) (rest : Path) (k : Nat) :
    real (k + 1) fs (d ++ n :: rest) = real k fs (t ++ rest) := by
  rw [real, walk_of_plain h, walk, hl]

theorem real_gone {fs : Fs} {d : Path} {n : Name} (h : Plain fs d) (hl : fs (d ++ [n]) = none) (rest : Path) (k : Nat) :
    real k fs (d ++ n :: rest) = none := by
  cases k <;> rw [real, walk_of_plain h, walk, hl]

theorem place_plain {fs : Fs} {d : Path} {n : Name} (h : Plain fs d) (k : Nat) : place k fs (d ++ [n]) = some (d ++ [n]) := by
  simp [place, real_plain h]

theorem set_self (fs : Fs) (p : Path) (n : Option Node) : fs.set p n p = n := by simp [Fs.set]

theorem set_other (fs : Fs) {p q : Path} (n : Option Node) (h : q ≠ p) : fs.set p n q = fs q := by simp [Fs.set, h]

theorem not_prefix_snoc (d : Path) (n : Name) {s : Path} (h : s <+: d) : s ≠ d ++ [n] := by
  intro e
  have := h.length_le
  rw [e] at this
  simp at this

/-- Making folders on a path with nothing but folders on it: those that were missing are there, nothing else changes. -/
theorem mkdirs_clear (k : Nat) : ∀ (rest d : Path) (fs : Fs), Plain fs d → Clear fs (d ++ rest) →
    ∃ fs', mkdirs k fs d rest = some fs' ∧ Plain fs' (d ++ rest) ∧
      ∀ p, fs' p = if fs p = none ∧ p <+: d ++ rest ∧ ¬ p <+: d then some .dir else fs p := by
  intro rest
  induction rest with
  | nil =>
    intro d fs hp _
    refine ⟨fs, rfl, by simpa using hp, ?_⟩
    intro p
    rw [if_neg]
    rintro ⟨_, h1, h2⟩
    exact h2 (by simpa using h1)
  | cons n rest ih =>
    intro d fs hp hc
    have hpre : d ++ [n] <+: d ++ n :: rest := by
      have : d ++ n :: rest = (d ++ [n]) ++ rest := by simp
      rw [this]; exact List.prefix_append _ _
    have hlist : d ++ n :: rest = (d ++ [n]) ++ rest := by simp
    rcases hc (d ++ [n]) hpre (by simp) with hn | hn
    · have hp' := hp.snoc hn
      obtain ⟨fs', h1, h2, h3⟩ := ih (d ++ [n]) fs hp' (by rw [← hlist]; exact hc)
      refine ⟨fs', ?_, by rw [hlist]; exact h2, ?_⟩
      · rw [mkdirs, real_plain hp']
        dsimp only
        rw [hn]
        exact h1
      · intro p
        rw [h3 p, ← hlist]
        by_cases hpd : p = d ++ [n]
        · rw [hpd, hn]; simp
        · have : (p <+: d ++ [n]) ↔ p <+: d := by rw [prefix_snoc]; simp [hpd]
          simp only [this]
    · have hp' : Plain (fs.set (d ++ [n]) (some .dir)) (d ++ [n]) := by
        intro s hs h0
        rcases prefix_snoc.1 hs with h1 | rfl
        · rw [set_other _ _ (not_prefix_snoc d n h1)]; exact hp s h1 h0
        · exact set_self ..
      have hc' : Clear (fs.set (d ++ [n]) (some .dir)) ((d ++ [n]) ++ rest) := by
        intro s hs h0
        by_cases e : s = d ++ [n]
        · rw [e, set_self]; exact .inl rfl
        · rw [set_other _ _ e]; exact hc s (by rw [hlist]; exact hs) h0
      obtain ⟨fs', h1, h2, h3⟩ := ih (d ++ [n]) _ hp' hc'
      refine ⟨fs', ?_, by rw [hlist]; exact h2, ?_⟩
      · rw [mkdirs, real_gone hp hn, place_plain hp]
        dsimp only
        rw [hn]
        exact h1
      · intro p
        rw [h3 p, ← hlist]
        by_cases hpd : p = d ++ [n]
        · have : ¬ (d ++ [n] <+: d) := fun h => absurd h.length_le (by simp)
          rw [hpd, set_self, if_neg (by simp), hn, if_pos ⟨rfl, hpre, this⟩]
        · have : (p <+: d ++ [n]) ↔ p <+: d := by rw [prefix_snoc]; simp [hpd]
          rw [set_other _ _ hpd]
          simp only [this]

/-- The same from the root. -/
theorem mkdirs_root (k : Nat) {p : Path} {fs : Fs} (hc : Clear fs p) :
    ∃ fs', mkdirs k fs [] p = some fs' ∧ Plain fs' p ∧ ∀ q, fs' q = if fs q = none ∧ q <+: p ∧ q ≠ [] then some .dir else fs q := by
  obtain ⟨fs', h1, h2, h3⟩ := mkdirs_clear k p [] fs (plain_nil fs) (by simpa using hc)
  refine ⟨fs', h1, by simpa using h2, ?_⟩
  intro q
  rw [h3 q]
  simp

/-- Making folders that are there changes nothing. -/
theorem mkdirs_plain (k : Nat) {p : Path} {fs : Fs} (hc : Plain fs p) : mkdirs k fs [] p = some fs := by
  obtain ⟨fs', h1, _, h3⟩ := mkdirs_root k hc.clear
  rw [h1]
  congr 1
  funext q
  rw [h3 q]
  split
  · next h => exact (hc q h.2.1 h.2.2).symm
  · rfl

theorem symlink_new {fs : Fs} {d t : Path} {n : Name} (k : Nat) (h : Plain fs d) (hn : fs (d ++ [n]) = none) :
    symlink k fs t (d ++ [n]) = some (fs.set (d ++ [n]) (some (.link t))) := by
  rw [symlink, place_plain h]
  dsimp only
  rw [hn]

theorem there_gone {fs : Fs} {d : Path} {n : Name} (k : Nat) (h : Plain fs d) (hn : fs (d ++ [n]) = none) :
    there k fs (d ++ [n]) = false := by
  rw [there, show d ++ [n] = d ++ n :: [] from rfl, real_gone h hn]
  rfl

/-- A link where there is nothing is made, whatever the system. -/
theorem createLink_new (hst : Host) {fs : Fs} {d t : Path} {n : Name} (k : Nat) (h : Plain fs d) (hn : fs (d ++ [n]) = none) :
    createLink hst k fs (d ++ [n]) t = some (fs.set (d ++ [n]) (some (.link t))) := by
  cases hst with
  | unix =>
    rw [createLink, linkUnix, there_gone k h hn]
    exact symlink_new k h hn
  | windows yes =>
    have : readLink k fs (d ++ [n]) = none := by
      rw [readLink, place_plain h]
      dsimp only
      rw [hn]
    rw [createLink, linkWindows, this]
    exact symlink_new k h hn

/-- A link with the same target that leads somewhere stays, whatever the system. -/
theorem createLink_same (hst : Host) {fs : Fs} {d t : Path} {n : Name} (k : Nat) (h : Plain fs d)
    (hn : fs (d ++ [n]) = some (.link t)) (ht : there k fs (d ++ [n]) = true) : createLink hst k fs (d ++ [n]) t = some fs := by
  cases hst with
  | unix => rw [createLink, linkUnix, if_pos ht]
  | windows yes =>
    have : readLink k fs (d ++ [n]) = some t := by
      rw [readLink, place_plain h]
      dsimp only
      rw [hn]
    rw [createLink, linkWindows, this]
    dsimp only
    rw [if_pos ht, if_pos rfl]

theorem remove_plain {fs : Fs} {d : Path} {n : Name} (k : Nat) (h : Plain fs d) :
    remove k fs (d ++ [n]) = some fun r => if d ++ [n] <+: r then none else fs r := by
  rw [remove, place_plain h]
  rfl

/-- Following one link more is never wrong. -/
theorem real_mono (fs : Fs) : ∀ (k : Nat) (p q : Path), real k fs p = some q → real (k + 1) fs p = some q := by
  intro k
  induction k with
  | zero =>
    intro p q h
    rw [real] at h
    rw [real]
    split at h
    · next w hw => rw [hw]; exact h
    · cases h
  | succ k ih =>
    intro p q h
    rw [real] at h
    rw [real]
    split at h
    · exact h
    · exact ih _ _ h
    · cases h


/-! ### Links for addons -/

theorem slashes_self {n : Name} (h : '/' ∉ n) : slashes n = n := by
  unfold slashes
  conv_rhs => rw [← List.map_id n]
  apply List.map_congr_left
  intro c hc
  have : c ≠ '/' := fun e => h (e ▸ hc)
  simp [this]

/-- There is no link for an addon, or the right one. -/
def LinkOk (fs : Fs) (l t : Path) : Prop := fs l = none ∨ fs l = some (.link t)

theorem there_link {fs : Fs} {d t : Path} {n : Name} {k : Nat} (hk : 1 ≤ k) (h : Plain fs d) (hn : fs (d ++ [n]) = some (.link t))
    (ht : Plain fs t) : there k fs (d ++ [n]) = true := by
  obtain ⟨k, rfl⟩ : ∃ j, k = j + 1 := ⟨k - 1, by omega⟩
  rw [there, show d ++ [n] = d ++ n :: [] from rfl, real_link h hn, List.append_nil, real_plain ht]
  rfl

theorem Plain.keep {fs fs' : Fs} {p : Path} (h : Plain fs p) (hk : ∀ q, fs q ≠ none → fs' q = fs q) : Plain fs' p := by
  intro s hs h0
  have := h s hs h0
  rw [hk s (by rw [this]; simp)]
  exact this

/-- A link is made or is there already. -/
theorem createLink_ok (hst : Host) {fs : Fs} {d t : Path} {n : Name} {k : Nat} (hk : 1 ≤ k) (h : Plain fs d)
    (hl : LinkOk fs (d ++ [n]) t) (ht : Plain fs t) :
    ∃ fs', createLink hst k fs (d ++ [n]) t = some fs' ∧ fs' (d ++ [n]) = some (.link t) ∧
      (∀ q, fs q ≠ none → fs' q = fs q) ∧ ∀ q, q ≠ d ++ [n] → fs' q = fs q := by
  rcases hl with hl | hl
  · refine ⟨_, createLink_new hst k h hl, set_self .., ?_, fun q hq => set_other _ _ hq⟩
    intro q hq
    have : q ≠ d ++ [n] := by rintro rfl; exact hq hl
    exact set_other _ _ this
  · exact ⟨fs, createLink_same hst k h hl (there_link hk h hl ht), hl, fun _ _ => rfl, fun _ _ => rfl⟩

theorem linkAddons_ok (hst : Host) {k : Nat} (hk : 1 ≤ k) (build project : Path) : ∀ (as : List Addon) (fs : Fs),
    Plain fs (build ++ ["addons".toList]) → (∀ a ∈ as, '/' ∉ a.name) → (as.map (·.name)).Nodup →
    (∀ a ∈ as, Plain fs (project ++ a.folder)) →
    (∀ a ∈ as, LinkOk fs (build ++ ["addons".toList, a.name]) (project ++ a.folder)) →
    ∃ fs', linkAddons hst k build project fs as = some fs' ∧
      (∀ a ∈ as, fs' (build ++ ["addons".toList, a.name]) = some (.link (project ++ a.folder))) ∧
      (∀ q, fs q ≠ none → fs' q = fs q) ∧ ∀ q, ¬ build <+: q → fs' q = fs q := by
  intro as
  induction as with
  | nil => intro fs _ _ _ _ _; exact ⟨fs, rfl, by simp, fun _ _ => rfl, fun _ _ => rfl⟩
  | cons a as ih =>
    intro fs hp hs hd hsrc hl
    have hpath : ∀ n : Name, build ++ ["addons".toList, n] = (build ++ ["addons".toList]) ++ [n] := by intro n; simp
    obtain ⟨f1, h1, h2, h3, h4⟩ := createLink_ok hst hk hp (by rw [← hpath]; exact hl a (by simp)) (hsrc a (by simp))
    rw [← hpath] at h1 h2 h4
    rw [List.map_cons, List.nodup_cons] at hd
    have hne : ∀ b ∈ as, build ++ ["addons".toList, b.name] ≠ build ++ ["addons".toList, a.name] := by
      intro b hb e
      rw [List.append_cancel_left_eq] at e
      injection e with _ e
      injection e with e
      exact hd.1 (e ▸ List.mem_map_of_mem hb)
    obtain ⟨f2, g1, g2, g3, g4⟩ := ih f1 (hp.keep h3) (fun b hb => hs b (by simp [hb])) hd.2
      (fun b hb => (hsrc b (by simp [hb])).keep h3)
      (fun b hb => by
        unfold LinkOk
        rw [h4 _ (hne b hb)]
        exact hl b (by simp [hb]))
    refine ⟨f2, ?_, ?_, ?_, ?_⟩
    · rw [linkAddons, slashes_self (hs a (by simp)), h1]
      exact g1
    · intro b hb
      rcases List.mem_cons.1 hb with rfl | hb
      · rw [g3 _ (by rw [h2]; simp), h2]
      · exact g2 b hb
    · intro q hq
      have := h3 q hq
      rw [g3 q (by rw [this]; exact hq), this]
    · intro q hq
      rw [g4 q hq]
      refine h4 q ?_
      rintro rfl
      exact hq (List.prefix_append _ _)

/-! ### The tree of prefixes -/

/-- Links at some places beneath a folder, the folders above them made first. -/
def jobs (h : Host) (lim : Nat) (tmp : Path) : Fs → List (Path × Path) → Option Fs
  | fs, [] => some fs
  | fs, j :: js =>
    (mkdirs lim fs [] (tmp ++ j.1).dropLast).bind fun fs =>
      (createLink h lim fs (tmp ++ j.1) j.2).bind fun fs => jobs h lim tmp fs js

theorem tmpAddons_eq (h : Host) (lim : Nat) (tmp project : Path) : ∀ (as : List Addon) (fs : Fs),
    tmpAddons h lim tmp project fs as = jobs h lim tmp fs (as.map fun a => (a.pfx, project ++ a.folder)) := by
  intro as
  induction as with
  | nil => intro fs; rfl
  | cons a as ih => intro fs; simp only [tmpAddons, List.map_cons, jobs, ih]

theorem tmpIncludes_eq (h : Host) (lim : Nat) (tmp project : Path) : ∀ (is : List (Name × Name)) (fs : Fs),
    tmpIncludes h lim tmp project fs is =
      jobs h lim tmp fs (is.map fun i => ([i.1, i.2], project ++ ["include".toList, i.1, i.2])) := by
  intro is
  induction is with
  | nil => intro fs; rfl
  | cons i is ih =>
    intro fs
    have : (tmp ++ [i.1, i.2]).dropLast = tmp ++ [i.1] := by simp
    simp only [tmpIncludes, List.map_cons, jobs, ih, this]

theorem jobs_append (h : Host) (lim : Nat) (tmp : Path) : ∀ (a b : List (Path × Path)) (fs : Fs),
    (jobs h lim tmp fs a).bind (fun fs => jobs h lim tmp fs b) = jobs h lim tmp fs (a ++ b) := by
  intro a
  induction a with
  | nil => intro b fs; rfl
  | cons j js ih =>
    intro b fs
    rw [List.cons_append, jobs, jobs]
    simp only [Option.bind_assoc, ih]

/-- Neither place is above the other, nor the same. -/
def Apart (a b : Path × Path) : Prop := ¬ a.1 <+: b.1 ∧ ¬ b.1 <+: a.1

theorem jobs_ok (hst : Host) (k : Nat) (tmp : Path) : ∀ (js : List (Path × Path)) (fs : Fs),
    (∀ j ∈ js, j.1 ≠ []) → js.Pairwise Apart → (∀ j ∈ js, Clear fs (tmp ++ j.1).dropLast) → (∀ j ∈ js, fs (tmp ++ j.1) = none) →
    ∃ fs', jobs hst k tmp fs js = some fs' ∧
      (∀ j ∈ js, fs' (tmp ++ j.1) = some (.link j.2) ∧ Plain fs' (tmp ++ j.1).dropLast) ∧
      (∀ q, fs q ≠ none → fs' q = fs q) ∧ ∀ q, fs' q ≠ fs q → q <+: tmp ∨ tmp <+: q := by
  intro js
  induction js with
  | nil => intro fs _ _ _ _; exact ⟨fs, rfl, by simp, fun _ _ => rfl, fun q h => absurd rfl h⟩
  | cons j js ih =>
    intro fs hne hpw hc hn
    rw [List.pairwise_cons] at hpw
    obtain ⟨x, n, hx⟩ : ∃ x n, j.1 = x ++ [n] :=
      ⟨j.1.dropLast, j.1.getLast (hne j (by simp)), (List.dropLast_concat_getLast (hne j (by simp))).symm⟩
    have hpath : tmp ++ j.1 = (tmp ++ x) ++ [n] := by rw [hx]; simp
    have hdl : (tmp ++ j.1).dropLast = tmp ++ x := by rw [hpath, List.dropLast_concat]
    obtain ⟨f1, h1, h2, h3⟩ := mkdirs_root k (hc j (by simp))
    rw [hdl] at h1 h2 h3
    have hkeep1 : ∀ q, fs q ≠ none → f1 q = fs q := by
      intro q hq; rw [h3 q, if_neg]; exact fun h => hq h.1
    have hfar : ∀ q, ¬ q <+: tmp ++ x → f1 q = fs q := by
      intro q hq; rw [h3 q, if_neg]; exact fun h => hq h.2.1
    have hnone : f1 ((tmp ++ x) ++ [n]) = none := by
      rw [hfar _ (fun h => absurd h.length_le (by simp)), ← hpath]
      exact hn j (by simp)
    have hcl := createLink_new hst (t := j.2) k h2 hnone
    set f2 := f1.set ((tmp ++ x) ++ [n]) (some (.link j.2)) with hf2
    have hkeep2 : ∀ q, fs q ≠ none → f2 q = fs q := by
      intro q hq
      have : q ≠ (tmp ++ x) ++ [n] := by
        rintro rfl
        exact hq (hpath ▸ hn j (by simp))
      rw [hf2, set_other _ _ this, hkeep1 q hq]
    have happ : ∀ i ∈ js, ¬ tmp ++ j.1 <+: tmp ++ i.1 ∧ ¬ tmp ++ i.1 <+: tmp ++ j.1 := by
      intro i hi
      have := hpw.1 i hi
      exact ⟨fun h => this.1 ((List.prefix_append_right_inj tmp).1 h), fun h => this.2 ((List.prefix_append_right_inj tmp).1 h)⟩
    have hclear : ∀ i ∈ js, Clear f2 (tmp ++ i.1).dropLast := by
      intro i hi s hs h0
      by_cases e : s = (tmp ++ x) ++ [n]
      · exact absurd (hs.trans (List.dropLast_prefix _)) (by rw [e, ← hpath]; exact (happ i hi).1)
      · rw [hf2, set_other _ _ e, h3 s]
        split
        · exact .inl rfl
        · exact hc i (by simp [hi]) s hs h0
    have hnone2 : ∀ i ∈ js, f2 (tmp ++ i.1) = none := by
      intro i hi
      have e : tmp ++ i.1 ≠ (tmp ++ x) ++ [n] := by
        intro e
        exact (happ i hi).1 (by rw [hpath, e]; exact List.prefix_rfl)
      rw [hf2, set_other _ _ e, hfar, hn i (by simp [hi])]
      intro h
      exact (happ i hi).2 (h.trans (by rw [hpath]; exact List.prefix_append _ _))
    obtain ⟨f3, g1, g2, g3, g4⟩ := ih f2 (fun i hi => hne i (by simp [hi])) hpw.2 hclear hnone2
    have h2' : Plain f2 (tmp ++ x) := by
      intro s hs h0
      rw [hf2, set_other _ _ (not_prefix_snoc _ n hs)]
      exact h2 s hs h0
    refine ⟨f3, ?_, ?_, ?_, ?_⟩
    · rw [jobs, hdl, h1]
      dsimp only [Option.bind_some]
      rw [hpath, hcl]
      exact g1
    · intro i hi
      rcases List.mem_cons.1 hi with rfl | hi
      · constructor
        · have : f2 (tmp ++ i.1) = some (.link i.2) := by rw [hpath, hf2, set_self]
          rw [g3 _ (by rw [this]; simp), this]
        · rw [hdl]; exact h2'.keep g3
      · exact g2 i hi
    · intro q hq
      have := hkeep2 q hq
      rw [g3 q (by rw [this]; exact hq), this]
    · intro q hq
      by_cases e : f3 q = f2 q
      · rw [e] at hq
        by_cases e1 : q = (tmp ++ x) ++ [n]
        · right; rw [e1, List.append_assoc]; exact List.prefix_append _ _
        · rw [hf2, set_other _ _ e1, h3 q] at hq
          split at hq
          · next h =>
            exact List.prefix_or_prefix_of_prefix h.2.1 (List.prefix_append _ _)
          · exact absurd rfl hq
      · exact g4 q e

end Verif.Links
