import Verif.Model.Pdrive
import Verif.Props.Pbo
/-!
C112: files of the game taken out of its archives, and C113: which P drive is used.
-/
namespace Verif.Pdrive
open Verif.Pbo (RPbo)

/-! ### C112 -/

/-- Parts of a path as they are written usually: not empty, not `.` or `..`, and without a slash. -/
def Plain (ps : List Text) : Prop := ∀ p ∈ ps, p ≠ [] ∧ p ≠ ['.'] ∧ p ≠ ['.', '.'] ∧ '/' ∉ p

/-- The path with these parts. -/
def render (ps : List Text) : Text := '/' :: joinWith '/' ps

theorem split_render {ps : List Text} (hne : ps ≠ []) (h : Plain ps) : split '/' (render ps) = [] :: ps := by
  rw [render, split, if_pos rfl, split_joinWith hne fun p hp => (h p hp).2.2.2]

theorem norm_plain : ∀ (ps acc : List Text), Plain ps → normParts acc ps = acc ++ ps
  | [], acc, _ => by rw [normParts, List.append_nil]
  | p :: ps, acc, h => by
    have hp := h p (List.mem_cons_self ..)
    rw [normParts, if_neg (by rintro (e | e); exacts [hp.1 e, hp.2.1 e]), if_neg hp.2.2.1,
      norm_plain ps _ fun q hq => h q (List.mem_cons_of_mem _ hq), List.append_assoc]
    rfl

theorem last_join : ∀ {ps : List Text}, ps ≠ [] → Plain ps → (joinWith '/' ps).getLast? ≠ some '/' ∧ joinWith '/' ps ≠ []
  | [p], _, h => by
    have hp := h p (List.mem_cons_self ..)
    refine ⟨fun e => hp.2.2.2 (List.mem_of_getLast? e), hp.1⟩
  | p :: q :: ps, _, h => by
    have ih := last_join (ps := q :: ps) (by simp) fun r hr => h r (List.mem_cons_of_mem _ hr)
    rw [joinWith]
    constructor
    · rw [List.getLast?_append, List.getLast?_cons_of_ne_nil ih.2]
      cases e : (joinWith '/' (q :: ps)).getLast? with
      | none => exact absurd (List.getLast?_eq_none_iff.1 e) ih.2
      | some c =>
        rw [e] at ih
        exact ih.1
    · simp

theorem join_plain {ps : List Text} (hne : ps ≠ []) (h : Plain ps) : rootJoin (render ps) = some ps := by
  obtain ⟨h1, h2⟩ := last_join hne h
  rw [rootJoin, if_neg, split_render hne h, normParts, if_pos (.inl rfl), norm_plain _ _ h, List.nil_append]
  rintro ⟨-, e⟩
  rw [render, List.getLast?_cons_of_ne_nil h2] at e
  exact h1 e

/-- The file `rest` in the archive of the addon, as the path `/a3/addon/rest` asks for. -/
def Asked (lower : Bytes → Bytes) (cache : Text → Option Bytes) (ps : List Text) (b : Bytes) : Prop :=
  ∃ a3 addon rest, ps = a3 :: addon :: rest ∧ fileOf lower cache addon (joinWith '/' rest) = some b

/-- Whatever is in the temporary folder is what it should be. -/
def Right (lower : Bytes → Bytes) (cache : Text → Option Bytes) (s : Store) : Prop := ∀ f ∈ s, Asked lower cache f.1 f.2

/-- A request with usual parts. -/
theorem pathTo_plain {lower cache fail} {s : Store} {a3 addon : Text} {rest : List Text} (h : Plain (a3 :: addon :: rest)) :
    pathTo lower cache fail s (render (a3 :: addon :: rest)) =
      if s.has (a3 :: addon :: rest) then some (s, some (a3 :: addon :: rest))
      else match fileOf lower cache addon (joinWith '/' rest) with
        | none => some (s, none)
        | some b =>
          if s.blocked (a3 :: addon :: rest) then none
          else match fail with
            | none => some ((a3 :: addon :: rest, b) :: s, some (a3 :: addon :: rest))
            | some k => some ((a3 :: addon :: rest, b.take k) :: s, none) := by
  rw [pathTo, join_plain (by simp) h, split_render (by simp) h]
  rfl

/-- A sequence of requests, of which no copy fails: the answers, and the temporary folder at the end. -/
def requests (lower : Bytes → Bytes) (cache : Text → Option Bytes) : Store → List Text → Option (Store × List (Option (List Text)))
  | s, [] => some (s, [])
  | s, p :: ps => match pathTo lower cache none s p with
    | none => none
    | some (s', a) => match requests lower cache s' ps with
      | none => none
      | some (s'', as) => some (s'', a :: as)

/-- What the answer to a request for the path with the parts `ps` should be: the path, at which there is, in the end, the file
of the archive, or a folder with such files; or nothing, and then there is no such file. -/
def Answered (lower : Bytes → Bytes) (cache : Text → Option Bytes) (s : Store) (ps : List Text) : Option (List Text) → Prop
  | some p => p = ps ∧ ((∃ b, (ps, b) ∈ s ∧ Asked lower cache ps b) ∨ ∃ f ∈ s, ps <+: f.1 ∧ ps ≠ f.1)
  | none => ∀ b, ¬ Asked lower cache ps b

theorem has_iff {s : Store} {p : List Text} : s.has p = true ↔ ∃ f ∈ s, p <+: f.1 := by
  simp [Store.has]

theorem step {lower cache} {s s' : Store} {ps : List Text} {a} (hs : Right lower cache s) (h : Plain ps) (h2 : 2 ≤ ps.length)
    (hr : pathTo lower cache none s (render ps) = some (s', a)) :
    Right lower cache s' ∧ s <:+ s' ∧ Answered lower cache s' ps a := by
  obtain ⟨a3, addon, rest, rfl⟩ : ∃ a3 addon rest, ps = a3 :: addon :: rest := by
    match ps, h2 with
    | a :: b :: r, _ => exact ⟨a, b, r, rfl⟩
  rw [pathTo_plain h] at hr
  split at hr
  · rename_i hh
    cases hr
    refine ⟨hs, List.suffix_rfl, rfl, ?_⟩
    obtain ⟨f, hf, hp⟩ := has_iff.1 hh
    by_cases e : a3 :: addon :: rest = f.1
    · exact .inl ⟨f.2, by rw [e]; exact hf, by rw [e]; exact hs f hf⟩
    · exact .inr ⟨f, hf, hp, e⟩
  · split at hr
    · rename_i hn
      cases hr
      refine ⟨hs, List.suffix_rfl, ?_⟩
      rintro b ⟨_, _, _, e, hb⟩
      cases e
      rw [hn] at hb
      cases hb
    · rename_i b hb
      split at hr
      · cases hr
      · cases hr
        have ha : Asked lower cache (a3 :: addon :: rest) b := ⟨a3, addon, rest, rfl, hb⟩
        refine ⟨fun f hf => ?_, List.suffix_cons .., rfl, .inl ⟨b, List.mem_cons_self .., ha⟩⟩
        rcases List.mem_cons.1 hf with rfl | hf
        · exact ha
        · exact hs f hf

theorem Answered.mono {lower cache} {s s' : Store} (h : s <:+ s') {ps a} (ha : Answered lower cache s ps a) :
    Answered lower cache s' ps a := by
  cases a with
  | none => exact ha
  | some p =>
    refine ⟨ha.1, ha.2.imp ?_ ?_⟩
    · rintro ⟨b, hb, hq⟩
      exact ⟨b, h.subset hb, hq⟩
    · rintro ⟨f, hf, hq⟩
      exact ⟨f, h.subset hf, hq⟩

/-- **C112**. Starting with an empty temporary folder, or one that is right, every answer to every sequence of requests for
files of the game is right: the file found has the content that it has in the archive of the game, and what is not found is
not there. -/
theorem C112_content {lower cache} : ∀ {rs : List (List Text)} {s s' : Store} {as}, Right lower cache s →
    (∀ ps ∈ rs, Plain ps ∧ 2 ≤ ps.length) → requests lower cache s (rs.map render) = some (s', as) →
    Right lower cache s' ∧ s <:+ s' ∧ List.Forall₂ (fun ps a => Answered lower cache s' ps a) rs as
  | [], s, s', as, hs, _, h => by
    cases h
    exact ⟨hs, List.suffix_rfl, .nil⟩
  | ps :: rs, s, s', as, hs, hp, h => by
    rw [List.map_cons, requests] at h
    split at h
    · cases h
    · rename_i s1 a h1
      split at h
      · cases h
      · rename_i s2 as' h2
        cases h
        obtain ⟨k1, k2, k3⟩ := step hs (hp ps (List.mem_cons_self ..)).1 (hp ps (List.mem_cons_self ..)).2 h1
        obtain ⟨l1, l2, l3⟩ := C112_content k1 (fun q hq => hp q (List.mem_cons_of_mem _ hq)) h2
        exact ⟨l1, k2.trans l2, .cons (k3.mono l2) l3⟩

/-- **C112**. A file that is in the archive is found, unless something that was taken out before is a file where a folder is
needed (then the program aborts). -/
theorem C112_found {lower cache} {s : Store} {ps : List Text} {b : Bytes} (h : Plain ps) (ha : Asked lower cache ps b) :
    (∃ s', pathTo lower cache none s (render ps) = some (s', some ps)) ∨
      pathTo lower cache none s (render ps) = none ∧ ∃ f ∈ s, f.1 <+: ps ∧ f.1 ≠ ps := by
  obtain ⟨a3, addon, rest, rfl, hb⟩ := ha
  rw [pathTo_plain h]
  split
  · exact .inl ⟨_, rfl⟩
  · rw [hb]
    dsimp only
    split
    · rename_i hh
      refine .inr ⟨rfl, ?_⟩
      simpa [Store.blocked] using hh
    · exact .inl ⟨_, rfl⟩

/-- **C112**, what does not hold of the code: if writing a file fails it is not found, but what was written of it is taken for
the file the next time, whatever is in the archive. -/
theorem C112_violated_truncated {lower cache} {s : Store} {ps : List Text} {b : Bytes} (h : Plain ps) (ha : Asked lower cache ps b)
    (hn : s.has ps = false) (hb : s.blocked ps = false) (k : Nat) :
    ∃ s', pathTo lower cache (some k) s (render ps) = some (s', none) ∧ (ps, b.take k) ∈ s' ∧
      ∀ cache' fail, pathTo lower cache' fail s' (render ps) = some (s', some ps) := by
  obtain ⟨a3, addon, rest, rfl, hf⟩ := ha
  refine ⟨(a3 :: addon :: rest, b.take k) :: s, ?_, List.mem_cons_self .., fun cache' fail => ?_⟩
  · rw [pathTo_plain h, hn, hf, hb]
    rfl
  · rw [pathTo_plain h, if_pos]
    exact has_iff.2 ⟨_, List.mem_cons_self .., List.prefix_rfl⟩

/-- **C112**, what does not hold of the code: a file that was taken out once is never looked at again. After an update of the
game (other archives) the old one is still found. -/
theorem C112_violated_stale {lower cache cache'} {s s' : Store} {ps : List Text} {b : Bytes} {fail} (h : Plain ps) (ha : Asked lower cache ps b)
    (hn : s.has ps = false) (hr : pathTo lower cache none s (render ps) = some (s', some ps)) :
    (ps, b) ∈ s' ∧ pathTo lower cache' fail s' (render ps) = some (s', some ps) := by
  obtain ⟨a3, addon, rest, rfl, hf⟩ := ha
  rw [pathTo_plain h, hn, hf] at hr
  dsimp only at hr
  rw [if_neg (by simp)] at hr
  split at hr
  · cases hr
  · cases hr
    refine ⟨List.mem_cons_self .., ?_⟩
    rw [pathTo_plain h, if_pos]
    exact has_iff.2 ⟨_, List.mem_cons_self .., List.prefix_rfl⟩

/-- **C112**, what does not hold of the code: asking for a path with a slash at its end aborts the program. -/
theorem C112_violated_slash {lower cache fail} {s : Store} (path : Text) (hne : path ≠ []) :
    pathTo lower cache fail s (path ++ ['/']) = none := by
  rw [pathTo, rootJoin, if_pos]
  exact ⟨by rw [List.length_append]; have := List.length_pos_iff.2 hne; simp; omega, by simp⟩

/-- **C112**, what does not hold of the code: the name of the addon must be written as its archive is, though the game does
not care about letter case, and neither does looking for the file in the archive. Without an archive of exactly this name
nothing is found. -/
theorem C112_violated_case {lower cache fail} {s : Store} {a3 addon : Text} {rest : List Text} (h : Plain (a3 :: addon :: rest))
    (hc : cache addon = none) (hn : s.has (a3 :: addon :: rest) = false) :
    pathTo lower cache fail s (render (a3 :: addon :: rest)) = some (s, none) := by
  rw [pathTo_plain h, hn, fileOf, hc]
  rfl

/-- **C112**. The archives that are used: files with extension `pbo` by their names; of several the last one in the order of the
folders. -/
theorem C112_archives {folders : List (List Entry)} {cache} (h : archives (folders.map some) = some cache) (addon : Text) :
    cache addon = ((folders.flatten.filter fun e => e.ext = "pbo".toList ∧ e.stem = addon).filterMap (·.content)).getLast? := by
  have add : ∀ (es : List Entry) (c : Text → Option Bytes), addFolder c es addon =
      (((es.filter fun e => e.ext = "pbo".toList ∧ e.stem = addon).filterMap (·.content)).getLast?).or (c addon) := by
    intro es
    induction es with
    | nil => intro c; rfl
    | cons e es ih =>
      intro c
      have : addFolder c (e :: es) = addFolder (match e.content with
        | some b => if e.ext = "pbo".toList then fun s => if s = e.stem then some b else c s else c
        | none => c) es := rfl
      rw [this, ih]
      by_cases hm : e.ext = "pbo".toList ∧ e.stem = addon
      · rw [List.filter_cons_of_pos (by simpa using hm)]
        cases hc : e.content with
        | none => rw [List.filterMap_cons_none hc]
        | some b =>
          rw [List.filterMap_cons_some hc]
          dsimp only
          rw [if_pos hm.1, if_pos hm.2.symm, List.getLast?_cons]
          cases (List.filterMap (·.content) (es.filter fun e => e.ext = "pbo".toList ∧ e.stem = addon)).getLast? <;> rfl
      · rw [List.filter_cons_of_neg (by simpa using hm)]
        congr 1
        cases e.content with
        | none => rfl
        | some b =>
          dsimp only
          split
          · rename_i he
            exact if_neg fun e' : addon = e.stem => hm ⟨he, e'.symm⟩
          · rfl
  have main : ∀ (fs : List (List Entry)) (c : Text → Option Bytes) (d),
      (fs.map some).foldl nextFolder (some c) = some d →
      d addon = (((fs.flatten.filter fun e => e.ext = "pbo".toList ∧ e.stem = addon).filterMap (·.content)).getLast?).or (c addon) := by
    intro fs
    induction fs with
    | nil => intro c d h; cases h; rfl
    | cons f fs ih =>
      intro c d h
      rw [List.map_cons, List.foldl_cons] at h
      rw [ih _ _ h, add, List.flatten_cons, List.filter_append, List.filterMap_append, List.getLast?_append, Option.or_assoc]
  rw [main folders _ _ h, Option.or_none]

/-- **C112**, what does not hold of the code: if any of the fourteen folders of the game cannot be listed, the program aborts.
(On Linux their names are looked for with a backslash in them.) -/
theorem C112_violated_folder {folders : List (Option (List Entry))} : archives folders = none ↔ none ∈ folders := by
  have key : ∀ (fs : List (Option (List Entry))) (acc : Option (Text → Option Bytes)),
      fs.foldl nextFolder acc = none ↔ acc = none ∨ none ∈ fs := by
    intro fs
    induction fs with
    | nil => intro acc; simp
    | cons f fs ih =>
      intro acc
      rw [List.foldl_cons, ih]
      cases acc <;> cases f <;> simp [nextFolder]
  rw [archives, key]
  simp

/-! ### C113 -/

/-- The folder that is set in the Arma 3 Tools: the one of the last line `P_DrivePath=` after a line `P_DriveUser=1`, if there
is one. -/
inductive Configured : List Text → Option Text → Prop where
  | none {ls} : (∀ a b, ls = a ++ b → "P_DriveUser=1".toList ∈ a → ∀ l ∈ b, ¬ "P_DrivePath=".toList <+: l) → Configured ls none
  | some {a b l p} : "P_DriveUser=1".toList ∈ a → l = "P_DrivePath=".toList ++ p → (∀ l ∈ b, ¬ "P_DrivePath=".toList <+: l) →
      Configured (a ++ l :: b) (some p)

/-- There is always one, or none. -/
theorem configured_exists (ls : List Text) : ∃ c, Configured ls c := by
  induction ls using List.reverseRecOn with
  | nil => exact ⟨none, .none fun a b e ha => by cases List.append_eq_nil_iff.1 e.symm with | intro h _ => rw [h] at ha; cases ha⟩
  | append_singleton ls l ih =>
    by_cases hl : "P_DrivePath=".toList <+: l
    · by_cases hu : "P_DriveUser=1".toList ∈ ls
      · obtain ⟨p, hp⟩ := hl
        exact ⟨some p, .some hu hp.symm (by simp)⟩
      · refine ⟨none, .none fun a b e ha m hm hx => ?_⟩
        rcases List.eq_nil_or_concat b with rfl | ⟨b', x, rfl⟩
        · cases hm
        · rw [List.concat_eq_append, ← List.append_assoc] at e
          have := List.append_inj_left' e rfl
          exact hu (this ▸ List.mem_append_left _ ha)
    · obtain ⟨c, hc⟩ := ih
      refine ⟨c, ?_⟩
      cases hc with
      | none h =>
        refine .none fun a b e ha m hm => ?_
        rcases List.eq_nil_or_concat b with rfl | ⟨b', x, rfl⟩
        · cases hm
        · rw [List.concat_eq_append, ← List.append_assoc] at e
          rw [List.concat_eq_append, List.mem_append, List.mem_singleton] at hm
          rcases hm with hm | rfl
          · exact h a b' (List.append_inj_left' e rfl) ha m hm
          · have := List.append_inj_right' e rfl
            cases this
            exact hl
      | some hu hp hb =>
        rename_i a b k p
        rw [List.append_assoc, List.cons_append]
        refine .some hu hp fun m hm => ?_
        rw [List.mem_append, List.mem_singleton] at hm
        rcases hm with hm | rfl
        · exact hb m hm
        · exact hl

theorem user_ne {l : Text} (h : "P_DrivePath=".toList <+: l) : l ≠ "P_DriveUser=1".toList := by
  rintro rfl
  revert h
  decide +kernel

theorem settings_inv (d : Text) (ls : List Text) :
    (ls.foldl settingsLine (false, d)).1 = decide ("P_DriveUser=1".toList ∈ ls) := by
  induction ls using List.reverseRecOn with
  | nil => simp
  | append_singleton ls l ih =>
    rw [List.foldl_append, List.foldl_cons, List.foldl_nil, settingsLine]
    split
    · rename_i e
      simp [e]
    · rename_i e
      have : ("P_DriveUser=1".toList ∈ ls ++ [l]) ↔ "P_DriveUser=1".toList ∈ ls := by
        rw [List.mem_append, List.mem_singleton]
        exact ⟨fun h => h.resolve_right fun e' => e e'.symm, .inl⟩
      simp only [this]
      split
      · exact ih
      · exact ih

theorem settings_keep (st : Bool × Text) (ls : List Text) (h : ∀ l ∈ ls, ¬ "P_DrivePath=".toList <+: l) :
    (ls.foldl settingsLine st).2 = st.2 := by
  induction ls generalizing st with
  | nil => rfl
  | cons l ls ih =>
    rw [List.foldl_cons, ih _ fun m hm => h m (List.mem_cons_of_mem _ hm), settingsLine]
    split
    · rfl
    · rw [if_neg]
      rintro ⟨h1, -⟩
      exact h l (List.mem_cons_self ..) (List.isPrefixOf_iff_prefix.1 h1)

theorem path_of {p : Text} (h : '=' ∉ p) : (split '=' ("P_DrivePath=".toList ++ p)).getD 1 [] = p := by
  have e : "P_DrivePath=".toList ++ p = "P_DrivePath".toList ++ '=' :: p := by
    have : "P_DrivePath=".toList = "P_DrivePath".toList ++ ['='] := by decide +kernel
    rw [this, List.append_assoc]
    rfl
  rw [e, split_append (by decide +kernel), split_of_not_mem h]
  rfl

theorem path_cut {p q : Text} (h : '=' ∉ p) : (split '=' ("P_DrivePath=".toList ++ (p ++ '=' :: q))).getD 1 [] = p := by
  have e : "P_DrivePath=".toList ++ (p ++ '=' :: q) = "P_DrivePath".toList ++ '=' :: (p ++ '=' :: q) := by
    have : "P_DrivePath=".toList = "P_DrivePath".toList ++ ['='] := by decide +kernel
    rw [this, List.append_assoc]
    rfl
  rw [e, split_append (by decide +kernel), split_append h]
  rfl

/-- The folder the loop ends with. -/
theorem settings_eq {ls : List Text} {c : Option Text} (d : Text) (h : Configured ls c) (hq : ∀ p ∈ c, '=' ∉ p) :
    (ls.foldl settingsLine (false, d)).2 = c.getD d := by
  cases h with
  | none h =>
    rw [Option.getD_none]
    induction ls using List.reverseRecOn with
    | nil => rfl
    | append_singleton ls l ih =>
      rw [List.foldl_append, List.foldl_cons, List.foldl_nil, settingsLine]
      have i1 := ih fun a b e ha m hm => h a (b ++ [l]) (by rw [e, List.append_assoc]) ha m (List.mem_append_left _ hm)
      split
      · exact i1
      · split
        · rename_i e
          rw [settings_inv, decide_eq_true_eq] at e
          exact absurd (List.isPrefixOf_iff_prefix.1 e.1) (h ls [l] rfl e.2 l (List.mem_singleton_self _))
        · exact i1
  | some hu hl hb =>
    rename_i a b l p
    rw [List.foldl_append, List.foldl_cons, settings_keep _ _ hb, settingsLine, if_neg, if_pos]
    · rw [hl]
      exact path_of (hq p rfl)
    · rw [settings_inv, decide_eq_true_eq]
      exact ⟨List.isPrefixOf_iff_prefix.2 ⟨p, hl.symm⟩, hu⟩
    · exact user_ne ⟨p, hl.symm⟩

/-- **C113**. A mounted drive is used if there is one. -/
theorem C113_mounted (m : Machine) (h : m.isDir "P:\\a3".toList = true) :
    search m = some (.tools "P:/".toList "P:\\a3".toList) := by
  rw [search, if_pos h]

/-- **C113**. Else, if there is no drive at the usual place, that at the folder set in the tools is used, where it has a
folder `a3`. -/
theorem C113_configured (m : Machine) {docs tools settings p : Text} (h : m.isDir "P:\\a3".toList = false)
    (hd : m.documents = some docs) (hdir : m.isDir (m.join (m.join docs "Arma 3 Projects".toList) "a3".toList) = false)
    (ht : m.tools = some tools) (hs : m.read (m.join tools "settings.ini".toList) = some settings)
    (hc : Configured (Prefix.lines settings) (some p)) (hq : '=' ∉ p) (ha : m.isDir (m.join (m.join tools p) "a3".toList) = true) :
    search m = some (.tools (m.join tools p) (m.join (m.join tools p) "a3".toList)) := by
  have e := settings_eq (m.join docs "Arma 3 Projects".toList) hc (fun x hx => by cases hx; exact hq)
  rw [Option.getD_some] at e
  rw [search, if_neg (by rw [h]; exact Bool.false_ne_true), hd]
  dsimp only
  rw [if_neg (by rw [hdir]; exact Bool.false_ne_true), ht]
  dsimp only
  rw [hs]
  dsimp only
  rw [e, if_pos ha]

/-- **C113**. Files are taken from the game only if none of these is there; and then they are, if there is a game, a documents
folder, and either no tools or settings of them that can be read. -/
theorem C113_on_demand (m : Machine) {docs arma : Text} (h : m.isDir "P:\\a3".toList = false) (hd : m.documents = some docs)
    (hdir : m.isDir (m.join (m.join docs "Arma 3 Projects".toList) "a3".toList) = false) (ha : m.arma = some arma)
    (ht : ∀ tools, m.tools = some tools → ∃ settings c, m.read (m.join tools "settings.ini".toList) = some settings ∧
      Configured (Prefix.lines settings) c ∧ (∀ p ∈ c, '=' ∉ p) ∧
      m.isDir (m.join (m.join tools (c.getD (m.join docs "Arma 3 Projects".toList))) "a3".toList) = false) :
    search m = some (.onDemand arma) := by
  rw [search, if_neg (by rw [h]; exact Bool.false_ne_true), hd]
  dsimp only
  rw [if_neg (by rw [hdir]; exact Bool.false_ne_true)]
  cases e : m.tools with
  | none => simp [ha]
  | some tools =>
    obtain ⟨settings, c, h1, h2, h3, h4⟩ := ht tools e
    dsimp only
    rw [h1]
    dsimp only
    rw [settings_eq _ h2 h3, if_neg (by rw [h4]; exact Bool.false_ne_true), ha]
    rfl

/-- **C113**. The game is not looked at if there is any of the others. -/
theorem C113_only_then (m : Machine) {arma : Text} (h : search m = some (.onDemand arma)) :
    m.isDir "P:\\a3".toList = false ∧ m.arma = some arma ∧ ∃ docs, m.documents = some docs ∧
      m.isDir (m.join (m.join docs "Arma 3 Projects".toList) "a3".toList) = false ∧
      ∀ tools settings c, m.tools = some tools → m.read (m.join tools "settings.ini".toList) = some settings →
        Configured (Prefix.lines settings) c → (∀ p ∈ c, '=' ∉ p) →
        m.isDir (m.join (m.join tools (c.getD (m.join docs "Arma 3 Projects".toList))) "a3".toList) = false := by
  rw [search] at h
  split at h
  · cases h
  rename_i h0
  split at h
  · cases h
  rename_i docs hd
  dsimp only at h
  split at h
  · cases h
  rename_i h1
  have dem : ∀ {x}, x = m.arma.map Drive.onDemand → x = some (.onDemand arma) → m.arma = some arma := by
    rintro _ rfl h
    obtain ⟨y, h2, h3⟩ := Option.map_eq_some_iff.1 h
    cases h3
    exact h2
  refine ⟨by simpa using h0, ?_, docs, hd, by simpa using h1, ?_⟩
  · split at h
    · exact dem rfl h
    · split at h
      · cases h
      · split at h
        · cases h
        · exact dem rfl h
  · intro tools settings c ht hs hc hq
    rw [ht] at h
    dsimp only at h
    rw [hs] at h
    dsimp only at h
    rw [settings_eq _ hc hq] at h
    split at h
    · cases h
    · rename_i h2
      simpa using h2

/-- **C113**, what does not hold of the code: with a folder `a3` at the usual place, the folder set in the tools is not used. -/
theorem C113_violated_default (m : Machine) {docs : Text} (h : m.isDir "P:\\a3".toList = false) (hd : m.documents = some docs)
    (hdir : m.isDir (m.join (m.join docs "Arma 3 Projects".toList) "a3".toList) = true) :
    search m = some (.tools (m.join docs "Arma 3 Projects".toList) (m.join (m.join docs "Arma 3 Projects".toList) "a3".toList)) := by
  rw [search, if_neg (by rw [h]; exact Bool.false_ne_true), hd]
  dsimp only
  rw [if_pos hdir]

/-- **C113**, what does not hold of the code: without a mounted drive there is none at all, whatever is installed, if there is
no documents folder, or, with the tools installed, if their settings cannot be read, as before they run for the first time. -/
theorem C113_violated_none (m : Machine) (h : m.isDir "P:\\a3".toList = false)
    (hn : m.documents = none ∨ ∃ docs tools, m.documents = some docs ∧
      m.isDir (m.join (m.join docs "Arma 3 Projects".toList) "a3".toList) = false ∧ m.tools = some tools ∧
      m.read (m.join tools "settings.ini".toList) = none) : search m = none := by
  rw [search, if_neg (by rw [h]; exact Bool.false_ne_true)]
  rcases hn with hd | ⟨docs, tools, hd, hdir, ht, hs⟩
  · rw [hd]
  · rw [hd]
    dsimp only
    rw [if_neg (by rw [hdir]; exact Bool.false_ne_true), ht]
    dsimp only
    rw [hs]

/-- **C113**, what does not hold of the code: of a folder with an equal sign in its name only what is before it is used. -/
theorem C113_violated_equals {a b : List Text} {p q d : Text} (hu : "P_DriveUser=1".toList ∈ a) (hb : ∀ l ∈ b, ¬ "P_DrivePath=".toList <+: l)
    (hp : '=' ∉ p) :
    ((a ++ ("P_DrivePath=".toList ++ (p ++ '=' :: q)) :: b).foldl settingsLine (false, d)).2 = p := by
  rw [List.foldl_append, List.foldl_cons, settings_keep _ _ hb, settingsLine, if_neg, if_pos]
  · exact path_cut hp
  · rw [settings_inv, decide_eq_true_eq]
    exact ⟨List.isPrefixOf_iff_prefix.2 ⟨_, rfl⟩, hu⟩
  · exact user_ne ⟨_, rfl⟩

/-! ### Examples -/

/-- An archive `ui_f` with a file `b\c`. -/
theorem exArchive : ∃ out, fileOf Pbo.asciiLower (fun s => if s = "ui_f".toList then some out else none) "ui_f".toList "b/c".toList =
    some [1, 2, 3] := by
  let ops : List Pbo.Op := [.addFile [98, 47, 99] [1, 2, 3]]
  have hv : Pbo.Valid (Pbo.runOps ops) := Pbo.C07_valid_of_history ops fun op hop => by
    simp only [ops, List.mem_singleton] at hop
    subst hop
    exact ⟨by decide, by decide, by decide⟩
  obtain ⟨out, sum, r, -, h2, -, -, -, -, h3⟩ := Pbo.C07_round_trip (fun _ => List.replicate 20 0) Pbo.asciiLower (by simp) _ hv _ (.refl _) true
  refine ⟨out, ?_⟩
  rw [fileOf, if_pos rfl]
  dsimp only
  rw [h2]
  exact (h3 (by unfold Pbo.CaseDistinct; decide)).1 _ (List.mem_singleton_self _) _ (by decide +kernel)

def exParts : List Text := ["a3".toList, "ui_f".toList, "b".toList, "c".toList]

theorem exPlain : Plain exParts := by unfold Plain; decide +kernel

/-- The path `/a3/ui_f/b/c` and what is found there. -/
example : render exParts = "/a3/ui_f/b/c".toList ∧ ∃ cache s', Asked Pbo.asciiLower cache exParts [1, 2, 3] ∧
    pathTo Pbo.asciiLower cache none [] (render exParts) = some (s', some exParts) := by
  obtain ⟨out, h⟩ := exArchive
  have ha : Asked Pbo.asciiLower _ exParts [1, 2, 3] := ⟨_, _, ["b".toList, "c".toList], rfl, h⟩
  refine ⟨by decide +kernel, fun s => if s = "ui_f".toList then some out else none, ?_⟩
  rcases C112_found (s := []) exPlain ha with ⟨s', h1⟩ | ⟨-, f, hf, -⟩
  · exact ⟨s', ha, h1⟩
  · cases hf

/-- The hypotheses of `C112_violated_truncated`. -/
example : ∃ cache s', pathTo Pbo.asciiLower cache (some 1) [] (render exParts) = some (s', none) ∧ (exParts, [1]) ∈ s' ∧
    ∀ cache' fail, pathTo Pbo.asciiLower cache' fail s' (render exParts) = some (s', some exParts) := by
  obtain ⟨out, h⟩ := exArchive
  exact ⟨_, C112_violated_truncated (b := [1, 2, 3]) exPlain ⟨_, _, ["b".toList, "c".toList], rfl, h⟩ rfl rfl 1⟩

example : pathTo Pbo.asciiLower (fun _ => none) none [] "/a3/ui_f/".toList = none :=
  C112_violated_slash "/a3/ui_f".toList (by simp)

/-- A machine with tools and a drive that is set in them. -/
def exMachine (isDir : Text → Bool) : Machine where
  isDir := isDir
  documents := some "D".toList
  tools := some "T".toList
  arma := some "A".toList
  read _ := some "P_DriveUser=1\r\nP_DrivePath=W\r\n".toList
  join a b := a ++ '/' :: b

example : search (exMachine fun p => p = "T/W/a3".toList) = some (.tools "T/W".toList "T/W/a3".toList) := by decide +kernel

example : search (exMachine fun _ => false) = some (.onDemand "A".toList) := by decide +kernel

example : Configured (Prefix.lines "P_DriveUser=1\r\nP_DrivePath=W\r\n".toList) (some "W".toList) := by
  have e : Prefix.lines "P_DriveUser=1\r\nP_DrivePath=W\r\n".toList = ["P_DriveUser=1".toList] ++ "P_DrivePath=W".toList :: [] := by
    decide +kernel
  rw [e]
  exact .some (List.mem_singleton_self _) (by decide +kernel) (by simp)

end Verif.Pdrive
