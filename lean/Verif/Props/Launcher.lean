import Verif.Lib.Launcher
/-!
C83: starting the game. C84: presets.
-/
namespace Verif.Launcher
open Verif.Launch hiding Stop

/-! ### C84 -/

/-- A preset yields the numbers of the links to mods in it, each once and in the order of the first links, and the DLCs
with the numbers of the links to the store. -/
theorem C84_preset (html : Bytes) :
    (∀ id, id ∈ (readPreset html).1 ↔ ∃ n, LinkAt modPage html n id) ∧ (readPreset html).1.Nodup ∧
    ((readPreset html).1.Pairwise fun a b => ∀ m, LinkAt modPage html m b → ∃ n < m, LinkAt modPage html n a) ∧
    (∀ d, d ∈ (readPreset html).2 ↔ ∃ n id, LinkAt dlcPage html n id ∧ appIds[d]? = some id) ∧
    (readPreset html).2.Nodup := by
  refine ⟨fun id => preset_mods, (firsts _).1, ?_, fun d => preset_dlcs, (firsts _).1⟩
  have h := (firsts (captures modTail html.length html)).2
  rw [captures_eq good_mod _ _ (Nat.le_refl _)] at h
  rw [readPreset]
  dsimp only
  rw [captures_eq good_mod _ _ (Nat.le_refl _)]
  refine h.imp ?_
  intro a b hab m hm
  obtain ⟨x, y, he, hx⟩ := allLinks_of_linkAt hm
  obtain ⟨n, hn, h'⟩ := hx a (hab x y he)
  exact ⟨n, hn, h'⟩

theorem takeWhile_reverse_append {sep : UInt8} {p n : Bytes} (hn : sep ∉ n) :
    ((p ++ [sep] ++ n).reverse.takeWhile fun c => c ≠ sep).reverse = n := by
  simp only [List.reverse_append, List.reverse_cons, List.append_assoc, List.singleton_append]
  rw [List.takeWhile_append_of_pos (by
    intro c hc
    simp only [ne_eq, decide_not, Bool.not_eq_eq_eq_not, Bool.not_true, decide_eq_false_iff_not]
    rintro rfl
    exact hn (by simpa using hc))]
  simp

/-- The number of each DLC in the store and the name of its folder in the game, `dlc.rs:9-43`. -/
def shop : List (Bytes × Bytes) :=
  [(ascii "1021790", ascii "contact"), (ascii "1042220", ascii "gm"), (ascii "1227700", ascii "vn"),
    (ascii "1294440", ascii "csla"), (ascii "1681170", ascii "ws"), (ascii "1175380", ascii "spe"),
    (ascii "2647760", ascii "rf"), (ascii "2647830", ascii "ef")]

/-- Each DLC of a preset is loaded from the folder of that DLC: there are no others, and no two share a folder. -/
theorem C84_folder (d : Nat) (id : Bytes) (h : appIds[d]? = some id) :
    (id, dlcMod d) ∈ shop ∧ (∀ d' id', appIds[d']? = some id' → dlcMod d' = dlcMod d → d' = d) ∧
    (∀ x ∈ shop, x.1 ∈ appIds) := by
  have lt : ∀ {d id}, appIds[d]? = some id → d < 8 := fun h => (List.getElem?_eq_some_iff.1 h).1
  have h1 : ∀ d : Fin 8, ((appIds[d.1]?).getD [], dlcMod d.1) ∈ shop := by decide +kernel
  have h2 : ∀ d d' : Fin 8, dlcMod d'.1 = dlcMod d.1 → d' = d := by decide +kernel
  refine ⟨?_, fun d' id' h' he => ?_, by decide +kernel⟩
  · have := h1 ⟨d, lt h⟩
    rwa [show appIds[(⟨d, lt h⟩ : Fin 8).1]? = some id from h] at this
  · exact congrArg Fin.val (h2 ⟨d, lt h⟩ ⟨d', lt h'⟩ he)

example : appIds[5]? = some (ascii "1175380") ∧ dlcMod 5 = ascii "spe" := by decide +kernel

/-- The file of a preset whose name has neither dots nor separators is `.hemtt/presets/<name>.html`. -/
theorem C84_file (h : Host) (p : Bytes) (hd : 46 ∉ p) (hs : h.sep ∉ p) (ha : h.absolute p = false)
    (hl : h.sep ∉ ascii "presets") (hr : h.absolute (ascii ".hemtt/presets") = false) :
    presetFile h p = h.join h.cwd (ascii ".hemtt/presets") ++ h.sep :: p ++ ascii ".html" := by
  have hend : (h.join h.cwd (ascii ".hemtt/presets")).getLast? = some 115 := by
    rw [Host.join, hr, if_neg (by decide)]
    split
    · rw [List.getLast?_append]; rfl
    · rw [List.getLast?_append]; rfl
  have hne : h.join h.cwd (ascii ".hemtt/presets") ≠ [] := by intro he; rw [he] at hend; simp at hend
  have h115 : h.sep ≠ 115 := by rintro he; rw [he] at hl; exact hl (by decide)
  have e1 : h.join (h.join h.cwd (ascii ".hemtt/presets")) p =
      h.join h.cwd (ascii ".hemtt/presets") ++ [h.sep] ++ p := by
    conv_lhs => rw [Host.join, ha, if_neg (by decide)]
    rw [if_neg (by rw [hend]; simp [hne, Ne.symm h115])]
    simp
  have e2 : h.fileName (h.join h.cwd (ascii ".hemtt/presets") ++ [h.sep] ++ p) = p := takeWhile_reverse_append hs
  have e3 : stem p = p := by
    rw [stem]
    have : p.reverse.dropWhile (fun c => c ≠ 46) = [] := by
      have h' := List.dropWhile_append_of_pos (p := fun c : UInt8 => decide (c ≠ 46)) (l₁ := p.reverse) (l₂ := []) (by
        intro c hc
        simp only [ne_eq, decide_not, Bool.not_eq_eq_eq_not, Bool.not_true, decide_eq_false_iff_not]
        rintro rfl
        exact hd (by simpa using hc))
      simpa using h'
    rw [this]
    simp
  rw [presetFile, Host.withExtension, e1, e2]
  rw [e3]
  simp only [List.append_assoc]
  rw [show (h.join h.cwd (ascii ".hemtt/presets") ++ ([h.sep] ++ p)).length - p.length =
      (h.join h.cwd (ascii ".hemtt/presets") ++ [h.sep]).length by simp; omega]
  rw [show h.join h.cwd (ascii ".hemtt/presets") ++ ([h.sep] ++ p) =
      (h.join h.cwd (ascii ".hemtt/presets") ++ [h.sep]) ++ p by simp, List.take_left' rfl]
  simp only [List.append_assoc]
  rfl

/-! ### C83 -/

theorem startAll_windows {h : Host} (hw : h.target = .windows) (l : Plan) (args : List Bytes) :
    startAll h l args = if l.instances = 0 then .error .panic else
      .ok (List.replicate l.instances (startWindows h l.arma3 l.executable
        (if l.filePatching then args ++ [ascii "-filePatching"] else args))) := by
  rw [startAll]
  simp only [hw, if_true]
  by_cases h1 : l.instances = 1
  · simp [h1]
  · simp [h1]

theorem startAll_ne {h : Host} {l : Plan} {args : List Bytes} {st : List Started} (he : startAll h l args = .ok st) :
    st ≠ [] ∧ l.instances ≠ 0 := by
  rw [startAll] at he
  dsimp only at he
  split at he
  · rename_i h1
    split at he
    · simp at he
    · obtain rfl := Except.ok.inj he
      simp [h1]
  · split at he
    · simp at he
    · rename_i h0
      split at he
      · simp at he
      · obtain rfl := Except.ok.inj he
        simp [h0]

theorem startAll_length {h : Host} {l : Plan} {args : List Bytes} {st : List Started} (he : startAll h l args = .ok st) :
    st.length = l.instances := by
  rw [startAll] at he
  dsimp only at he
  split at he
  · rename_i h1
    split at he
    · simp at he
    · obtain rfl := Except.ok.inj he
      simp [h1]
  · split at he
    · simp at he
    · split at he
      · simp at he
      · obtain rfl := Except.ok.inj he
        simp

/-- The parameters before `-filePatching`. -/
def planArgs (l : Plan) (ms : List Bytes) (mission : List Bytes) : List Bytes :=
  ((dedup (l.dlc.mergeSort fun a b => a ≤ b)).map fun d => modArg (dlcMod d)) ++
    ((sortDedup ms).map modArg) ++ l.options ++ mission

theorem launch_ok {h : Host} {l : Plan} {r codes : List Code} {st : List Started}
    (he : launch h l [] r = .ok (codes, st)) :
    (codes ≠ [] ∧ st = []) ∨ (codes = [] ∧ r = [] ∧ ∃ ms mission, mods h l = .ok (ms, []) ∧
      MissionArg h l.mission mission ∧ startAll h l (planArgs l ms mission) = .ok st) := by
  rw [launch] at he
  split at he
  · simp at he
  rename_i ms cs hm
  dsimp only at he
  split at he
  · rename_i hr
    simp only [Except.ok.injEq, Prod.mk.injEq] at he
    obtain ⟨rfl, rfl⟩ := he
    exact .inl ⟨hr, rfl⟩
  rename_i hr
  simp only [not_not, List.append_eq_nil_iff] at hr
  obtain ⟨rfl, rfl⟩ := hr
  split at he
  · rename_i hmi
    split at he
    · simp at he
    rename_i st' hs
    simp only [Except.ok.injEq, Prod.mk.injEq] at he
    obtain ⟨rfl, rfl⟩ := he
    refine .inr ⟨rfl, rfl, ms, [], hm, by rw [hmi]; rfl, ?_⟩
    simpa [planArgs] using hs
  · rename_i m hmi
    split at he
    · simp only [Except.ok.injEq, Prod.mk.injEq] at he
      obtain ⟨rfl, rfl⟩ := he
      exact .inl ⟨by simp, rfl⟩
    rename_i f hf
    split at he
    · simp at he
    rename_i st' hs
    simp only [Except.ok.injEq, Prod.mk.injEq] at he
    obtain ⟨rfl, rfl⟩ := he
    obtain ⟨h1, h2⟩ := missionFile_iff.1 hf
    refine .inr ⟨rfl, rfl, ms, [34 :: f ++ [34]], hm, by rw [hmi]; exact ⟨h1, f, h2, rfl⟩, ?_⟩
    simpa [planArgs] using hs

theorem launch_total {h : Host} {l : Plan} {ms mission : List Bytes} (hm : mods h l = .ok (ms, []))
    (hmi : MissionArg h l.mission mission) :
    launch h l [] [] = (match startAll h l (planArgs l ms mission) with
      | .error e => .error e
      | .ok st => .ok ([], st)) := by
  rw [launch, hm]
  dsimp only
  rw [if_neg (by simp)]
  cases hl : l.mission with
  | none =>
    rw [hl] at hmi
    have : mission = [] := hmi
    subst this
    simp only [planArgs, List.append_nil, List.nil_append]
    cases startAll h l _ <;> rfl
  | some m =>
    rw [hl] at hmi
    obtain ⟨h1, f, h2, rfl⟩ := hmi
    dsimp only
    rw [missionFile_iff.2 ⟨h1, h2⟩]
    simp only [planArgs, List.append_nil, List.nil_append]
    rfl

theorem findConfigs_ok {p : Project} {cs : List Bytes} {os : List Options} :
    findConfigs p cs = (os, []) ↔ List.Forall₂ (fun c o => p.launch c = some o) cs os := by
  induction cs generalizing os with
  | nil => simp [findConfigs, eq_comm]
  | cons c cs ih =>
    rw [findConfigs]
    dsimp only
    cases hc : p.launch c with
    | none =>
      simp only [Prod.mk.injEq, reduceCtorEq, and_false, false_iff]
      intro h
      cases h with
      | cons h1 _ => rw [hc] at h1; simp at h1
    | some o =>
      cases hf : findConfigs p cs with
      | mk os' codes =>
        dsimp only
        constructor
        · intro h
          simp only [Prod.mk.injEq] at h
          obtain ⟨rfl, rfl⟩ := h
          exact .cons hc (ih.1 hf)
        · intro h
          cases h with
          | cons h1 h2 =>
            rw [hc] at h1
            obtain rfl := Option.some.inj h1
            have := ih.2 h2
            rw [hf] at this
            simp only [Prod.mk.injEq] at this
            rw [this.1, this.2]

theorem readConfig_iff {p : Project} {a : Args} {o : Options} : readConfig p a.config = .ok o ↔ Chosen p a o := by
  rw [readConfig, Chosen]
  split
  · rename_i h
    simp only [h, ne_eq, not_true_eq_false, false_and, or_false, true_and]
    cases hd : p.launch (ascii "default") with
    | none => simp [eq_comm]
    | some o' => simp
  · rename_i h
    simp only [h, false_and, false_or, ne_eq, not_false_eq_true, true_and]
    cases hf : findConfigs p a.config with
    | mk os codes =>
      cases codes with
      | nil =>
        dsimp only
        simp only [Except.ok.injEq, ← findConfigs_ok, hf, Prod.mk.injEq, and_true]
        constructor
        · rintro rfl; exact ⟨os, rfl, rfl⟩
        · rintro ⟨os', rfl, rfl⟩; rfl
      | cons c cs =>
        dsimp only
        simp only [reduceCtorEq, ← findConfigs_ok, hf, Prod.mk.injEq, and_false, false_and, exists_false]

theorem execute_ok {h : Host} {p : Project} {a : Args} {dev : List Bytes → Bool → Bool → Except Stop (List Nat)}
    {codes : List Code} {st : List Started} (he : execute h p a dev = .ok (codes, st)) :
    (codes ≠ [] ∧ st = []) ∨ (codes = [] ∧ ∃ o arma3 l, Chosen p a o ∧ p.mainprefix ≠ none ∧ h.arma3 = some arma3 ∧
      new h a o = .ok ([], some l) ∧ Made h a o arma3 l ∧
      (a.quick = false → dev o.optionals (o.binarize.getD false) (o.rapify.getD true) = .ok []) ∧
      (a.quick = true → h.present (ownPath h) = true ∧ ∃ m, p.mainprefix = some m ∧
        h.present (h.join arma3 m) = true ∧ h.present (h.join (h.join arma3 m) p.name) = true) ∧
      (∀ f ∈ o.presets, h.present (presetFile h f) = true ∧ h.read (presetFile h f) ≠ none) ∧
      launch h (addSelf h l) [] [] = .ok ([], st)) := by
  rw [execute] at he
  split at he
  · simp only [Except.ok.injEq, Prod.mk.injEq] at he
    obtain ⟨rfl, rfl⟩ := he
    exact .inl ⟨by simp, rfl⟩
  rename_i mp hmp
  split at he
  · rename_i cs hc
    simp only [Except.ok.injEq, Prod.mk.injEq] at he
    obtain ⟨rfl, rfl⟩ := he
    refine .inl ⟨?_, rfl⟩
    rw [readConfig] at hc
    split at hc
    · simp at hc
    · split at hc
      · simp at hc
      · obtain rfl := Except.error.inj hc
        simp
  rename_i o ho
  have ho := readConfig_iff.1 ho
  split at he
  · simp at he
  · rename_i r hn
    simp only [Except.ok.injEq, Prod.mk.injEq] at he
    obtain ⟨rfl, rfl⟩ := he
    refine .inl ⟨?_, rfl⟩
    rw [new] at hn
    split at hn
    · simp only [Except.ok.injEq, Prod.mk.injEq] at hn
      rw [← hn.1]; simp
    · dsimp only at hn
      split at hn
      · simp at hn
      · split at hn
        · rename_i hr
          simp only [Except.ok.injEq, Prod.mk.injEq] at hn
          rw [← hn.1]; exact hr
        · simp at hn
  rename_i r l hn
  obtain ⟨rfl, hp, arma3, ha, hmade⟩ := new_ok hn
  dsimp only at he
  split at he
  · rename_i hq
    split at he
    · simp only [Except.ok.injEq, Prod.mk.injEq] at he
      obtain ⟨rfl, rfl⟩ := he
      exact .inl ⟨by simp, rfl⟩
    rename_i h1
    split at he
    · simp only [Except.ok.injEq, Prod.mk.injEq] at he
      obtain ⟨rfl, rfl⟩ := he
      exact .inl ⟨by simp, rfl⟩
    rename_i h2
    rcases launch_ok he with h' | ⟨rfl, -⟩
    · exact .inl h'
    · refine .inr ⟨rfl, o, arma3, l, ho, by simp [hmp], ha, hn, hmade, by simp [hq], fun _ => ⟨?_, mp, hmp, ?_⟩, hp, he⟩
      · simpa [ownPath] using h1
      · have e : (addSelf h l).arma3 = arma3 := hmade.arma3
        rw [e] at h2
        simpa using h2
  · rename_i hq
    split at he
    · simp at he
    rename_i errs hd
    split at he
    · rename_i hr
      simp only [Except.ok.injEq, Prod.mk.injEq] at he
      obtain ⟨rfl, rfl⟩ := he
      exact .inl ⟨hr, rfl⟩
    rename_i hr
    simp only [not_not, List.nil_append, List.map_eq_nil_iff] at hr
    subst hr
    rcases launch_ok he with h' | ⟨rfl, -⟩
    · exact .inl h'
    · exact .inr ⟨rfl, o, arma3, l, ho, by simp [hmp], ha, hn, hmade, fun _ => hd, by simp [hq], hp, he⟩

/-- Either an error is reported or the game is started, never both. -/
theorem C83_either (h : Host) (p : Project) (a : Args) (dev : List Bytes → Bool → Bool → Except Stop (List Nat))
    (codes : List Code) (st : List Started) (he : execute h p a dev = .ok (codes, st)) : codes = [] ↔ st ≠ [] := by
  rcases execute_ok he with ⟨h1, h2⟩ | ⟨h1, o, arma3, l, -, -, -, -, -, -, -, -, hl⟩
  · simp [h1, h2]
  · simp only [h1, true_iff]
    rcases launch_ok hl with h' | ⟨-, -, ms, mission, -, -, hs⟩
    · simp at h'
    · exact (startAll_ne hs).1

theorem mem_addSelf {h : Host} (hw : h.target = .windows) {a : Args} {o : Options} {arma3 : Bytes} {l : Plan}
    (hm : Made h a o arma3 l) {id : Bytes} : id ∈ (addSelf h l).workshop ↔ Asked h o id ∨ id = ownPath h := by
  rw [addSelf]
  simp only [List.mem_append, hm.workshop, hw, reduceCtorEq, if_false, List.mem_singleton]
  rfl

theorem args_of_made {h : Host} {a : Args} {o : Options} {arma3 : Bytes} {l : Plan}
    (hm : Made h a o arma3 l) (ms mission : List Bytes) (hms : ∀ m, m ∈ ms ↔ LoadedMod h o arma3 m)
    (hmi : MissionArg h o.mission mission) :
    GameArgs h o a arma3 (if l.filePatching then planArgs l ms mission ++ [ascii "-filePatching"]
      else planArgs l ms mission) := by
  have hp : l.filePatching = true ↔ Patching o a := by
    rw [hm.patching, Patching]
    cases o.filePatching with
    | none => simp
    | some b => cases b <;> simp
  refine ⟨dedup (l.dlc.mergeSort fun a b => a ≤ b), sortDedup ms, mission,
    if l.filePatching then [ascii "-filePatching"] else [], ?_, ?_, (dlc_sorted _).2, ?_, ?_, hmi, ?_, ?_⟩
  · have : planArgs l ms mission = (dedup (l.dlc.mergeSort fun a b => a ≤ b)).map (fun d => ascii "-mod=\"" ++ dlcMod d
        ++ ascii "\"") ++ (sortDedup ms).map (fun m => ascii "-mod=\"" ++ m ++ ascii "\"") ++
        [ascii "-skipIntro", ascii "-noSplash", ascii "-showScriptErrors", ascii "-debug"] ++ o.parameters ++
        a.passthrough ++ mission := by
      rw [planArgs, hm.options]
      simp only [List.append_assoc, defaults]
      rfl
    rw [this]
    split <;> simp
  · intro d
    rw [(dlc_sorted _).1, hm.dlc]
  · intro m
    rw [sortDedup, mem_dedup, List.mem_mergeSort, hms]
  · exact dedup_sorted lexLe_antisymm _ (List.pairwise_mergeSort (fun a b c => lexLe_trans a b c)
      (fun a b => lexLe_total a b) _)
  · intro h'
    rw [if_pos (hp.2 h')]
  · intro h'
    rw [if_neg (fun h => h' (hp.1 h))]

/-- On Windows, if the game is started, everything was there, and the game is started as often as asked for, always
with the arguments of the configuration. -/
theorem C83_windows (h : Host) (p : Project) (a : Args) (dev : List Bytes → Bool → Bool → Except Stop (List Nat))
    (codes : List Code) (st : List Started) (hw : h.target = .windows)
    (he : execute h p a dev = .ok (codes, st)) (hst : st ≠ []) :
    ∃ o arma3, Ready h p a dev o arma3 ∧ st.length = count o a ∧ ∀ s ∈ st, GameArgs h o a arma3 s.args ∧
      s.program = (startWindows h arma3 (executable h o) []).program := by
  rcases execute_ok he with ⟨-, h2⟩ | ⟨-, o, arma3, l, ho, hmp, ha, -, hm, hb, hq, hp, hl⟩
  · exact absurd h2 hst
  rcases launch_ok hl with h' | ⟨-, -, ms, mission, hms, hmi, hs⟩
  · simp at h'
  have hne : (addSelf h l).workshop ≠ [] := by rw [addSelf]; simp
  obtain ⟨folder, hf, hpf, hme, hpr, hmem⟩ := mods_ok hne hms
  have earma : (addSelf h l).arma3 = arma3 := hm.arma3
  have einst : (addSelf h l).instances = count o a := hm.instances
  rw [earma] at hf
  have huniq : ∀ f', Workshop h arma3 f' → f' = folder := by
    rintro f' ⟨c', r', h1, h2, rfl⟩
    obtain ⟨c, r, h3, h4, rfl⟩ := hf
    rw [h1] at h3
    obtain rfl := Option.some.inj h3
    rw [h2] at h4
    obtain rfl := Option.some.inj h4
    rfl
  have hload : ∀ m, m ∈ ms ↔ LoadedMod h o arma3 m := by
    intro m
    rw [hmem hw]
    simp only [mem_addSelf hw hm]
    constructor
    · rintro ⟨id, h1, h2, h3⟩; exact ⟨folder, id, hf, h1, h2, h3⟩
    · rintro ⟨f', id, h0, h1, h2, h3⟩
      rw [huniq f' h0] at h3
      exact ⟨id, h1, h2, h3⟩
  have hmi' : MissionArg h o.mission mission := by rw [← hm.mission]; exact hmi
  refine ⟨o, arma3, ⟨hmp, ho, ha, hp, hb, hq, ⟨folder, hf, hpf⟩, ?_, hme, ⟨mission, hmi'⟩, ?_⟩, ?_, ?_⟩
  · rintro m ⟨f', id, h0, h1, h2, rfl⟩
    rw [huniq f' h0]
    exact hpr id ((mem_addSelf hw hm).2 h1) h2
  · rw [← einst]; exact (startAll_ne hs).2
  · rw [← einst]; exact startAll_length hs
  · intro s hs'
    have hi := (startAll_ne hs).2
    rw [startAll_windows hw, if_neg hi] at hs
    obtain rfl := Except.ok.inj hs
    rw [List.eq_of_mem_replicate hs']
    refine ⟨args_of_made hm ms mission hload hmi', ?_⟩
    have eexe : (addSelf h l).executable = executable h o := hm.executable
    rw [earma, eexe]
    rfl

/-- On Windows the game is started if everything is there. -/
theorem C83_starts (h : Host) (p : Project) (a : Args) (dev : List Bytes → Bool → Bool → Except Stop (List Nat))
    (o : Options) (arma3 : Bytes) (hw : h.target = .windows) (hr : Ready h p a dev o arma3) :
    ∃ st, execute h p a dev = .ok ([], st) ∧ st ≠ [] := by
  obtain ⟨l, hn⟩ := new_total (a := a) hr.game hr.presets
  obtain ⟨-, -, arma3', ha', hm⟩ := new_ok hn
  obtain rfl : arma3 = arma3' := Option.some.inj (hr.game.symm.trans ha')
  obtain ⟨folder, hf, hpf⟩ := hr.workshop
  obtain ⟨mission, hmi⟩ := hr.mission
  have earma : (addSelf h l).arma3 = arma3 := hm.arma3
  obtain ⟨ms, hms⟩ := mods_total (l := addSelf h l) (by rw [earma]; exact hf) hpf hr.own (by
    intro id h1 h2
    exact hr.mods _ ⟨folder, id, hf, (mem_addSelf hw hm).1 h1, h2, rfl⟩)
  have hl := launch_total hms (mission := mission) (by rw [show (addSelf h l).mission = o.mission from hm.mission]; exact hmi)
  have hi : (addSelf h l).instances ≠ 0 := by
    rw [show (addSelf h l).instances = count o a from hm.instances]; exact hr.some
  rw [startAll_windows hw, if_neg hi] at hl
  dsimp only at hl
  refine ⟨List.replicate (addSelf h l).instances (startWindows h (addSelf h l).arma3 (addSelf h l).executable
    (if (addSelf h l).filePatching then planArgs (addSelf h l) ms mission ++ [ascii "-filePatching"]
      else planArgs (addSelf h l) ms mission)), ?_, ?_⟩
  · rw [execute]
    obtain ⟨mp, hmp⟩ := Option.ne_none_iff_exists'.1 hr.mainprefix
    rw [hmp]
    dsimp only
    rw [readConfig_iff.2 hr.chosen]
    dsimp only
    rw [hn]
    dsimp only
    cases hq : a.quick with
    | true =>
      obtain ⟨h1, mp', hmp', h2, h3⟩ := hr.quick hq
      rw [hmp] at hmp'
      obtain rfl := Option.some.inj hmp'
      rw [if_pos rfl, if_neg (by simpa [ownPath] using h1), if_neg (by rw [earma]; simp [h2, h3])]
      exact hl
    | false =>
      rw [if_neg (by decide), hr.built hq]
      dsimp only
      rw [if_neg (by simp)]
      exact hl
  · simp [hi]

/-! ### The program -/

theorem fileName_append {h : Host} {q y : Bytes} (hy : h.sep ∉ y) : h.fileName (q ++ y) = h.fileName q ++ y := by
  rw [Host.fileName, Host.fileName, List.reverse_append, List.takeWhile_append_of_pos (by
    intro c hc
    simp only [ne_eq, decide_not, Bool.not_eq_eq_eq_not, Bool.not_true, decide_eq_false_iff_not]
    rintro rfl
    exact hy (by simpa using hc))]
  simp

theorem fileName_ne {h : Host} {q : Bytes} (h1 : q ≠ []) (h2 : q.getLast? ≠ some h.sep) : h.fileName q ≠ [] := by
  obtain ⟨q', c, rfl⟩ := List.eq_nil_or_concat q |>.resolve_left h1
  rw [Host.fileName]
  have hc : c ≠ h.sep := by rintro rfl; simp at h2
  simp [hc]

theorem fileName_suffix {h : Host} {q : Bytes} : ∃ d, q = d ++ h.fileName q := by
  refine ⟨(q.reverse.dropWhile fun c => c ≠ h.sep).reverse, ?_⟩
  rw [Host.fileName, ← List.reverse_append, List.takeWhile_append_dropWhile, List.reverse_reverse]

theorem before_dot {n x : Bytes} (hx : 46 ∉ x) :
    ((n ++ 46 :: x).reverse.dropWhile fun c => c ≠ 46).drop 1 = n.reverse ∧
      ((n ++ 46 :: x).reverse.takeWhile fun c => c ≠ 46).reverse = x := by
  have hall : ∀ c ∈ x.reverse, decide (c ≠ 46) = true := by
    intro c hc
    simp only [ne_eq, decide_not, Bool.not_eq_eq_eq_not, Bool.not_true, decide_eq_false_iff_not]
    rintro rfl
    exact hx (by simpa using hc)
  have e : (n ++ 46 :: x).reverse = x.reverse ++ 46 :: n.reverse := by simp
  rw [e, List.dropWhile_append_of_pos hall, List.takeWhile_append_of_pos hall]
  simp

theorem extension_dot {n x : Bytes} (hn : n ≠ []) (hx : 46 ∉ x) : extension (n ++ 46 :: x) = some x := by
  rw [extension, (before_dot hx).1, if_neg (by simpa using hn), (before_dot hx).2]

theorem extension_some {name x : Bytes} (h : extension name = some x) : ∃ n, name = n ++ 46 :: x := by
  rw [extension] at h
  split at h
  · simp at h
  rename_i hn
  obtain rfl := Option.some.inj h
  have e := List.takeWhile_append_dropWhile (p := fun c : UInt8 => decide (c ≠ 46)) (l := name.reverse)
  cases hd : name.reverse.dropWhile (fun c : UInt8 => decide (c ≠ 46)) with
  | nil => rw [hd] at hn; simp at hn
  | cons c l =>
    have hc : c = 46 := by
      have h1 : (name.reverse.dropWhile (fun c : UInt8 => decide (c ≠ 46))) ≠ [] := by rw [hd]; simp
      have := List.head_dropWhile_not (fun c : UInt8 => decide (c ≠ 46)) h1
      simp only [hd, List.head_cons] at this
      simpa using this
    refine ⟨l.reverse, ?_⟩
    rw [hd, hc] at e
    have := congrArg List.reverse e
    rw [List.reverse_reverse] at this
    conv_lhs => rw [← this]
    simp only [List.reverse_append, List.reverse_cons, List.append_assoc, List.singleton_append]

theorem withExtension_dot {h : Host} {q x ext : Bytes} (h1 : q ≠ []) (h2 : q.getLast? ≠ some h.sep)
    (h3 : h.sep ∉ 46 :: x) (h4 : 46 ∉ x) : h.withExtension (q ++ 46 :: x) ext = q ++ 46 :: ext := by
  rw [Host.withExtension, fileName_append h3, stem]
  rw [(before_dot h4).1, if_neg (by simpa using fileName_ne h1 h2), List.reverse_reverse]
  obtain ⟨d, hd⟩ := fileName_suffix (h := h) (q := q)
  have e : q ++ 46 :: x = d ++ (h.fileName q ++ 46 :: x) := by
    conv_lhs => rw [hd]
    simp
  rw [e, show (d ++ (h.fileName q ++ 46 :: x)).length - (h.fileName q ++ 46 :: x).length = d.length by simp,
    List.take_left' rfl, ← hd]

theorem lower_exe {x : Bytes} (h : lowerB x = ascii "exe") : ∀ c ∈ x, c = 101 ∨ c = 120 ∨ c = 69 ∨ c = 88 := by
  intro c hc
  have h1 : (if 65 ≤ c ∧ c ≤ 90 then c + 32 else c) ∈ ascii "exe" := by
    rw [← h, lowerB]; exact List.mem_map_of_mem hc
  have h2 : ∀ c : UInt8, (if 65 ≤ c ∧ c ≤ 90 then c + 32 else c) ∈ ascii "exe" →
      c = 101 ∨ c = 120 ∨ c = 69 ∨ c = 88 := by
    have : ∀ n : Fin 256, (if 65 ≤ UInt8.ofNat n ∧ UInt8.ofNat n ≤ 90 then UInt8.ofNat n + 32 else UInt8.ofNat n) ∈
        ascii "exe" → UInt8.ofNat n = 101 ∨ UInt8.ofNat n = 120 ∨ UInt8.ofNat n = 69 ∨ UInt8.ofNat n = 88 := by
      decide +kernel
    intro c
    have := this ⟨c.toNat, c.toNat_lt⟩
    simpa using this
  exact h2 c h1

/-- The program is the one that the configuration names, with `.exe` behind it, in the folder of the game. -/
theorem C83_program (h : Host) (o : Options) (arma3 q : Bytes) (hs : h.sep = 47 ∨ h.sep = 92)
    (hq : ProgramName o q) (h1 : q ≠ []) (h2 : q.getLast? ≠ some h.sep) (h3 : ∀ x, h.absolute (q ++ x) = false)
    (args : List Bytes) : (startWindows h arma3 (executable h o) args).program = h.join arma3 (q ++ ascii ".exe") := by
  have key : ∀ x, lowerB x = ascii "exe" → h.sep ∉ 46 :: x ∧ 46 ∉ x := by
    intro x hx
    have := lower_exe hx
    constructor
    · intro hm
      rcases List.mem_cons.1 hm with hm | hm
      · rcases hs with hs | hs <;> rw [hs] at hm <;> revert hm <;> decide
      · have := this _ hm
        rcases hs with hs | hs <;> rw [hs] at this <;> revert this <;> decide
    · intro hm
      have := this _ hm
      revert this
      decide
  have prog : ∀ x, lowerB x = ascii "exe" →
      (startWindows h arma3 (q ++ 46 :: x) args).program = h.join arma3 (q ++ ascii ".exe") := by
    intro x hx
    obtain ⟨k1, k2⟩ := key x hx
    rw [startWindows]
    dsimp only
    have hj : ∀ y, h.join arma3 (q ++ y) =
        if arma3 = [] ∨ arma3.getLast? = some h.sep then arma3 ++ (q ++ y) else arma3 ++ h.sep :: (q ++ y) := by
      intro y
      rw [Host.join, if_neg (by simp [h3])]
    rw [if_neg (by simp [h3]), hj, hj]
    have e : ∀ z : Bytes, h.withExtension (z ++ q ++ 46 :: x) (ascii "exe") = z ++ q ++ ascii ".exe" := by
      intro z
      rw [withExtension_dot (by simp [h1]) _ k1 k2]
      · rfl
      · rw [List.getLast?_append]
        cases hc : q.getLast? with
        | none => exact absurd (List.getLast?_eq_none_iff.1 hc) h1
        | some c => rw [hc] at h2; exact h2
    split
    · have := e arma3
      simp only [List.append_assoc] at this
      exact this
    · have := e (arma3 ++ [h.sep])
      simp only [List.append_assoc, List.cons_append, List.nil_append] at this
      exact this
  have ext : ∀ x, lowerB x = ascii "exe" → (extension (h.fileName (q ++ 46 :: x))).map lowerB = some (ascii "exe") := by
    intro x hx
    rw [fileName_append (key x hx).1, extension_dot (fileName_ne h1 h2) (key x hx).2]
    simp [hx]
  rw [executable]
  rcases hq with ⟨x, hx, hl⟩ | ⟨rfl, hno⟩
  · rw [hx, if_pos (ext x hl)]
    exact prog x hl
  · rw [if_neg]
    · exact prog (ascii "exe") (by decide)
    · intro he
      obtain ⟨x, hx, hl⟩ := Option.map_eq_some_iff.1 he
      obtain ⟨n, hn⟩ := extension_some hx
      obtain ⟨d, hd⟩ := fileName_suffix (h := h) (q := o.executable.getD (ascii "arma3_x64"))
      rw [hn] at hd
      exact hno ⟨d ++ n, x, by rw [List.append_assoc]; exact hd, hl⟩

/-- On Windows the project itself is among the mods of every game that is started. -/
theorem C83_own (h : Host) (p : Project) (a : Args) (dev : List Bytes → Bool → Bool → Except Stop (List Nat))
    (codes : List Code) (st : List Started) (hw : h.target = .windows)
    (habs : h.absolute (ownPath h) = true) (he : execute h p a dev = .ok (codes, st)) :
    ∀ s ∈ st, ascii "-mod=\"" ++ ownPath h ++ ascii "\"" ∈ s.args := by
  intro s hs
  obtain ⟨o, arma3, hr, -, hall⟩ := C83_windows h p a dev codes st hw he (List.ne_nil_of_mem hs)
  obtain ⟨⟨dlcs, ms, mission, fp, hargs, -, -, hms, -⟩, -⟩ := hall s hs
  have hmem : ownPath h ∈ ms := by
    rw [hms]
    obtain ⟨folder, hf, -⟩ := hr.workshop
    refine ⟨folder, ownPath h, hf, .inr rfl, ?_, ?_⟩
    · rintro ⟨-, t, -, hp⟩
      have hn := hp.number
      have : (118 : UInt8) ∈ ownPath h := by
        rw [ownPath, Host.join]
        repeat' split
        · decide
        · exact List.mem_append_right _ (by decide)
        · exact List.mem_append_right _ (List.mem_cons_of_mem _ (by decide))
      exact absurd (hn.2 _ this).2 (by decide)
    · rw [Host.join, if_pos habs]
  rw [hargs]
  simp only [List.append_assoc]
  exact List.mem_append_right _ (List.mem_append_left _ (List.mem_map.2 ⟨_, hmem, rfl⟩))

/-! ### What does not hold -/

/-- The program named on the command line is not used, `--executable` changes nothing. -/
theorem C83_violated_executable (h : Host) (p : Project) (a : Args)
    (dev : List Bytes → Bool → Bool → Except Stop (List Nat)) (e : Option Bytes) :
    execute h p { a with executable := e } dev = execute h p a dev := rfl

/-- Other systems than Windows: with one game `-filePatching` is never given, whatever the configuration says. -/
theorem C83_violated_patching (h : Host) (l : Plan) (args : List Bytes) (r : List Code) (b : Bool)
    (ht : h.target ≠ .windows) (hi : l.instances = 1) :
    launch h { l with filePatching := b } args r = launch h l args r := by
  have hs : ∀ args, startAll h { l with filePatching := b } args = startAll h l args := by
    intro args
    rw [startAll, startAll]
    simp only [hi, ht, if_true, if_false]
  have hm : mods h { l with filePatching := b } = mods h l := rfl
  rw [launch, launch, hm]
  simp only [hs]

/-- On Linux the game is not started: the path of the project is looked up in the folder of the workshop. -/
theorem C83_violated_linux (h : Host) (p : Project) (a : Args)
    (dev : List Bytes → Bool → Bool → Except Stop (List Nat)) (ht : h.target = .linux)
    (hno : ∀ folder, h.present (h.join folder (ascii "Z:" ++ ownPath h)) = false)
    (codes : List Code) (st : List Started) (he : execute h p a dev = .ok (codes, st)) : codes ≠ [] ∧ st = [] := by
  rcases execute_ok he with h' | ⟨-, o, arma3, l, -, -, -, -, -, -, -, -, hl⟩
  · exact h'
  rcases launch_ok hl with h' | ⟨-, -, ms, mission, hms, -, -⟩
  · simp at h'
  have hmem : ascii "Z:" ++ ownPath h ∈ (addSelf h l).workshop := by
    rw [addSelf]; simp [ht, ownPath]
  obtain ⟨folder, -, -, -, hpr, -⟩ := mods_ok (List.ne_nil_of_mem hmem) hms
  have := hpr _ hmem (by
    rintro ⟨-, t, -, hp⟩
    exact absurd (hp.number.2 90 (List.mem_append_left _ (by decide))).2 (by decide))
  rw [hno folder] at this
  simp at this

/-- Other systems than Windows: what is started is Steam, through `flatpak` where Steam was installed by it, as often as
asked for, and it is told the number of the game and hands on the parameters that are always given, those of the
configuration and those behind `--`, with a mission behind them. -/
theorem C83_steam (h : Host) (p : Project) (a : Args)
    (dev : List Bytes → Bool → Bool → Except Stop (List Nat)) (ht : h.target ≠ .windows)
    (codes : List Code) (st : List Started) (he : execute h p a dev = .ok (codes, st)) (hst : st ≠ []) :
    ∃ o pre mission fp, Chosen p a o ∧ st.length = count o a ∧ MissionArg h o.mission mission ∧
      (fp = [] ∨ fp = [ascii "-filePatching"]) ∧ (∀ x ∈ pre, ∃ m, x = ascii "-mod=\"" ++ m ++ ascii "\"") ∧
      ∀ s ∈ st, ∃ flat, h.flatpak = some flat ∧
        s.program = (if flat then ascii "flatpak" else ascii "steam") ∧
        s.args = (if flat then [ascii "run", ascii "com.valvesoftware.Steam"] else []) ++
          [ascii "-applaunch", ascii "107410", ascii "-nolauncher"] ++ pre ++
          [ascii "-skipIntro", ascii "-noSplash", ascii "-showScriptErrors", ascii "-debug"] ++
          o.parameters ++ a.passthrough ++ mission ++ fp := by
  rcases execute_ok he with ⟨-, h2⟩ | ⟨-, o, arma3, l, ho, -, -, -, hm, -, -, -, hl⟩
  · exact absurd h2 hst
  rcases launch_ok hl with h' | ⟨-, -, ms, mission, -, hmi, hs⟩
  · simp at h'
  have key : ∀ (fp : List Bytes) (s : Started), startLinux h (planArgs (addSelf h l) ms mission ++ fp) = .ok s →
      ∃ flat, h.flatpak = some flat ∧
        s.program = (if flat then ascii "flatpak" else ascii "steam") ∧
        s.args = (if flat then [ascii "run", ascii "com.valvesoftware.Steam"] else []) ++
          [ascii "-applaunch", ascii "107410", ascii "-nolauncher"] ++
          (((dedup (l.dlc.mergeSort fun a b => a ≤ b)).map fun d => modArg (dlcMod d)) ++ (sortDedup ms).map modArg) ++
          [ascii "-skipIntro", ascii "-noSplash", ascii "-showScriptErrors", ascii "-debug"] ++
          o.parameters ++ a.passthrough ++ mission ++ fp := by
    intro fp s hs
    have e : (addSelf h l).options = defaults ++ o.parameters ++ a.passthrough := hm.options
    have e2 : (addSelf h l).dlc = l.dlc := rfl
    rw [startLinux] at hs
    rw [planArgs, e, e2, defaults] at hs
    split at hs
    · simp at hs
    · rename_i hf
      obtain rfl := Except.ok.inj hs
      exact ⟨true, hf, rfl, by simp⟩
    · rename_i hf
      obtain rfl := Except.ok.inj hs
      exact ⟨false, hf, rfl, by simp⟩
  have epre : ∀ x ∈ ((dedup (l.dlc.mergeSort fun a b => a ≤ b)).map fun d => modArg (dlcMod d)) ++
      (sortDedup ms).map modArg, ∃ m, x = ascii "-mod=\"" ++ m ++ ascii "\"" := by
    intro x hx
    rcases List.mem_append.1 hx with hx | hx
    · obtain ⟨d, -, rfl⟩ := List.mem_map.1 hx; exact ⟨_, rfl⟩
    · obtain ⟨d, -, rfl⟩ := List.mem_map.1 hx; exact ⟨_, rfl⟩
  have hlen : st.length = count o a := by
    rw [← show (addSelf h l).instances = count o a from hm.instances]; exact startAll_length hs
  have hmi' : MissionArg h o.mission mission := by
    rw [← show (addSelf h l).mission = o.mission from hm.mission]; exact hmi
  rw [startAll] at hs
  simp only [ht, if_false] at hs
  split at hs
  · split at hs
    · simp at hs
    · rename_i s hs'
      obtain rfl := Except.ok.inj hs
      refine ⟨o, _, mission, [], ho, hlen, hmi', .inl rfl, epre, fun s hs => ?_⟩
      obtain rfl := List.mem_singleton.1 hs
      exact key [] _ (by rw [List.append_nil]; exact hs')
  · split at hs
    · simp at hs
    · split at hs
      · simp at hs
      · rename_i s hs'
        obtain rfl := Except.ok.inj hs
        split at hs'
        · refine ⟨o, _, mission, [ascii "-filePatching"], ho, hlen, hmi', .inr rfl, epre, fun s hs => ?_⟩
          rw [List.eq_of_mem_replicate hs]
          exact key _ _ hs'
        · refine ⟨o, _, mission, [], ho, hlen, hmi', .inl rfl, epre, fun s hs => ?_⟩
          rw [List.eq_of_mem_replicate hs]
          exact key [] _ (by rw [List.append_nil]; exact hs')

/-- Other systems than Windows: where `flatpak` is not installed no game is started. -/
theorem C83_violated_flatpak (h : Host) (p : Project) (a : Args)
    (dev : List Bytes → Bool → Bool → Except Stop (List Nat)) (ht : h.target ≠ .windows) (hf : h.flatpak = none)
    (codes : List Code) (st : List Started) (he : execute h p a dev = .ok (codes, st)) : st = [] := by
  rcases execute_ok he with h' | ⟨-, o, arma3, l, -, -, -, -, -, -, -, -, hl⟩
  · exact h'.2
  rcases launch_ok hl with h' | ⟨-, -, ms, mission, -, -, hs⟩
  · simp at h'
  exfalso
  rw [startAll] at hs
  simp only [ht, if_false, startLinux, hf] at hs
  split at hs
  · simp at hs
  · split at hs <;> simp at hs

theorem new_instances {h : Host} {a : Args} {o : Options} {n : Nat} {l : Plan} {r : List Code}
    (he : new h a o = .ok (r, some l)) :
    new h { a with instances := some n } o = .ok (r, some { l with instances := n }) := by
  have gen : ∀ (ps : List Bytes) (l l' : Plan) (r r' : List Code), addPresets h ps l r = .ok (l', r') →
      addPresets h ps { l with instances := n } r = .ok ({ l' with instances := n }, r') := by
    intro ps
    induction ps with
    | nil =>
      intro l l' r r' he
      simp only [addPresets, Except.ok.injEq, Prod.mk.injEq] at he ⊢
      exact ⟨by rw [he.1], he.2⟩
    | cons f ps ih =>
      intro l l' r r' he
      rw [addPresets, addPreset] at he ⊢
      dsimp only at he ⊢
      split at he
      · simp at he
      · rename_i h1
        split at h1
        · rename_i h2
          rw [if_pos h2]
          simp only [Except.ok.injEq, Prod.mk.injEq] at h1
          obtain ⟨rfl, rfl⟩ := h1
          exact ih _ _ _ _ he
        · rename_i h2
          rw [if_neg h2]
          split at h1
          · simp at h1
          · simp only [Except.ok.injEq, Prod.mk.injEq] at h1
            obtain ⟨rfl, rfl⟩ := h1
            exact ih _ _ _ _ he
  rw [new] at he ⊢
  cases ha : h.arma3 with
  | none => rw [ha] at he; simp at he
  | some arma3 =>
    rw [ha] at he
    dsimp only at he ⊢
    split at he
    · simp at he
    rename_i l' r' hl
    have := gen _ _ _ _ _ hl
    dsimp only at this
    rw [Option.getD_some, this]
    dsimp only
    split at he
    · simp at he
    rename_i hr
    rw [if_neg hr]
    simp only [Except.ok.injEq, Prod.mk.injEq, Option.some.injEq] at he ⊢
    exact ⟨he.1, by rw [he.2]⟩

/-- Asked for no games the program aborts where it would start one. -/
theorem C83_violated_zero (h : Host) (p : Project) (a : Args)
    (dev : List Bytes → Bool → Bool → Except Stop (List Nat)) (codes : List Code) (st : List Started)
    (he : execute h p a dev = .ok (codes, st)) (hst : st ≠ []) :
    execute h p { a with instances := some 0 } dev = .error .panic := by
  rcases execute_ok he with h' | ⟨-, o, arma3, l, ho, hmp, ha, hn, hm, hb, hq, hp, hl⟩
  · exact absurd h'.2 hst
  rcases launch_ok hl with h' | ⟨-, -, ms, mission, hms, hmi, hs⟩
  · simp at h'
  have hl' : launch h { addSelf h l with instances := 0 } [] [] = .error .panic := by
    rw [launch_total (l := { addSelf h l with instances := 0 }) (ms := ms) (mission := mission) hms hmi]
    simp [startAll]
  obtain ⟨mp, hmp⟩ := Option.ne_none_iff_exists'.1 hmp
  rw [execute, hmp]
  dsimp only
  rw [readConfig_iff.2 ho]
  dsimp only
  rw [new_instances hn]
  dsimp only
  have earma : l.arma3 = arma3 := hm.arma3
  cases hqq : a.quick with
  | true =>
    obtain ⟨h1, mp', hmp', h2, h3⟩ := hq hqq
    rw [hmp] at hmp'
    obtain rfl := Option.some.inj hmp'
    rw [if_pos rfl, if_neg (by simpa [ownPath] using h1), if_neg (by simp [addSelf, earma, h2, h3])]
    exact hl'
  | false =>
    rw [if_neg (by decide), hb hqq]
    dsimp only
    rw [if_neg (by simp)]
    exact hl'

/-! ### Cases -/

/-- A preset with a mod, the same mod again, another one, a link to another page and a DLC. -/
def sampleHtml : Bytes := ascii ("<a href=\"http://steamcommunity.com/sharedfiles/filedetails/?id=450814997\">CBA</a>" ++
  "<a href=\"https://steamcommunity.com/sharedfiles/filedetails/?id=450814997\">CBA</a>" ++
  "<a href=\"https://steamcommunity.com/sharedfiles/filedetails/?id=333310405\">e</a>" ++
  "<a href=\"https://steamcommunity.com/id/77\">me</a>" ++
  "<a href=\"https://store.steampowered.com/app/1681170\">ws</a>")

example : readPreset sampleHtml = ([ascii "450814997", ascii "333310405"], [4]) := by decide +kernel

/-- A link at position 3. -/
example : LinkAt modPage (ascii "<a href=\"http://steamcommunity.com/sharedfiles/filedetails/?id=45\">") 3 (ascii "45") :=
  ⟨ascii "<a ", [], ascii ">", rfl, .inl rfl, ⟨by decide, by decide⟩, by decide +kernel⟩

/-- A system with the game, the preset `main`, the mods of the preset and a mission. -/
def sampleHost : Host where
  target := .windows
  absolute p := match p with
    | _ :: 58 :: _ => true
    | _ => false
  sep := 47
  parent p :=
    if p = ascii "C:/steam/common/Arma 3" then some (ascii "C:/steam/common")
    else if p = ascii "C:/steam/common" then some (ascii "C:/steam") else none
  present p := p ∈ [ascii "C:/mod/.hemtt/presets/main.html", ascii "C:/steam/workshop/content/107410",
    ascii "C:/steam/workshop/content/107410/450814997", ascii "C:/steam/workshop/content/107410/333310405",
    ascii "C:/mod/.hemttout/dev", ascii "C:/mod/meta.cpp", ascii "C:/mod/.hemtt/presets/v1.html"]
  isFile p := p = ascii "C:/mod/.hemtt/missions/test.VR/mission.sqm"
  read p :=
    if p = ascii "C:/mod/.hemtt/presets/main.html" then some sampleHtml
    else if p = ascii "C:/mod/meta.cpp" then some (ascii "protocol = 1;\npublishedid = 463939057;") else none
  cwd := ascii "C:/mod"
  arma3 := some (ascii "C:/steam/common/Arma 3")
  flatpak := none

/-- A configuration that asks for a DLC twice, for the mod itself and for one of the mods of its preset. -/
def sampleOptions : Options where
  workshop := [ascii "463939057", ascii "333310405"]
  dlc := [4, 1]
  presets := [ascii "main"]
  parameters := [ascii "-world=empty"]
  mission := some (ascii "test.VR")

/-- A project with that configuration. -/
def sampleProject : Project where
  mainprefix := some (ascii "z")
  name := ascii "abe"
  launch k := if k = ascii "default" then some sampleOptions else none

/-- The mods that are loaded: not the one with the number of the project. -/
example : mods sampleHost ⟨[], [], [ascii "463939057", ascii "333310405"], [], ascii "C:/steam/common/Arma 3", none, 1,
      true⟩ =
    .ok ([ascii "C:/steam/workshop/content/107410/333310405"], []) := by decide +kernel

/-- The report and the number of games and their programs. -/
def sampleResult (r : Except Stop (List Code × List Started)) : Option (List Code × List Bytes) :=
  match r with
  | .ok (codes, st) => some (codes, st.map Started.program)
  | .error _ => none

/-- Two games are started. -/
theorem sample_starts : sampleResult (execute sampleHost sampleProject
      { passthrough := [ascii "-window"], instances := some 2 } (fun _ _ _ => .ok [])) =
    some ([], List.replicate 2 (ascii "C:/steam/common/Arma 3/arma3_x64.exe")) := by
  decide +kernel

/-- With the arguments that the claim describes. -/
example : ∃ st o arma3, execute sampleHost sampleProject { passthrough := [ascii "-window"], instances := some 2 }
    (fun _ _ _ => .ok []) = .ok ([], st) ∧ st.length = 2 ∧
    ∀ s ∈ st, GameArgs sampleHost o { passthrough := [ascii "-window"], instances := some 2 } arma3 s.args := by
  have h := sample_starts
  cases he : execute sampleHost sampleProject { passthrough := [ascii "-window"], instances := some 2 }
    (fun _ _ _ => .ok []) with
  | error e => rw [he] at h; simp [sampleResult] at h
  | ok r =>
    obtain ⟨codes, st⟩ := r
    rw [he] at h
    simp only [sampleResult, Option.some.injEq, Prod.mk.injEq] at h
    obtain ⟨rfl, h2⟩ := h
    have hl : st.length = 2 := by simpa using congrArg List.length h2
    obtain ⟨o, arma3, -, -, hall⟩ := C83_windows _ _ _ _ _ _ rfl he (by rintro rfl; simp at hl)
    exact ⟨st, o, arma3, rfl, hl, fun s hs => (hall s hs).1⟩

/-- A missing mod is reported and nothing is started. -/
example : execute sampleHost { sampleProject with launch := fun _ => some { workshop := [ascii "1"] } } {}
    (fun _ _ _ => .ok []) = .ok ([.modNotFound (ascii "1")], []) := by decide +kernel

/-- No games: the program aborts. -/
example : execute sampleHost sampleProject { instances := some 0 } (fun _ _ _ => .ok []) = .error .panic := by
  decide +kernel

/-- The preset `v1.2` is read from the file of `v1`. -/
theorem C84_violated_dot :
    presetFile sampleHost (ascii "v1.2") = ascii "C:/mod/.hemtt/presets/v1.html" ∧
    presetFile sampleHost (ascii "v1.2") = presetFile sampleHost (ascii "v1.3") := by
  decide +kernel

/-- A system with Linux where all else is there. -/
def linuxHost : Host where
  target := .linux
  absolute p := p.head? = some 47
  sep := 47
  parent p := if p = ascii "/s/common/Arma 3" then some (ascii "/s/common")
    else if p = ascii "/s/common" then some (ascii "/s") else none
  present p := p ∈ [ascii "/s/workshop/content/107410", ascii "/s/workshop/content/107410/450814997", ascii "/m/.hemttout/dev"]
  isFile _ := false
  read _ := none
  cwd := ascii "/m"
  arma3 := some (ascii "/s/common/Arma 3")
  flatpak := some false

example : execute linuxHost { sampleProject with launch := fun _ => none } {} (fun _ _ _ => .ok []) =
    .ok ([.modNotFound (ascii "Z:/m/.hemttout/dev")], []) := by decide +kernel

/-- Another system, the parameters lack `-filePatching`. -/
example : execute { linuxHost with target := .other } { sampleProject with launch := fun _ => none } {}
    (fun _ _ _ => .ok []) = .ok ([], [⟨ascii "steam", [ascii "-applaunch", ascii "107410", ascii "-nolauncher",
      ascii "-mod=\"Z:/m/.hemttout/dev\""] ++ defaults⟩]) := by decide +kernel

/-- The same where Steam came by `flatpak`, with two games. -/
example : execute { linuxHost with target := .other, flatpak := some true } { sampleProject with launch := fun _ => none }
    { instances := some 2, passthrough := [ascii "-window"] } (fun _ _ _ => .ok []) =
    .ok ([], List.replicate 2 ⟨ascii "flatpak", [ascii "run", ascii "com.valvesoftware.Steam", ascii "-applaunch",
      ascii "107410", ascii "-nolauncher", ascii "-mod=\"Z:/m/.hemttout/dev\""] ++ defaults ++
      [ascii "-window", ascii "-filePatching"]⟩) := by decide +kernel

/-- Such a system without `flatpak`. -/
example : execute { linuxHost with target := .other, flatpak := none } { sampleProject with launch := fun _ => none } {}
    (fun _ _ _ => .ok []) = .error .io := by decide +kernel

example : ProgramName { executable := some (ascii "arma3.EXE") } (ascii "arma3") :=
  .inl ⟨ascii "EXE", by decide +kernel, by decide +kernel⟩

end Verif.Launcher
