import Verif.Lib.Preset
import Verif.Props.Launch
/-!
Starting the game: lemmas for C83.
-/
namespace Verif.Launcher
open Verif.Launch hiding Stop

/-! ### `meta.cpp` -/

theorem isSpace_iff {c : UInt8} : isSpace c = true ↔ c = 32 ∨ (9 ≤ c ∧ c ≤ 13) := by simp [isSpace]

theorem dropWhile_space {u : Bytes} (h : ∀ c ∈ u, c = 32 ∨ (9 ≤ c ∧ c ≤ 13)) (c : UInt8) (b : Bytes)
    (hc : isSpace c = false) : (u ++ c :: b).dropWhile isSpace = c :: b := by
  rw [List.dropWhile_append_of_pos fun x hx => isSpace_iff.2 (h x hx)]
  simp [hc]

theorem publishedAt_iff {t id : Bytes} : publishedAt t = some id ↔ PublishedAt t [] id := by
  constructor
  · intro h
    rw [publishedAt] at h
    split at h
    · simp at h
    rename_i s hs
    split at h
    · simp at h
    rename_i s' hs'
    dsimp only at h
    split at h
    · rename_i d ds rest h1 h2
      obtain rfl := Option.some.inj h
      rw [strip_eq] at hs hs'
      refine ⟨s.takeWhile isSpace, s'.takeWhile isSpace, rest, ?_, ⟨by simp, ?_⟩, ?_⟩
      · intro c hc
        rcases List.mem_append.1 hc with hc | hc
        · exact isSpace_iff.1 (List.all_eq_true.1 (List.all_takeWhile (p := isSpace) (l := s)) c hc)
        · exact isSpace_iff.1 (List.all_eq_true.1 (List.all_takeWhile (p := isSpace) (l := s')) c hc)
      · intro c hc
        rw [← h1] at hc
        exact isDigit_iff.1 (List.all_eq_true.1 List.all_takeWhile c hc)
      · have e1 := List.takeWhile_append_dropWhile (p := isSpace) (l := s)
        have e2 := List.takeWhile_append_dropWhile (p := isSpace) (l := s')
        have e3 := List.takeWhile_append_dropWhile (p := isDigit) (l := s'.dropWhile isSpace)
        rw [h1, h2] at e3
        rw [← e3] at e2
        rw [hs', ← e2] at e1
        rw [hs]
        conv_lhs => rw [← e1]
        simp only [List.append_assoc, List.nil_append]
        rfl
    · simp at h
  · rintro ⟨u, v, b, hs, hn, rfl⟩
    obtain ⟨c, ds, hid⟩ : ∃ c ds, id = c :: ds := by
      cases id with
      | nil => exact absurd rfl hn.1
      | cons c ds => exact ⟨c, ds, rfl⟩
    have h1 : strip (ascii "publishedid") ([] ++ ascii "publishedid" ++ u ++ ascii "=" ++ v ++ id ++ ascii ";" ++ b) =
        some (u ++ 61 :: (v ++ (id ++ 59 :: b))) := by
      rw [strip_eq]; simp only [List.append_assoc, List.nil_append]; rfl
    have h2 := dropWhile_space (u := u) (fun c hc => hs c (List.mem_append_left _ hc)) 61 (v ++ (id ++ 59 :: b))
      (by decide)
    have h3 : strip (ascii "=") (61 :: (v ++ (id ++ 59 :: b))) = some (v ++ (id ++ 59 :: b)) := strip_eq.2 rfl
    have h4 : (v ++ (id ++ 59 :: b)).dropWhile isSpace = id ++ 59 :: b := by
      rw [hid]
      apply dropWhile_space (fun c hc => hs c (List.mem_append_right _ hc))
      have := hn.2 c (by rw [hid]; simp)
      rw [Bool.eq_false_iff, Ne, isSpace_iff]
      rintro (rfl | hc)
      · exact absurd this.1 (by decide)
      · exact absurd (Nat.le_trans this.1 hc.2) (by decide)
    have h5 := takeWhile_number hn 59 b (by decide)
    rw [publishedAt, h1]
    dsimp only
    rw [h2, h3]
    dsimp only
    rw [h4, h5.1, h5.2, hid]
    rfl

theorem publishedAt_cons {c : UInt8} {t a id : Bytes} {d : UInt8} :
    PublishedAt (c :: t) (d :: a) id ↔ c = d ∧ PublishedAt t a id := by
  constructor
  · rintro ⟨u, v, b, h1, h2, h3⟩
    simp only [List.cons_append, List.cons.injEq] at h3
    exact ⟨h3.1, u, v, b, h1, h2, h3.2⟩
  · rintro ⟨rfl, u, v, b, h1, h2, h3⟩
    exact ⟨u, v, b, h1, h2, by rw [h3]; rfl⟩

theorem not_publishedAt_nil {a id : Bytes} : ¬ PublishedAt [] a id := by
  rintro ⟨u, v, b, h1, h2, h3⟩
  have := congrArg List.length h3
  simp only [List.length_append, List.length_nil] at this
  have h1 : (ascii ";").length = 1 := rfl
  omega

theorem published_iff {t id : Bytes} : published t = some id ↔ Published t id := by
  induction t with
  | nil =>
    simp only [published]
    constructor
    · intro h; simp at h
    · rintro ⟨a, h, -⟩; exact absurd h not_publishedAt_nil
  | cons c t ih =>
    rw [published]
    cases hp : publishedAt (c :: t) with
    | some id' =>
      dsimp only
      have h0 := publishedAt_iff.1 hp
      constructor
      · intro h
        obtain rfl := Option.some.inj h
        exact ⟨[], h0, fun _ _ _ => Nat.zero_le _⟩
      · rintro ⟨a, h1, h2⟩
        have := h2 _ _ h0
        cases a with
        | nil => rw [← hp]; exact publishedAt_iff.2 h1
        | cons => simp at this
    | none =>
      dsimp only
      rw [ih]
      have no : ∀ id, ¬ PublishedAt (c :: t) [] id := fun id h => by
        rw [publishedAt_iff.2 h] at hp; simp at hp
      constructor
      · rintro ⟨a, h1, h2⟩
        refine ⟨c :: a, publishedAt_cons.2 ⟨rfl, h1⟩, ?_⟩
        intro a' id' h
        cases a' with
        | nil => exact absurd h (no _)
        | cons d a' =>
          have := h2 _ _ (publishedAt_cons.1 h).2
          simpa using this
      · rintro ⟨a, h1, h2⟩
        cases a with
        | nil => exact absurd h1 (no _)
        | cons d a =>
          refine ⟨a, (publishedAt_cons.1 h1).2, ?_⟩
          intro a' id' h
          have := h2 (c :: a') id' (publishedAt_cons.2 ⟨rfl, h⟩)
          simpa using this

theorem Published.number {t id : Bytes} (h : Published t id) : Number id := by
  obtain ⟨a, ⟨u, v, b, -, hn, -⟩, -⟩ := h
  exact hn

/-! ### Presets of a configuration -/

theorem addPresets_ok {h : Host} {ps : List Bytes} {l l' : Plan} {r : List Code}
    (he : addPresets h ps l r = .ok (l', [])) :
    r = [] ∧ (∀ f ∈ ps, h.present (presetFile h f) = true ∧ h.read (presetFile h f) ≠ none) ∧
    (∀ id, id ∈ l'.workshop ↔ id ∈ l.workshop ∨
      ∃ p ∈ ps, ∃ t n, h.read (presetFile h p) = some t ∧ LinkAt modPage t n id) ∧
    (∀ d, d ∈ l'.dlc ↔ d ∈ l.dlc ∨
      ∃ p ∈ ps, ∃ t n id, h.read (presetFile h p) = some t ∧ LinkAt dlcPage t n id ∧ appIds[d]? = some id) ∧
    l' = { l with workshop := l'.workshop, dlc := l'.dlc } := by
  induction ps generalizing l r with
  | nil =>
    simp only [addPresets, Except.ok.injEq, Prod.mk.injEq] at he
    obtain ⟨rfl, rfl⟩ := he
    simp
  | cons p ps ih =>
    rw [addPresets, addPreset] at he
    dsimp only at he
    by_cases hp : h.present (presetFile h p) = true
    · rw [if_neg (by simpa [presetFile] using hp)] at he
      cases hr : h.read (presetFile h p) with
      | none =>
        rw [show h.read (h.withExtension _ _) = none from hr] at he
        simp at he
      | some t =>
        rw [show h.read (h.withExtension _ _) = some t from hr] at he
        dsimp only at he
        obtain ⟨h1, h2, h3, h4, h5⟩ := ih he
        refine ⟨h1, ?_, ?_, ?_, h5⟩
        · intro f hf
          rcases List.mem_cons.1 hf with rfl | hf
          · exact ⟨hp, by simp [hr]⟩
          · exact h2 f hf
        · intro id
          rw [h3, mem_foldl_pushNew, preset_mods]
          constructor
          · rintro ((h' | ⟨n, hn⟩) | ⟨q, hq, h'⟩)
            · exact .inl h'
            · exact .inr ⟨p, by simp, t, n, hr, hn⟩
            · exact .inr ⟨q, by simp [hq], h'⟩
          · rintro (h' | ⟨q, hq, t', n, ht, hn⟩)
            · exact .inl (.inl h')
            · rcases List.mem_cons.1 hq with rfl | hq
              · rw [hr] at ht
                obtain rfl := Option.some.inj ht
                exact .inl (.inr ⟨n, hn⟩)
              · exact .inr ⟨q, hq, t', n, ht, hn⟩
        · intro d
          rw [h4, mem_foldl_pushNew, preset_dlcs]
          constructor
          · rintro ((h' | ⟨n, id, hn⟩) | ⟨q, hq, h'⟩)
            · exact .inl h'
            · exact .inr ⟨p, by simp, t, n, id, hr, hn⟩
            · exact .inr ⟨q, by simp [hq], h'⟩
          · rintro (h' | ⟨q, hq, t', n, id, ht, hn⟩)
            · exact .inl (.inl h')
            · rcases List.mem_cons.1 hq with rfl | hq
              · rw [hr] at ht
                obtain rfl := Option.some.inj ht
                exact .inl (.inr ⟨n, id, hn⟩)
              · exact .inr ⟨q, hq, t', n, id, ht, hn⟩
    · rw [if_pos (by simpa [presetFile] using hp)] at he
      dsimp only at he
      have := (ih he).1
      simp at this

theorem addPresets_total {h : Host} {ps : List Bytes} {l : Plan} {r : List Code}
    (hp : ∀ f ∈ ps, h.present (presetFile h f) = true ∧ h.read (presetFile h f) ≠ none) :
    ∃ l', addPresets h ps l r = .ok (l', r) := by
  induction ps generalizing l with
  | nil => exact ⟨l, rfl⟩
  | cons p ps ih =>
    have hp1 := hp p (by simp)
    obtain ⟨t, ht⟩ := Option.ne_none_iff_exists'.1 hp1.2
    rw [addPresets, addPreset]
    dsimp only
    rw [if_neg (by simpa [presetFile] using hp1.1), show h.read (h.withExtension _ _) = some t from ht]
    dsimp only
    exact ih fun f hf => hp f (by simp [hf])

/-- What a new launcher holds. -/
structure Made (h : Host) (a : Args) (o : Options) (arma3 : Bytes) (l : Plan) : Prop where
  instances : l.instances = count o a
  patching : l.filePatching = (o.filePatching.getD true && !a.noFilePatching)
  executable : l.executable = Launcher.executable h o
  dlc : ∀ d, d ∈ l.dlc ↔ AskedDlc h o d
  workshop : ∀ id, id ∈ l.workshop ↔ Asked h o id
  mission : l.mission = o.mission
  options : l.options = defaults ++ o.parameters ++ a.passthrough
  arma3 : l.arma3 = arma3

theorem new_ok {h : Host} {a : Args} {o : Options} {r : List Code} {l : Plan} (he : new h a o = .ok (r, some l)) :
    r = [] ∧ (∀ f ∈ o.presets, h.present (presetFile h f) = true ∧ h.read (presetFile h f) ≠ none) ∧
      ∃ arma3, h.arma3 = some arma3 ∧ Made h a o arma3 l := by
  rw [new] at he
  split at he
  · simp at he
  rename_i arma3 ha
  dsimp only at he
  split at he
  · simp at he
  rename_i l' r' hl
  split at he
  · simp at he
  rename_i hr
  simp only [not_not] at hr
  subst hr
  simp only [Except.ok.injEq, Prod.mk.injEq, Option.some.injEq] at he
  obtain ⟨rfl, rfl⟩ := he
  obtain ⟨-, h2, h3, h4, h5⟩ := addPresets_ok hl
  refine ⟨rfl, h2, arma3, ha, ?_⟩
  rw [h5]
  refine ⟨?_, rfl, rfl, h4, h3, rfl, rfl, rfl⟩
  dsimp only
  rw [count]
  cases a.instances <;> cases o.instances <;> rfl

theorem new_total {h : Host} {a : Args} {o : Options} {arma3 : Bytes} (ha : h.arma3 = some arma3)
    (hp : ∀ f ∈ o.presets, h.present (presetFile h f) = true ∧ h.read (presetFile h f) ≠ none) :
    ∃ l, new h a o = .ok ([], some l) := by
  rw [new, ha]
  dsimp only
  obtain ⟨l', hl⟩ := addPresets_total (l := {
      instances := a.instances.getD (o.instances.getD 1)
      filePatching := o.filePatching.getD true && !a.noFilePatching
      executable := Launcher.executable h o
      dlc := o.dlc
      workshop := o.workshop
      mission := o.mission
      options := defaults ++ o.parameters ++ a.passthrough
      arma3 := arma3 }) (r := []) hp
  rw [hl]
  exact ⟨l', by simp⟩

/-! ### Mods -/

theorem mem_loadMods {h : Host} (hw : h.target = .windows) {folder : Bytes} {own : Option Bytes} {ms : List Bytes}
    {m : Bytes} : m ∈ (loadMods h folder own ms).1 ↔ ∃ id ∈ ms, own ≠ some id ∧ m = h.join folder id := by
  induction ms with
  | nil => simp [loadMods]
  | cons x ms ih =>
    rw [loadMods]
    dsimp only
    split
    · rename_i hx
      rw [ih]
      constructor
      · rintro ⟨id, h1, h2⟩; exact ⟨id, by simp [h1], h2⟩
      · rintro ⟨id, h1, h2, h3⟩
        rcases List.mem_cons.1 h1 with rfl | h1
        · exact absurd hx.symm h2
        · exact ⟨id, h1, h2, h3⟩
    · rename_i hx
      dsimp only
      rw [List.mem_cons, ih]
      constructor
      · rintro (rfl | ⟨id, h1, h2⟩)
        · exact ⟨x, by simp, Ne.symm hx, rfl⟩
        · exact ⟨id, by simp [h1], h2⟩
      · rintro ⟨id, h1, h2, h3⟩
        rcases List.mem_cons.1 h1 with rfl | h1
        · exact .inl h3
        · exact .inr ⟨id, h1, h2, h3⟩

theorem loadMods_codes {h : Host} {folder : Bytes} {own : Option Bytes} {ms : List Bytes} :
    (loadMods h folder own ms).2 = [] ↔ ∀ id ∈ ms, own ≠ some id → h.present (h.join folder id) = true := by
  induction ms with
  | nil => simp [loadMods]
  | cons x ms ih =>
    rw [loadMods]
    dsimp only
    split
    · rename_i hx
      rw [ih]
      constructor
      · intro h1 id h2 h3
        rcases List.mem_cons.1 h2 with rfl | h2
        · exact absurd hx.symm h3
        · exact h1 id h2 h3
      · intro h1 id h2
        exact h1 id (by simp [h2])
    · rename_i hx
      rw [List.append_eq_nil_iff, ih]
      constructor
      · rintro ⟨h0, h1⟩ id h2 h3
        rcases List.mem_cons.1 h2 with rfl | h2
        · by_contra hn
          rw [if_neg hn] at h0
          simp at h0
        · exact h1 id h2 h3
      · intro h1
        refine ⟨?_, fun id h2 => h1 id (by simp [h2])⟩
        rw [if_pos (h1 x (by simp) (Ne.symm hx))]

theorem workshop_iff {h : Host} {arma3 root : Bytes} (hr : (h.parent arma3).bind h.parent = some root)
    {folder : Bytes} : Workshop h arma3 folder ↔
      folder = h.join (h.join (h.join root (ascii "workshop")) (ascii "content")) (ascii "107410") := by
  constructor
  · rintro ⟨c, r, h1, h2, h3⟩
    rw [h1] at hr
    simp only [Option.bind_some] at hr
    rw [hr] at h2
    obtain rfl := Option.some.inj h2
    exact h3
  · intro hf
    cases hc : h.parent arma3 with
    | none => rw [hc] at hr; simp at hr
    | some c =>
      rw [hc] at hr
      exact ⟨c, root, hc, hr, hf⟩

/-- What is loaded if the workshop is there and nothing is missing. -/
theorem mods_ok {h : Host} {l : Plan} {ms : List Bytes} (hne : l.workshop ≠ [])
    (he : mods h l = .ok (ms, [])) :
    ∃ folder, Workshop h l.arma3 folder ∧ h.present folder = true ∧
      (h.present (h.join h.cwd (ascii "meta.cpp")) = true → h.read (h.join h.cwd (ascii "meta.cpp")) ≠ none) ∧
      (∀ id ∈ l.workshop, ¬ OwnId h id → h.present (h.join folder id) = true) ∧
      (h.target = .windows → ∀ m, m ∈ ms ↔ ∃ id ∈ l.workshop, ¬ OwnId h id ∧ m = h.join folder id) := by
  rw [mods, if_neg hne] at he
  cases hr : (h.parent l.arma3).bind h.parent with
  | none => rw [hr] at he; simp at he
  | some root =>
    rw [hr] at he
    dsimp only at he
    refine ⟨_, (workshop_iff hr).2 rfl, ?_⟩
    split at he
    · simp at he
    rename_i hf
    simp only [not_not] at hf
    refine ⟨hf, ?_⟩
    have key : ∀ own, (∀ id, own = some id ↔ OwnId h id) →
        (loadMods h (h.join (h.join (h.join root (ascii "workshop")) (ascii "content")) (ascii "107410")) own
          l.workshop) = (ms, []) →
        (∀ id ∈ l.workshop, ¬ OwnId h id → h.present (h.join (h.join (h.join (h.join root (ascii "workshop"))
          (ascii "content")) (ascii "107410")) id) = true) ∧
        (h.target = .windows → ∀ m, m ∈ ms ↔ ∃ id ∈ l.workshop, ¬ OwnId h id ∧
          m = h.join (h.join (h.join (h.join root (ascii "workshop")) (ascii "content")) (ascii "107410")) id) := by
      intro own ho hl
      constructor
      · intro id h1 h2
        refine loadMods_codes.1 (by rw [hl]) id h1 ?_
        rwa [Ne, ho]
      · intro hw m
        have := mem_loadMods hw (folder := h.join (h.join (h.join root (ascii "workshop")) (ascii "content"))
          (ascii "107410")) (own := own) (ms := l.workshop) (m := m)
        rw [hl] at this
        simp only [Ne, ho] at this
        exact this
    split at he
    · rename_i hm
      split at he
      · simp at he
      · rename_i t ht
        refine ⟨fun _ => by simp [ht], ?_⟩
        apply key _ ?_ (Except.ok.inj he)
        intro id
        rw [published_iff]
        constructor
        · intro h'; exact ⟨hm, t, ht, h'⟩
        · rintro ⟨-, t', ht', h'⟩
          rw [ht] at ht'
          obtain rfl := Option.some.inj ht'
          exact h'
    · rename_i hm
      refine ⟨fun h' => absurd h' hm, ?_⟩
      apply key _ ?_ (Except.ok.inj he)
      intro id
      constructor
      · intro h'; simp at h'
      · rintro ⟨h', -⟩; exact absurd h' hm

theorem mods_total {h : Host} {l : Plan} {folder : Bytes} (hw : Workshop h l.arma3 folder)
    (hf : h.present folder = true)
    (hm : h.present (h.join h.cwd (ascii "meta.cpp")) = true → h.read (h.join h.cwd (ascii "meta.cpp")) ≠ none)
    (hp : ∀ id ∈ l.workshop, ¬ OwnId h id → h.present (h.join folder id) = true) :
    ∃ ms, mods h l = .ok (ms, []) := by
  rw [mods]
  split
  · exact ⟨[], rfl⟩
  obtain ⟨c, root, h1, h2, rfl⟩ := hw
  rw [h1, Option.bind_some, h2]
  dsimp only
  rw [if_neg (by simpa using hf)]
  have key : ∀ own, (∀ id, own = some id ↔ OwnId h id) → ∃ ms,
      (loadMods h (h.join (h.join (h.join root (ascii "workshop")) (ascii "content")) (ascii "107410")) own
          l.workshop) = (ms, []) := by
    intro own ho
    refine ⟨_, Prod.ext rfl (loadMods_codes.2 fun id h1 h2 => hp id h1 ?_)⟩
    rwa [← ho]
  split
  · rename_i hm'
    obtain ⟨t, ht⟩ := Option.ne_none_iff_exists'.1 (hm hm')
    rw [ht]
    dsimp only
    obtain ⟨ms, h⟩ := key (published t) (by
      intro id
      rw [published_iff]
      constructor
      · intro h'; exact ⟨hm', t, ht, h'⟩
      · rintro ⟨-, t', ht', h'⟩
        rw [ht] at ht'
        obtain rfl := Option.some.inj ht'
        exact h')
    exact ⟨ms, by rw [h]⟩
  · rename_i hm'
    obtain ⟨ms, h⟩ := key none (by
      intro id
      constructor
      · intro h'; simp at h'
      · rintro ⟨h', -⟩; exact absurd h' hm')
    exact ⟨ms, by rw [h]⟩

/-! ### Missions -/

theorem missionFile_iff {h : Host} {m f : Bytes} :
    missionFile h m = .ok f ↔ h.absolute m = false ∧ (missionPlaces h m).find? h.isFile = some f := by
  rw [missionFile]
  split
  · rename_i ha
    constructor
    · intro h'; simp at h'
    · rintro ⟨h', -⟩; simp [h'] at ha
  · rename_i ha
    have ha : h.absolute m = false := by simpa using ha
    simp only [ha, true_and, missionPlaces, List.find?_cons, List.find?_nil]
    generalize (if h.fileName (h.join h.cwd m) = ascii "mission.sqm" then h.join h.cwd m
      else h.join (h.join h.cwd m) (ascii "mission.sqm")) = f1
    generalize h.join (h.join (h.join (h.join h.cwd (ascii ".hemtt")) (ascii "missions")) m) (ascii "mission.sqm") = f2
    by_cases h1 : h.isFile f1 = true
    · simp [h1]
    · simp only [Bool.not_eq_true] at h1
      by_cases h2 : h.isFile f2 = true
      · simp [h1, h2]
      · simp only [Bool.not_eq_true] at h2
        simp [h1, h2]

/-! ### Starting -/

theorem dlc_sorted (l : List Nat) :
    (∀ d, d ∈ dedup (l.mergeSort fun a b => a ≤ b) ↔ d ∈ l) ∧
      (dedup (l.mergeSort fun a b => a ≤ b)).Pairwise (· < ·) := by
  constructor
  · intro d
    rw [mem_dedup, List.mem_mergeSort]
  · have := dedup_sorted (le := fun a b : Nat => decide (a ≤ b)) (by intro a b; simp; omega)
      (l.mergeSort fun a b => decide (a ≤ b))
      (List.pairwise_mergeSort (by intro a b c; simp; omega) (by intro a b; simp; omega) l)
    refine this.imp ?_
    intro a b ⟨h1, h2⟩
    have : a ≤ b := by simpa using h1
    omega

end Verif.Launcher
