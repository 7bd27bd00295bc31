import Verif.Lib.Binarize
/-!
C90, C91: which textures and materials are reported missing, which files are binarized, and what is packed in their place.
-/
namespace Verif.Binarize
open Verif.Release (Entry folder Hit TreeOk)
open Verif.Workspace (Addon)

/-- C90: what a check reports: the P drive if it is required and not there, and then for each file that is to be
binarized, in order, the textures and materials of it that are missing. That models share what has been found changes
nothing. -/
theorem C90_missing (env : Env) (xs : List Source) (st : State) (ho : ∀ l, (env.order l).Perm l)
    (ht : ∀ x ∈ xs, TreeOk x.tree)
    (hu : ∀ x ∈ xs, ∀ e, Binarized env x e → ∀ m rest, P3d.Model.read e.content = .ok (m, rest) → Usual m)
    (h : check env xs = .ok st) :
    ∃ css, List.Forall₂ (fun p => Says env p.1 p.2) (wanted env xs) css ∧
      st.report = (if env.noPdrive then [.pdrive] else []) ++ css.flatten :=
  checkAddons_says ho ht hu (fun _ _ h => by cases h) h

/-- The files that `C90_missing` is about, and that they are in order. -/
theorem C90_wanted (env : Env) (xs : List Source) :
    (∀ x e, (x, e) ∈ wanted env xs ↔ x ∈ xs ∧ Binarized env x e) ∧
    (wanted env xs).Sublist (xs.flatMap fun x => x.tree.map (x, ·)) := by
  refine ⟨fun x e => mem_wanted, ?_⟩
  induction xs with
  | nil => exact .slnil
  | cons x xs ih =>
    rw [wanted_cons, List.flatMap_cons]
    exact List.Sublist.append (List.Sublist.map _ List.filter_sublist) ih

/-- C91: a check completes if all patterns are patterns, looking for files does not fail, and all models, animations and
terrains have four bytes and can be read. -/
theorem C91_check_completes (env : Env) (xs : List Source) (hl : ∀ t, (env.locate t).isSome)
    (hg : ∀ x ∈ xs, ∀ t, x.toml = some t → ∀ p ∈ t.exclude, (env.glob p).isSome)
    (hr : ∀ x ∈ xs, ∀ e ∈ x.tree, e.file = true → Kind e.filename → Readable e) : ∃ st, check env xs = .ok st :=
  checkAddons_total hl _ hg hr

/-- C91: the runs of the tool: one for each file that is to be binarized, in order. -/
theorem C91_runs (env : Env) (xs : List Source) (st : State) (hx : SourcesOk xs)
    (hp : ∀ x ∈ xs, PrefixOk x.addon ∧ TmpOk env x.addon) (h : check env xs = .ok st) :
    st.targets.map (command env) = (wanted env xs).map fun p => ask p.1.addon p.2 := by
  have hT := checkAddons_targets hx.trees h
  rw [List.nil_append] at hT
  rw [hT, List.map_map]
  refine List.map_congr_left fun p hm => ?_
  obtain ⟨x, e⟩ := p
  obtain ⟨h1, h2⟩ := mem_wanted.1 hm
  have hf : '/' ∉ e.filename := ((hx.trees x h1).names e h2.mem e.filename (by simp)).2.1
  dsimp only [Function.comp_def, command, ask]
  rw [argument_source (hx.trees x h1) h2.mem (hp x h1).1 (hp x h1).2, argument_output (hx.trees x h1) h2.mem (hp x h1).2]
  congr 2
  exact turn_id hf

/-- The path that `Layers.read` looks at. -/
theorem read_binarized {env : Env} {l : Layers} {p : Text} (h1 : l.memory p = none) (h2 : l.include_ p = none) :
    l.read env p = (l.binarized (layerKey env p)).or (l.source p) := by
  unfold Layers.read
  rw [h1, h2]
  dsimp only [layerKey]
  cases l.binarized _ <;> rfl

theorem read_congr {env : Env} {l l' : Layers} {p : Text} (h : l = { l' with binarized := l.binarized })
    (hb : l.binarized (layerKey env p) = l'.binarized (layerKey env p)) : l.read env p = l'.read env p := by
  unfold Layers.read
  rw [h]
  dsimp only
  unfold layerKey at hb
  rw [hb]

/-- C91: after a check and a run of the tool
* the tool has been asked once for each file that is to be binarized (a failure of it stops the build), to read it from
  the folder the game knows it by and write it where the build looks for it;
* what it has made of a file is what the build reads at the path of the file from then on, unless something else has been
  put over it;
* at all other paths the build reads what it has read before;
* the files it has made nothing of are reported. -/
theorem C91_binarized (env : Env) (xs : List Source) (st : State) (hx : SourcesOk xs)
    (hp : ∀ x ∈ xs, PrefixOk x.addon ∧ TmpOk env x.addon) (h : check env xs = .ok st) (tool : Tool) (w : Files) :
    ((∃ w' r, preBuild env (some tool) st.targets w = .ok (w', r)) ↔
      ∀ x ∈ xs, ∀ e, Binarized env x e → asked tool x.addon e ≠ none) ∧
    ∀ w' r, preBuild env (some tool) st.targets w = .ok (w', r) →
      (∀ x ∈ xs, ∀ e, Binarized env x e → ∀ b, asked tool x.addon e = some (some b) →
        ∀ l : Layers, l.binarized = w' → l.memory (path x e) = none → l.include_ (path x e) = none →
          l.read env (path x e) = some b) ∧
      (∀ q, env.sep = '/' ∨ '\\' ∉ q →
        (∀ x ∈ xs, ∀ e, Binarized env x e → path x e = '/' :: q → asked tool x.addon e = some none) →
        ∀ l : Layers, l.binarized = w → ({ l with binarized := w' } : Layers).read env ('/' :: q) = l.read env ('/' :: q)) ∧
      ((∀ k, w k = none) → ∀ c, c ∈ r ↔ ∃ x ∈ xs, ∃ e, Binarized env x e ∧ asked tool x.addon e = some none ∧
        c = .failed e.filename) := by
  have hT := checkAddons_targets hx.trees h
  rw [List.nil_append] at hT
  let tg : Source × Entry → Target := fun p => ⟨sourceOf env p.1.addon p.2, outputOf env p.1.addon p.2, p.2.filename⟩
  have hmem : ∀ t, t ∈ st.targets ↔ ∃ x ∈ xs, ∃ e, Binarized env x e ∧ t = tg (x, e) := by
    intro t
    rw [hT, List.mem_map]
    constructor
    · rintro ⟨⟨x, e⟩, hm, rfl⟩
      obtain ⟨h1, h2⟩ := mem_wanted.1 hm
      exact ⟨x, h1, e, h2, rfl⟩
    · rintro ⟨x, h1, e, h2, rfl⟩
      exact ⟨(x, e), mem_wanted.2 ⟨h1, h2⟩, rfl⟩
  have hask : ∀ x ∈ xs, ∀ e, Binarized env x e → asks env tool (tg (x, e)) = asked tool x.addon e := by
    intro x h1 e h2
    have hf : '/' ∉ e.filename := ((hx.trees x h1).names e h2.mem e.filename (by simp)).2.1
    unfold asks asked ask
    dsimp only [tg]
    rw [argument_source (hx.trees x h1) h2.mem (hp x h1).1 (hp x h1).2, argument_output (hx.trees x h1) h2.mem (hp x h1).2,
      turn_id hf]
  have hsep : ∀ x ∈ xs, env.sep = '/' ∨ env.sep = '\\' := by
    intro x h1
    rcases (hp x h1).2 with ⟨h, -⟩ | ⟨h, -⟩
    · exact .inr h
    · exact .inl h
  have hback : ∀ x ∈ xs, ∀ e, Binarized env x e → ∀ q, path x e = '/' :: q →
      env.sep = '/' ∨ (env.sep = '\\' ∧ '\\' ∉ q) := by
    intro x h1 e h2 q hq
    refine (hsep x h1).imp id fun h => ⟨h, fun hm => path_back hx h1 h2.mem ?_⟩
    rw [hq]; exact List.mem_cons_of_mem _ hm
  have hpath : ∀ (x : Source) (e : Entry), ∃ q, path x e = '/' :: q := fun x e => ⟨_, rfl⟩
  have hkey : ∀ t ∈ st.targets, ∀ t' ∈ st.targets, key env t = key env t' → t = t' := by
    intro t h1 t' h2 hk
    obtain ⟨x, hx1, e, he, rfl⟩ := (hmem t).1 h1
    obtain ⟨x', hx1', e', he', rfl⟩ := (hmem t').1 h2
    rw [key_eq, key_eq] at hk
    obtain ⟨q, hq⟩ := hpath x e
    obtain ⟨q', hq'⟩ := hpath x' e'
    rw [hq, hq'] at hk
    have := layerKey_inj (hback x hx1 e he q hq) (hback x' hx1' e' he' q' hq') hk
    obtain ⟨rfl, rfl⟩ := path_inj hx hx1 hx1' he.mem he'.mem (by rw [hq, hq', this])
    rfl
  constructor
  · rw [preBuild, runTargets_total]
    constructor
    · intro ha x h1 e h2
      rw [← hask x h1 e h2]
      exact ha _ ((hmem _).2 ⟨x, h1, e, h2, rfl⟩)
    · intro ha t ht
      obtain ⟨x, h1, e, h2, rfl⟩ := (hmem t).1 ht
      rw [hask x h1 e h2]
      exact ha x h1 e h2
  · intro w' r hr
    rw [preBuild] at hr
    obtain ⟨r1, r2, r3⟩ := runTargets_ok hkey hr
    refine ⟨?_, ?_, ?_⟩
    · intro x h1 e h2 b hb l hl hm hi
      obtain ⟨o, ho, hw⟩ := r1 _ ((hmem _).2 ⟨x, h1, e, h2, rfl⟩)
      rw [hask x h1 e h2, hb] at ho
      cases ho
      have := hw b rfl
      rw [key_eq] at this
      rw [read_binarized hm hi, hl, this]
      rfl
    · intro q hq hn l hl
      refine read_congr rfl ?_
      rw [hl]
      refine r2 _ fun t ht hk => ?_
      obtain ⟨x, h1, e, h2, rfl⟩ := (hmem t).1 ht
      rw [hask x h1 e h2]
      rw [key_eq] at hk
      obtain ⟨q', hq'⟩ := hpath x e
      rw [hq'] at hk
      have := layerKey_inj (hback x h1 e h2 q' hq') (by
        rcases hq with hq | hq
        · exact .inl hq
        · exact (hsep x h1).imp id fun h => ⟨h, hq⟩) hk
      exact hn x h1 e h2 (by rw [hq', this])
    · intro hw c
      rw [r3]
      constructor
      · rintro ⟨t, ht, h3, -, rfl⟩
        obtain ⟨x, h1, e, h2, rfl⟩ := (hmem t).1 ht
        rw [hask x h1 e h2] at h3
        exact ⟨x, h1, e, h2, h3, rfl⟩
      · rintro ⟨x, h1, e, h2, h3, rfl⟩
        exact ⟨_, (hmem _).2 ⟨x, h1, e, h2, rfl⟩, by rw [hask x h1 e h2]; exact h3, hw _, rfl⟩

/-- C91: without the tool nothing is changed and nothing reported. -/
theorem C91_no_tool (env : Env) (xs : List Source) (st : State) (_h : check env xs = .ok st) (w : Files) :
    preBuild env none st.targets w = .ok (w, []) := rfl

/-! ### Concrete cases -/

/-- A model with a face. -/
def exModel (t m : List String) : P3d.Model :=
  ⟨257, [⟨28, 256, 0, [], [], (t.zip m).map fun p => ⟨List.replicate 3 P3d.Vertex.new, 0, ascii p.1, ascii p.2⟩, []⟩]⟩

/-- The model as a file. -/
def exFile (t m : List String) : Bytes :=
  match (exModel t m).write with
  | .ok b => b
  | .error _ => []

def exEnv : Env where
  glob := fun p => some fun s => s = p
  locate := fun t => some (decide (t ∈ [ascii "\\z\\t\\found.tga", ascii "\\z\\t\\there.rvmat", ascii "\\x.paa\\y.tga", ascii "\\a.tga"]))
  order := id
  sep := '/'
  tmp := "/tmp/hemtt/p".toList
  ignorePdrive := false
  noPdrive := false

def exSource : Source where
  addon := { name := "main".toList, location := .addons, pfx := ["z".toList, "t".toList] }
  toml := some { exclude := ["old.p3d".toList] }
  tree := [
    ⟨[], "old.p3d".toList, true, exFile ["gone.paa"] [""]⟩,
    ⟨["data".toList], "box.p3d".toList, true,
      exFile ["z\\t\\found.paa", "z\\t\\gone.paa", "#(argb,8,8,3)", ""] ["", "z\\t\\there.rvmat", "\\z\\t\\gone.rvmat", ""]⟩,
    ⟨[], "done.p3d".toList, true, ascii "ODOL1234"⟩,
    ⟨[], "move.rtm".toList, true, ascii "RTM_0101"⟩,
    ⟨[], "config.cpp".toList, true, ascii "class CfgPatches {};"⟩]

/-- One texture and one material of the model are missing. Two files are to be binarized. -/
example : (match check exEnv [exSource] with
    | .ok st => some (st.report, st.targets)
    | .error _ => none) = some
    ([.textures "/addons/main/data/box.p3d".toList [ascii "\\z\\t\\gone.paa"] false,
      .materials "/addons/main/data/box.p3d".toList [ascii "\\z\\t\\gone.rvmat"] false],
     [⟨"/tmp/hemtt/p/z/t/data/".toList, "/tmp/hemtt/p/hemtt_binarize_output/addons/main/data".toList, "box.p3d".toList⟩,
      ⟨"/tmp/hemtt/p/z/t/".toList, "/tmp/hemtt/p/hemtt_binarize_output/addons/main".toList, "move.rtm".toList⟩]) := by
  decide +kernel

/-- What `Usual` says, to be computed. -/
def usual (m : P3d.Model) : Bool :=
  ((m.lods.flatMap P3d.Lod.faces).map P3d.Face.material).all (fun n => images.all fun p => !endsWith p (slashed n)) &&
  ((m.lods.flatMap P3d.Lod.faces).map P3d.Face.texture).all fun n => images.all fun p =>
    !endsWith p (slashed n) || decide (¬ p <:+: (slashed n).take ((slashed n).length - 4))

theorem usual_ok {m : P3d.Model} (h : usual m = true) : Usual m := by
  simp only [usual, Bool.and_eq_true, List.all_eq_true] at h
  constructor
  · intro r hr p hp ⟨s, hs⟩
    obtain ⟨n, hn, -, rfl⟩ := material_iff.1 hr
    have := h.1 n hn p hp
    rw [endsWith_iff.2 ⟨s, hs.symm⟩] at this
    cases this
  · intro r hr p hp s hs
    obtain ⟨n, hn, -, rfl⟩ := texture_iff.1 hr
    have := h.2 n hn p hp
    rw [endsWith_iff.2 ⟨s, hs⟩] at this
    simp only [Bool.not_true, Bool.false_or, decide_eq_true_eq] at this
    have hl : p.length = 4 := by
      simp only [images, List.mem_cons, List.not_mem_nil, or_false] at hp
      rcases hp with rfl | rfl | rfl <;> decide
    rw [hs] at this
    simpa [hl] using this

theorem exTree : TreeOk exSource.tree := ⟨by decide +kernel, by decide +kernel⟩

theorem exUsual : ∀ e ∈ exSource.tree, ∀ m rest, P3d.Model.read e.content = .ok (m, rest) → Usual m := by
  have : ∀ e ∈ exSource.tree, (match P3d.Model.read e.content with
    | .ok (m, _) => usual m
    | .error _ => true) = true := by decide +kernel
  intro e he m rest hr
  have := this e he
  rw [hr] at this
  exact usual_ok this

/-- The hypotheses of `C90_missing` hold of this project. -/
example : ∃ st, check exEnv [exSource] = .ok st ∧ ∃ css,
    List.Forall₂ (fun p => Says exEnv p.1 p.2) (wanted exEnv [exSource]) css ∧ st.report = css.flatten := by
  obtain ⟨st, h⟩ := C91_check_completes exEnv [exSource] (fun _ => rfl) (fun _ _ _ _ _ _ => rfl) (by
    intro x hx e he hf hk
    cases List.mem_singleton.1 hx
    have h1 : ∀ e ∈ exSource.tree, 4 ≤ e.content.length := by decide +kernel
    have h2 : ∀ e ∈ exSource.tree, ascii "MLOD" <+: e.content → (P3d.Model.read e.content).isOk = true := by
      decide +kernel
    refine ⟨h1 e he, fun hm => ?_⟩
    have := h2 e he hm
    cases hr : P3d.Model.read e.content with
    | ok r => exact ⟨r, rfl⟩
    | error s => rw [hr] at this; cases this)
  obtain ⟨css, h1, h2⟩ := C90_missing exEnv [exSource] st (fun _ => .refl _)
    (fun x hx => by cases List.mem_singleton.1 hx; exact exTree)
    (fun x hx e he => by cases List.mem_singleton.1 hx; exact exUsual e he.mem) h
  exact ⟨st, h, css, h1, h2⟩

/-- The tool of the example makes something of the model and nothing of the animation. -/
def exTool : Tool := fun s o n =>
  if n = "box.p3d".toList then
    if s = "z\\t\\data\\".toList ∧ o = "hemtt_binarize_output\\addons\\main\\data".toList then some (some (ascii "ODOL")) else none
  else some none

/-- The build reads what the tool has made, and reports the animation. -/
example : ∃ st w' r, check exEnv [exSource] = .ok st ∧ preBuild exEnv (some exTool) st.targets (fun _ => none) = .ok (w', r) ∧
    (⟨fun _ => some [], w', fun _ => none, fun _ => none⟩ : Layers).read exEnv "/addons/main/data/box.p3d".toList =
      some (ascii "ODOL") ∧
    (⟨fun _ => some [], w', fun _ => none, fun _ => none⟩ : Layers).read exEnv "/addons/main/config.cpp".toList = some [] ∧
    r = [.failed "move.rtm".toList] := by
  have : ∃ st, check exEnv [exSource] = .ok st := by
    have : (check exEnv [exSource]).isOk = true := by decide +kernel
    cases h : check exEnv [exSource] with
    | ok st => exact ⟨st, rfl⟩
    | error s => rw [h] at this; cases this
  obtain ⟨st, h⟩ := this
  have hx : SourcesOk [exSource] :=
    ⟨by decide, by decide, fun x hx => by cases List.mem_singleton.1 hx; exact exTree⟩
  have hp : ∀ x ∈ [exSource], PrefixOk x.addon ∧ TmpOk exEnv x.addon := by
    intro x hx
    cases List.mem_singleton.1 hx
    exact ⟨⟨by decide, by decide +kernel, by decide +kernel⟩,
      .inr ⟨rfl, "tmp".toList, "hemtt/p".toList, by decide, by decide, by decide, by decide⟩⟩
  obtain ⟨h1, h2⟩ := C91_binarized exEnv [exSource] st hx hp h exTool (fun _ => none)
  have hst : st.targets = [⟨"/tmp/hemtt/p/z/t/data/".toList, "/tmp/hemtt/p/hemtt_binarize_output/addons/main/data".toList, "box.p3d".toList⟩,
      ⟨"/tmp/hemtt/p/z/t/".toList, "/tmp/hemtt/p/hemtt_binarize_output/addons/main".toList, "move.rtm".toList⟩] := by
    have : (match check exEnv [exSource] with | .ok st => st.targets | .error _ => []) = [⟨"/tmp/hemtt/p/z/t/data/".toList, "/tmp/hemtt/p/hemtt_binarize_output/addons/main/data".toList, "box.p3d".toList⟩,
      ⟨"/tmp/hemtt/p/z/t/".toList, "/tmp/hemtt/p/hemtt_binarize_output/addons/main".toList, "move.rtm".toList⟩] := by decide +kernel
    rw [h] at this
    exact this
  have hr : ∃ w' r, preBuild exEnv (some exTool) st.targets (fun _ => none) = .ok (w', r) ∧ r = [.failed "move.rtm".toList] := by
    rw [hst]
    have : (match preBuild exEnv (some exTool) [⟨"/tmp/hemtt/p/z/t/data/".toList, "/tmp/hemtt/p/hemtt_binarize_output/addons/main/data".toList, "box.p3d".toList⟩,
      ⟨"/tmp/hemtt/p/z/t/".toList, "/tmp/hemtt/p/hemtt_binarize_output/addons/main".toList, "move.rtm".toList⟩] (fun _ => none) with
      | .ok (_, r) => decide (r = [.failed "move.rtm".toList])
      | .error _ => false) = true := by decide +kernel
    generalize preBuild _ _ _ _ = o at this ⊢
    cases o with
    | error s => cases this
    | ok wr => exact ⟨wr.1, wr.2, rfl, of_decide_eq_true this⟩
  obtain ⟨w', r, hr, hr'⟩ := hr
  obtain ⟨h3, h4, h5⟩ := h2 w' r hr
  let box : Entry := ⟨["data".toList], "box.p3d".toList, true,
      exFile ["z\\t\\found.paa", "z\\t\\gone.paa", "#(argb,8,8,3)", ""] ["", "z\\t\\there.rvmat", "\\z\\t\\gone.rvmat", ""]⟩
  have hbox : Binarized exEnv exSource box := by
    refine ⟨by decide +kernel, rfl, ⟨"box".toList, by decide, .inr (.inl rfl)⟩, ?_, ?_, ?_⟩
    · intro t ht; cases ht; rfl
    · rintro t ht ⟨p, hp, m, hm, h⟩
      cases ht
      cases List.mem_singleton.1 hp
      cases hm
      revert h
      decide
    · intro hd
      have : alreadyDone (box.content.take 4) = true := done_iff.2 hd
      revert this
      decide +kernel
  refine ⟨st, w', r, h, hr, h3 exSource (List.mem_cons_self ..) box hbox _ (by decide) _ rfl rfl rfl, ?_, hr'⟩
  refine (h4 "addons/main/config.cpp".toList (.inl rfl) ?_ ⟨fun _ => some [], fun _ => none, fun _ => none, fun _ => none⟩ rfl).trans rfl
  intro x hx' e he hq
  cases List.mem_singleton.1 hx'
  exfalso
  have : ∀ e ∈ exSource.tree, path exSource e = "/addons/main/config.cpp".toList → (extension e.filename).getD [] ∉ kinds := by
    decide +kernel
  exact this e he.mem hq (extension_kind.2 he.kind)

/-! ### What does not hold without the hypotheses -/

/-- A project of one model. -/
def exOne (t m : List String) : Source :=
  { exSource with toml := none, tree := [⟨[], "a.p3d".toList, true, exFile t m⟩] }

/-- C90: a material that is named like a texture is not reported although it is missing, because the two share what has
been found. -/
theorem C90_violated_shared : ∃ env x st m rest, check env [x] = .ok st ∧ st.report = [] ∧
    (∃ e ∈ x.tree, Binarized env x e ∧ P3d.Model.read e.content = .ok (m, rest)) ∧
    Material m (ascii "\\a.paa") ∧ env.locate (ascii "\\a.paa") ≠ some true := by
  have h : (match check exEnv [exOne ["a.paa"] ["a.paa"]] with
    | .ok st => decide (st.report = [])
    | .error _ => false) = true := by decide +kernel
  cases hc : check exEnv [exOne ["a.paa"] ["a.paa"]] with
  | error s => rw [hc] at h; cases h
  | ok st =>
    rw [hc] at h
    refine ⟨exEnv, exOne ["a.paa"] ["a.paa"], st, exModel ["a.paa"] ["a.paa"], [], hc, of_decide_eq_true h,
      ⟨_, List.mem_cons_self .., ⟨List.mem_cons_self .., rfl, ⟨"a".toList, by decide, .inr (.inl rfl)⟩, ?_, ?_, ?_⟩, ?_⟩, ?_, ?_⟩
    · intro t ht; cases ht
    · intro t ht; cases ht
    · intro hd
      have := done_iff.2 hd
      revert this
      decide +kernel
    · decide +kernel
    · exact ⟨_, List.mem_cons_self .., _, List.mem_cons_self .., by decide, 
        .inr ⟨fun s h => absurd (congrArg List.head? h) (by rw [List.head?_cons]; decide), by decide⟩⟩
    · decide

/-- C90: a texture in a folder that is named like an image is reported although it is there, because the name is replaced
everywhere in the path. -/
theorem C90_violated_folder : ∃ env x e, check env [x] = .ok e ∧
    e.report = [.textures "/addons/main/a.p3d".toList [ascii "\\x.paa\\y.paa"] false] ∧
    Found env.locate (ascii "\\x.paa\\y.paa") := by
  have h : (match check exEnv [exOne ["x.paa\\y.paa"] [""]] with
    | .ok st => decide (st.report = [.textures "/addons/main/a.p3d".toList [ascii "\\x.paa\\y.paa"] false])
    | .error _ => false) = true := by decide +kernel
  cases hc : check exEnv [exOne ["x.paa\\y.paa"] [""]] with
  | error s => rw [hc] at h; cases h
  | ok st =>
    rw [hc] at h
    exact ⟨exEnv, _, st, hc, of_decide_eq_true h, .inr ⟨ascii "\\x.paa\\y", .inl ⟨by decide +kernel, by decide +kernel⟩⟩⟩

/-- C91: a model, animation or terrain of less than four bytes, as an empty one, stops the check. -/
theorem C91_short (env : Env) (x : Source) (e : Entry) (xs : List Source) (es : List Entry)
    (hx : x.tree = e :: es) (hf : e.file = true) (hk : Kind e.filename) (htoml : x.toml = none)
    (hs : e.content.length < 4) : check env (x :: xs) = .error .panic := by
  unfold check
  rw [checkAddons, if_pos (by rw [htoml]; rfl), hx, checkEntries, checkEntry,
    if_neg (by rw [hf]; simpa using extension_kind.2 hk), excluded, htoml]
  dsimp only
  rw [if_pos hs]

/-- C91: names in capitals are none of these. -/
example : ¬ Kind "BOX.P3D".toList := by rw [← extension_kind]; decide

end Verif.Binarize
