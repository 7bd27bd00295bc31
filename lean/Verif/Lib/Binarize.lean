import Verif.Spec.Binarize
import Verif.Lib.Release
/-! Binarizing: the steps. -/
namespace Verif.Binarize
open Verif.Release (Entry folder Hit TreeOk trimStart)
open Verif.Workspace (Addon trimSlashes)

/-! ### Names of textures -/

theorem replace_none {p q : Bytes} : ∀ {s : Bytes}, ¬ p <:+: s → replace p q s = s := by
  intro s
  induction s using replace.induct (p := p) with
  | case1 a b c d s h ih =>
    intro hn
    exact absurd ⟨[], s, by rw [← h]; rfl⟩ hn
  | case2 a b c d s h ih =>
    intro hn
    rw [replace, if_neg h, ih]
    rintro ⟨u, v, hv⟩
    exact hn ⟨a :: u, v, by rw [List.cons_append, List.cons_append, hv]⟩
  | case3 s h =>
    intro _
    rw [replace.eq_def]
    split
    · exact absurd rfl (h _ _ _ _ _)
    · rfl

theorem replace_end {x y z : UInt8} {q : Bytes} (hx : x ≠ 46) (hy : y ≠ 46) (hz : z ≠ 46) : ∀ {s : Bytes},
    ¬ [46, x, y, z] <:+: s → replace [46, x, y, z] q (s ++ [46, x, y, z]) = s ++ q := by
  intro s
  induction s with
  | nil => intro _; simp [replace]
  | cons a s ih =>
    intro hn
    have hs : ¬ [46, x, y, z] <:+: s := by
      rintro ⟨u, v, hv⟩
      exact hn ⟨a :: u, v, by rw [List.cons_append, List.cons_append, hv]⟩
    have key : ∀ b c d r, s ++ [46, x, y, z] = b :: c :: d :: r → [a, b, c, d] ≠ [46, x, y, z] := by
      intro b c d r hr he
      injection he with h1 he
      injection he with h2 he
      injection he with h3 he
      injection he with h4 he
      subst h1; subst h2; subst h3; subst h4
      match s, hr with
      | [], hr => simp at hr; exact hx hr.1.symm
      | [s1], hr => simp at hr; exact hy hr.2.1.symm
      | [s1, s2], hr => simp at hr; exact hz hr.2.2.1.symm
      | s1 :: s2 :: s3 :: s', hr =>
        simp at hr
        exact hn ⟨[], s', by simp [hr]⟩
    obtain ⟨b, c, d, r, hr⟩ : ∃ b c d r, s ++ [46, x, y, z] = b :: c :: d :: r := by
      match s with
      | [] => exact ⟨_, _, _, _, rfl⟩
      | [s1] => exact ⟨_, _, _, _, rfl⟩
      | [s1, s2] => exact ⟨_, _, _, _, rfl⟩
      | s1 :: s2 :: s3 :: s' => exact ⟨_, _, _, _, rfl⟩
    rw [List.cons_append, hr, replace, if_neg (key b c d r hr), ← hr, ih hs]
    rfl

theorem endsWith_iff {p s : Bytes} : endsWith p s = true ↔ ∃ u, s = u ++ p := by
  rw [endsWith, List.isSuffixOf_iff_suffix]
  exact ⟨fun ⟨u, h⟩ => ⟨u, h.symm⟩, fun ⟨u, h⟩ => ⟨u, h.symm⟩⟩

theorem append_right_ne {u v p q : Bytes} (hl : p.length = q.length) (hne : p ≠ q) : u ++ p ≠ v ++ q :=
  fun h => hne (List.append_inj' h hl).2

/-- Looking under the other name. -/
theorem other_found {locate : Bytes → Option Bool} {t : Bytes} (ht : ∀ p ∈ images, ∀ s, t = s ++ p → ¬ p <:+: s)
    (h0 : locate t ≠ some true) :
    (other t = none → ¬ Found locate t) ∧ ∀ o, other t = some o → (Found locate t ↔ locate o = some true) := by
  have e1 : ascii ".paa" = [46, 112, 97, 97] := by decide
  have e2 : ascii ".tga" = [46, 116, 103, 97] := by decide
  have e3 : ascii ".png" = [46, 112, 110, 103] := by decide
  have n12 : ascii ".paa" ≠ ascii ".tga" := by decide
  have n13 : ascii ".paa" ≠ ascii ".png" := by decide
  have n23 : ascii ".tga" ≠ ascii ".png" := by decide
  have l12 : (ascii ".paa").length = (ascii ".tga").length := by decide
  have l13 : (ascii ".paa").length = (ascii ".png").length := by decide
  have l23 : (ascii ".tga").length = (ascii ".png").length := by decide
  unfold other
  by_cases h1 : endsWith (ascii ".paa") t = true
  · rw [if_pos h1]
    obtain ⟨u, rfl⟩ := endsWith_iff.1 h1
    have hr : replace (ascii ".paa") (ascii ".tga") (u ++ ascii ".paa") = u ++ ascii ".tga" := by
      have := ht _ (by simp [images]) u rfl
      rw [e1] at this ⊢
      exact replace_end (by decide) (by decide) (by decide) this
    rw [hr]
    refine ⟨fun h => (by cases h), fun o ho => ?_⟩
    cases ho
    constructor
    · rintro (h | ⟨s, ⟨h, h'⟩ | ⟨h, h'⟩ | ⟨h, h'⟩⟩)
      · exact absurd h h0
      · rw [List.append_cancel_right h]; exact h'
      · exact absurd h (append_right_ne l12 n12)
      · exact absurd h (append_right_ne l13 n13)
    · intro h
      exact .inr ⟨u, .inl ⟨rfl, h⟩⟩
  rw [if_neg h1]
  by_cases h2 : endsWith (ascii ".tga") t = true
  · rw [if_pos h2]
    obtain ⟨u, rfl⟩ := endsWith_iff.1 h2
    have hr : replace (ascii ".tga") (ascii ".paa") (u ++ ascii ".tga") = u ++ ascii ".paa" := by
      have := ht _ (by simp [images]) u rfl
      rw [e2] at this ⊢
      exact replace_end (by decide) (by decide) (by decide) this
    rw [hr]
    refine ⟨fun h => (by cases h), fun o ho => ?_⟩
    cases ho
    constructor
    · rintro (h | ⟨s, ⟨h, h'⟩ | ⟨h, h'⟩ | ⟨h, h'⟩⟩)
      · exact absurd h h0
      · exact absurd h.symm (append_right_ne l12 n12)
      · rw [List.append_cancel_right h]; exact h'
      · exact absurd h (append_right_ne l23 n23)
    · intro h
      exact .inr ⟨u, .inr (.inl ⟨rfl, h⟩)⟩
  rw [if_neg h2]
  by_cases h3 : endsWith (ascii ".png") t = true
  · rw [if_pos h3]
    obtain ⟨u, rfl⟩ := endsWith_iff.1 h3
    have hr : replace (ascii ".png") (ascii ".paa") (u ++ ascii ".png") = u ++ ascii ".paa" := by
      have := ht _ (by simp [images]) u rfl
      rw [e3] at this ⊢
      exact replace_end (by decide) (by decide) (by decide) this
    rw [hr]
    refine ⟨fun h => (by cases h), fun o ho => ?_⟩
    cases ho
    constructor
    · rintro (h | ⟨s, ⟨h, h'⟩ | ⟨h, h'⟩ | ⟨h, h'⟩⟩)
      · exact absurd h h0
      · exact absurd h.symm (append_right_ne l13 n13)
      · exact absurd h.symm (append_right_ne l23 n23)
      · rw [List.append_cancel_right h]; exact h'
    · intro h
      exact .inr ⟨u, .inr (.inr ⟨rfl, h⟩)⟩
  rw [if_neg h3]
  refine ⟨fun _ => ?_, fun o ho => (by cases ho)⟩
  rintro (h | ⟨s, ⟨h, h'⟩ | ⟨h, h'⟩ | ⟨h, h'⟩⟩)
  · exact h0 h
  · exact h1 (endsWith_iff.2 ⟨s, h⟩)
  · exact h2 (endsWith_iff.2 ⟨s, h⟩)
  · exact h3 (endsWith_iff.2 ⟨s, h⟩)

/-- A name that is not that of an image is found only under this name. -/
theorem found_plain {locate : Bytes → Option Bool} {t : Bytes} (ht : ∀ p ∈ images, ¬ p <:+ t) :
    Found locate t ↔ locate t = some true := by
  constructor
  · rintro (h | ⟨s, ⟨h, h'⟩ | ⟨h, h'⟩ | ⟨h, h'⟩⟩)
    · exact h
    · exact absurd ⟨s, h.symm⟩ (ht _ (by simp [images]))
    · exact absurd ⟨s, h.symm⟩ (ht _ (by simp [images]))
    · exact absurd ⟨s, h.symm⟩ (ht _ (by simp [images]))
  · exact .inl

/-- The cache holds nothing that is wrong. -/
def Sound (locate : Bytes → Option Bool) (c : Cache) : Prop := ∀ k b, c k = some b → (b = true ↔ Found locate k)

theorem Sound.insert {locate : Bytes → Option Bool} {c : Cache} (h : Sound locate c) {k : Bytes} {b : Bool}
    (hb : b = true ↔ Found locate k) : Sound locate (c.insert k b) := by
  intro k' b' hk
  unfold Cache.insert at hk
  split at hk
  · rename_i he
    cases hk
    rw [he]; exact hb
  · exact h k' b' hk

theorem lookTexture_ok {locate : Bytes → Option Bool} {c c' : Cache} {t : Bytes} {b : Bool} (hc : Sound locate c)
    (ht : ∀ p ∈ images, ∀ s, t = s ++ p → ¬ p <:+: s) (h : lookTexture locate c t = .ok (b, c')) :
    (b = true ↔ Found locate t) ∧ Sound locate c' := by
  unfold lookTexture at h
  cases hk : c t with
  | some v =>
    rw [hk] at h; dsimp only at h
    cases h
    exact ⟨hc _ _ hk, hc⟩
  | none =>
    rw [hk] at h; dsimp only at h
    cases hl : locate t with
    | none => rw [hl] at h; cases h
    | some v =>
      rw [hl] at h
      cases v with
      | true =>
        dsimp only at h
        cases h
        have : true = true ↔ Found locate t := ⟨fun _ => .inl hl, fun _ => rfl⟩
        exact ⟨this, hc.insert this⟩
      | false =>
        dsimp only at h
        have h0 : locate t ≠ some true := by rw [hl]; simp
        obtain ⟨o1, o2⟩ := other_found (locate := locate) ht h0
        cases ho : other t with
        | none =>
          rw [ho] at h; dsimp only at h
          cases h
          have : false = true ↔ Found locate t := ⟨fun h => (by cases h), fun h => absurd h (o1 ho)⟩
          exact ⟨this, hc.insert this⟩
        | some o =>
          rw [ho] at h; dsimp only at h
          cases hlo : locate o with
          | none => rw [hlo] at h; cases h
          | some v =>
            rw [hlo] at h; dsimp only at h
            cases h
            have : b = true ↔ Found locate t := by
              rw [o2 o ho, hlo]; simp
            exact ⟨this, hc.insert this⟩

theorem lookMaterial_ok {locate : Bytes → Option Bool} {c c' : Cache} {t : Bytes} {b : Bool} (hc : Sound locate c)
    (ht : ∀ p ∈ images, ¬ p <:+ t) (h : lookMaterial locate c t = .ok (b, c')) :
    (b = true ↔ locate t = some true) ∧ Sound locate c' := by
  unfold lookMaterial at h
  cases hk : c t with
  | some v =>
    rw [hk] at h; dsimp only at h
    cases h
    exact ⟨(hc _ _ hk).trans (found_plain ht), hc⟩
  | none =>
    rw [hk] at h; dsimp only at h
    cases hl : locate t with
    | none => rw [hl] at h; cases h
    | some v =>
      rw [hl] at h; dsimp only at h
      cases h
      have : b = true ↔ locate t = some true := by rw [hl]; simp
      exact ⟨by simp, hc.insert (this.trans (found_plain ht).symm)⟩

theorem lookAll_ok {I : Cache → Prop} {look : Cache → Bytes → Except Stop (Bool × Cache)} {skip : Bytes → Bool}
    {P : Bytes → Prop} {ok : Bytes → Prop}
    (hl : ∀ c c' t b, I c → ok t → look c t = .ok (b, c') → (b = true ↔ P t) ∧ I c') :
    ∀ {ns : List Bytes} {c c' : Cache} {ms : List Bytes}, I c → (∀ n ∈ ns, skip n = false → ok (slashed n)) →
      lookAll look skip ns c = .ok (ms, c') →
      (∀ r, r ∈ ms ↔ ∃ n ∈ ns, skip n = false ∧ r = slashed n ∧ ¬ P r) ∧ I c' := by
  intro ns
  induction ns with
  | nil =>
    intro c c' ms hc _ h
    simp only [lookAll, Except.ok.injEq, Prod.mk.injEq] at h
    obtain ⟨rfl, rfl⟩ := h
    exact ⟨by simp, hc⟩
  | cons n ns ih =>
    intro c c' ms hc hok h
    rw [lookAll] at h
    by_cases hs : skip n = true
    · rw [if_pos hs] at h
      obtain ⟨h1, h2⟩ := ih hc (fun n hn => hok n (List.mem_cons_of_mem _ hn)) h
      refine ⟨fun r => (h1 r).trans ⟨?_, ?_⟩, h2⟩
      · rintro ⟨m, hm, h⟩; exact ⟨m, List.mem_cons_of_mem _ hm, h⟩
      · rintro ⟨m, hm, h⟩
        rcases List.mem_cons.1 hm with rfl | hm
        · rw [hs] at h; cases h.1
        · exact ⟨m, hm, h⟩
    · rw [if_neg hs] at h
      have hs' : skip n = false := by simpa using hs
      cases hlk : look c (slashed n) with
      | error e => rw [hlk] at h; cases h
      | ok bc =>
        obtain ⟨b, c1⟩ := bc
        rw [hlk] at h; dsimp only at h
        obtain ⟨hb, hc1⟩ := hl c c1 (slashed n) b hc (hok n (List.mem_cons_self ..) hs') hlk
        cases hr : lookAll look skip ns c1 with
        | error e => rw [hr] at h; cases h
        | ok mc =>
          obtain ⟨ms', c2⟩ := mc
          rw [hr] at h; dsimp only at h
          simp only [Except.ok.injEq, Prod.mk.injEq] at h
          obtain ⟨rfl, rfl⟩ := h
          obtain ⟨h1, h2⟩ := ih hc1 (fun n hn => hok n (List.mem_cons_of_mem _ hn)) hr
          refine ⟨fun r => ?_, h2⟩
          by_cases hbt : b = true
          · rw [if_pos hbt, h1]
            constructor
            · rintro ⟨m, hm, h⟩; exact ⟨m, List.mem_cons_of_mem _ hm, h⟩
            · rintro ⟨m, hm, h3, h4, h5⟩
              rcases List.mem_cons.1 hm with rfl | hm
              · exact absurd (hb.1 hbt) (h4 ▸ h5)
              · exact ⟨m, hm, h3, h4, h5⟩
          · rw [if_neg hbt, List.mem_cons, h1]
            constructor
            · rintro (rfl | ⟨m, hm, h⟩)
              · exact ⟨n, List.mem_cons_self .., hs', rfl, fun h => hbt (hb.2 h)⟩
              · exact ⟨m, List.mem_cons_of_mem _ hm, h⟩
            · rintro ⟨m, hm, h3, h4, h5⟩
              rcases List.mem_cons.1 hm with rfl | hm
              · exact .inl h4
              · exact .inr ⟨m, hm, h3, h4, h5⟩

theorem mem_asSet {n : Bytes} {ns : List Bytes} : n ∈ asSet ns ↔ n ∈ ns := by
  induction ns with
  | nil => simp [asSet]
  | cons a ns ih =>
    rw [asSet]
    split
    · rename_i h
      rw [ih, List.mem_cons]
      exact ⟨.inr, fun h' => h'.elim (fun e => e ▸ h) id⟩
    · rw [List.mem_cons, ih, List.mem_cons]

theorem rooted_iff {n r : Bytes} : rooted n r ↔ r = slashed n := by
  unfold rooted slashed
  cases n with
  | nil => simp
  | cons a n =>
    by_cases ha : a = 92
    · subst ha; simp
    · simp [ha]

theorem texture_iff {m : P3d.Model} {r : Bytes} : Texture m r ↔
    ∃ n ∈ (m.lods.flatMap P3d.Lod.faces).map P3d.Face.texture,
      (decide (n = []) || decide (n.head? = some 35)) = false ∧ r = slashed n := by
  constructor
  · rintro ⟨lod, hl, f, hf, h1, h2, h3⟩
    refine ⟨f.texture, List.mem_map.2 ⟨f, List.mem_flatMap.2 ⟨lod, hl, hf⟩, rfl⟩, ?_, rooted_iff.1 h3⟩
    cases ht : f.texture with
    | nil => exact absurd ht h1
    | cons a s =>
      have : a ≠ 35 := fun e => h2 s (by rw [ht, e])
      simp [this]
  · rintro ⟨n, hn, h1, h2⟩
    obtain ⟨f, hf, rfl⟩ := List.mem_map.1 hn
    obtain ⟨lod, hl, hf⟩ := List.mem_flatMap.1 hf
    simp only [Bool.or_eq_false_iff, decide_eq_false_iff_not] at h1
    exact ⟨lod, hl, f, hf, h1.1, fun s hs => h1.2 (by rw [hs]; rfl), rooted_iff.2 h2⟩

theorem material_iff {m : P3d.Model} {r : Bytes} : Material m r ↔
    ∃ n ∈ (m.lods.flatMap P3d.Lod.faces).map P3d.Face.material, decide (n = []) = false ∧ r = slashed n := by
  constructor
  · rintro ⟨lod, hl, f, hf, h1, h3⟩
    exact ⟨f.material, List.mem_map.2 ⟨f, List.mem_flatMap.2 ⟨lod, hl, hf⟩, rfl⟩, by simpa using h1, rooted_iff.1 h3⟩
  · rintro ⟨n, hn, h1, h2⟩
    obtain ⟨f, hf, rfl⟩ := List.mem_map.1 hn
    obtain ⟨lod, hl, hf⟩ := List.mem_flatMap.1 hf
    exact ⟨lod, hl, f, hf, by simpa using h1, rooted_iff.2 h2⟩

/-- The textures and materials of one model. -/
theorem missing_ok {locate : Bytes → Option Bool} {order : List Bytes → List Bytes} (ho : ∀ l, (order l).Perm l)
    {m : P3d.Model} (hu : Usual m) {c c' : Cache} {ts ms : List Bytes} (hc : Sound locate c)
    (h : missing locate order m c = .ok ((ts, ms), c')) :
    (∀ r, r ∈ ts ↔ Texture m r ∧ ¬ Found locate r) ∧ (∀ r, r ∈ ms ↔ Material m r ∧ locate r ≠ some true) ∧
      Sound locate c' := by
  unfold missing at h
  dsimp only at h
  generalize hT : lookAll (lookTexture locate) _ _ c = rt at h
  cases rt with
  | error e => cases h
  | ok tc =>
    obtain ⟨ts', c1⟩ := tc
    dsimp only at h
    generalize hM : lookAll (lookMaterial locate) _ _ c1 = rm at h
    cases rm with
    | error e => cases h
    | ok mc =>
      obtain ⟨ms', c2⟩ := mc
      dsimp only at h
      cases h
      have hmem : ∀ (l : List Bytes) n, n ∈ order (asSet l) ↔ n ∈ l := fun l n => (ho _).mem_iff.trans mem_asSet
      obtain ⟨t1, t2⟩ := lookAll_ok (I := Sound locate) (P := Found locate)
        (ok := fun t => ∀ p ∈ images, ∀ s, t = s ++ p → ¬ p <:+: s)
        (fun c c' t b hc hok hlk => lookTexture_ok hc hok hlk) hc
        (fun n hn hs => hu.textures _ (texture_iff.2 ⟨n, (hmem _ _).1 hn, hs, rfl⟩)) hT
      obtain ⟨m1, m2⟩ := lookAll_ok (I := Sound locate) (P := fun t => locate t = some true)
        (ok := fun t => ∀ p ∈ images, ¬ p <:+ t)
        (fun c c' t b hc hok hlk => lookMaterial_ok hc hok hlk) t2
        (fun n hn hs => hu.materials _ (material_iff.2 ⟨n, (hmem _ _).1 hn, hs, rfl⟩)) hM
      refine ⟨fun r => ?_, fun r => ?_, m2⟩
      · rw [t1, texture_iff]
        constructor
        · rintro ⟨n, hn, h1, h2, h3⟩; exact ⟨⟨n, (hmem _ _).1 hn, h1, h2⟩, h3⟩
        · rintro ⟨⟨n, hn, h1, h2⟩, h3⟩; exact ⟨n, (hmem _ _).2 hn, h1, h2, h3⟩
      · rw [m1, material_iff]
        constructor
        · rintro ⟨n, hn, h1, h2, h3⟩; exact ⟨⟨n, (hmem _ _).1 hn, h1, h2⟩, h3⟩
        · rintro ⟨⟨n, hn, h1, h2⟩, h3⟩; exact ⟨n, (hmem _ _).2 hn, h1, h2, h3⟩


/-! ### Which files -/

theorem extension_kind {name : Text} : (extension name).getD [] ∈ kinds ↔ Kind name := by
  constructor
  · intro h
    unfold extension at h
    have hsplit := List.takeWhile_append_dropWhile (p := fun c => decide (c ≠ '.')) (l := name.reverse)
    cases hd : name.reverse.dropWhile (fun c => decide (c ≠ '.')) with
    | nil => rw [hd] at h; simp [kinds] at h
    | cons a d =>
      have ha : a = '.' := by
        have := List.head_dropWhile_not (fun c => decide (c ≠ '.')) (l := name.reverse) (by rw [hd]; simp)
        simp only [hd, List.head_cons, decide_eq_false_iff_not, not_not] at this
        exact this
      subst ha
      cases d with
      | nil => rw [hd] at h; simp [kinds] at h
      | cons x r =>
        rw [hd] at h hsplit
        dsimp only [Option.getD] at h
        have hn : name = (x :: r).reverse ++ '.' :: (name.reverse.takeWhile (fun c => decide (c ≠ '.'))).reverse := by
          have := congrArg List.reverse hsplit
          rw [List.reverse_reverse] at this
          conv_lhs => rw [← this]
          rw [List.reverse_append, List.reverse_cons, List.append_assoc]
          rfl
        refine ⟨(x :: r).reverse, by simp, ?_⟩
        simp only [kinds, List.mem_cons, List.not_mem_nil, or_false] at h
        rcases h with h | h | h <;> rw [h] at hn
        · exact .inl hn
        · exact .inr (.inl hn)
        · exact .inr (.inr hn)
  · rintro ⟨stem, hs, h⟩
    have key : ∀ t : Text, '.' ∉ t → name = stem ++ '.' :: t → (extension name).getD [] = t := by
      intro t ht hn
      have hr : name.reverse = t.reverse ++ '.' :: stem.reverse := by rw [hn]; simp
      have hall : ∀ c ∈ t.reverse, decide (c ≠ '.') = true := by
        intro c hc
        simp only [ne_eq, decide_eq_true_eq]
        rintro rfl
        exact ht (by simpa using hc)
      unfold extension
      rw [hr, List.dropWhile_append_of_pos hall, List.takeWhile_append_of_pos hall]
      have hne : stem.reverse ≠ [] := by simpa using hs
      cases hst : stem.reverse with
      | nil => exact absurd hst hne
      | cons x r => simp
    rcases h with h | h | h
    · rw [key "rtm".toList (by decide) h]; decide
    · rw [key "p3d".toList (by decide) h]; decide
    · rw [key "wrp".toList (by decide) h]; decide

theorem done_iff {b : Bytes} : alreadyDone (b.take 4) = true ↔ Done b := by
  have e1 : ascii "ODOL" = [0x4F, 0x44, 0x4F, 0x4C] := by decide
  have e2 : ascii "BMTR" = [0x42, 0x4D, 0x54, 0x52] := by decide
  have e3 : ascii "OPRW" = [0x4F, 0x50, 0x52, 0x57] := by decide
  unfold Done alreadyDone
  rw [e1, e2, e3, List.prefix_iff_eq_take, List.prefix_iff_eq_take, List.prefix_iff_eq_take]
  simp only [List.length_cons, List.length_nil, Nat.zero_add, Nat.reduceAdd, Bool.or_eq_true, decide_eq_true_eq, or_assoc]
  exact ⟨fun h => h.imp Eq.symm (Or.imp Eq.symm Eq.symm), fun h => h.imp Eq.symm (Or.imp Eq.symm Eq.symm)⟩

theorem mlod_iff {b : Bytes} : b.take 4 = [0x4D, 0x4C, 0x4F, 0x44] ↔ ascii "MLOD" <+: b := by
  have e1 : ascii "MLOD" = [0x4D, 0x4C, 0x4F, 0x44] := by decide
  rw [e1, List.prefix_iff_eq_take]
  exact ⟨Eq.symm, Eq.symm⟩

theorem patterns_hit {glob : Text → Option (Text → Bool)} {s : Text} : ∀ {ps : List Text} {ms : List (Text → Bool)},
    patterns glob ps = some ms → (ms.any (fun m => m s) = true ↔ Hit glob ps s) := by
  intro ps
  induction ps with
  | nil => intro ms h; simp only [patterns, Option.some.injEq] at h; subst h; simp [Hit]
  | cons p ps ih =>
    intro ms h
    rw [patterns] at h
    cases hg : glob p with
    | none => rw [hg] at h; cases h
    | some m =>
      rw [hg] at h; dsimp only at h
      cases hp : patterns glob ps with
      | none => rw [hp] at h; cases h
      | some ms' =>
        rw [hp] at h; dsimp only at h
        cases h
        rw [List.any_cons, Bool.or_eq_true, ih hp]
        constructor
        · rintro (h | ⟨q, hq, h⟩)
          · exact ⟨p, List.mem_cons_self .., m, hg, h⟩
          · exact ⟨q, List.mem_cons_of_mem _ hq, h⟩
        · rintro ⟨q, hq, m', hm', h⟩
          rcases List.mem_cons.1 hq with rfl | hq
          · rw [hg] at hm'; cases hm'; exact .inl h
          · exact .inr ⟨q, hq, m', hm', h⟩

theorem excluded_hit {env : Env} {x : Source} (ht : TreeOk x.tree) {e : Entry} (he : e ∈ x.tree) {b : Bool}
    (h : excluded env x e = .ok b) : b = true ↔ ∃ t, x.toml = some t ∧ Hit env.glob t.exclude e.rel := by
  unfold excluded at h
  cases hx : x.toml with
  | none => rw [hx] at h; cases h; simp
  | some t =>
    rw [hx] at h; dsimp only at h
    cases hp : patterns env.glob t.exclude with
    | none => rw [hp] at h; cases h
    | some ms =>
      rw [hp] at h; dsimp only at h
      rw [Release.Entry.trim ht he] at h
      cases h
      rw [patterns_hit hp]
      simp

/-- One file. -/
theorem checkEntry_ok {env : Env} {x : Source} (ht : TreeOk x.tree) (hen : ∀ t, x.toml = some t → t.enabled = true)
    {e : Entry} (he : e ∈ x.tree) {st st' : State} (h : checkEntry env x st e = .ok st') :
    (¬ Binarized env x e ∧ st' = st) ∨
    (Binarized env x e ∧ ∃ st1, checkModel env x.addon e st = .ok st1 ∧ st' = { st1 with
      targets := st1.targets ++ [⟨sourceOf env x.addon e, outputOf env x.addon e, e.filename⟩] }) := by
  unfold checkEntry at h
  by_cases h1 : e.file = false ∨ (extension e.filename).getD [] ∉ kinds
  · rw [if_pos h1] at h
    cases h
    refine .inl ⟨fun hb => ?_, rfl⟩
    rcases h1 with h1 | h1
    · rw [hb.file] at h1; cases h1
    · exact h1 (extension_kind.2 hb.kind)
  rw [if_neg h1] at h
  obtain ⟨hf, hk⟩ := not_or.1 h1
  have hf : e.file = true := by simpa using hf
  have hk := extension_kind.1 (not_not.1 hk)
  cases hx : excluded env x e with
  | error s => rw [hx] at h; cases h
  | ok b =>
    have hit := excluded_hit ht he hx
    rw [hx] at h
    cases b with
    | true =>
      cases h
      obtain ⟨t, h2, h3⟩ := hit.1 rfl
      exact .inl ⟨fun hb => hb.kept t h2 h3, rfl⟩
    | false =>
      dsimp only at h
      by_cases h4 : e.content.length < 4
      · rw [if_pos h4] at h; cases h
      rw [if_neg h4] at h
      by_cases h5 : alreadyDone (e.content.take 4) = true
      · rw [if_pos h5] at h
        cases h
        exact .inl ⟨fun hb => hb.raw (done_iff.1 h5), rfl⟩
      rw [if_neg h5] at h
      cases hm : checkModel env x.addon e st with
      | error s => rw [hm] at h; cases h
      | ok st1 =>
        rw [hm] at h
        cases h
        exact .inr ⟨⟨he, hf, hk, hen, fun t ht hh => by simpa using hit.2 ⟨t, ht, hh⟩, fun hd => h5 (done_iff.2 hd)⟩, st1, rfl, rfl⟩

theorem checkModel_targets {env : Env} {a : Addon} {e : Entry} {st st1 : State} (h : checkModel env a e st = .ok st1) :
    st1.targets = st.targets := by
  unfold checkModel at h
  split at h
  · split at h
    · cases h
    · split at h
      · cases h
      · cases h; rfl
  · cases h; rfl

theorem checkModel_says {env : Env} (ho : ∀ l, (env.order l).Perm l) {x : Source} {e : Entry} {st st1 : State}
    (hc : Sound env.locate st.cache) (hu : ∀ m rest, P3d.Model.read e.content = .ok (m, rest) → Usual m)
    (h : checkModel env x.addon e st = .ok st1) :
    Sound env.locate st1.cache ∧ ∃ cs, Says env x e cs ∧ st1.report = st.report ++ cs := by
  unfold checkModel at h
  by_cases hm : e.content.take 4 = [0x4D, 0x4C, 0x4F, 0x44]
  · rw [if_pos hm] at h
    cases hr : P3d.Model.read e.content with
    | error s => rw [hr] at h; cases h
    | ok mr =>
      obtain ⟨m, rest⟩ := mr
      rw [hr] at h; dsimp only at h
      cases hx : missing env.locate env.order m st.cache with
      | error s => rw [hx] at h; cases h
      | ok mc =>
        obtain ⟨⟨ts, ms⟩, c⟩ := mc
        rw [hx] at h; dsimp only at h
        cases h
        obtain ⟨h1, h2, h3⟩ := missing_ok ho (hu m rest hr) hc hx
        exact ⟨h3, _, ⟨fun hn => absurd (mlod_iff.1 hm) hn, fun _ => ⟨m, rest, ts, ms, hr, h1, h2, rfl⟩⟩,
          List.append_assoc _ _ _⟩
  · rw [if_neg hm] at h
    cases h
    exact ⟨hc, [], ⟨fun _ => rfl, fun hn => absurd (mlod_iff.2 hn) hm⟩, by simp⟩

open Classical in
theorem checkEntries_targets {env : Env} {x : Source} (ht : TreeOk x.tree)
    (hen : ∀ t, x.toml = some t → t.enabled = true) : ∀ {es : List Entry} {st st' : State}, (∀ e ∈ es, e ∈ x.tree) →
      checkEntries env x es st = .ok st' → st'.targets = st.targets ++
        (es.filter fun e => decide (Binarized env x e)).map
          fun e => ⟨sourceOf env x.addon e, outputOf env x.addon e, e.filename⟩ := by
  intro es
  induction es with
  | nil => intro st st' _ h; cases h; simp
  | cons e es ih =>
    intro st st' he h
    rw [checkEntries] at h
    cases hc : checkEntry env x st e with
    | error s => rw [hc] at h; cases h
    | ok st1 =>
      rw [hc] at h; dsimp only at h
      rw [ih (fun e hm => he e (List.mem_cons_of_mem _ hm)) h]
      rcases checkEntry_ok ht hen (he e (List.mem_cons_self ..)) hc with ⟨hb, rfl⟩ | ⟨hb, st2, h2, rfl⟩
      · rw [List.filter_cons_of_neg (by simpa using hb)]
      · rw [List.filter_cons_of_pos (by simpa using hb), checkModel_targets h2]
        simp

open Classical in
theorem checkEntries_says {env : Env} (ho : ∀ l, (env.order l).Perm l) {x : Source} (ht : TreeOk x.tree)
    (hen : ∀ t, x.toml = some t → t.enabled = true)
    (hu : ∀ e, Binarized env x e → ∀ m rest, P3d.Model.read e.content = .ok (m, rest) → Usual m) :
    ∀ {es : List Entry} {st st' : State}, (∀ e ∈ es, e ∈ x.tree) → Sound env.locate st.cache →
      checkEntries env x es st = .ok st' → Sound env.locate st'.cache ∧ ∃ css,
        List.Forall₂ (Says env x) (es.filter fun e => decide (Binarized env x e)) css ∧
        st'.report = st.report ++ css.flatten := by
  intro es
  induction es with
  | nil => intro st st' _ hs h; cases h; exact ⟨hs, [], .nil, by simp⟩
  | cons e es ih =>
    intro st st' he hs h
    rw [checkEntries] at h
    cases hc : checkEntry env x st e with
    | error s => rw [hc] at h; cases h
    | ok st1 =>
      rw [hc] at h; dsimp only at h
      rcases checkEntry_ok ht hen (he e (List.mem_cons_self ..)) hc with ⟨hb, rfl⟩ | ⟨hb, st2, h2, rfl⟩
      · rw [List.filter_cons_of_neg (by simpa using hb)]
        exact ih (fun e hm => he e (List.mem_cons_of_mem _ hm)) hs h
      · obtain ⟨hs2, cs, hcs, hr⟩ := checkModel_says ho hs (hu e hb) h2
        obtain ⟨hs3, css, hcss, hr'⟩ := ih
          (st := { st2 with targets := st2.targets ++ [⟨sourceOf env x.addon e, outputOf env x.addon e, e.filename⟩] })
          (fun e hm => he e (List.mem_cons_of_mem _ hm)) hs2 h
        refine ⟨hs3, cs :: css, ?_, ?_⟩
        · rw [List.filter_cons_of_pos (by simpa using hb)]
          exact .cons hcs hcss
        · rw [hr']
          show st2.report ++ _ = _
          rw [hr]
          simp

theorem disabled_none {env : Env} {x : Source} (h : (x.toml.map (·.enabled)).getD true ≠ true) (e : Entry) :
    ¬ Binarized env x e := by
  intro hb
  cases hx : x.toml with
  | none => rw [hx] at h; exact h rfl
  | some t =>
    rw [hx] at h
    exact h (hb.enabled t hx)

theorem enabled_all {x : Source} (h : (x.toml.map (·.enabled)).getD true = true) :
    ∀ t, x.toml = some t → t.enabled = true := by
  intro t ht; rw [ht] at h; exact h

open Classical in
theorem wanted_cons (env : Env) (x : Source) (xs : List Source) : wanted env (x :: xs) =
    (x.tree.filter fun e => decide (Binarized env x e)).map (x, ·) ++ wanted env xs := rfl

theorem wanted_cons_neg {env : Env} {x : Source} {xs : List Source} (h : ∀ e, ¬ Binarized env x e) :
    wanted env (x :: xs) = wanted env xs := by
  rw [wanted_cons, List.filter_eq_nil_iff.2 (fun e _ => by simpa using h e)]
  rfl

theorem checkAddons_targets {env : Env} : ∀ {xs : List Source} {st st' : State}, (∀ x ∈ xs, TreeOk x.tree) →
    checkAddons env xs st = .ok st' → st'.targets = st.targets ++
      (wanted env xs).map fun p => ⟨sourceOf env p.1.addon p.2, outputOf env p.1.addon p.2, p.2.filename⟩ := by
  intro xs
  induction xs with
  | nil => intro st st' _ h; cases h; simp [wanted]
  | cons x xs ih =>
    intro st st' ht h
    rw [checkAddons] at h
    by_cases hen : (x.toml.map (·.enabled)).getD true = true
    · rw [if_pos hen] at h
      cases hc : checkEntries env x x.tree st with
      | error s => rw [hc] at h; cases h
      | ok st1 =>
        rw [hc] at h; dsimp only at h
        rw [ih (fun x hx => ht x (List.mem_cons_of_mem _ hx)) h,
          checkEntries_targets (ht x (List.mem_cons_self ..)) (enabled_all hen) (fun e he => he) hc]
        rw [wanted_cons, List.map_append, List.map_map, List.append_assoc]
        rfl
    · rw [if_neg hen] at h
      rw [ih (fun x hx => ht x (List.mem_cons_of_mem _ hx)) h, wanted_cons_neg (disabled_none hen)]

theorem checkAddons_says {env : Env} (ho : ∀ l, (env.order l).Perm l) : ∀ {xs : List Source} {st st' : State},
    (∀ x ∈ xs, TreeOk x.tree) →
    (∀ x ∈ xs, ∀ e, Binarized env x e → ∀ m rest, P3d.Model.read e.content = .ok (m, rest) → Usual m) →
    Sound env.locate st.cache → checkAddons env xs st = .ok st' → ∃ css,
      List.Forall₂ (fun p => Says env p.1 p.2) (wanted env xs) css ∧ st'.report = st.report ++ css.flatten := by
  intro xs
  induction xs with
  | nil => intro st st' _ _ _ h; cases h; exact ⟨[], .nil, by simp⟩
  | cons x xs ih =>
    intro st st' ht hu hs h
    rw [checkAddons] at h
    have ih := fun st => @ih st st' (fun x hx => ht x (List.mem_cons_of_mem _ hx)) (fun x hx => hu x (List.mem_cons_of_mem _ hx))
    by_cases hen : (x.toml.map (·.enabled)).getD true = true
    · rw [if_pos hen] at h
      cases hc : checkEntries env x x.tree st with
      | error s => rw [hc] at h; cases h
      | ok st1 =>
        rw [hc] at h; dsimp only at h
        obtain ⟨hs1, css, h1, h2⟩ := checkEntries_says ho (ht x (List.mem_cons_self ..)) (enabled_all hen)
          (hu x (List.mem_cons_self ..)) (fun e he => he) hs hc
        obtain ⟨css', h3, h4⟩ := ih st1 hs1 h
        refine ⟨css ++ css', ?_, ?_⟩
        · rw [wanted_cons]
          exact List.rel_append (R := fun (p : Source × Entry) => Says env p.1 p.2) (List.forall₂_map_left_iff.2 h1) h3
        · rw [h4, h2, List.flatten_append, List.append_assoc]
    · rw [if_neg hen] at h
      rw [wanted_cons_neg (disabled_none hen)]
      exact ih st hs h

theorem mem_wanted {env : Env} {xs : List Source} {x : Source} {e : Entry} :
    (x, e) ∈ wanted env xs ↔ x ∈ xs ∧ Binarized env x e := by
  simp only [wanted, List.mem_flatMap, List.mem_map, List.mem_filter, decide_eq_true_eq, Prod.mk.injEq]
  constructor
  · rintro ⟨x', hx, e', ⟨-, hb⟩, rfl, rfl⟩; exact ⟨hx, hb⟩
  · rintro ⟨hx, hb⟩; exact ⟨x, hx, e, ⟨hb.mem, hb⟩, rfl, rfl⟩

/-! ### Paths -/

theorem trimStart_stop {p s : Text} (h : ¬ p <+: s) : trimStart p s = s := by
  rw [trimStart.eq_def, dif_neg]
  rintro ⟨-, h'⟩
  exact h (List.isPrefixOf_iff_prefix.1 h')

theorem trimStart_step {p s : Text} (hp : p ≠ []) : trimStart p (p ++ s) = trimStart p s := by
  rw [trimStart.eq_def, dif_pos ⟨hp, by simp⟩, List.drop_left]

theorem joinWith_snoc {c : Char} {f : Text} : ∀ {ps : List Text}, ps ≠ [] → joinWith c (ps ++ [f]) = joinWith c ps ++ c :: f := by
  intro ps
  induction ps with
  | nil => intro h; exact absurd rfl h
  | cons p ps ih =>
    intro _
    cases ps with
    | nil => rfl
    | cons q ps =>
      have := ih (by simp)
      rw [List.cons_append] at this
      rw [List.cons_append, List.cons_append, joinWith, this, joinWith]
      simp

theorem joinWith_end {c : Char} : ∀ {ps : List Text}, ps ≠ [] → joinWith c ps ++ [c] = ps.flatMap (· ++ [c]) := by
  intro ps
  induction ps with
  | nil => intro h; exact absurd rfl h
  | cons p ps ih =>
    intro _
    cases ps with
    | nil => simp [joinWith]
    | cons q ps =>
      rw [joinWith, List.flatMap_cons, ← ih (by simp)]
      simp

theorem joinWith_last {c : Char} {f : Text} (ps : List Text) : joinWith c (ps ++ [f]) = ps.flatMap (· ++ [c]) ++ f := by
  cases ps with
  | nil => rfl
  | cons p ps => rw [joinWith_snoc (by simp), ← joinWith_end (by simp)]; simp

theorem trimSlashes_stop {s : Text} (h : s.head? ≠ some '/') : trimSlashes s = s := by
  cases s with
  | nil => rfl
  | cons a s =>
    have : a ≠ '/' := fun e => h (by rw [e]; rfl)
    simp [trimSlashes, this]

theorem trimSlashes_one {s : Text} (h : s.head? ≠ some '/') : trimSlashes ('/' :: s) = s := by
  have := trimSlashes_stop h
  unfold trimSlashes at this ⊢
  rw [List.dropWhile_cons_of_pos (by decide), this]

theorem folder_head (a : Addon) : ∃ c s, folder a = c :: s ∧ c ≠ '/' ∧ c ≠ '\\' := by
  unfold folder
  cases a.location
  · exact ⟨_, _, rfl, by decide, by decide⟩
  · exact ⟨_, _, rfl, by decide, by decide⟩

theorem folder_head' (a : Addon) (t : Text) : (folder a ++ t).head? ≠ some '/' := by
  obtain ⟨c, s, h, h1, h2⟩ := folder_head a
  rw [h]; simpa using h1

theorem trimEnd_dir {dir : List Text} {f : Text} (hf : f ≠ []) (hs : '/' ∉ f) :
    trimEnd f (dir.flatMap (· ++ ['/']) ++ f) = dir.flatMap (· ++ ['/']) := by
  unfold trimEnd
  rw [List.reverse_append, trimStart_step (by simpa using hf), trimStart_stop, List.reverse_reverse]
  intro hp
  rcases List.eq_nil_or_concat dir with rfl | ⟨d, l, rfl⟩
  · exact hf (by simpa using hp)
  · have : (List.flatMap (· ++ ['/']) (d ++ [l])).reverse = '/' :: (d.flatMap (· ++ ['/']) ++ l).reverse := by
      simp
    rw [List.concat_eq_append, this] at hp
    cases hr : f.reverse with
    | nil => exact hf (by simpa using hr)
    | cons a r =>
      rw [hr, List.cons_prefix_cons] at hp
      apply hs
      have : a ∈ f.reverse := by rw [hr]; exact List.mem_cons_self ..
      rw [← hp.1]; simpa using this

theorem sourceOf_eq {env : Env} {x : Source} (ht : TreeOk x.tree) {e : Entry} (he : e ∈ x.tree) :
    sourceOf env x.addon e = env.tmp ++ env.sep :: (joinWith env.sep x.addon.pfx ++ env.sep :: e.dir.flatMap (· ++ ['/'])) := by
  have hf := ht.names e he e.filename (by simp)
  unfold sourceOf
  have h1 : trimSlashes (e.asStr (folder x.addon)) = folder x.addon ++ '/' :: e.rel :=
    trimSlashes_one (folder_head' _ _)
  have h2 : trimStart (folder x.addon) (folder x.addon ++ '/' :: e.rel) = '/' :: e.rel := by
    obtain ⟨c, s, h, hc, -⟩ := folder_head x.addon
    rw [trimStart_step (by rw [h]; simp), trimStart_stop]
    rw [h, List.cons_prefix_cons]
    exact fun hh => hc hh.1
  rw [h1, h2, trimSlashes_one (Release.Entry.rel_head ht he), Release.Entry.rel, joinWith_last, trimEnd_dir hf.1 hf.2.1]
  simp [Env.join]

theorem outputOf_eq (env : Env) (a : Addon) (e : Entry) : outputOf env a e =
    env.tmp ++ env.sep :: ("hemtt_binarize_output".toList ++ env.sep :: joinWith '/' (folder a :: e.dir)) := by
  unfold outputOf parentStr
  rw [trimSlashes_one]
  · simp only [Env.join, List.append_assoc, List.cons_append]
  · cases e.dir with
    | nil => have := folder_head' a []; rwa [List.append_nil] at this
    | cons d ds => exact folder_head' a _

/-- The sign that slashes are turned into. -/
abbrev turn (c : Char) : Char := if c = '/' then '\\' else c

theorem turn_id {s : Text} (h : '/' ∉ s) : s.map turn = s := by
  conv_rhs => rw [← List.map_id s]
  apply List.map_congr_left
  intro c hc
  have : c ≠ '/' := fun e => h (e ▸ hc)
  simp [turn, this]

theorem turn_flatMap {dir : List Text} (h : ∀ d ∈ dir, '/' ∉ d) :
    (dir.flatMap (· ++ ['/'])).map turn = dir.flatMap (· ++ ['\\']) := by
  induction dir with
  | nil => rfl
  | cons d ds ih =>
    rw [List.flatMap_cons, List.map_append, ih fun d hd => h d (List.mem_cons_of_mem _ hd), List.map_append,
      turn_id (h d (List.mem_cons_self ..))]
    rfl

theorem turn_joinWith {ps : List Text} {c : Char} (hc : turn c = '\\') (h : ∀ p ∈ ps, '/' ∉ p) :
    (joinWith c ps).map turn = joinWith '\\' ps := by
  rw [Release.joinWith_map, hc]
  congr 1
  conv_rhs => rw [← List.map_id ps]
  exact List.map_congr_left fun p hp => turn_id (h p hp)

theorem TmpOk.sep {env : Env} {a : Addon} (h : TmpOk env a) : turn env.sep = '\\' := by
  rcases h with ⟨h, -⟩ | ⟨h, -⟩ <;> rw [h] <;> decide

theorem TmpOk.ne {env : Env} {a : Addon} (h : TmpOk env a) : env.tmp ≠ [] := by
  rcases h with ⟨-, c, s, h, -⟩ | ⟨-, c, s, h, -⟩ <;> rw [h] <;> simp

/-- An argument of the tool. -/
theorem argument_eq {env : Env} {a : Addon} (h : TmpOk env a) {p r : Text} (hp : p ≠ []) (hs : '/' ∉ p ∧ '\\' ∉ p)
    (hr : r = [] ∨ r.head? = some env.sep)
    (hd : a.pfx.head? = some p ∨ p = "hemtt_binarize_output".toList) :
    argument env (env.tmp ++ env.sep :: (p ++ r)) = (p ++ r).map turn := by
  unfold argument
  rw [trimStart_step h.ne, trimStart_stop]
  · obtain ⟨c, s, rfl⟩ := List.exists_cons_of_ne_nil hp
    have h1 : c ≠ '/' := fun e => hs.1 (by rw [e]; exact List.mem_cons_self ..)
    have h2 : c ≠ '\\' := fun e => hs.2 (by rw [e]; exact List.mem_cons_self ..)
    rcases h with ⟨h, -⟩ | ⟨h, -⟩ <;> rw [h] <;> simp [trimChar, h1, h2, turn]
  · rcases h with ⟨h, c, s, ht, hc⟩ | ⟨h, c, s, ht, hc, h3, h4⟩
    · rw [h, ht, List.cons_prefix_cons]
      exact fun hh => hc hh.1
    · rw [h, ht, List.cons_append, List.cons_prefix_cons]
      rintro ⟨-, t, hh⟩
      have e1 : (split '/' (c ++ '/' :: s ++ t)).head? = some c := by
        rw [List.append_assoc, List.cons_append, split_append hc]; rfl
      have e2 : (split '/' (p ++ r)).head? = some p := by
        rcases hr with rfl | hr
        · rw [List.append_nil, split_of_not_mem hs.1]; rfl
        · obtain ⟨r', rfl⟩ : ∃ r', r = '/' :: r' := by
            cases r with
            | nil => simp at hr
            | cons a r => rw [h] at hr; simp at hr; exact ⟨r, by rw [hr]⟩
          rw [split_append hs.1]; rfl
      rw [hh, e2] at e1
      injection e1 with e1
      rcases hd with hd | hd
      · exact h3 (hd.trans (by rw [e1]))
      · exact h4 (e1.symm.trans hd)

/-- The folder the tool reads from. -/
theorem argument_source {env : Env} {x : Source} (ht : TreeOk x.tree) {e : Entry} (he : e ∈ x.tree)
    (hp : PrefixOk x.addon) (hm : TmpOk env x.addon) :
    argument env (sourceOf env x.addon e) = joinWith '\\' (x.addon.pfx ++ e.dir) ++ ['\\'] := by
  rw [sourceOf_eq ht he]
  have hdir : ∀ d ∈ e.dir, '/' ∉ d := fun d hd => (ht.names e he d (by simp [hd])).2.1
  have hpf : ∀ d ∈ x.addon.pfx, '/' ∉ d := fun d hd => (hp.names d hd).1
  obtain ⟨p, ps, hpx⟩ := List.exists_cons_of_ne_nil hp.ne
  have key : ∃ r, joinWith env.sep x.addon.pfx ++ env.sep :: e.dir.flatMap (· ++ ['/']) = p ++ r ∧
      (r = [] ∨ r.head? = some env.sep) := by
    rw [hpx]
    cases ps with
    | nil => exact ⟨_, rfl, .inr rfl⟩
    | cons q ps => exact ⟨_, by rw [joinWith, List.append_assoc, List.cons_append], .inr rfl⟩
  obtain ⟨r, hr, hr'⟩ := key
  rw [hr, argument_eq hm (hp.first p (by rw [hpx]; rfl)) (hp.names p (by rw [hpx]; exact List.mem_cons_self ..)) hr'
    (.inl (by rw [hpx]; rfl)), ← hr, List.map_append, turn_joinWith hm.sep hpf, List.map_cons, hm.sep, turn_flatMap hdir]
  rw [joinWith_end (by simp [hp.ne]), List.flatMap_append, ← joinWith_end hp.ne]
  simp

theorem joinWith_split_append {c : Char} {s : Text} {ds : List Text} :
    joinWith c (s :: ds) = joinWith c (split c s ++ ds) := by
  cases ds with
  | nil => rw [List.append_nil, joinWith_split]; rfl
  | cons d ds =>
    rcases List.eq_nil_or_concat (split c s) with h | ⟨l, a, h⟩
    · exact absurd h (split_ne_nil c s)
    have h' : joinWith c (split c s) = s := joinWith_split c s
    rw [joinWith]
    clear h
    have : ∀ ps : List Text, ps ≠ [] → joinWith c (ps ++ d :: ds) = joinWith c ps ++ c :: joinWith c (d :: ds) := by
      intro ps
      induction ps with
      | nil => intro h; exact absurd rfl h
      | cons p ps ih =>
        intro _
        cases ps with
        | nil => rfl
        | cons q ps =>
          have := ih (by simp)
          rw [List.cons_append] at this
          rw [List.cons_append, List.cons_append, joinWith, this, joinWith]
          simp
    rw [this _ (split_ne_nil c s), h']

/-- The folder the tool writes to. -/
theorem argument_output {env : Env} {x : Source} (ht : TreeOk x.tree) {e : Entry} (he : e ∈ x.tree)
    (hm : TmpOk env x.addon) : argument env (outputOf env x.addon e) =
      joinWith '\\' (["hemtt_binarize_output".toList] ++ split '/' (folder x.addon) ++ e.dir) := by
  have hdir : ∀ d ∈ e.dir, '/' ∉ d := fun d hd => (ht.names e he d (by simp [hd])).2.1
  have ho : '/' ∉ "hemtt_binarize_output".toList ∧ '\\' ∉ "hemtt_binarize_output".toList := by decide
  rw [outputOf_eq, argument_eq hm (by decide) ho (.inr rfl) (.inr rfl), List.map_append, turn_id ho.1, List.map_cons,
    hm.sep, joinWith_split_append, turn_joinWith (by decide)]
  · obtain ⟨d, ds, hd⟩ := List.exists_cons_of_ne_nil (split_ne_nil '/' (folder x.addon))
    rw [hd]
    rfl
  · intro p hp
    rcases List.mem_append.1 hp with hp | hp
    · exact split_pieces p hp
    · exact hdir p hp


/-! ### Running the tool -/

/-- The file the tool writes for a target. -/
def key (env : Env) (t : Target) : List Text := env.parts (env.join t.output t.entry)

/-- What the tool is asked. -/
def asks (env : Env) (tool : Tool) (t : Target) : Option (Option Bytes) :=
  tool (argument env t.source) (argument env t.output) (t.entry.map turn)

/-- The file that is looked at for a path. -/
def layerKey (env : Env) (p : Text) : List Text :=
  env.parts (env.join (env.join env.tmp "hemtt_binarize_output".toList) (p.drop 1))

theorem runTargets_ok {env : Env} {tool : Tool} : ∀ {ts : List Target} {w w' : Files} {r : List Code},
    (∀ t ∈ ts, ∀ t' ∈ ts, key env t = key env t' → t = t') → runTargets env tool ts w = .ok (w', r) →
    (∀ t ∈ ts, ∃ o, asks env tool t = some o ∧ ∀ b, o = some b → w' (key env t) = some b) ∧
    (∀ k, (∀ t ∈ ts, key env t = k → asks env tool t = some none) → w' k = w k) ∧
    (∀ c, c ∈ r ↔ ∃ t ∈ ts, asks env tool t = some none ∧ w (key env t) = none ∧ c = .failed t.entry) := by
  intro ts
  induction ts with
  | nil => intro w w' r _ h; cases h; simp
  | cons t ts ih =>
    intro w w' r hk h
    rw [runTargets] at h
    have hk' : ∀ t ∈ ts, ∀ t' ∈ ts, key env t = key env t' → t = t' := fun a ha b hb =>
      hk a (List.mem_cons_of_mem _ ha) b (List.mem_cons_of_mem _ hb)
    cases hr : runTarget env tool w t with
    | error s => rw [hr] at h; cases h
    | ok wr =>
      obtain ⟨w1, r1⟩ := wr
      rw [hr] at h; dsimp only at h
      cases hR : runTargets env tool ts w1 with
      | error s => rw [hR] at h; cases h
      | ok wr2 =>
        obtain ⟨w2, r2⟩ := wr2
        rw [hR] at h; dsimp only at h
        cases h
        obtain ⟨i1, i2, i3⟩ := ih hk' hR
        have ha : runTarget env tool w t = match asks env tool t with
          | none => .error .panic
          | some none => .ok (w, if (w (key env t)).isSome then [] else [.failed t.entry])
          | some (some b) => .ok (fun p => if p = key env t then some b else w p, []) := rfl
        rw [ha] at hr
        cases hq : asks env tool t with
        | none => rw [hq] at hr; cases hr
        | some o =>
          rw [hq] at hr
          cases o with
          | none =>
            dsimp only at hr
            cases hr
            refine ⟨?_, ?_, ?_⟩
            · intro u hu
              rcases List.mem_cons.1 hu with rfl | hu
              · exact ⟨none, hq, fun b hb => by cases hb⟩
              · exact i1 u hu
            · exact fun k hu => i2 k fun u hm => hu u (List.mem_cons_of_mem _ hm)
            · intro c
              rw [List.mem_append, i3]
              constructor
              · rintro (hc | ⟨u, hu, h⟩)
                · refine ⟨t, List.mem_cons_self .., hq, ?_⟩
                  cases hw : w (key env t) with
                  | some b => rw [hw] at hc; simp at hc
                  | none => rw [hw] at hc; simp at hc; exact ⟨rfl, hc⟩
                · exact ⟨u, List.mem_cons_of_mem _ hu, h⟩
              · rintro ⟨u, hu, h1, h2, h3⟩
                rcases List.mem_cons.1 hu with rfl | hu
                · exact .inl (by rw [h2]; simp [h3])
                · exact .inr ⟨u, hu, h1, h2, h3⟩
          | some b =>
            dsimp only at hr
            cases hr
            have other : ∀ u ∈ ts, asks env tool u = some none → key env u ≠ key env t := by
              intro u hu hn he
              have := hk u (List.mem_cons_of_mem _ hu) t (List.mem_cons_self ..) he
              rw [this, hq] at hn; cases hn
            refine ⟨?_, ?_, ?_⟩
            · intro u hu
              by_cases hm : u ∈ ts
              · exact i1 u hm
              · rcases List.mem_cons.1 hu with rfl | hu
                · refine ⟨some b, hq, fun b' hb => ?_⟩
                  cases hb
                  rw [i2 (key env u) fun v hv he => absurd (hk v (List.mem_cons_of_mem _ hv) u (List.mem_cons_self ..) he)
                    (fun e => hm (e ▸ hv))]
                  simp
                · exact absurd hu hm
            · intro k hu
              rw [i2 k fun u hm => hu u (List.mem_cons_of_mem _ hm)]
              have : k ≠ key env t := fun e => by
                have := hu t (List.mem_cons_self ..) e.symm
                rw [hq] at this; cases this
              simp [this]
            · intro c
              rw [List.nil_append, i3]
              constructor
              · rintro ⟨u, hu, h1, h2, h3⟩
                dsimp only at h2
                rw [if_neg (other u hu h1)] at h2
                exact ⟨u, List.mem_cons_of_mem _ hu, h1, h2, h3⟩
              · rintro ⟨u, hu, h1, h2, h3⟩
                rcases List.mem_cons.1 hu with rfl | hu
                · rw [hq] at h1; cases h1
                · exact ⟨u, hu, h1, by dsimp only; rw [if_neg (other u hu h1)]; exact h2, h3⟩

theorem runTargets_total {env : Env} {tool : Tool} : ∀ {ts : List Target} {w : Files},
    (∃ w' r, runTargets env tool ts w = .ok (w', r)) ↔ ∀ t ∈ ts, asks env tool t ≠ none := by
  intro ts
  induction ts with
  | nil => intro w; simp [runTargets]
  | cons t ts ih =>
    intro w
    have ha : runTarget env tool w t = match asks env tool t with
      | none => .error .panic
      | some none => .ok (w, if (w (key env t)).isSome then [] else [.failed t.entry])
      | some (some b) => .ok (fun p => if p = key env t then some b else w p, []) := rfl
    rw [runTargets, ha]
    cases hq : asks env tool t with
    | none => simp [hq]
    | some o =>
      have key : ∀ w1 r1, (∃ w' r, (match runTargets env tool ts w1 with
          | Except.error s => Except.error s
          | .ok (w, r') => .ok (w, r1 ++ r')) = Except.ok (w', r)) ↔ ∀ u ∈ t :: ts, asks env tool u ≠ none := by
        intro w1 r1
        rw [List.forall_mem_cons, hq, ← ih (w := w1)]
        cases hR : runTargets env tool ts w1 with
        | error s => simp
        | ok wr => obtain ⟨w2, r2⟩ := wr; simp
      cases o with
      | none => exact key _ _
      | some b => exact key _ _

/-! ### Files and paths -/

theorem parts_inj {env : Env} {p q : Text}
    (h : env.parts p = env.parts q) : (p.map fun c => if c = env.sep then '/' else c) = q.map fun c => if c = env.sep then '/' else c := by
  unfold Env.parts at h
  rw [← joinWith_split '/' (p.map _), h, joinWith_split]

theorem unsep_id {env : Env} {q : Text} (hs : env.sep = '/' ∨ (env.sep = '\\' ∧ '\\' ∉ q)) :
    (q.map fun c => if c = env.sep then '/' else c) = q := by
  conv_rhs => rw [← List.map_id q]
  apply List.map_congr_left
  intro c hc
  rcases hs with hs | ⟨hs, hq⟩ <;> rw [hs]
  · by_cases h : c = '/' <;> simp [h]
  · have : c ≠ '\\' := fun e => hq (e ▸ hc)
    simp [this]

theorem layerKey_inj {env : Env} {p q : Text} (hp : env.sep = '/' ∨ (env.sep = '\\' ∧ '\\' ∉ p))
    (hq : env.sep = '/' ∨ (env.sep = '\\' ∧ '\\' ∉ q))
    (h : layerKey env ('/' :: p) = layerKey env ('/' :: q)) : p = q := by
  have := parts_inj h
  simp only [Env.join, List.map_append, List.map_cons, List.drop_succ_cons, List.drop_zero] at this
  have := List.append_cancel_left this
  injection this with _ this
  rwa [unsep_id hp, unsep_id hq] at this

theorem key_eq (env : Env) (x : Source) (e : Entry) :
    key env ⟨sourceOf env x.addon e, outputOf env x.addon e, e.filename⟩ = layerKey env (path x e) := by
  unfold key layerKey Env.parts
  congr 1
  dsimp only [path]
  rw [outputOf_eq]
  have h : folder x.addon ++ '/' :: e.rel = joinWith '/' (folder x.addon :: e.dir) ++ '/' :: e.filename := by
    rw [← joinWith_snoc (by simp), Release.Entry.rel, List.cons_append]
    cases hd : e.dir ++ [e.filename] with
    | nil => simp at hd
    | cons a l => rw [joinWith]
  rw [List.cons_append, List.drop_succ_cons, List.drop_zero, h]
  simp [Env.join]

theorem show_ok (a : Addon) : '/' ∉ Release.Location.show a.location ∧ '\\' ∉ Release.Location.show a.location := by
  cases a.location <;> decide

theorem path_parts {xs : List Source} (hx : SourcesOk xs) {x : Source} (h : x ∈ xs) {e : Entry} (he : e ∈ x.tree) :
    split '/' (path x e) =
      [] :: Release.Location.show x.addon.location :: x.addon.name :: (e.dir ++ [e.filename]) := by
  have hs := show_ok x.addon
  have hn := hx.names x h
  unfold path folder
  have : ('/' :: (Release.Location.show x.addon.location ++ '/' :: x.addon.name) ++ '/' :: e.rel) =
    [] ++ '/' :: (Release.Location.show x.addon.location ++ '/' :: (x.addon.name ++ '/' :: e.rel)) := by simp
  rw [this, split_append (by simp), split_append hs.1, split_append hn.1, Release.Entry.rel, split_joinWith (by simp)]
  exact fun p hp => ((hx.trees x h).names e he p hp).2.1

theorem path_inj {xs : List Source} (hx : SourcesOk xs) {x x' : Source} (h : x ∈ xs) (h' : x' ∈ xs) {e e' : Entry}
    (he : e ∈ x.tree) (he' : e' ∈ x'.tree) (hp : path x e = path x' e') : x = x' ∧ e = e' := by
  have hs := congrArg (split '/') hp
  rw [path_parts hx h he, path_parts hx h' he'] at hs
  injection hs with _ hs
  injection hs with h1 hs
  injection hs with h2 hs
  have hxx : x = x' := List.inj_on_of_nodup_map hx.nodup h h' (by simp only [folder]; rw [h1, h2])
  subst hxx
  have h3 := List.append_inj' hs rfl
  refine ⟨rfl, List.inj_on_of_nodup_map (hx.trees x h).nodup he he' ?_⟩
  have h4 : e.filename = e'.filename := by simpa using h3.2
  simp only [h3.1, h4]

theorem path_back {xs : List Source} (hx : SourcesOk xs) {x : Source} (h : x ∈ xs) {e : Entry} (he : e ∈ x.tree) :
    '\\' ∉ path x e := by
  have hs := show_ok x.addon
  have hn := hx.names x h
  have hr : '\\' ∉ e.rel := Release.joinWith_not_mem (by decide) fun p hp => ((hx.trees x h).names e he p hp).2.2
  unfold path folder
  intro hm
  simp only [List.cons_append, List.append_assoc, List.mem_cons, List.mem_append] at hm
  rcases hm with hm | hm | hm | hm | hm | hm
  · exact absurd hm (by decide)
  · exact hs.2 hm
  · exact absurd hm (by decide)
  · exact hn.2 hm
  · exact absurd hm (by decide)
  · exact hr hm

/-! ### Completion -/

theorem lookAll_total {look : Cache → Bytes → Except Stop (Bool × Cache)} {skip : Bytes → Bool}
    (hl : ∀ c t, ∃ r, look c t = .ok r) : ∀ (ns : List Bytes) (c : Cache), ∃ r, lookAll look skip ns c = .ok r := by
  intro ns
  induction ns with
  | nil => intro c; exact ⟨_, rfl⟩
  | cons n ns ih =>
    intro c
    rw [lookAll]
    split
    · exact ih c
    · obtain ⟨⟨b, c1⟩, h1⟩ := hl c (slashed n)
      obtain ⟨⟨ms, c2⟩, h2⟩ := ih c1
      rw [h1]; dsimp only
      rw [h2]
      exact ⟨_, rfl⟩

theorem missing_total {locate : Bytes → Option Bool} (hl : ∀ t, (locate t).isSome) (order : List Bytes → List Bytes)
    (m : P3d.Model) (c : Cache) : ∃ r, missing locate order m c = .ok r := by
  have ht : ∀ c t, ∃ r, lookTexture locate c t = .ok r := by
    intro c t
    unfold lookTexture
    cases c t with
    | some b => exact ⟨_, rfl⟩
    | none =>
      obtain ⟨b, hb⟩ := Option.isSome_iff_exists.1 (hl t)
      rw [hb]
      cases b with
      | true => exact ⟨_, rfl⟩
      | false =>
        dsimp only
        cases other t with
        | none => exact ⟨_, rfl⟩
        | some o =>
          obtain ⟨b, hb⟩ := Option.isSome_iff_exists.1 (hl o)
          dsimp only
          rw [hb]; exact ⟨_, rfl⟩
  have hm : ∀ c t, ∃ r, lookMaterial locate c t = .ok r := by
    intro c t
    unfold lookMaterial
    cases c t with
    | some b => exact ⟨_, rfl⟩
    | none =>
      obtain ⟨b, hb⟩ := Option.isSome_iff_exists.1 (hl t)
      rw [hb]; exact ⟨_, rfl⟩
  unfold missing
  dsimp only
  obtain ⟨⟨ts, c1⟩, h1⟩ := lookAll_total (skip := fun t => decide (t = []) || decide (t.head? = some 35)) ht
    (order (asSet ((m.lods.flatMap P3d.Lod.faces).map P3d.Face.texture))) c
  obtain ⟨⟨ms, c2⟩, h2⟩ := lookAll_total (skip := fun t => decide (t = [])) hm
    (order (asSet ((m.lods.flatMap P3d.Lod.faces).map P3d.Face.material))) c1
  rw [h1]; dsimp only
  rw [h2]
  exact ⟨_, rfl⟩

theorem patterns_total {glob : Text → Option (Text → Bool)} : ∀ {ps : List Text}, (∀ p ∈ ps, (glob p).isSome) →
    ∃ ms, patterns glob ps = some ms := by
  intro ps
  induction ps with
  | nil => intro _; exact ⟨_, rfl⟩
  | cons p ps ih =>
    intro h
    obtain ⟨m, hm⟩ := Option.isSome_iff_exists.1 (h p (List.mem_cons_self ..))
    obtain ⟨ms, hms⟩ := ih fun p hp => h p (List.mem_cons_of_mem _ hp)
    rw [patterns, hm]; dsimp only
    rw [hms]
    exact ⟨_, rfl⟩

theorem checkEntry_total {env : Env} (hl : ∀ t, (env.locate t).isSome) {x : Source}
    (hg : ∀ t, x.toml = some t → ∀ p ∈ t.exclude, (env.glob p).isSome) {e : Entry}
    (he : e.file = true → Kind e.filename → Readable e) (st : State) : ∃ st', checkEntry env x st e = .ok st' := by
  unfold checkEntry
  by_cases h1 : e.file = false ∨ (extension e.filename).getD [] ∉ kinds
  · rw [if_pos h1]; exact ⟨_, rfl⟩
  rw [if_neg h1]
  obtain ⟨hf, hk⟩ := not_or.1 h1
  obtain ⟨h4, hm⟩ := he (by simpa using hf) (extension_kind.1 (not_not.1 hk))
  have hx : ∃ b, excluded env x e = .ok b := by
    unfold excluded
    cases ht : x.toml with
    | none => exact ⟨_, rfl⟩
    | some t =>
      obtain ⟨ms, hms⟩ := patterns_total (hg t ht)
      dsimp only
      rw [hms]
      exact ⟨_, rfl⟩
  obtain ⟨b, hb⟩ := hx
  rw [hb]
  cases b with
  | true => exact ⟨_, rfl⟩
  | false =>
    dsimp only
    rw [if_neg (by omega)]
    split
    · exact ⟨_, rfl⟩
    · have hc : ∃ st1, checkModel env x.addon e st = .ok st1 := by
        unfold checkModel
        split
        · rename_i h5
          obtain ⟨⟨m, rest⟩, hr⟩ := hm (mlod_iff.1 h5)
          rw [hr]; dsimp only
          obtain ⟨⟨⟨ts, ms⟩, c⟩, h6⟩ := missing_total hl env.order m st.cache
          rw [h6]
          exact ⟨_, rfl⟩
        · exact ⟨_, rfl⟩
      obtain ⟨st1, h1⟩ := hc
      rw [h1]
      exact ⟨_, rfl⟩

theorem checkEntries_total {env : Env} (hl : ∀ t, (env.locate t).isSome) {x : Source}
    (hg : ∀ t, x.toml = some t → ∀ p ∈ t.exclude, (env.glob p).isSome) : ∀ {es : List Entry} (st : State),
    (∀ e ∈ es, e.file = true → Kind e.filename → Readable e) → ∃ st', checkEntries env x es st = .ok st' := by
  intro es
  induction es with
  | nil => intro st _; exact ⟨_, rfl⟩
  | cons e es ih =>
    intro st h
    obtain ⟨st1, h1⟩ := checkEntry_total hl hg (h e (List.mem_cons_self ..)) st
    rw [checkEntries, h1]
    exact ih st1 fun e he => h e (List.mem_cons_of_mem _ he)

theorem checkAddons_total {env : Env} (hl : ∀ t, (env.locate t).isSome) : ∀ {xs : List Source} (st : State),
    (∀ x ∈ xs, ∀ t, x.toml = some t → ∀ p ∈ t.exclude, (env.glob p).isSome) →
    (∀ x ∈ xs, ∀ e ∈ x.tree, e.file = true → Kind e.filename → Readable e) → ∃ st', checkAddons env xs st = .ok st' := by
  intro xs
  induction xs with
  | nil => intro st _ _; exact ⟨_, rfl⟩
  | cons x xs ih =>
    intro st hg h
    rw [checkAddons]
    have ih := fun st => ih st (fun x hx => hg x (List.mem_cons_of_mem _ hx)) (fun x hx => h x (List.mem_cons_of_mem _ hx))
    split
    · obtain ⟨st1, h1⟩ := checkEntries_total hl (hg x (List.mem_cons_self ..)) st (h x (List.mem_cons_self ..))
      rw [h1]
      exact ih st1
    · exact ih st

end Verif.Binarize
