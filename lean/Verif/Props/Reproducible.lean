import Verif.Props.Sources
/-!
**C135**: building the same sources again gives the same PBOs, byte for byte: neither the steps of the threads nor the order in
which a folder or a hash map gives its entries matter, unless settings hold more than one property.
-/
namespace Verif.Sources
open Verif.Rapifier
open Verif.Commands (Pre Parsed compiled settings scripts)
open Verif.Workspace (Addon FILES)
open Verif.Release hiding Path withExtension Wanted
open Verif.Pbo
open Verif.SqfLex (enc)

/-! ### Packing -/

/-- The same settings of an addon, with the properties in another order. -/
def SameToml : Option AddonToml → Option AddonToml → Prop
  | none, none => True
  | some t, some t' => t.exclude = t'.exclude ∧ t.properties.Perm t'.properties
  | _, _ => False

/-- The same addon: the same settings and the same folder, whose entries come in any order. -/
structure Same (x x' : Source) : Prop where
  addon : x.addon = x'.addon
  toml : SameToml x.toml x'.toml
  tree : ∀ e, e ∈ x.tree ↔ e ∈ x'.tree

/-- The same settings of a project, with the properties in another order. -/
def SameSettings (s s' : Settings) : Prop := ∃ ps, s.properties.Perm ps ∧ s' = { s with properties := ps }

/-- Neither the project nor the addon has more than one property of its own. -/
def FewProperties (s : Settings) (x : Source) : Prop :=
  s.properties.length ≤ 1 ∧ ∀ t, x.toml = some t → t.properties.length ≤ 1

theorem perm_few {α : Type} {l l' : List α} (h : l.Perm l') (hl : l.length ≤ 1) : l = l' := by
  match l, hl with
  | [], _ => exact (List.nil_perm.1 h).symm
  | [a], _ => exact List.singleton_perm.1 h

theorem few_settings {s s' : Settings} (h : SameSettings s s') (hf : s.properties.length ≤ 1) : s' = s := by
  obtain ⟨ps, hp, rfl⟩ := h
  rw [← perm_few hp hf]

theorem few_toml {x x' : Source} (h : SameToml x.toml x'.toml) (hf : ∀ t, x.toml = some t → t.properties.length ≤ 1) :
    x'.toml = x.toml := by
  cases hx : x.toml with
  | none => cases hx' : x'.toml with
    | none => rfl
    | some t' => rw [hx, hx'] at h; exact h.elim
  | some t => cases hx' : x'.toml with
    | none => rw [hx, hx'] at h; exact h.elim
    | some t' =>
      rw [hx, hx'] at h
      obtain ⟨ex, ps⟩ := t
      obtain ⟨ex', ps'⟩ := t'
      obtain ⟨rfl, h2⟩ := h
      have := perm_few h2 (hf _ hx)
      dsimp only at this
      subst this
      rfl

theorem addPrefix_props {env : Env} {p : List Text} {a b : WPbo} (h : a.properties = b.properties) :
    (addPrefix env p a).properties = (addPrefix env p b).properties := by
  unfold addPrefix
  cases env.git <;> simp [WPbo.addProperty, h]

theorem packEntries_one {env : Env} {s : Settings} {x : Source} (ht : TreeOk x.tree)
    (hone : ∀ e e', PrefixFile env s x e → PrefixFile env s x e' → e = e') :
    ∀ (es : List Entry) (pbo pbo' : WPbo), (∀ e ∈ es, e ∈ x.tree) → es.Nodup →
    packEntries env s x.addon x.toml x.tree es pbo = .ok pbo' →
    ((∀ e ∈ es, ¬ PrefixFile env s x e) ∧ pbo'.properties = pbo.properties) ∨
    ∃ e ∈ es, PrefixFile env s x e ∧ ∃ t p, decode? e.content = some t ∧ Prefix.new t = .ok p ∧
      pbo'.properties = (addPrefix env p pbo).properties := by
  intro es
  induction es with
  | nil =>
    intro pbo pbo' _ _ h
    simp only [packEntries, Except.ok.injEq] at h
    exact .inl ⟨by simp, by rw [h]⟩
  | cons e es ih =>
    intro pbo pbo' hm hn h
    rw [List.nodup_cons] at hn
    rw [packEntries] at h
    have he := hm e (by simp)
    cases h1 : packEntry env s x.addon x.toml x.tree pbo e with
    | error y => rw [h1] at h; simp at h
    | ok p1 =>
      rw [h1] at h
      dsimp only at h
      have hrest := ih p1 pbo' (fun y hy => hm y (by simp [hy])) hn.2 h
      have hskip : ¬ PrefixFile env s x e → p1.properties = pbo.properties →
          ((∀ e' ∈ e :: es, ¬ PrefixFile env s x e') ∧ pbo'.properties = pbo.properties) ∨
          ∃ e' ∈ e :: es, PrefixFile env s x e' ∧ ∃ t p, decode? e'.content = some t ∧ Prefix.new t = .ok p ∧
            pbo'.properties = (addPrefix env p pbo).properties := by
        intro hp hf
        rcases hrest with ⟨a, b⟩ | ⟨e', a, b, t, p, c, d, f⟩
        · refine .inl ⟨?_, b.trans hf⟩
          intro e' he'
          rcases List.mem_cons.1 he' with rfl | he'
          exacts [hp, a e' he']
        · exact .inr ⟨e', by simp [a], b, t, p, c, d, f.trans (addPrefix_props hf)⟩
      rcases packEntry_cases ht he h1 with ⟨hc, rfl⟩ | ⟨hp, t, p, hd, hq, rfl⟩ | ⟨hp, -, rfl⟩
      · exact hskip (fun h => hc h.1) rfl
      · right
        refine ⟨e, by simp, hp, t, p, hd, hq, ?_⟩
        rcases hrest with ⟨-, b⟩ | ⟨e', a, b, -⟩
        · exact b
        · exact absurd (hone e' e b hp ▸ a) hn.1
      · exact hskip (fun h => hp.2 h.2) rfl

theorem addProperties_props (l : List (Text × Text)) : ∀ {a b : WPbo}, a.properties = b.properties →
    (addProperties l a).properties = (addProperties l b).properties := by
  induction l with
  | nil => intro a b h; exact h
  | cons kv l ih => intro a b h; rw [addProperties, addProperties]; exact ih (by simp [WPbo.addProperty, h])

theorem considered_same {env : Env} {s : Settings} {x x' : Source} (ha : x.addon = x'.addon) (ht : x'.toml = x.toml)
    (htree : ∀ e, e ∈ x.tree ↔ e ∈ x'.tree) (e : Entry) : Considered env s x e ↔ Considered env s x' e := by
  have hl : LeftOut env s x e ↔ LeftOut env s x' e := by unfold LeftOut; rw [ha, ht]
  constructor
  · rintro ⟨h1, h2, h3, h4, h5⟩
    exact ⟨(htree e).1 h1, h2, h3, fun h b hb => h4 h b ((htree b).2 hb), fun h => h5 (hl.2 h)⟩
  · rintro ⟨h1, h2, h3, h4, h5⟩
    exact ⟨(htree e).2 h1, h2, h3, fun h b hb => h4 h b ((htree b).1 hb), fun h => h5 (hl.1 h)⟩

theorem pack_same {env : Env} {s : Settings} {x x' : Source} (ht : TreeOk x.tree) (ht' : TreeOk x'.tree)
    (ha : x.addon = x'.addon) (htm : x'.toml = x.toml) (htree : ∀ e, e ∈ x.tree ↔ e ∈ x'.tree)
    (hone : ∀ e e', PrefixFile env s x e → PrefixFile env s x e' → e = e') {pbo pbo' : WPbo}
    (h : pack env s x.addon x.toml x.tree = .ok pbo) (h' : pack env s x'.addon x'.toml x'.tree = .ok pbo') :
    pbo.properties = pbo'.properties ∧ pbo.files.Perm pbo'.files ∧ ∃ l : List Entry, l.Nodup ∧
      (∀ e, e ∈ l ↔ Packed env s x e) ∧ pbo.files = l.map stored := by
  have hcons := considered_same (env := env) (s := s) ha htm htree
  have hpref : ∀ e, PrefixFile env s x e ↔ PrefixFile env s x' e := fun e => and_congr_left fun _ => hcons e
  obtain ⟨l, l1, l2, l3⟩ := pack_files ht h
  obtain ⟨l', l1', l2', l3'⟩ := pack_files ht' h'
  have hnl : l.Nodup := l1.nodup ht.nodup.of_map
  have hnl' : l'.Nodup := l1'.nodup ht'.nodup.of_map
  refine ⟨?_, ?_, l, hnl, l2, l3⟩
  · unfold pack at h h'
    dsimp only at h h'
    split at h
    · simp at h
    rename_i p1 h1
    split at h'
    · simp at h'
    rename_i p1' h1'
    obtain rfl := Except.ok.inj h
    obtain rfl := Except.ok.inj h'
    rw [htm]
    refine addProperties_props _ (addProperties_props _ ?_)
    have r1 := packEntries_one ht hone _ _ _ (fun _ h => h) ht.nodup.of_map h1
    have r2 := packEntries_one ht' (fun e e' he he' => hone e e' ((hpref e).2 he) ((hpref e').2 he')) _ _ _ (fun _ h => h)
      ht'.nodup.of_map h1'
    rcases r1 with ⟨a, b⟩ | ⟨e, a, b, t, p, c, d, f⟩
    · rcases r2 with ⟨a', b'⟩ | ⟨e', a', b', -⟩
      · rw [b, b']
      · exact absurd ((hpref e').2 b') (a e' ((htree e').2 a'))
    · rcases r2 with ⟨a', b'⟩ | ⟨e', a', b', t', p', c', d', f'⟩
      · exact absurd ((hpref e).1 b) (a' e ((htree e).1 a))
      · obtain rfl := hone e e' b ((hpref e').2 b')
        rw [c] at c'
        obtain rfl := Option.some.inj c'
        rw [d] at d'
        obtain rfl := Except.ok.inj d'
        rw [f, f']
  · rw [l3, l3']
    refine List.Perm.map _ ((List.perm_ext_iff_of_nodup hnl hnl').2 fun e => ?_)
    rw [l2, l2']
    exact and_congr_left fun _ => hcons e

/-- **C135**: packing. Two builds of the same addon, with the entries of its folder, the properties of the settings and the files of
the PBO each in any order, and among whatever other addons, write the same bytes. This holds if there is at most one file that
says what the prefix is, no two files differ only in letter case, and neither the project nor the addon has more than one property
of its own. -/
theorem C135_packed {env : Env} {s s' : Settings} {c : Bool} {d d' : Digest} {xs xs' : List Source} {o o' w w' : World}
    (hH : d'.H = d.H) (hl : d'.lower = d.lower) (hord : ∀ l, (d.order l).Perm l) (hord' : ∀ l, (d'.order l).Perm l)
    (hs : SameSettings s s') (hb : build d env s c xs o = .ok w) (hb' : build d' env s' c xs' o' = .ok w')
    (hdist : (xs.map fun x => target s c x.addon).Nodup) (hdist' : (xs'.map fun x => target s c x.addon).Nodup)
    {x x' : Source} (hx : x ∈ xs) (hx' : x' ∈ xs') (ht : TreeOk x.tree) (ht' : TreeOk x'.tree) (hsame : Same x x')
    (hone : ∀ e e', PrefixFile env s x e → PrefixFile env s x e' → e = e')
    (hcase : ∀ e e', Packed env s x e → Packed env s x e' → d.lower (enc (inPbo e)) = d.lower (enc (inPbo e')) → e = e')
    (hf : FewProperties s x) :
    ∃ out, w (target s c x.addon) = some out ∧ w' (target s c x.addon) = some out := by
  obtain rfl := few_settings hs hf.1
  have htm := few_toml hsame.toml hf.2
  have hno : ∀ {xs : List Source}, (xs.map fun x => target s' c x.addon).Nodup → ∀ xs1 x xs2, xs = xs1 ++ x :: xs2 →
      ∀ y ∈ xs2, target s' c y.addon ≠ target s' c x.addon := by
    rintro xs hd xs1 x xs2 rfl y hy he
    rw [List.map_append, List.nodup_append] at hd
    have := hd.2.1
    rw [List.map_cons, List.nodup_cons] at this
    exact this.1 (he ▸ List.mem_map_of_mem hy)
  obtain ⟨xs1, xs2, hxs⟩ := List.append_of_mem hx
  obtain ⟨xs1', xs2', hxs'⟩ := List.append_of_mem hx'
  obtain ⟨pbo, out, sum, h1, h2, h3⟩ := (build_ok _ o w hb).2 xs1 x xs2 hxs (hno hdist _ _ _ hxs)
  obtain ⟨pbo', out', sum', h1', h2', h3'⟩ := (build_ok _ o' w' hb').2 xs1' x' xs2' hxs' (hno hdist' _ _ _ hxs')
  obtain ⟨p1, p2, l, l1, l2, l3⟩ := pack_same ht ht' hsame.addon htm hsame.tree hone h1 h1'
  have hinj : ∀ a ∈ pbo.files, ∀ b ∈ pbo.files, d.lower a.2.2.filename = d.lower b.2.2.filename → a = b := by
    intro a ha b hb' hab
    rw [l3, List.mem_map] at ha hb'
    obtain ⟨ea, hea, rfl⟩ := ha
    obtain ⟨eb, heb, rfl⟩ := hb'
    rw [hcase ea eb ((l2 ea).1 hea) ((l2 eb).1 heb) hab]
  have hkeys : (IMap.keys pbo.files).Nodup := by
    rw [l3]
    unfold IMap.keys
    rw [List.map_map]
    refine List.Nodup.map_on ?_ l1
    intro a ha b hb' hab
    refine hcase a b ((l2 a).1 ha) ((l2 b).1 hb') ?_
    exact congrArg d.lower hab
  have := C09_deterministic d.H d.lower pbo pbo' p1 p2 hkeys hinj _ _ (hord pbo.files) (hord' pbo'.files) true
  rw [hH, hl, ← this, h2] at h2'
  simp only [Except.ok.injEq, Prod.mk.injEq] at h2'
  refine ⟨out, h3, ?_⟩
  rw [h2'.1, hsame.addon]
  exact h3'

/-! ### From the sources -/

section
variable {P Q S C K E : Type} (T : Tools P S K E) (err : K → Bool)

theorem steps_unique {α : Type} {js : List (Job α)} {w : Files} (hi : Apart js w) {w1 w2 : Files} {js1 js2 : List (Job α)}
    (h1 : Steps (w, js) (w1, js1)) (h2 : Steps (w, js) (w2, js2)) (d1 : ∀ j ∈ js1, ∃ r, j = .done r)
    (d2 : ∀ j ∈ js2, ∃ r, j = .done r) : w1 = w2 ∧ js1 = js2 := by
  obtain ⟨a1, b1, c1⟩ := threads hi h1 d1
  obtain ⟨a2, b2, c2⟩ := threads hi h2 d2
  refine ⟨?_, a1.trans a2.symm⟩
  funext p
  by_cases h : ∃ a ∈ js, p ∈ a.writes w
  · obtain ⟨a, ha, hp⟩ := h
    rw [b1 a ha p hp, b2 a ha p hp]
  · have : ∀ a ∈ js, p ∉ a.writes w := fun a ha hp => h ⟨a, ha, hp⟩
    rw [c1 p this, c2 p this]

/-- **C135**: compiling and rapifying. However the threads take their steps, the same sources give the same files. -/
theorem C135_files {R : Rapifier.Tools Q C K E} {walk : Addon → List Path} {addons : List Addon} {l : List (Addon × Path)}
    {w w1 w2 : Files} (h1 : Built T err R walk addons l w w1) (h2 : Built T err R walk addons l w w2) : w1 = w2 := by
  obtain ⟨hn, hn', ⟨glob, toml, walk', hl⟩, hr, hr', ha, v1, js1, ks1, s1, d1, t1, e1⟩ := h1
  obtain ⟨v2, js2, ks2, s2, d2, t2, e2⟩ := h2.steps
  obtain ⟨rfl, -⟩ := steps_unique (jobs_apart T err w hn hr) s1 s2 d1 d2
  obtain ⟨-, k2, -⟩ := C131_threads T err hn hr s1 d1
  have hsame : ∀ e ∈ l, ∀ q ∈ (R.pre e.2).reads w, v1 q = w q := fun e he q hq =>
    k2 q fun x hx _ hxe => ha x hx e he (hxe ▸ hq)
  have hreads : ∀ e ∈ l, (R.pre e.2).reads v1 = (R.pre e.2).reads w := fun e he => (run_congr _ (hsame e he)).2
  have hc : ∀ e ∈ l, canRapify (e.2.getLastD []) = true := fun e he =>
    (canRapify_iff _).2 ((C130_which hl e.1 e.2).1 he).2.2.1
  exact (steps_unique (Rapifier.jobs_apart R l v1 hn' hc
    (fun e he e' he' hne => by rw [hreads e' he']; exact hr' e he e' he' hne)) t1 t2 e1 e2).1

/-- **C135**: from the sources to the PBO. Two builds of a project from the same files, each with its own order of the steps of the
threads, of the entries of folders and of the entries of hash maps, write the same bytes for an addon. -/
theorem C135_same {R : Rapifier.Tools Q C K E} {walk : Addon → List Path} {addons : List Addon} {l : List (Addon × Path)}
    {v v1 v2 : Files} (h1 : Built T err R walk addons l v v1) (h2 : Built T err R walk addons l v v2)
    {env : Env} {s s' : Settings} {c : Bool} {d d' : Digest} {xs xs' : List Source} {o o' w w' : World}
    (hH : d'.H = d.H) (hl : d'.lower = d.lower) (hord : ∀ l, (d.order l).Perm l) (hord' : ∀ l, (d'.order l).Perm l)
    (hs : SameSettings s s') (hb : build d env s c xs o = .ok w) (hb' : build d' env s' c xs' o' = .ok w')
    (hdist : (xs.map fun x => target s c x.addon).Nodup) (hdist' : (xs'.map fun x => target s c x.addon).Nodup)
    {x x' : Source} (hx : x ∈ xs) (hx' : x' ∈ xs') (ht : TreeOk x.tree) (ht' : TreeOk x'.tree)
    (haddon : x.addon = x'.addon) (htoml : SameToml x.toml x'.toml)
    (hfolders : ∀ e : Entry, e.file = false → (e ∈ x.tree ↔ e ∈ x'.tree)) (hshow : Shows v1 x) (hshow' : Shows v2 x')
    (hone : ∀ e e', PrefixFile env s x e → PrefixFile env s x e' → e = e')
    (hcase : ∀ e e', Packed env s x e → Packed env s x e' → d.lower (enc (inPbo e)) = d.lower (enc (inPbo e')) → e = e')
    (hf : FewProperties s x) :
    ∃ out, w (target s c x.addon) = some out ∧ w' (target s c x.addon) = some out := by
  obtain rfl := C135_files T err h1 h2
  refine C135_packed hH hl hord hord' hs hb hb' hdist hdist' hx hx' ht ht' ⟨haddon, htoml, fun e => ?_⟩ hone hcase hf
  obtain ⟨dir, n, f, b⟩ := e
  cases f with
  | false => exact hfolders _ rfl
  | true => rw [hshow dir n b, hshow' dir n b, haddon]

end

/-! ### Two properties -/

theorem packEntries_settings {env : Env} {s s' : Settings} (h : s.exclude = s'.exclude) {a : Addon} {t : Option AddonToml}
    {tree : List Entry} : ∀ (es : List Entry) (pbo : WPbo), packEntries env s a t tree es pbo = packEntries env s' a t tree es pbo := by
  intro es
  induction es with
  | nil => intro _; rfl
  | cons e es ih =>
    intro pbo
    have : packEntry env s a t tree pbo e = packEntry env s' a t tree pbo e := by unfold packEntry; rw [h]
    rw [packEntries, packEntries, this]
    split
    · rfl
    · exact ih _

theorem prefix_settings {env : Env} {s s' : Settings} (h : s.exclude = s'.exclude) {x : Source} {e : Entry}
    (hp : PrefixFile env s x e) : PrefixFile env s' x e := by
  obtain ⟨⟨h1, h2, h3, h4, h5⟩, h6⟩ := hp
  refine ⟨⟨h1, h2, h3, h4, fun hl => h5 ?_⟩, h6⟩
  unfold LeftOut at hl ⊢
  rwa [h]

theorem keys_insert {κ ν : Type} [DecidableEq κ] {m : List (κ × ν)} {k : κ} {v : ν} {x : κ}
    (h : x ∈ IMap.keys (IMap.insert m k v)) : x = k ∨ x ∈ IMap.keys m := by
  induction m with
  | nil => simpa [IMap.insert, IMap.keys] using h
  | cons y m ih =>
    obtain ⟨a, b⟩ := y
    unfold IMap.insert at h
    split at h
    · rename_i e
      simp only [IMap.keys, List.map_cons, List.mem_cons] at h ⊢
      rcases h with h | h
      · left; rw [h]
      · right; right; exact h
    · simp only [IMap.keys, List.map_cons, List.mem_cons] at h ih ⊢
      rcases h with h | h
      · right; left; exact h
      · rcases ih h with h | h
        · left; exact h
        · right; right; exact h

/-- The properties that the program itself adds. -/
def ownKeys : List Text := ["hemtt".toList, "version".toList, "prefix".toList, "git".toList]

theorem own_only {env : Env} {s : Settings} {x : Source} (ht : TreeOk x.tree)
    (hone : ∀ e e', PrefixFile env s x e → PrefixFile env s x e' → e = e') {p1 : WPbo}
    (h : packEntries env s x.addon x.toml x.tree x.tree
      ((WPbo.new.addProperty (ascii "hemtt") (enc env.hemtt)).addProperty (ascii "version") (enc env.version)) = .ok p1)
    {k : Text} (hk : k ∉ ownKeys) : enc k ∉ IMap.keys p1.properties := by
  have e1 : enc "hemtt".toList = ascii "hemtt" := by decide +kernel
  have e2 : enc "version".toList = ascii "version" := by decide +kernel
  have e3 : enc "prefix".toList = prefixKey := by decide +kernel
  have e4 : enc "git".toList = ascii "git" := by decide +kernel
  simp only [ownKeys, List.mem_cons, List.not_mem_nil, or_false, not_or] at hk
  obtain ⟨k1, k2, k3, k4⟩ := hk
  have n1 : enc k ≠ ascii "hemtt" := fun h => k1 (SqfLex.enc_inj (h.trans e1.symm))
  have n2 : enc k ≠ ascii "version" := fun h => k2 (SqfLex.enc_inj (h.trans e2.symm))
  have n3 : enc k ≠ prefixKey := fun h => k3 (SqfLex.enc_inj (h.trans e3.symm))
  have n4 : enc k ≠ ascii "git" := fun h => k4 (SqfLex.enc_inj (h.trans e4.symm))
  have hnew : ∀ {pbo : WPbo} {a v : Bytes}, enc k ≠ a → enc k ∉ IMap.keys pbo.properties →
      enc k ∉ IMap.keys (pbo.addProperty a v).properties := by
    intro pbo a v ha hp hm
    rcases keys_insert hm with h | h
    exacts [ha h, hp h]
  have h0 : enc k ∉ IMap.keys ((WPbo.new.addProperty (ascii "hemtt") (enc env.hemtt)).addProperty (ascii "version")
      (enc env.version)).properties := hnew n2 (hnew n1 (by simp [WPbo.new, IMap.keys]))
  rcases packEntries_one ht hone _ _ _ (fun _ h => h) ht.nodup.of_map h with ⟨-, b⟩ | ⟨e, -, -, t, p, -, -, f⟩
  · rw [b]; exact h0
  · rw [f]
    unfold addPrefix
    cases env.git with
    | none => exact hnew n2 (hnew n3 h0)
    | some g => exact hnew n4 (hnew n2 (hnew n3 h0))

/-- **C135**, violated: two properties. The properties of a project are kept in a hash map, whose order differs from run to run, and are
written in that order: with two properties, other than those the program adds itself, the two orders give different bytes. -/
theorem C135_violated_properties {env : Env} {s : Settings} {c : Bool} {d d' : Digest} {x : Source} {o o' w w' : World}
    {k₁ k₂ v₁ v₂ : Text} (hH : ∀ x, (d.H x).length = 20) (hH' : ∀ x, (d'.H x).length = 20)
    (hord : ∀ l, (d.order l).Perm l) (hord' : ∀ l, (d'.order l).Perm l)
    (ht : TreeOk x.tree) (hc : Clean env { s with properties := [(k₁, v₁), (k₂, v₂)] } x) (hn : x.toml = none)
    (hone : ∀ e e', PrefixFile env s x e → PrefixFile env s x e' → e = e')
    (hk : k₁ ≠ k₂) (hk₁ : k₁ ∉ ownKeys) (hk₂ : k₂ ∉ ownKeys)
    (hb : build d env { s with properties := [(k₁, v₁), (k₂, v₂)] } c [x] o = .ok w)
    (hb' : build d' env { s with properties := [(k₂, v₂), (k₁, v₁)] } c [x] o' = .ok w') :
    w (target s c x.addon) ≠ w' (target s c x.addon) := by
  obtain ⟨pbo, out, sum, h1, h2, h3⟩ := (build_ok _ o w hb).2 [] x [] rfl (by simp)
  obtain ⟨pbo', out', sum', h1', h2', h3'⟩ := (build_ok _ o' w' hb').2 [] x [] rfl (by simp)
  have hc' : Clean env { s with properties := [(k₂, v₂), (k₁, v₁)] } x := by
    obtain ⟨c1, c2, c3, c4, c5, c6⟩ := hc
    refine ⟨c1, fun kv hkv => c2 kv ?_, c3, c4, c5, fun e he hp => c6 e he (prefix_settings (s := { s with properties := [(k₂, v₂), (k₁, v₁)] })
      (s' := { s with properties := [(k₁, v₁), (k₂, v₂)] }) rfl hp)⟩
    simp only [List.cons_append, List.nil_append, List.mem_cons] at hkv ⊢
    tauto
  have val := pack_valid ht hc h1
  have val' := pack_valid ht hc' h1'
  obtain ⟨_, _, r, g1, g2, g3, -⟩ := C07_round_trip d.H d.lower hH pbo val _ (hord pbo.files) true
  obtain ⟨_, _, r', g1', g2', g3', -⟩ := C07_round_trip d'.H d'.lower hH' pbo' val' _ (hord' pbo'.files) true
  rw [h2] at g1
  rw [h2'] at g1'
  simp only [Except.ok.injEq, Prod.mk.injEq] at g1 g1'
  rw [← g1.1] at g2
  rw [← g1'.1] at g2'
  intro heq
  have e1 : target { s with properties := [(k₁, v₁), (k₂, v₂)] } c x.addon = target s c x.addon := rfl
  have e2 : target { s with properties := [(k₂, v₂), (k₁, v₁)] } c x.addon = target s c x.addon := rfl
  rw [← e1, h3, e1, ← e2, h3', Option.some.injEq] at heq
  rw [heq, g2', Except.ok.injEq] at g2
  have hfil := (g3 rfl).2.2
  rw [← g2, (g3' rfl).2.2] at hfil
  unfold pack at h1 h1'
  dsimp only at h1 h1'
  rw [packEntries_settings (s := { s with properties := [(k₁, v₁), (k₂, v₂)] }) (s' := s) rfl] at h1
  rw [packEntries_settings (s := { s with properties := [(k₂, v₂), (k₁, v₁)] }) (s' := s) rfl] at h1'
  split at h1
  · simp at h1
  rename_i q hq
  rw [hq] at h1'
  obtain rfl := Except.ok.inj h1
  obtain rfl := Except.ok.inj h1'
  have n1 := own_only ht hone hq hk₁
  have n2 := own_only ht hone hq hk₂
  have hkk : enc k₁ ≠ enc k₂ := fun h => hk (SqfLex.enc_inj h)
  have p1 : prefixKey = enc "prefix".toList := by decide +kernel
  have m1 : enc k₁ ≠ prefixKey := fun h => hk₁ (by rw [SqfLex.enc_inj (h.trans p1)]; decide)
  have m2 : enc k₂ ≠ prefixKey := fun h => hk₂ (by rw [SqfLex.enc_inj (h.trans p1)]; decide)
  have f1 : ∀ {a b u v : Text}, enc a ∉ IMap.keys q.properties → enc b ∉ IMap.keys q.properties → enc a ≠ enc b →
      (addProperties [(a, u), (b, v)] q).properties =
        q.properties ++ [(enc a, trimBackslash (enc u)), (enc b, trimBackslash (enc v))] := by
    intro a b u v ha hb hab
    simp only [addProperties, WPbo.addProperty]
    rw [insert_new _ ha, insert_new _ (by
      simp only [IMap.keys, List.map_append, List.mem_append, List.map_cons, List.map_nil, List.mem_singleton, not_or]
      exact ⟨hb, fun h => hab h.symm⟩)]
    simp
  simp only [hn, Option.map_none, Option.getD_none, addProperties] at hfil
  have f2 := f1 (u := v₁) (v := v₂) n1 n2 hkk
  have f3 := f1 (u := v₂) (v := v₁) n2 n1 hkk.symm
  simp only [addProperties] at f2 f3
  rw [f2, f3, List.filter_append, List.filter_append, List.append_cancel_left_eq] at hfil
  simp [m1, m2, hkk] at hfil

/-! ### Cases that meet the hypotheses -/

theorem built_one {d : Digest} {env : Env} {s : Settings} {c : Bool} {x : Source} (hH : ∀ x, (d.H x).length = 20)
    (hord : ∀ l, (d.order l).Perm l) (ht : TreeOk x.tree) (hc : Clean env s x)
    (h : (pack env s x.addon x.toml x.tree).isOk = true) (w : World) : ∃ w', build d env s c [x] w = .ok w' := by
  cases hp : pack env s x.addon x.toml x.tree with
  | error e => rw [hp] at h; simp [Except.isOk, Except.toBool] at h
  | ok pbo =>
    obtain ⟨out, sum, r, g1, -⟩ := C07_round_trip d.H d.lower hH pbo (pack_valid ht hc hp) _ (hord pbo.files) true
    refine ⟨w.put (target s c x.addon) out, ?_⟩
    rw [build, internalBuild, hp]
    dsimp only
    rw [g1]
    rfl

/-- The sample, the entries of its folder in the opposite order. -/
def turnedSource : Source := { sampleSource with tree := sampleSource.tree.reverse }

/-- A digest that meets the entries of a hash map in the opposite order. -/
def turnedDigest : Digest := { sampleDigest with order := List.reverse }

theorem sample_one : ∀ e ∈ sampleSource.tree, sampleEnv.lower e.filename ∈ Workspace.FILES →
    e = top "$PBOPREFIX$" "z\\abe\\addons\\main" := by decide +kernel

/-- The two orders give the same PBO. -/
example (o o' : World) : ∃ w w' out, build sampleDigest sampleEnv sampleSettings false [sampleSource] o = .ok w ∧
    build turnedDigest sampleEnv sampleSettings false [turnedSource] o' = .ok w' ∧
    w (target sampleSettings false mainAddon) = some out ∧ w' (target sampleSettings false mainAddon) = some out := by
  have ht : TreeOk turnedSource.tree := ⟨by decide +kernel, by decide +kernel⟩
  have hc : Clean sampleEnv sampleSettings turnedSource := by
    obtain ⟨c1, c2, c3, c4, c5, c6⟩ := sampleClean
    refine ⟨fun e he => c1 e (List.mem_reverse.1 he), c2, c3, c4, c5, fun e he hp => c6 e (List.mem_reverse.1 he) ?_⟩
    exact ⟨(considered_same (s := sampleSettings) (x := turnedSource) (x' := sampleSource) rfl rfl
      (fun _ => List.mem_reverse) e).1 hp.1, hp.2⟩
  obtain ⟨w, hb⟩ := built_one (d := sampleDigest) (c := false) (fun _ => rfl) (fun _ => List.Perm.refl _) sampleOk sampleClean
    (by decide +kernel) o
  obtain ⟨w', hb'⟩ := built_one (d := turnedDigest) (c := false) (fun _ => rfl) (fun l => List.reverse_perm l) ht hc
    (by decide +kernel) o'
  have hone : ∀ e e', PrefixFile sampleEnv sampleSettings sampleSource e → PrefixFile sampleEnv sampleSettings sampleSource e' →
      e = e' := fun e e' h h' => (sample_one e h.1.mem h.2).trans (sample_one e' h'.1.mem h'.2).symm
  have hinj : ∀ e ∈ sampleSource.tree, ∀ e' ∈ sampleSource.tree, enc (inPbo e) = enc (inPbo e') → e = e' := by decide +kernel
  obtain ⟨out, h1, h2⟩ := C135_packed (d := sampleDigest) (d' := turnedDigest) (s := sampleSettings) (s' := sampleSettings) (x := sampleSource) (x' := turnedSource)
    rfl rfl (fun _ => List.Perm.refl _) (fun l => List.reverse_perm l)
    ⟨_, List.Perm.refl _, rfl⟩ hb hb' (by simp) (by simp) (by simp) (by simp) sampleOk ht
    ⟨rfl, ⟨rfl, List.Perm.refl _⟩, fun e => by simp [turnedSource]⟩ hone
    (fun e e' h h' hn => hinj e h.1.mem e' h'.1.mem hn) ⟨by decide, by decide⟩
  exact ⟨w, w', out, hb, hb', h1, h2⟩

/-- Two properties in the two orders give two PBOs. -/
example (o o' : World) : ∃ w w',
    build sampleDigest sampleEnv { sampleSettings with properties := [("author".toList, "abe".toList), ("url".toList, "x".toList)] }
      false [optionalSource] o = .ok w ∧
    build sampleDigest sampleEnv { sampleSettings with properties := [("url".toList, "x".toList), ("author".toList, "abe".toList)] }
      false [optionalSource] o' = .ok w' ∧
    w (target sampleSettings false optionalSource.addon) ≠ w' (target sampleSettings false optionalSource.addon) := by
  have ht : TreeOk optionalSource.tree := ⟨by decide +kernel, by decide +kernel⟩
  have hall : ∀ e ∈ optionalSource.tree, sampleEnv.lower e.filename ∉ Workspace.FILES := by decide +kernel
  have hc : Clean sampleEnv
      { sampleSettings with properties := [("author".toList, "abe".toList), ("url".toList, "x".toList)] } optionalSource :=
    ⟨by decide +kernel, by decide +kernel, by decide +kernel, by decide +kernel, by simp [sampleEnv],
      fun e he hp => absurd hp.2 (hall e he)⟩
  have hc' : Clean sampleEnv
      { sampleSettings with properties := [("url".toList, "x".toList), ("author".toList, "abe".toList)] } optionalSource :=
    ⟨by decide +kernel, by decide +kernel, by decide +kernel, by decide +kernel, by simp [sampleEnv],
      fun e he hp => absurd hp.2 (hall e he)⟩
  obtain ⟨w, hb⟩ := built_one (d := sampleDigest) (c := false) (fun _ => rfl) (fun _ => List.Perm.refl _) ht hc (by decide +kernel) o
  obtain ⟨w', hb'⟩ := built_one (d := sampleDigest) (c := false) (fun _ => rfl) (fun _ => List.Perm.refl _) ht hc' (by decide +kernel) o'
  exact ⟨w, w', hb, hb', C135_violated_properties (fun _ => rfl) (fun _ => rfl) (fun _ => List.Perm.refl _)
    (fun _ => List.Perm.refl _) ht hc rfl (fun e _ h _ => absurd h.2 (hall e h.1.mem)) (by decide) (by decide +kernel)
    (by decide +kernel) hb hb'⟩

open Demo in
/-- From the sources: the same files, met in two orders, give the same PBO. -/
example (o o' : World) : ∃ w w' out, build sampleDigest sampleEnv sampleSettings false [toySource] o = .ok w ∧
    build turnedDigest sampleEnv sampleSettings false [toySource] o' = .ok w' ∧
    w (target sampleSettings false mainAddon) = some out ∧ w' (target sampleSettings false mainAddon) = some out := by
  have ht : TreeOk toySource.tree := ⟨by decide +kernel, by decide +kernel⟩
  have hl : ∀ e ∈ toySource.tree, sampleEnv.lower e.filename ∉ Workspace.FILES := by decide +kernel
  have hc : Clean sampleEnv sampleSettings toySource :=
    ⟨by decide +kernel, by decide +kernel, by decide +kernel, by decide +kernel, by simp [sampleEnv],
      fun e he hp => absurd hp.2 (hl e he)⟩
  obtain ⟨w, hb⟩ := built_one (d := sampleDigest) (c := false) (fun _ => rfl) (fun _ => List.Perm.refl _) ht hc (by decide +kernel) o
  obtain ⟨w', hb'⟩ := built_one (d := turnedDigest) (c := false) (fun _ => rfl) (fun l => List.reverse_perm l) ht hc
    (by decide +kernel) o'
  have hinj : ∀ e ∈ toySource.tree, ∀ e' ∈ toySource.tree, enc (inPbo e) = enc (inPbo e') → e = e' := by decide +kernel
  obtain ⟨out, h1, h2⟩ := C135_same (d := sampleDigest) (d' := turnedDigest) (s := sampleSettings) (s' := sampleSettings)
    (x := toySource) (x' := toySource) toyScripts (fun _ => true) toy_built toy_built rfl rfl (fun _ => List.Perm.refl _)
    (fun l => List.reverse_perm l) ⟨_, List.Perm.refl _, rfl⟩ hb hb' (by simp) (by simp) (by simp) (by simp) ht ht rfl
    (by trivial) (fun _ _ => Iff.rfl) toy_shows toy_shows (fun e _ h _ => absurd h.2 (hl e h.1.mem))
    (fun e e' h h' hn => hinj e h.1.mem e' h'.1.mem hn) ⟨by decide, fun t h => nomatch h⟩
  exact ⟨w, w', out, hb, hb', h1, h2⟩

end Verif.Sources
