import Verif.Props.Utils
import Verif.Lib.SqfSource
/-!
C137: a released mod is verified, and a PBO that was changed is not.
-/
namespace Verif.Release
open Verif.Io Verif.Pbo Verif.Sign
open Verif.SqfLex (enc)
open Verif.Workspace (Addon FILES)
open Verif.Utils (Line verify Opened verify_opened warnings resultLine)

/-- The addon has a prefix: a file of it says so, or a property of that name is in its settings or in those of the project. -/
def HasPrefix (env : Env) (s : Settings) (x : Source) : Prop :=
  (∃ e, PrefixFile env s x e) ∨ (∃ t, x.toml = some t ∧ "prefix".toList ∈ t.properties.map Prod.fst) ∨
    "prefix".toList ∈ s.properties.map Prod.fst

/-- No two files of the addon have names that differ only in case. -/
def NamesDiffer (d : Digest) (env : Env) (s : Settings) (x : Source) : Prop :=
  ∀ e e', Packed env s x e → Packed env s x e' → d.lower (enc (inPbo e)) = d.lower (enc (inPbo e')) → e = e'

/-- Settings in which no property has two values. -/
def PropertiesOk (s : Settings) (x : Source) : Prop :=
  (s.properties.map Prod.fst).Nodup ∧ ∀ t, x.toml = some t → (t.properties.map Prod.fst).Nodup

theorem prefix_iff {env : Env} {s : Settings} {x : Source} (ht : TreeOk x.tree) (hp : PropertiesOk s x) {pbo : WPbo}
    (h : pack env s x.addon x.toml x.tree = .ok pbo) : pbo.property prefixKey = none ↔ ¬ HasPrefix env s x := by
  obtain ⟨h1, h2, p, h3, h4, h5⟩ := C78_properties ht hp.1 hp.2 h
  have ek : prefixKey = enc "prefix".toList := by decide +kernel
  rw [ek]
  by_cases ht : ∃ t, x.toml = some t ∧ "prefix".toList ∈ t.properties.map Prod.fst
  · obtain ⟨t, e, hm⟩ := ht
    obtain ⟨⟨k, v⟩, hkv, hk⟩ := List.mem_map.1 hm
    rw [← hk, h1 t _ v e hkv]
    simp only [reduceCtorEq, false_iff, not_not]
    exact .inr (.inl ⟨t, e, hm⟩)
  · have ht' : ∀ t, x.toml = some t → "prefix".toList ∉ t.properties.map Prod.fst := fun t e hm => ht ⟨t, e, hm⟩
    by_cases hs : "prefix".toList ∈ s.properties.map Prod.fst
    · obtain ⟨⟨k, v⟩, hkv, hk⟩ := List.mem_map.1 hs
      rw [← hk, h2 _ v (fun t e => by rw [show k = _ from hk]; exact ht' t e) hkv]
      simp only [reduceCtorEq, false_iff, not_not]
      exact .inr (.inr hs)
    · rw [h5 _ ht' hs]
      have d2 : ¬ "prefix".toList = "hemtt".toList := by decide +kernel
      have d4 : ¬ "prefix".toList = "version".toList := by decide +kernel
      unfold ownProperty
      rw [if_neg d2, if_neg d4, if_pos rfl]
      simp only [Option.map_eq_none_iff, h3]
      constructor
      · rintro h (⟨e, he⟩ | h | h)
        · exact h e he
        · exact ht h
        · exact hs h
      · exact fun h e he => h (.inl ⟨e, he⟩)

/-- What a build has written for an addon, as it is read back. -/
theorem written {d : Digest} {env : Env} {s : Settings} (hH : ∀ x, (d.H x).length = 20) (hord : ∀ l, (d.order l).Perm l)
    {xs : List Source} {w w1 : World} (hb : build d env s false xs w = .ok w1)
    (hdist : (xs.map fun x => target s false x.addon).Nodup) {x : Source} (hx : x ∈ xs) (ht : TreeOk x.tree)
    (hc : Clean env s x) (hp : PropertiesOk s x) (hcase : NamesDiffer d env s x) :
    ∃ out r, w1 (target s false x.addon) = some out ∧ RPbo.from out = .ok r ∧ r.genChecksum d.H d.lower = some r.checksum ∧
      (IMap.get r.properties prefixKey = none ↔ ¬ HasPrefix env s x) ∧ r.versHeader ≠ none ∧ Sign.Clean d.lower r := by
  obtain ⟨xs1, xs2, rfl⟩ := List.append_of_mem hx
  have hno : ∀ y ∈ xs2, target s false y.addon ≠ target s false x.addon := by
    intro y hy he
    rw [List.map_append, List.nodup_append] at hdist
    have := hdist.2.1
    rw [List.map_cons, List.nodup_cons] at this
    exact this.1 (he ▸ List.mem_map_of_mem hy)
  obtain ⟨pbo, out, sum, h1, h2, h3⟩ := (build_ok _ w w1 hb).2 xs1 x xs2 rfl hno
  obtain ⟨l, l1, l2, l3⟩ := pack_files ht h1
  have hval := pack_valid ht hc h1
  obtain ⟨out', sum', r, g1, g2, g3, -, g5, -⟩ := C07_round_trip d.H d.lower hH pbo hval _ (hord pbo.files) true
  rw [h2] at g1
  obtain ⟨rfl, rfl⟩ : out = out' ∧ sum = sum' := by simpa using g1
  have hcd : CaseDistinct d.lower pbo := by
    intro a ha b hb' hab
    rw [l3, List.mem_map] at ha hb'
    obtain ⟨ea, hea, rfl⟩ := ha
    obtain ⟨eb, heb, rfl⟩ := hb'
    rw [hcase ea eb ((l2 ea).1 hea) ((l2 eb).1 heb) hab]
  obtain ⟨out', sum', r', k1, k2, k3, k4⟩ := C08_checksum d.H d.lower hH pbo hval hcd _ (hord pbo.files)
  rw [h2] at k1
  obtain ⟨rfl, rfl⟩ : out = out' ∧ sum = sum' := by simpa using k1
  rw [g2] at k2
  cases k2
  have hvers : r.versHeader ≠ none := by
    obtain ⟨csl, -, -, m3, m4⟩ := read_write d.H d.lower hH hval (hord pbo.files) true
    rw [h2] at m3
    have m3 := Except.ok.inj m3
    rw [← (Prod.mk.inj m3).1, g2] at m4
    rw [Except.ok.inj m4]
    simp
  have hnames : ∀ h ∈ r.headers, ∃ e ∈ l, h.filename = enc (inPbo e) := by
    intro h hh
    have := g5.mem_iff.1 hh
    rw [l3, List.map_map, List.mem_map] at this
    obtain ⟨e, he, rfl⟩ := this
    exact ⟨e, he, rfl⟩
  refine ⟨out, r, h3, g2, by rw [k4, k3], ?_, hvers, ?_, ?_⟩
  · rw [← prefix_iff ht hp h1]
    unfold WPbo.property
    rw [IMap.get_perm (g3 rfl).1 (((g3 rfl).1.map Prod.fst).nodup_iff.2 hval.propKeys)]
  · rw [(g5.map fun h => d.lower h.filename).nodup_iff, l3, List.map_map, List.map_map]
    have hl : l.Nodup := (List.Nodup.of_map _ ht.nodup).sublist l1
    refine List.Nodup.map_on ?_ hl
    intro a ha b hb' hab
    exact hcase a b ((l2 a).1 ha) ((l2 b).1 hb') hab
  · intro h hh
    obtain ⟨e, he, hn⟩ := hnames h hh
    have hm : e ∈ x.tree := l1.subset he
    rw [hn, norm_enc, ← Entry.inPbo_eq ht hm, List.map_map]
    congr 1
    apply List.map_congr_left
    intro c _
    simp only [Function.comp]
    by_cases h : c = '/'
    · subst h; decide
    · simp [h]

theorem sigPath_base {base root : Path} {sub n au : Text} (hn : n ≠ []) :
    sigPath (base ++ (root ++ [sub, n ++ ".pbo".toList])) au =
      base ++ (root ++ [sub, n ++ ".pbo.".toList ++ au ++ ".bisign".toList]) := by
  have e : base ++ (root ++ [sub, n ++ ".pbo".toList]) = (base ++ root ++ [sub]) ++ [n ++ ".pbo".toList] := by simp
  unfold sigPath withExtension
  rw [e, List.dropLast_concat, List.getLastD_eq_getLast?, List.getLast?_concat]
  have : n ++ ".pbo".toList = n ++ '.' :: "pbo".toList := rfl
  simp only [Option.getD_some]
  rw [this, stem_append hn (by decide +kernel)]
  simp only [List.append_assoc, List.cons_append, List.nil_append]
  rfl

/-- The files of a mod are in the folder `base` of a disk. -/
def InFolder (disk : Path → Option Bytes) (base : Path) (w : World) : Prop := ∀ p, disk (base ++ p) = w p

/-- What verifying prints for the PBO of an addon. -/
def Prints (d : Digest) (name : Bytes → Text) (env : Env) (s : Settings) (x : Source) (disk : Path → Option Bytes)
    (pboPath keyPath : Path) : Prop :=
  (HasPrefix env s x → verify d name disk pboPath keyPath = .ok [.verified]) ∧
  (¬ HasPrefix env s x → verify d name disk pboPath keyPath = .ok [.noPrefix, .verified])

/-- **C137**. Under the conditions of C79 a release signs its PBOs. Wherever the mod is put, `hemtt utils verify` says of every
PBO with the key in the folder `keys` of its mod that it is verified, without any warning if the addon has a prefix. -/
theorem C137_verified {d : Digest} {env : Env} {s : Settings} {k : Keys} {xs : List Source} {as : List Addon}
    {w w1 w2 : World} (hH : ∀ x, (d.H x).length = 20) (hord : ∀ l, (d.order l).Perm l) {name : Bytes → Text}
    (hname : ∀ t, name (enc t) = t) (hk : KeysFor env s k as) (ht : ∀ x ∈ xs, TreeOk x.tree) (hc : ∀ x ∈ xs, Clean env s x)
    (hdist : (xs.map fun x => target s false x.addon).Nodup) (hfiles : ∀ x ∈ xs, ∃ e, Packed env s x e)
    (hprops : ∀ x ∈ xs, PropertiesOk s x) (hcase : ∀ x ∈ xs, NamesDiffer d env s x)
    (hb : build d env s false xs w = .ok w1)
    (hcopy : ∀ x ∈ xs, w2 (target s false x.addon) = w1 (target s false x.addon))
    (has : as.Perm (xs.map (·.addon))) :
    ∃ w3, sign d env s k as w2 = .ok w3 ∧ ∀ disk base, InFolder disk base w3 → ∀ x ∈ xs,
      ∃ root sub file au, target s false x.addon = root ++ [sub, file] ∧ SignerIs env s x.addon au ∧
        Prints d name env s x disk (base ++ target s false x.addon)
          (base ++ (root ++ ["keys".toList, au ++ ".bikey".toList])) := by
  obtain ⟨w3, h1, h2, -⟩ := C79_signed hH hord hk ht hc hdist hfiles hb hcopy has
  refine ⟨w3, h1, fun disk base hdisk x hx => ?_⟩
  obtain ⟨root, sub, n, au, r, e1, e2, e3, out, kb, pk, sb, sg, s1, s2, s3, s4, s5, -, s6, s7, s8⟩ := h2 x hx
  obtain ⟨out', r', o1, o2, o3, o4, -⟩ := written hH hord hb hdist hx (ht x hx) (hc x hx) (hprops x hx) (hcase x hx)
  rw [← e2, e1, s1] at o1
  cases o1
  rw [s2] at o2
  cases o2
  have hn : n ≠ [] := by
    have := target_split s x.addon
    rw [e1] at this
    have h := congrArg List.getLast? this
    rw [List.getLast?_concat] at h
    have e : root ++ [sub, n ++ ".pbo".toList] = (root ++ [sub]) ++ [n ++ ".pbo".toList] := by simp
    rw [e, List.getLast?_concat, Option.some.injEq] at h
    rw [List.append_cancel_right h]
    exact stem_ne_nil (pboName_ne_nil _ _)
  have ho : Opened d name disk (base ++ target s false x.addon) (base ++ (root ++ ["keys".toList, au ++ ".bikey".toList]))
      r pk sg := by
    refine ⟨⟨out, ?_, s2⟩, ⟨kb, [], ?_, s4⟩, ⟨sb, [], ?_, s7⟩, by rw [o3]; simp, by rw [s8]; simp⟩
    · rw [hdisk, e1, s1]
    · rw [hdisk, s3]
    · rw [s5, hname, e1, sigPath_base hn, hdisk, s6]
  obtain ⟨actual, a1, a2⟩ := verify_opened ho
  rw [o3] at a1
  cases a1
  refine ⟨root, sub, n ++ ".pbo".toList, au, e1, e3, fun hp => ?_, fun hp => ?_⟩
  · rw [a2, s8]
    unfold warnings
    rw [if_neg (by simp), if_neg (fun h => (o4.1 h) hp), if_neg (by simp)]
    rfl
  · rw [a2, s8]
    unfold warnings
    rw [if_neg (by simp), if_pos (o4.2 hp)]
    rfl

/-- **C137**. If a PBO of a release is replaced afterwards and is still verified with the key of the mod, it holds the same
files: those of the addon with their content and no others; or two texts with the same SHA-1 digest are known. -/
theorem C137_changed {d : Digest} {env : Env} {s : Settings} {k : Keys} {xs : List Source} {as : List Addon}
    {w w1 w2 : World} (hH : ∀ x, (d.H x).length = 20) (hord : ∀ l, (d.order l).Perm l) {name : Bytes → Text}
    (hname : ∀ t, name (enc t) = t) (hk : KeysFor env s k as) (ht : ∀ x ∈ xs, TreeOk x.tree) (hc : ∀ x ∈ xs, Clean env s x)
    (hdist : (xs.map fun x => target s false x.addon).Nodup) (hfiles : ∀ x ∈ xs, ∃ e, Packed env s x e)
    (hprops : ∀ x ∈ xs, PropertiesOk s x) (hcase : ∀ x ∈ xs, NamesDiffer d env s x)
    (hb : build d env s false xs w = .ok w1)
    (hcopy : ∀ x ∈ xs, w2 (target s false x.addon) = w1 (target s false x.addon))
    (has : as.Perm (xs.map (·.addon))) :
    ∃ w3, sign d env s k as w2 = .ok w3 ∧ ∀ disk base, InFolder disk base w3 → ∀ x ∈ xs,
      ∃ root sub file au, target s false x.addon = root ++ [sub, file] ∧ SignerIs env s x.addon au ∧
        ∀ out' r' l, RPbo.from out' = .ok r' → r'.versHeader ≠ none → Sign.Clean d.lower r' →
          verify d name (fun q => if q = base ++ target s false x.addon then some out' else disk q)
            (base ++ target s false x.addon) (base ++ (root ++ ["keys".toList, au ++ ".bikey".toList])) = .ok l →
          Line.verified ∈ l →
          ((∀ e, Packed env s x e → r'.file d.lower (enc e.rel) = some e.content) ∧
            (∀ n, (∀ e, Packed env s x e → d.lower (enc (inPbo e)) ≠ d.lower (norm n)) → r'.file d.lower n = none)) ∨
          ∃ a b, a ≠ b ∧ d.H a = d.H b := by
  obtain ⟨w3, h1, h2, -⟩ := C79_signed hH hord hk ht hc hdist hfiles hb hcopy has
  refine ⟨w3, h1, fun disk base hdisk x hx => ?_⟩
  obtain ⟨root, sub, n, au, r, e1, e2, e3, out, kb, pk, sb, sg, s1, s2, s3, s4, s5, slen, s6, s7, s8⟩ := h2 x hx
  obtain ⟨out₀, r₀, o1, o2, o3, o4, o5, o6⟩ := written hH hord hb hdist hx (ht x hx) (hc x hx) (hprops x hx) (hcase x hx)
  obtain ⟨out₁, r₁, q1, q2, q3, q4, -⟩ := C78_read_back hH hord hb hdist hx (ht x hx) (hc x hx) (hcase x hx)
  rw [o1] at q1
  cases q1
  rw [o2] at q2
  cases q2
  rw [← e2, e1, s1] at o1
  cases o1
  rw [s2] at o2
  cases o2
  have hn : n ≠ [] := by
    have := target_split s x.addon
    rw [e1] at this
    have h := congrArg List.getLast? this
    rw [List.getLast?_concat] at h
    have e : root ++ [sub, n ++ ".pbo".toList] = (root ++ [sub]) ++ [n ++ ".pbo".toList] := by simp
    rw [e, List.getLast?_concat, Option.some.injEq] at h
    rw [List.append_cancel_right h]
    exact stem_ne_nil (pboName_ne_nil _ _)
  refine ⟨root, sub, n ++ ".pbo".toList, au, e1, e3, fun out' r' l hr' hv' hc' hver hm => ?_⟩
  obtain ⟨pbo, key, sig, ho, hok⟩ := (Utils.C108_verified _ _ _ _ _).1 ⟨l, hver, hm⟩
  obtain ⟨⟨b1, p1, p2⟩, ⟨b2, t2, p3, p4⟩, ⟨b3, t3, p5, p6⟩, -, -⟩ := ho
  rw [e1] at p1 p3 p5
  simp only [if_true, Option.some.injEq] at p1
  subst p1
  rw [hr'] at p2
  cases p2
  have hne1 : base ++ (root ++ ["keys".toList, au ++ ".bikey".toList]) ≠ base ++ (root ++ [sub, n ++ ".pbo".toList]) := by
    intro h
    have h := List.append_cancel_left (List.append_cancel_left h)
    have h := (List.cons.inj (List.cons.inj h).2).1
    have h := congrArg List.getLast? h
    have y1 : ∀ t : Text, (t ++ ".bikey".toList).getLast? = some 'y' := fun t => by rw [List.getLast?_append]; rfl
    have y2 : ∀ t : Text, (t ++ ".pbo".toList).getLast? = some 'o' := fun t => by rw [List.getLast?_append]; rfl
    rw [y1, y2] at h
    exact absurd h (by decide)
  rw [if_neg hne1, hdisk, s3] at p3
  cases p3
  rw [s4] at p4
  cases p4
  have hne2 : base ++ (root ++ [sub, n ++ ".pbo.".toList ++ au ++ ".bisign".toList]) ≠
      base ++ (root ++ [sub, n ++ ".pbo".toList]) := by
    intro h
    have h := List.append_cancel_left (List.append_cancel_left h)
    have h := (List.cons.inj (List.cons.inj h).2).1
    have h := congrArg List.getLast? h
    have y1 : ∀ t : Text, (t ++ ".bisign".toList).getLast? = some 'n' := fun t => by rw [List.getLast?_append]; rfl
    have y2 : ∀ t : Text, (t ++ ".pbo".toList).getLast? = some 'o' := fun t => by rw [List.getLast?_append]; rfl
    rw [y1, y2] at h
    exact absurd h (by decide)
  rw [s5, hname, sigPath_base hn, if_neg hne2, hdisk, s6] at p5
  cases p5
  rw [s7] at p6
  cases p6
  rcases C15_same_signature d.H d.lower hH pk slen sg out out' r r' s2 hr' o5 hv' o6 hc' s8 hok with ⟨-, -, hf⟩ | hcol
  · refine .inl ⟨fun e he => ?_, fun m hm => ?_⟩
    · rw [← hf]; exact q3 e he
    · rw [← hf]; exact q4 m hm
  · exact .inr hcol

/-- Authorities can be read back from their bytes. -/
example : ∃ name : Bytes → Text, ∀ t, name (enc t) = t := ⟨_, SqfLex.dec_enc⟩

/-- The hypotheses can be met: an optional addon that is a mod of its own. It has no prefix, and that is said. -/
example (name : Bytes → Text) (hname : ∀ t, name (enc t) = t) (w : World) :
    ∃ w1 w3, build sampleDigest sampleEnv releaseSettings false [optionalSource] w = .ok w1 ∧
    sign sampleDigest sampleEnv releaseSettings sampleKeys [optionalSource.addon] w1 = .ok w3 ∧
    verify sampleDigest name w3 ["optionals".toList, "@abe_compat".toList, "addons".toList, "abe_compat.pbo".toList]
      ["optionals".toList, "@abe_compat".toList, "keys".toList, "abe_1.2.3_abe_compat.bikey".toList] =
      .ok [.noPrefix, .verified] := by
  have ht : TreeOk optionalSource.tree := ⟨by decide +kernel, by decide +kernel⟩
  obtain ⟨pbo, hp⟩ : ∃ pbo, pack sampleEnv releaseSettings optionalSource.addon optionalSource.toml
      optionalSource.tree = .ok pbo := by
    have : (pack sampleEnv releaseSettings optionalSource.addon optionalSource.toml optionalSource.tree).isOk = true := by
      decide +kernel
    cases h : pack sampleEnv releaseSettings optionalSource.addon optionalSource.toml optionalSource.tree with
    | error e => rw [h] at this; simp [Except.isOk, Except.toBool] at this
    | ok pbo => exact ⟨pbo, rfl⟩
  obtain ⟨out, sum, r, g1, -⟩ := C07_round_trip sampleDigest.H sampleDigest.lower (fun _ => rfl) pbo
    (pack_valid ht optionalClean hp) pbo.files (List.Perm.refl _) true
  have hb : build sampleDigest sampleEnv releaseSettings false [optionalSource] w =
      .ok (w.put (target releaseSettings false optionalSource.addon) out) := by
    have : pbo.write sampleDigest.H sampleDigest.lower (sampleDigest.order pbo.files) true = .ok (out, sum) := g1
    rw [build, internalBuild, hp]
    dsimp only
    rw [this]
    rfl
  have hpacked : Packed sampleEnv releaseSettings optionalSource (top "config.cpp" "class CfgPatches {};") := by
    refine ⟨⟨by simp [optionalSource], rfl, by decide +kernel, ?_, ?_⟩, by decide +kernel⟩
    · intro _ b hb _
      have hall : ∀ e ∈ optionalSource.tree, e.filename ≠ "config.bin".toList := by decide +kernel
      exact hall b hb
    · rintro (⟨p, hp, -⟩ | ⟨t, h, -⟩)
      · simp [releaseSettings, sampleSettings] at hp
      · simp [optionalSource] at h
  have hall : ∀ e ∈ optionalSource.tree, sampleEnv.lower e.filename ∉ FILES := by decide +kernel
  have hno : ¬ HasPrefix sampleEnv releaseSettings optionalSource := by
    rintro (⟨e, he⟩ | ⟨t, h, -⟩ | h)
    · exact hall e he.1.mem he.2
    · simp [optionalSource] at h
    · simp [releaseSettings, sampleSettings] at h
  obtain ⟨w3, h1, h2⟩ := C137_verified (d := sampleDigest) (as := [optionalSource.addon]) (fun _ => rfl)
    (fun _ => List.Perm.refl _) hname sampleKeysFor (by intro x hx; rw [List.mem_singleton.1 hx]; exact ht)
    (by intro x hx; rw [List.mem_singleton.1 hx]; exact optionalClean) (by simp)
    (by intro x hx; rw [List.mem_singleton.1 hx]; exact ⟨_, hpacked⟩)
    (by
      intro x hx
      rw [List.mem_singleton.1 hx]
      exact ⟨by simp [releaseSettings, sampleSettings], by simp [optionalSource]⟩)
    (by
      intro x hx e e' he he' _
      rw [List.mem_singleton.1 hx] at he he'
      have a := he.1.mem
      have b := he'.1.mem
      rw [optionalSource, List.mem_singleton] at a b
      rw [a, b]) hb (fun _ _ => rfl) (List.Perm.refl _)
  obtain ⟨root, sub, file, au, e1, e2, -, e3⟩ := h2 w3 [] (fun _ => rfl) optionalSource (by simp)
  have e3 := e3 hno
  have hau : au = "abe_1.2.3_abe_compat".toList := (e2.1 ⟨rfl, rfl⟩).trans (by decide +kernel)
  have ht2 : target releaseSettings false optionalSource.addon = ["optionals".toList, "@abe_compat".toList] ++
      ["addons".toList, "abe_compat".toList ++ ".pbo".toList] := by decide +kernel
  rw [ht2] at e1 e3
  obtain ⟨i1, -⟩ := List.append_inj' e1 rfl
  subst i1 hau
  exact ⟨_, w3, hb, h1, e3⟩

end Verif.Release
