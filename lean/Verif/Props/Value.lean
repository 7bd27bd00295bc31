import Verif.Model.Value
import Verif.Props.Release
import Verif.Props.Project
import Verif.Props.Version
/-!
**C134**: the values a project prints are those its releases use.
-/
namespace Verif.Value
open Verif.Io Verif.Pbo Verif.Sign
open Verif.Release (Settings includes)
open Verif.Workspace (Location Addon)

/-! ### Names -/

/-- **C134**: `list` prints, a line each, the names for which something is printed, and no others: in a project that can be opened,
a name is answered exactly if it is `list` or one of these lines. For any other name the run ends with an error. -/
theorem C134_list (d : Disk) (t : Toml) (out : Text) (h : value d t "list".toList = .ok out) :
    ∃ lines, split '\n' out = lines ++ [[]] ∧ lines.Nodup ∧
      ∀ name, (name = "list".toList ∨ name ∈ lines → ∃ x, value d t name = .ok (x ++ ['\n'])) ∧
        (¬ (name = "list".toList ∨ name ∈ lines) → value d t name = .error .exit) := by
  unfold value at h
  split at h
  · simp at h
  rename_i c v ho
  have hl : text t c v "list".toList = some (joinWith '\n' names) := by
    unfold text
    repeat rw [if_neg (by decide)]
    rw [if_pos rfl]
  rw [hl] at h
  obtain rfl := Except.ok.inj h
  refine ⟨names, by decide +kernel, by decide +kernel, fun name => ⟨?_, ?_⟩⟩
  · intro hn
    unfold value
    rw [ho]
    dsimp only
    have : ∃ x, text t c v name = some x := by
      simp only [names, List.mem_cons, List.not_mem_nil, or_false] at hn
      unfold text
      rcases hn with rfl | rfl | rfl | rfl | rfl | rfl | rfl | rfl | rfl | rfl | rfl | rfl | rfl | rfl | rfl | rfl | rfl <;>
      · repeat rw [if_neg (by decide)]
        rw [if_pos rfl]
        exact ⟨_, rfl⟩
    obtain ⟨x, hx⟩ := this
    rw [hx]; exact ⟨x, rfl⟩
  · intro hn
    unfold value
    rw [ho]
    dsimp only
    have : text t c v name = none := by
      simp only [names, List.mem_cons, List.not_mem_nil, or_false, not_or] at hn
      obtain ⟨h0, h1, h2, h3, h4, h5, h6, h7, h8, h9, h10, h11, h12, h13, h14, h15, h16⟩ := hn
      unfold text
      rw [if_neg h1, if_neg h2, if_neg h3, if_neg h4, if_neg h5, if_neg h6, if_neg h7, if_neg h8, if_neg h9, if_neg h10,
        if_neg h11, if_neg h12, if_neg h13, if_neg h14, if_neg h15, if_neg h16, if_neg h0]
    rw [this]

/-! ### The version -/

theorem parseU32_bound {s : Text} {n : Nat} (h : parseU32 s = some n) : n < 2 ^ 32 := by
  unfold parseU32 at h
  split at h
  · simp at h
  split at h
  · split at h
    · obtain rfl := Option.some.inj h; assumption
    · simp at h
  · simp at h

theorem value_ok {d : Disk} {t : Toml} {c : Project.Config} {v : Ver.Version} {name x : Text} (ho : open_ false d t = .ok (c, v))
    (h : text t c v name = some x) : value d t name = .ok (x ++ ['\n']) := by
  unfold value; rw [ho]; dsimp only; rw [h]

theorem value_open {d : Disk} {t : Toml} {name out : Text} (h : value d t name = .ok out) :
    ∃ c v, open_ false d t = .ok (c, v) := by
  unfold value at h
  split at h
  · simp at h
  · exact ⟨_, _, by assumption⟩

/-- The numbers of the settings are `u32`. -/
def U32 (f : Project.Section) : Prop :=
  (∀ n, f.major = some n → n < 2 ^ 32) ∧ (∀ n, f.minor = some n → n < 2 ^ 32) ∧ (∀ n, f.patch = some n → n < 2 ^ 32) ∧
    ∀ n, f.build = some n → n < 2 ^ 32

theorem found_bound {s : Text} {k : Project.Comp} {n : Nat} (h : Project.Found s k n) : n < 2 ^ 32 := by
  obtain ⟨_, _, _, _, _, _, _, d, _, _, _, _, _, _, _, hn⟩ := h
  exact parseU32_bound hn

theorem config_defined {f : Project.Section} {c : Project.Config} (h : Project.config f = .ok c) (hu : U32 f) :
    c.gitHash = f.gitHash.getD 8 ∧ c.path = Project.slashed (f.path.getD "addons/main/script_version.hpp".toList) ∧
    (c.defined = none ↔ f.major = none) ∧
    ∀ x, c.defined = some x → x.1 < 2 ^ 32 ∧ x.2.1 < 2 ^ 32 ∧ x.2.2.1 < 2 ^ 32 ∧ ∀ b, x.2.2.2 = some b → b < 2 ^ 32 := by
  unfold Project.config at h
  split at h
  · simp at h
  split at h
  · simp at h
  dsimp only at h
  split at h
  · rename_i hm
    obtain rfl := Except.ok.inj h
    exact ⟨rfl, rfl, by simp [hm], by simp⟩
  · rename_i a ha
    split at h
    · simp at h
    rename_i b hb
    split at h
    · simp at h
    rename_i p hp
    obtain rfl := Except.ok.inj h
    refine ⟨rfl, rfl, by simp [ha], ?_⟩
    intro x hx
    obtain rfl := Option.some.inj hx
    exact ⟨hu.1 _ ha, hu.2.1 _ hb, hu.2.2.1 _ hp, hu.2.2.2⟩

theorem open_get {b : Bool} {d : Disk} {t : Toml} {c : Project.Config} {v : Ver.Version} (h : open_ b d t = .ok (c, v)) :
    t.settings.pfx ≠ [] ∧ Project.config t.version = .ok c ∧ Project.get (d.read b) d.head c = .ok v := by
  unfold open_ at h
  split at h
  · simp at h
  split at h
  · simp at h
  split at h
  · simp at h
  · simp at h
  · simp only [Except.ok.injEq, Prod.mk.injEq] at h
    obtain ⟨rfl, rfl⟩ := h
    exact ⟨by assumption, by assumption, by assumption⟩

theorem get_facts {f : Project.Section} {c : Project.Config} {files : Text → Option Text} {head : Option Text} {v : Ver.Version}
    (hc : Project.config f = .ok c) (hu : U32 f) (h : Project.get files head c = .ok v) :
    Ver.Ok32 v ∧ (c.gitHash = 0 → v.hash = none) ∧
      (c.gitHash ≠ 0 → ∃ id, head = some id ∧ c.gitHash ≤ id.length ∧ v.hash = some (id.take c.gitHash)) := by
  have key : ∀ u, Project.internalGet files c = .ok u → Ver.Ok32 u ∧ u.hash = none := by
    intro u hi
    unfold Project.internalGet at hi
    split at hi
    · rename_i a b p bu hd
      obtain rfl := Except.ok.inj hi
      obtain ⟨h1, h2, h3, h4⟩ := (config_defined hc hu).2.2.2 _ hd
      exact ⟨⟨h1, h2, h3, h4⟩, rfl⟩
    · split at hi
      · split at hi
        · rename_i hs
          obtain rfl := Except.ok.inj hi
          obtain ⟨h1, h2, h3, h4, h5⟩ := Project.C88_only _ _ hs
          exact ⟨⟨found_bound h1, found_bound h2, found_bound h3, fun b hb => found_bound (h4 b hb)⟩, h5⟩
        · simp at hi
      · simp at hi
  unfold Project.get at h
  split at h
  · simp at h
  rename_i u hi
  obtain ⟨k1, k2⟩ := key u hi
  split at h
  · rename_i h0
    obtain rfl := Except.ok.inj h
    exact ⟨k1, fun _ => k2, fun hn => absurd h0 hn⟩
  rename_i h0
  split at h
  · simp at h
  rename_i id
  split at h
  · rename_i hl
    obtain rfl := Except.ok.inj h
    exact ⟨k1, fun hz => absurd hz h0, fun _ => ⟨id, rfl, hl, rfl⟩⟩
  · simp at h

theorem text_at {t : Toml} {c : Project.Config} {v : Ver.Version} :
    text t c v "project.prefix".toList = some t.settings.pfx ∧
    text t c v "project.version".toList = some (Ver.display v) ∧
    text t c v "project.version.short".toList = some (decimal v.major ++ '.' :: decimal v.minor ++ '.' :: decimal v.patch) ∧
    text t c v "project.version.major".toList = some (decimal v.major) ∧
    text t c v "project.version.minor".toList = some (decimal v.minor) ∧
    text t c v "project.version.patch".toList = some (decimal v.patch) ∧
    text t c v "project.version.build".toList = some ((v.build.map decimal).getD []) ∧
    text t c v "project.version.git_hash".toList = some (decimal c.gitHash) ∧
    text t c v "project.signing.authority".toList =
      some (t.settings.authority.getD t.settings.pfx ++ '_' :: Ver.display v) ∧
    text t c v "project.files.include".toList = some (joinWith '\n' (patterns t.settings)) := by
  refine ⟨?_, ?_, ?_, ?_, ?_, ?_, ?_, ?_, ?_, ?_⟩ <;>
  · unfold text
    repeat rw [if_neg (by decide)]
    rw [if_pos rfl]

/-- **C134**: the version that is printed can be read back, and the other values are its parts: the first three numbers, each of
them, the number of the build, empty if there is none, and the number of characters of the commit, which stand behind the
version, 0 if they do not. -/
theorem C134_version (d : Disk) (t : Toml) (hu : U32 t.version) (hid : ∀ id, d.head = some id → '-' ∉ id) (out : Text)
    (h : value d t "project.version".toList = .ok out) :
    ∃ x v n, out = x ++ ['\n'] ∧ Ver.parse x = .ok v ∧
      value d t "project.version.short".toList =
        .ok (decimal v.major ++ ['.'] ++ decimal v.minor ++ ['.'] ++ decimal v.patch ++ ['\n']) ∧
      value d t "project.version.major".toList = .ok (decimal v.major ++ ['\n']) ∧
      value d t "project.version.minor".toList = .ok (decimal v.minor ++ ['\n']) ∧
      value d t "project.version.patch".toList = .ok (decimal v.patch ++ ['\n']) ∧
      (v.build = none → value d t "project.version.build".toList = .ok ['\n']) ∧
      (∀ b, v.build = some b → value d t "project.version.build".toList = .ok (decimal b ++ ['\n'])) ∧
      value d t "project.version.git_hash".toList = .ok (decimal n ++ ['\n']) ∧
      (n = 0 → v.hash = none) ∧
      (n ≠ 0 → ∃ a b, d.head = some (a ++ b) ∧ a.length = n ∧ v.hash = some a) := by
  obtain ⟨c, v, ho⟩ := value_open h
  obtain ⟨-, hc, hg⟩ := open_get ho
  obtain ⟨h32, hz, hnz⟩ := get_facts hc hu hg
  obtain ⟨-, t1, t2, t3, t4, t5, t6, t7, -, -⟩ := @text_at t c v
  rw [value_ok ho t1] at h
  obtain rfl := Except.ok.inj h
  refine ⟨_, v, c.gitHash, rfl, ?_, ?_, value_ok ho t3, value_ok ho t4, value_ok ho t5, ?_, ?_, value_ok ho t7, hz, ?_⟩
  · rw [Ver.C03_round_trip_iff v h32]
    intro s hs
    by_cases hn : c.gitHash = 0
    · rw [hz hn] at hs; simp at hs
    · obtain ⟨id, h1, -, h3⟩ := hnz hn
      rw [h3] at hs
      obtain rfl := Option.some.inj hs
      exact fun hm => hid id h1 (List.mem_of_mem_take hm)
  · rw [value_ok ho t2]; simp
  · intro hb; rw [value_ok ho t6, hb]; rfl
  · intro b hb; rw [value_ok ho t6, hb]; rfl
  · intro hn
    obtain ⟨id, h1, h2, h3⟩ := hnz hn
    exact ⟨id.take c.gitHash, id.drop c.gitHash, by rw [h1, List.take_append_drop], by simp [h2], h3⟩

/-! ### Releases -/

/-- The file of the version is not in the folder `include`, or is not used. -/
def NotIncluded (d : Disk) (t : Toml) : Prop :=
  t.version.major ≠ none ∨ d.include_ (Project.slashed (t.version.path.getD "addons/main/script_version.hpp".toList)) = none

theorem open_same {d : Disk} {t : Toml} (hu : U32 t.version) (hi : NotIncluded d t) : open_ true d t = open_ false d t := by
  unfold open_
  split
  · rfl
  split
  · rfl
  rename_i c hc
  obtain ⟨-, hp, hd, -⟩ := config_defined hc hu
  have : Project.get (d.read true) d.head c = Project.get (d.read false) d.head c := by
    unfold Project.get Project.internalGet
    cases hcd : c.defined with
    | some x => rfl
    | none =>
      rcases hi with hi | hi
      · exact absurd (hd.1 hcd) hi
      · rw [← hp] at hi
        simp [Disk.read, hi]
  rw [this]

theorem signOne_keeps {dg : Release.Digest} {env : Release.Env} {s : Settings} {k : Release.Keys} {a : Addon} {w w' : Release.World}
    (h : Release.signOne dg env s k a w = .ok w') :
    (∀ n, w' ["keys".toList, n] = w ["keys".toList, n]) ∧ (∀ q, (w q).isSome → (w' q).isSome) ∧
      (w' (Release.sigPath (Release.signing env s k a).1 (Release.signing env s k a).2.2.1)).isSome := by
  unfold Release.signOne at h
  rcases hs : Release.signing env s k a with ⟨p, key, au, own⟩
  rw [hs] at h
  dsimp only at h
  have hp : ∃ x m, p.dropLast = x :: m ∧ x ≠ "keys".toList := by
    unfold Release.signing at hs
    split at hs
    · simp only [Prod.mk.injEq] at hs; obtain ⟨rfl, -⟩ := hs
      exact ⟨_, _, rfl, by decide⟩
    · rename_i hl
      split at hs
      · simp only [Prod.mk.injEq] at hs; obtain ⟨rfl, -⟩ := hs
        exact ⟨_, _, rfl, by decide⟩
      · simp only [Prod.mk.injEq] at hs; obtain ⟨rfl, -⟩ := hs
        rw [hl]
        exact ⟨_, _, rfl, by decide⟩
  have hown : ∀ q, own = some q → ∃ x m, q = x :: m ∧ x ≠ "keys".toList := by
    unfold Release.signing at hs
    split at hs
    · simp only [Prod.mk.injEq] at hs; obtain ⟨-, -, -, rfl⟩ := hs; simp
    · split at hs
      · simp only [Prod.mk.injEq] at hs; obtain ⟨-, -, -, rfl⟩ := hs
        intro q hq
        obtain rfl := Option.some.inj hq
        exact ⟨_, _, rfl, by decide⟩
      · simp only [Prod.mk.injEq] at hs; obtain ⟨-, -, -, rfl⟩ := hs; simp
  obtain ⟨x, m, hx, hxk⟩ := hp
  split at h
  · simp at h
  split at h
  · simp at h
  split at h
  · simp at h
  rename_i sig _
  obtain rfl := Except.ok.inj h
  refine ⟨?_, ?_, ?_⟩
  · intro n
    unfold Release.World.put
    rw [if_neg]
    · cases own with
      | none => rfl
      | some q =>
        obtain ⟨y, l, rfl, hy⟩ := hown q rfl
        dsimp only
        rw [if_neg]
        intro he
        exact hy (List.cons.inj he).1.symm
    · unfold Release.sigPath
      rw [hx]
      intro he
      exact hxk (List.cons.inj he).1.symm
  · intro q hq
    unfold Release.World.put
    split
    · rfl
    · cases own with
      | none => exact hq
      | some o => dsimp only; split <;> first | rfl | exact hq
  · unfold Release.World.put
    rw [if_pos rfl]; rfl

theorem signAll_keeps {dg : Release.Digest} {env : Release.Env} {s : Settings} {k : Release.Keys} {as : List Addon} :
    ∀ {w w' : Release.World}, Release.signAll dg env s k as w = .ok w' →
    (∀ n, w' ["keys".toList, n] = w ["keys".toList, n]) ∧ (∀ q, (w q).isSome → (w' q).isSome) ∧
      ∀ a ∈ as, (w' (Release.sigPath (Release.signing env s k a).1 (Release.signing env s k a).2.2.1)).isSome := by
  induction as with
  | nil =>
    intro w w' h
    obtain rfl := Except.ok.inj h
    exact ⟨fun _ => rfl, fun _ h => h, by simp⟩
  | cons a as ih =>
    intro w w' h
    unfold Release.signAll at h
    split at h
    · simp at h
    rename_i w1 h1
    obtain ⟨k1, k2, k3⟩ := signOne_keeps h1
    obtain ⟨i1, i2, i3⟩ := ih h
    refine ⟨fun n => by rw [i1, k1], fun q hq => i2 q (k2 q hq), ?_⟩
    intro b hb
    rcases List.mem_cons.1 hb with rfl | hb
    · exact i2 _ k3
    · exact i3 b hb

/-- **C134**: what is printed is what a release uses. Let the version of a release be that of the project as a build opens it, the
file of the version not being in the folder `include`. Then the name printed for signing is that of the key in the release's folder
`keys`, under which every addon of the folder `addons` is signed; and the archive is named by the prefix and the version that are
printed. -/
theorem C134_release (d : Disk) (t : Toml) (hu : U32 t.version) (hi : NotIncluded d t) (c : Project.Config) (v : Ver.Version)
    (ho : open_ true d t = .ok (c, v)) (dg : Release.Digest) (env : Release.Env) (hv : env.version = Ver.display v)
    (k : Release.Keys) (as : List Addon) (w w' : Release.World) (hs : Release.sign dg env t.settings k as w = .ok w') :
    ∃ au p n, value d t "project.signing.authority".toList = .ok (au ++ ['\n']) ∧
      value d t "project.prefix".toList = .ok (p ++ ['\n']) ∧ value d t "project.version".toList = .ok (n ++ ['\n']) ∧
      w' ["keys".toList, au ++ ".bikey".toList] = some k.main.toPublic.write ∧
      (∀ a ∈ as, a.location = .addons → '.' ∉ p → '.' ∉ a.name →
        (w' ["addons".toList, p ++ '_' :: a.name ++ ".pbo.".toList ++ au ++ ".bisign".toList]).isSome) ∧
      (Release.zipNames env t.settings).2 = p ++ '-' :: n ++ ".zip".toList := by
  rw [open_same hu hi] at ho
  obtain ⟨t0, t1, -, -, -, -, -, -, t8, -⟩ := @text_at t c v
  refine ⟨_, _, _, value_ok ho t8, value_ok ho t0, value_ok ho t1, ?_, ?_, ?_⟩
  · unfold Release.sign at hs
    rw [(signAll_keeps hs).1]
    unfold Release.World.put
    rw [if_pos]
    simp [Release.authority, hv]
  · intro a ha hl hp hn
    unfold Release.sign at hs
    have := (signAll_keeps hs).2.2 a ha
    have hdot : '.' ∉ Release.pboName a t.settings.pfx := by
      simp only [Release.pboName, List.mem_append, List.mem_cons, not_or]
      exact ⟨hp, by decide, hn⟩
    have e : Release.sigPath (Release.signing env t.settings k a).1 (Release.signing env t.settings k a).2.2.1 =
        ["addons".toList, t.settings.pfx ++ '_' :: a.name ++ ".pbo.".toList ++
          (t.settings.authority.getD t.settings.pfx ++ '_' :: Ver.display v) ++ ".bisign".toList] := by
      have hne : Release.pboName a t.settings.pfx ≠ [] := by simp [Release.pboName]
      have e1 : Release.withExtension (Release.withExtension (Release.pboName a t.settings.pfx) "pbo".toList)
          ("pbo.".toList ++ (t.settings.authority.getD t.settings.pfx ++ '_' :: Ver.display v) ++ ".bisign".toList) =
          Release.pboName a t.settings.pfx ++ '.' :: ("pbo.".toList ++
            (t.settings.authority.getD t.settings.pfx ++ '_' :: Ver.display v) ++ ".bisign".toList) := by
        unfold Release.withExtension
        rw [Release.stem_of_no_dot hdot, Release.stem_append hne (by decide)]
      simp only [Release.signing, hl, Release.sigPath, Release.authority, hv, Option.map_none, Option.getD_none,
        List.append_nil, List.dropLast_cons₂, List.dropLast_singleton, List.getLastD_cons, List.getLastD_nil]
      rw [e1]
      simp [Release.pboName]
    rwa [e] at this
  · simp [Release.zipNames, hv]

/-! ### The files to copy -/

theorem mem_dedup {l : List Text} {x : Text} : x ∈ dedup l ↔ x ∈ l := by
  induction l with
  | nil => rfl
  | cons a l ih =>
    cases l with
    | nil => rfl
    | cons b l =>
      rw [dedup]
      split
      · rename_i h
        rw [ih, h]; simp
      · rw [List.mem_cons, ih, List.mem_cons (b := a)]

theorem mem_patterns {s : Settings} {x : Text} : x ∈ patterns s ↔ x ∈ includes s := by
  rw [patterns, mem_dedup, List.mem_mergeSort]

theorem split_lines {l : List Text} (hne : l ≠ []) (h : ∀ x ∈ l, '\n' ∉ x) : split '\n' (joinWith '\n' l ++ ['\n']) = l ++ [[]] := by
  induction l with
  | nil => exact absurd rfl hne
  | cons a l ih =>
    cases l with
    | nil => rw [joinWith, split_append (h a (by simp))]; rfl
    | cons b l =>
      rw [joinWith, List.append_assoc, List.cons_append, split_append (h a (by simp)), ih (by simp) (fun x hx => h x (by simp [hx]))]
      rfl

/-- **C134**: the lines printed for the files to copy are the patterns by which the files beside the PBOs are chosen (C80): a file
is copied exactly if it is not in the folder `.hemtt` and matches one of the lines. -/
theorem C134_files (d : Disk) (t : Toml) (hn : ∀ i ∈ t.settings.include_, '\n' ∉ i) (out : Text)
    (h : value d t "project.files.include".toList = .ok out) :
    ∃ lines, split '\n' out = lines ++ [[]] ∧ ∀ glob p, Release.Wanted glob t.settings p ↔
      p.head? ≠ some ".hemtt".toList ∧ ∃ line ∈ lines, ∃ m, glob line = some m ∧ m (Release.asStr p) = true := by
  obtain ⟨c, v, ho⟩ := value_open h
  obtain ⟨-, -, -, -, -, -, -, -, -, t9⟩ := @text_at t c v
  rw [value_ok ho t9] at h
  obtain rfl := Except.ok.inj h
  have hmem : ∀ x, x ∈ patterns t.settings ↔ (∃ i ∈ t.settings.include_, x = if i.head? = some '/' then i else '/' :: i) ∨
      ∃ n ∈ ["mod.cpp", "meta.cpp", "LICENSE", "logo_ca.paa", "logo_co.paa"], x = '/' :: n.toList := by
    intro x
    rw [mem_patterns, includes, List.mem_append, List.mem_map]
    constructor
    · rintro (⟨i, hi, rfl⟩ | h)
      · exact .inl ⟨i, hi, rfl⟩
      · right
        simp only [List.mem_cons, List.not_mem_nil, or_false] at h
        rcases h with rfl | rfl | rfl | rfl | rfl
        · exact ⟨"mod.cpp", by simp, rfl⟩
        · exact ⟨"meta.cpp", by simp, rfl⟩
        · exact ⟨"LICENSE", by simp, rfl⟩
        · exact ⟨"logo_ca.paa", by simp, rfl⟩
        · exact ⟨"logo_co.paa", by simp, rfl⟩
    · rintro (⟨i, hi, rfl⟩ | ⟨n, hn, rfl⟩)
      · exact .inl ⟨i, hi, rfl⟩
      · right
        simp only [List.mem_cons, List.not_mem_nil, or_false] at hn
        rcases hn with rfl | rfl | rfl | rfl | rfl <;> decide
  refine ⟨patterns t.settings, split_lines ?_ ?_, ?_⟩
  · intro he
    have := (hmem "/mod.cpp".toList).2 (.inr ⟨"mod.cpp", by simp, rfl⟩)
    rw [he] at this; simp at this
  · intro x hx
    rcases (hmem x).1 hx with ⟨i, hi, rfl⟩ | ⟨n, hn', rfl⟩
    · split
      · exact hn i hi
      · simp [hn i hi]
    · simp only [List.mem_cons, List.not_mem_nil, or_false] at hn'
      rcases hn' with rfl | rfl | rfl | rfl | rfl <;> decide
  · intro glob p
    unfold Release.Wanted
    refine and_congr_right fun _ => ⟨?_, ?_⟩
    · rintro (⟨i, hi, m, h1, h2⟩ | ⟨n, hn', m, h1, h2⟩)
      · exact ⟨_, (hmem _).2 (.inl ⟨i, hi, rfl⟩), m, h1, h2⟩
      · exact ⟨_, (hmem _).2 (.inr ⟨n, hn', rfl⟩), m, h1, h2⟩
    · rintro ⟨x, hx, m, h1, h2⟩
      rcases (hmem x).1 hx with ⟨i, hi, rfl⟩ | ⟨n, hn', rfl⟩
      · exact .inl ⟨i, hi, m, h1, h2⟩
      · exact .inr ⟨n, hn', m, h1, h2⟩

/-! ### What stays as it is -/

/-- **C134**: printing a value changes nothing but temporary files and the list of annotations of the last run, which is emptied:
in particular what was built stays. -/
theorem C134_disk (base root : List Text) (w : List Text → Option Bytes) :
    (∀ p, ¬ (base <+: p) → p ≠ root ++ [".hemttout".toList, "ci_annotations.txt".toList] → files base root w p = w p) ∧
    files base root w (root ++ [".hemttout".toList, "ci_annotations.txt".toList]) = some [] := by
  refine ⟨fun p h1 h2 => ?_, ?_⟩
  · unfold files
    rw [if_neg h2]
    exact Project.C89_inside base root w p h1
  · unfold files
    rw [if_pos rfl]

/-! ### The folder `include` -/

/-- A project whose version is in a file of its folder `include` only has no values: not even its name is printed. -/
theorem C134_violated_include (d : Disk) (t : Toml) (hm : t.version.major = none)
    (hs : d.source (Project.slashed (t.version.path.getD "addons/main/script_version.hpp".toList)) = none) (name : Text) :
    value d t name = .error .exit := by
  have : open_ false d t = .error .exit := by
    unfold open_
    split
    · rfl
    split
    · rfl
    rename_i c hc
    have hp : c.path = Project.slashed (t.version.path.getD "addons/main/script_version.hpp".toList) ∧ c.defined = none := by
      unfold Project.config at hc
      split at hc
      · simp at hc
      split at hc
      · simp at hc
      rw [hm] at hc
      obtain rfl := Except.ok.inj hc
      exact ⟨rfl, rfl⟩
    have : Project.get (d.read false) d.head c = .error (.version .unknownVersion) := by
      unfold Project.get Project.internalGet
      rw [hp.2]
      have : d.read false c.path = none := by rw [hp.1]; simpa [Disk.read] using hs
      simp [this]
    rw [this]
  unfold value
  rw [this]

/-! ### An example -/

def sampleToml : Toml :=
  ⟨"Advanced Banana Environment".toList, some "z".toList, ⟨none, none, none, none, none, some 4⟩,
    { pfx := "abe".toList, release := "abe".toList, optionalFolders := true, exclude := ["*.psd".toList],
      properties := [("author".toList, "ABE Team".toList)], include_ := ["docs/*.md".toList, "/mod.cpp".toList],
      authority := none, sigVersion := .v3 }⟩

def sampleVersion : Text := "#define MAJOR 1\n#define MINOR 12\n#define PATCH 3\n".toList

def sampleDisk : Disk :=
  ⟨fun p => if p = "addons/main/script_version.hpp".toList then some sampleVersion else none, fun _ => none,
    some "0a1b2c3d4e5f".toList⟩

/-- As `sampleDisk`, with the file in the folder `include`. -/
def includedDisk : Disk := ⟨fun _ => none, sampleDisk.source, some "0a1b2c3d4e5f".toList⟩

example : value sampleDisk sampleToml "project.version".toList = .ok "1.12.3-0a1b\n".toList ∧
    value sampleDisk sampleToml "project.version.short".toList = .ok "1.12.3\n".toList ∧
    value sampleDisk sampleToml "project.version.build".toList = .ok "\n".toList ∧
    value sampleDisk sampleToml "project.version.git_hash".toList = .ok "4\n".toList ∧
    value sampleDisk sampleToml "project.signing.authority".toList = .ok "abe_1.12.3-0a1b\n".toList ∧
    value sampleDisk sampleToml "project.version.hash".toList = .error .exit := by decide +kernel

example : U32 sampleToml.version ∧ NotIncluded sampleDisk sampleToml ∧ (∀ id, sampleDisk.head = some id → '-' ∉ id) ∧
    (∀ i ∈ sampleToml.settings.include_, '\n' ∉ i) :=
  ⟨⟨fun _ h => (nomatch h), fun _ h => (nomatch h), fun _ h => (nomatch h), fun _ h => (nomatch h)⟩, .inr rfl,
    by intro id h; obtain rfl := Option.some.inj h; decide, by decide⟩

/-- The same project with its version in the folder `include`: a build opens it, but no value is printed. -/
example : (open_ true includedDisk sampleToml).toOption.map (fun r => Ver.display r.2) = some "1.12.3-0a1b".toList ∧
    value includedDisk sampleToml "project.version".toList = .error .exit ∧
    value includedDisk sampleToml "project.name".toList = .error .exit := by decide +kernel

end Verif.Value
