import Verif.Lib.ReleaseSign
import Verif.Props.Workspace
/-!
Properties C78 – C81: what is packed into a PBO, where the PBOs, signatures and keys of a release are, what is copied
beside them, and which addons are reported to be empty.
-/
namespace Verif.Release
open Verif.Io Verif.Pbo Verif.Sign
open Verif.Workspace (Location Addon FILES)
open Verif.SqfLex (enc enc_inj)

/-! ### C78: what is in a PBO -/

/-- **C78**: the PBO of an addon holds exactly the files that belong into it, each once, with its content, under its path
below the addon's folder. -/
theorem C78_files {env : Env} {s : Settings} {x : Source} (ht : TreeOk x.tree) {pbo : WPbo}
    (h : pack env s x.addon x.toml x.tree = .ok pbo) :
    (∀ e, Packed env s x e → pbo.file (enc e.rel) = some e.content) ∧
    (∀ n c hd, (n, (c, hd)) ∈ pbo.files → ∃ e, Packed env s x e ∧ n = enc (inPbo e) ∧ c = e.content) ∧
    (∃ l : List Entry, l.Sublist x.tree ∧ (∀ e, e ∈ l ↔ Packed env s x e) ∧
      pbo.files.map Prod.fst = l.map fun e => enc (inPbo e)) := by
  obtain ⟨l, h1, h2, h3⟩ := pack_files ht h
  refine ⟨?_, ?_, l, h1, h2, ?_⟩
  · intro e he
    have hn : norm (enc e.rel) = enc (inPbo e) := by rw [norm_enc, Entry.inPbo_eq ht he.1.mem]
    have hget : ∀ l : List Entry, (∀ e' ∈ l, e' ∈ x.tree) → e ∈ l →
        IMap.get (l.map stored) (enc (inPbo e)) = some (e.content, Header.newForFile (enc (inPbo e)) e.content.length) := by
      intro l
      induction l with
      | nil => intro _ h; simp at h
      | cons a l ih =>
        intro hm hin
        simp only [List.map_cons, stored, IMap.get]
        by_cases ha : enc (inPbo a) = enc (inPbo e)
        · have := inPbo_inj ht (hm a (by simp)) he.1.mem (enc_inj ha)
          subst this
          simp
        · rw [if_neg ha]
          rcases List.mem_cons.1 hin with rfl | hin
          · exact absurd rfl ha
          · exact ih (fun y hy => hm y (by simp [hy])) hin
    rw [WPbo.file, hn, h3, hget l (fun e' he' => h1.subset he') ((h2 e).2 he)]
    rfl
  · intro n c hd hm
    rw [h3, List.mem_map] at hm
    obtain ⟨e, he, heq⟩ := hm
    simp only [stored, Prod.mk.injEq] at heq
    exact ⟨e, (h2 e).1 he, heq.1.symm, heq.2.1.symm⟩
  · rw [h3, List.map_map]; rfl

/-- What the program itself says about a PBO, unless it is said otherwise in the settings: its own version, the
project's, and if a file says what the prefix is, that prefix and the commit. -/
def ownProperty (env : Env) (p : Option (List Text)) (key : Text) : Option Text :=
  if key = "hemtt".toList then some env.hemtt
  else if key = "version".toList then some env.version
  else if key = "prefix".toList then p.map Prefix.display
  else if key = "git".toList then p.bind fun _ => env.git
  else none

/-- **C78**: the properties of a PBO. What the addon says comes before what the project says, and that before what the
program says. The prefix is that of the last file of the folder that says so. -/
theorem C78_properties {env : Env} {s : Settings} {x : Source} (ht : TreeOk x.tree) {pbo : WPbo}
    (hp : (s.properties.map Prod.fst).Nodup) (hx : ∀ t, x.toml = some t → (t.properties.map Prod.fst).Nodup)
    (h : pack env s x.addon x.toml x.tree = .ok pbo) :
    (∀ t k v, x.toml = some t → (k, v) ∈ t.properties → pbo.property (enc k) = some (trimBackslash (enc v))) ∧
    (∀ k v, (∀ t, x.toml = some t → k ∉ t.properties.map Prod.fst) → (k, v) ∈ s.properties →
      pbo.property (enc k) = some (trimBackslash (enc v))) ∧
    ∃ p : Option (List Text),
      (p = none ↔ ∀ e, ¬ PrefixFile env s x e) ∧
      (∀ q, p = some q → ∃ es1 e es2 t, x.tree = es1 ++ e :: es2 ∧ PrefixFile env s x e ∧
        (∀ e' ∈ es2, ¬ PrefixFile env s x e') ∧ decode? e.content = some t ∧ Prefix.new t = .ok q) ∧
      ∀ k, (∀ t, x.toml = some t → k ∉ t.properties.map Prod.fst) → k ∉ s.properties.map Prod.fst →
        pbo.property (enc k) = (ownProperty env p k).map fun v => trimBackslash (enc v) := by
  unfold pack at h
  dsimp only at h
  generalize hb : (WPbo.new.addProperty (ascii "hemtt") (enc env.hemtt)).addProperty (ascii "version")
    (enc env.version) = base at h
  cases h1 : packEntries env s x.addon x.toml x.tree x.tree base with
  | error y => rw [h1] at h; simp at h
  | ok p1 =>
    rw [h1] at h
    simp only [Except.ok.injEq] at h
    have hnot : ∀ k, (∀ t, x.toml = some t → k ∉ t.properties.map Prod.fst) →
        k ∉ ((x.toml.map (·.properties)).getD []).map Prod.fst := by
      intro k hk
      cases htm : x.toml with
      | none => simp
      | some t => exact hk t htm
    refine ⟨?_, ?_, ?_⟩
    · intro t k v htm hkv
      rw [← h, htm]
      exact property_addProperties (hx t htm) hkv _
    · intro k v hk hkv
      rw [← h, property_addProperties_not (hnot k hk)]
      exact property_addProperties hp hkv _
    · have e1 : ascii "hemtt" = enc "hemtt".toList := by decide +kernel
      have e2 : ascii "version" = enc "version".toList := by decide +kernel
      have e3 : prefixKey = enc "prefix".toList := by decide +kernel
      have e4 : ascii "git" = enc "git".toList := by decide +kernel
      have hinj : ∀ a b : Text, enc a = enc b ↔ a = b := fun a b => ⟨enc_inj, fun h => h ▸ rfl⟩
      have d1 : ¬ "hemtt".toList = "version".toList := by decide +kernel
      have d2 : ¬ "hemtt".toList = "prefix".toList := by decide +kernel
      have d3 : ¬ "hemtt".toList = "git".toList := by decide +kernel
      have d4 : ¬ "version".toList = "prefix".toList := by decide +kernel
      have d5 : ¬ "version".toList = "git".toList := by decide +kernel
      have d6 : ¬ "prefix".toList = "git".toList := by decide +kernel
      have hbase : ∀ k, base.property (enc k) = (ownProperty env none k).map fun v => trimBackslash (enc v) := by
        intro k
        rw [← hb, property_addProperty, property_addProperty, e1, e2, ownProperty]
        simp only [hinj]
        by_cases c1 : k = "hemtt".toList
        · rw [c1, if_neg d1, if_pos rfl, if_pos rfl]; rfl
        · by_cases c2 : k = "version".toList
          · rw [if_pos c2, if_neg c1, if_pos c2]; rfl
          · rw [if_neg c2, if_neg c1, if_neg c1, if_neg c2]
            by_cases c3 : k = "prefix".toList
            · rw [if_pos c3]; rfl
            · rw [if_neg c3]
              by_cases c4 : k = "git".toList
              · rw [if_pos c4]; rfl
              · rw [if_neg c4]; rfl
      rcases packEntries_props ht x.tree base p1 (fun _ h => h) h1 with ⟨a, b⟩ | ⟨es1, e, es2, t, p, a, b, c, dd, f, g⟩
      · refine ⟨none, ⟨fun _ e he => a e he.1.mem he, fun _ => rfl⟩, by simp, ?_⟩
        intro k hk hk'
        rw [← h, property_addProperties_not (hnot k hk), property_addProperties_not hk', ← hbase, WPbo.property, b]
        rfl
      · refine ⟨some p, ⟨by simp, fun hno => absurd b (hno e)⟩, ?_, ?_⟩
        · rintro q ⟨⟩
          exact ⟨es1, e, es2, t, a, b, c, dd, f⟩
        · intro k hk hk'
          rw [← h, property_addProperties_not (hnot k hk), property_addProperties_not hk', g, e2, e3, e4, hbase]
          simp only [hinj]
          unfold ownProperty
          by_cases c1 : k = "hemtt".toList
          · rw [c1, if_neg d2, if_neg d1, if_neg (fun h => d3 h.1), if_pos rfl, if_pos rfl]
          · by_cases c2 : k = "version".toList
            · rw [c2, if_neg d4, if_pos rfl, if_neg (fun h => d1 h.symm), if_pos rfl]; rfl
            · by_cases c3 : k = "prefix".toList
              · rw [if_pos c3, if_neg c1, if_neg c2, if_pos c3]; rfl
              · rw [if_neg c3, if_neg c2, if_neg c1, if_neg c2, if_neg c3, if_neg c1, if_neg c2, if_neg c3]
                by_cases c4 : k = "git".toList
                · cases hg : env.git with
                  | none => simp [c4]
                  | some g => simp [c4]
                · rw [if_neg (fun h => c4 h.1), if_neg c4, if_neg c4]

/-- **C78**: what is written is read back. If no two files of the PBO have names that differ only in case, the file that
the build writes for an addon holds each file that belongs into it, under any spelling, and nothing else. -/
theorem C78_read_back {d : Digest} {env : Env} {s : Settings} {c : Bool} (hH : ∀ x, (d.H x).length = 20)
    (hord : ∀ l, (d.order l).Perm l) {xs : List Source} {w w' : World} (hb : build d env s c xs w = .ok w')
    (hdist : (xs.map fun x => target s c x.addon).Nodup) {x : Source} (hx : x ∈ xs) (ht : TreeOk x.tree)
    (hc : Clean env s x)
    (hcase : ∀ e e', Packed env s x e → Packed env s x e' → d.lower (enc (inPbo e)) = d.lower (enc (inPbo e')) → e = e') :
    ∃ out r, w' (target s c x.addon) = some out ∧ RPbo.from out = .ok r ∧
      (∀ e, Packed env s x e → r.file d.lower (enc e.rel) = some e.content) ∧
      (∀ n, (∀ e, Packed env s x e → d.lower (enc (inPbo e)) ≠ d.lower (norm n)) → r.file d.lower n = none) ∧
      ∃ pbo, pack env s x.addon x.toml x.tree = .ok pbo ∧ r.properties.Perm pbo.properties := by
  obtain ⟨xs1, xs2, rfl⟩ := List.append_of_mem hx
  have hno : ∀ y ∈ xs2, target s c y.addon ≠ target s c x.addon := by
    intro y hy he
    rw [List.map_append, List.nodup_append] at hdist
    have := hdist.2.1
    rw [List.map_cons, List.nodup_cons] at this
    exact this.1 (he ▸ List.mem_map_of_mem hy)
  obtain ⟨pbo, out, sum, h1, h2, h3⟩ := (build_ok _ w w' hb).2 xs1 x xs2 rfl hno
  obtain ⟨l, l1, l2, l3⟩ := pack_files ht h1
  obtain ⟨out', sum', r, g1, g2, g3, -, -, -, g7⟩ :=
    C07_round_trip d.H d.lower hH pbo (pack_valid ht hc h1) _ (hord pbo.files) true
  rw [h2] at g1
  obtain ⟨rfl, rfl⟩ : out = out' ∧ sum = sum' := by simpa using g1
  have hcd : CaseDistinct d.lower pbo := by
    intro a ha b hb' hab
    rw [l3, List.mem_map] at ha hb'
    obtain ⟨ea, hea, rfl⟩ := ha
    obtain ⟨eb, heb, rfl⟩ := hb'
    rw [hcase ea eb ((l2 ea).1 hea) ((l2 eb).1 heb) hab]
  obtain ⟨f1, f2⟩ := g7 hcd
  refine ⟨out, r, h3, g2, ?_, ?_, pbo, h1, (g3 rfl).1⟩
  · intro e he
    have hn : norm (enc e.rel) = enc (inPbo e) := by rw [norm_enc, Entry.inPbo_eq ht he.1.mem]
    exact f1 (stored e) (by rw [l3]; exact List.mem_map_of_mem ((l2 e).2 he)) (enc e.rel) (by rw [hn]; rfl)
  · intro n hn
    apply f2
    intro e he
    rw [l3, List.mem_map] at he
    obtain ⟨e', he', rfl⟩ := he
    exact hn e' ((l2 e').1 he')

/-- **C78**: with one file that says what the prefix is, and no property of that name in the settings, the PBO has that
prefix. -/
theorem C78_one_prefix {env : Env} {s : Settings} {x : Source} (ht : TreeOk x.tree) {pbo : WPbo}
    (hp : (s.properties.map Prod.fst).Nodup) (hx : ∀ t, x.toml = some t → (t.properties.map Prod.fst).Nodup)
    (h : pack env s x.addon x.toml x.tree = .ok pbo) {e : Entry} (he : PrefixFile env s x e)
    (hone : ∀ e', PrefixFile env s x e' → e' = e)
    (hk : ∀ t, x.toml = some t → "prefix".toList ∉ t.properties.map Prod.fst)
    (hk' : "prefix".toList ∉ s.properties.map Prod.fst) :
    ∃ t p, decode? e.content = some t ∧ Prefix.new t = .ok p ∧
      pbo.property prefixKey = some (trimBackslash (enc (Prefix.display p))) := by
  obtain ⟨-, -, p, h1, h2, h3⟩ := C78_properties ht hp hx h
  cases p with
  | none => exact absurd he (h1.1 rfl e)
  | some p =>
    obtain ⟨es1, e', es2, t, -, g1, -, g2, g3⟩ := h2 p rfl
    rw [hone e' g1] at g2
    refine ⟨t, p, g2, g3, ?_⟩
    have e3 : prefixKey = enc "prefix".toList := by decide +kernel
    have d2 : ¬ "prefix".toList = "hemtt".toList := by decide +kernel
    have d4 : ¬ "prefix".toList = "version".toList := by decide +kernel
    rw [e3, h3 _ hk hk', ownProperty, if_neg d2, if_neg d4, if_pos rfl]
    rfl

/-- A pattern without special characters matches itself and nothing else. -/
def plainGlob (p : Text) : Option (Text → Bool) :=
  if p.any (fun c => c = '*' ∨ c = '?' ∨ c = '[') then none else some fun s => s = p

/-- Settings to try things with. -/
def sampleSettings : Settings :=
  ⟨"abe".toList, "abe".toList, false, [], [], [], none, .v3⟩

def sampleEnv : Env := ⟨plainGlob, fun t => t.map Char.toLower, "1.0".toList, "1.2.3".toList, none⟩

def mainAddon : Addon := ⟨"main".toList, .addons, ["abe".toList, "main".toList]⟩

/-- A file of the addon's folder itself. -/
def top (name content : String) : Entry := ⟨[], name.toList, true, ascii content⟩

/-- An addon to try things with: its prefix, a config, a folder with a function, and notes that are not to be packed. -/
def sampleSource : Source :=
  ⟨mainAddon, some ⟨["notes.txt".toList], [("author".toList, "abe".toList)]⟩,
    [top "$PBOPREFIX$" "z\\abe\\addons\\main", top "addon.toml" "", top "config.cpp" "class CfgPatches {};", top "notes.txt" "hm",
      ⟨[], "functions".toList, false, []⟩, ⟨["functions".toList], "fnc_a.sqf".toList, true, ascii "true"⟩]⟩

theorem sampleOk : TreeOk sampleSource.tree := ⟨by decide +kernel, by decide +kernel⟩

/-- It is packed, and what is in the PBO is what `C78_files` and `C78_properties` say. -/
example : ∃ pbo, pack sampleEnv sampleSettings sampleSource.addon sampleSource.toml sampleSource.tree = .ok pbo ∧
    pbo.files.map Prod.fst = [ascii "config.cpp", ascii "functions\\fnc_a.sqf"] ∧
    pbo.file (ascii "functions/fnc_a.sqf") = some (ascii "true") ∧
    pbo.property prefixKey = some (ascii "z\\abe\\addons\\main") ∧
    pbo.property (ascii "author") = some (ascii "abe") ∧ pbo.property (ascii "version") = some (ascii "1.2.3") := by
  have : (match pack sampleEnv sampleSettings sampleSource.addon sampleSource.toml sampleSource.tree with
    | .error _ => false
    | .ok pbo => decide (pbo.files.map Prod.fst = [ascii "config.cpp", ascii "functions\\fnc_a.sqf"] ∧
        pbo.file (ascii "functions/fnc_a.sqf") = some (ascii "true") ∧
        pbo.property prefixKey = some (ascii "z\\abe\\addons\\main") ∧
        pbo.property (ascii "author") = some (ascii "abe") ∧
        pbo.property (ascii "version") = some (ascii "1.2.3"))) = true := by decide +kernel
  cases h : pack sampleEnv sampleSettings sampleSource.addon sampleSource.toml sampleSource.tree with
  | error e => rw [h] at this; simp at this
  | ok pbo =>
    rw [h] at this
    exact ⟨pbo, rfl, of_decide_eq_true this⟩

/-- The function of the sample is packed, the notes are not. -/
theorem samplePacked : Packed sampleEnv sampleSettings sampleSource
    ⟨["functions".toList], "fnc_a.sqf".toList, true, ascii "true"⟩ := by
  refine ⟨⟨by simp [sampleSource], rfl, by decide +kernel, fun h => absurd h (by decide +kernel), ?_⟩, by decide +kernel⟩
  rintro (⟨p, hp, -⟩ | ⟨t, h, p, hp, m, h1, h2⟩)
  · simp [sampleSettings] at hp
  · cases h
    rw [List.mem_singleton.1 hp] at h1
    have : plainGlob "notes.txt".toList = some fun t => decide (t = "notes.txt".toList) := rfl
    rw [show sampleEnv.glob = plainGlob from rfl, this] at h1
    cases h1
    revert h2
    decide +kernel

example : ¬ Packed sampleEnv sampleSettings sampleSource (top "notes.txt" "hm") := by
  rintro ⟨hc, -⟩
  refine hc.kept (.inr ⟨_, rfl, "notes.txt".toList, by simp, _, rfl, ?_⟩)
  decide +kernel

theorem sampleClean : Clean sampleEnv sampleSettings sampleSource := by
  refine ⟨by decide +kernel, by decide +kernel, by decide +kernel, by decide +kernel, by simp [sampleEnv], ?_⟩
  intro e he hp t p h1 h2
  have : e = top "$PBOPREFIX$" "z\\abe\\addons\\main" := by
    have h := hp.2
    have hall : ∀ e ∈ sampleSource.tree, sampleEnv.lower e.filename ∈ FILES →
      e = top "$PBOPREFIX$" "z\\abe\\addons\\main" := by decide +kernel
    exact hall e he h
  subst this
  have h0 : decode? (top "$PBOPREFIX$" "z\\abe\\addons\\main").content = some "z\\abe\\addons\\main".toList := by decide +kernel
  rw [h0] at h1
  cases h1
  have h3 : ∀ p, Prefix.new "z\\abe\\addons\\main".toList = .ok p → '\x00' ∉ Prefix.display p := by
    intro p hp
    have : Prefix.new "z\\abe\\addons\\main".toList =
      .ok ["z".toList, "abe".toList, "addons".toList, "main".toList] := by decide +kernel
    rw [this] at hp
    cases hp
    decide +kernel
  exact h3 p h2

/-- **C78**, violated: a file that is excluded the way the book says (`exclude = ["addons/main/README.md"]`,
book/configuration/index.md) is packed all the same, as its path has a slash in front. For any pattern matching in which
that pattern matches only itself. -/
theorem C78_violated_exclude (env : Env)
    (hg : env.glob "addons/main/README.md".toList = some fun t => decide (t = "addons/main/README.md".toList))
    (hl : env.lower "README.md".toList ∉ FILES) :
    ∃ s x e, s.exclude = ["addons/main/README.md".toList] ∧ folder x.addon = "addons/main".toList ∧
      e.rel = "README.md".toList ∧ TreeOk x.tree ∧ Packed env s x e := by
  refine ⟨{ sampleSettings with exclude := ["addons/main/README.md".toList] },
    ⟨mainAddon, none, [top "README.md" "hello"]⟩, top "README.md" "hello", rfl, by decide +kernel, by decide +kernel,
    ⟨by decide +kernel, by decide +kernel⟩, ⟨by simp, rfl, by decide +kernel, ?_, ?_⟩, hl⟩
  · intro h
    exact absurd h (by decide +kernel)
  · rintro (⟨p, hp, m, h1, h2⟩ | ⟨t, h, -⟩)
    · rw [List.mem_singleton.1 hp, hg] at h1
      cases h1
      revert h2
      decide +kernel
    · simp at h

/-- **C78**, violated: a prefix file in a folder below the addon's decides, not the addon's own. -/
theorem C78_violated_prefix :
    ∃ (x : Source) (pbo : WPbo), pack sampleEnv sampleSettings x.addon x.toml x.tree = .ok pbo ∧
      top "$PBOPREFIX$" "z\\abe\\addons\\main" ∈ x.tree ∧
      pbo.property prefixKey = some (ascii "old") := by
  refine ⟨⟨mainAddon, none, [top "$PBOPREFIX$" "z\\abe\\addons\\main",
    ⟨["backup".toList], "$PBOPREFIX$".toList, true, ascii "old"⟩]⟩, _, rfl, by simp, ?_⟩
  decide +kernel

/-! ### C79: the PBOs, signatures and keys of a release -/

/-- **C79**: without dots in the prefix and in the names of the addons, which are distinct, no two addons are written to
the same file. -/
theorem C79_distinct {s : Settings} (c : Bool) {xs : List Source} (hn : (xs.map fun x => x.addon.name).Nodup)
    (hp : '.' ∉ s.pfx) (hd : ∀ x ∈ xs, '.' ∉ x.addon.name) : (xs.map fun x => target s c x.addon).Nodup := by
  have hinj : ∀ x ∈ xs, ∀ y ∈ xs, target s c x.addon = target s c y.addon → x.addon.name = y.addon.name := by
    intro x hx y hy h
    have hdot : ∀ x ∈ xs, '.' ∉ pboName x.addon s.pfx := by
      intro x hx hm
      simp only [pboName, List.mem_append, List.mem_cons] at hm
      rcases hm with hm | hm | hm
      · exact hp hm
      · exact absurd hm (by decide)
      · exact hd x hx hm
    have := congrArg List.getLast? h
    rw [target_last, target_last, stem_of_no_dot (hdot x hx), stem_of_no_dot (hdot y hy)] at this
    exact pboName_inj (List.append_cancel_right (Option.some.inj this))
  have hcongr : ∀ l : List Source, (∀ x ∈ l, x ∈ xs) → (l.map fun x => x.addon.name).Nodup →
      (l.map fun x => target s c x.addon).Nodup := by
    intro l
    induction l with
    | nil => intro _ _; simp
    | cons x l ih =>
      intro hm hn
      rw [List.map_cons, List.nodup_cons] at hn ⊢
      refine ⟨fun hin => hn.1 ?_, ih (fun y hy => hm y (by simp [hy])) hn.2⟩
      obtain ⟨y, hy, he⟩ := List.mem_map.1 hin
      rw [← hinj y (hm y (by simp [hy])) x (hm x (by simp)) he]
      exact List.mem_map_of_mem hy
  exact hcongr xs (fun _ h => h) hn

/-- The keys that are generated: RSA keys that fit their format, made out to their authority. -/
structure KeysFor (env : Env) (s : Settings) (k : Keys) (as : List Addon) : Prop where
  main : KeyOk k.main ∧ PrivFits k.main ∧ k.main.authority = enc (authority env s none)
  single : ∀ a ∈ as, KeyOk (k.single a) ∧ PrivFits (k.single a) ∧
    (k.single a).authority = enc (authority env s (some (pboName a s.pfx)))

/-- The PBO in the folder `sub` of the mod in `root` is signed: beside it is a signature by an authority whose key is
among the mod's keys and is long enough for digests, and the key accepts the signature of the PBO. -/
def SignedAt (d : Digest) (w : World) (root : Path) (sub name au : Text) (r : RPbo) : Prop :=
  ∃ out kb pk sb sg, w (root ++ [sub, name ++ ".pbo".toList]) = some out ∧ RPbo.from out = .ok r ∧
    w (root ++ ["keys".toList, au ++ ".bikey".toList]) = some kb ∧ PubKey.read kb = .ok (pk, []) ∧
    pk.authority = enc au ∧ 304 ≤ pk.length ∧
    w (root ++ [sub, name ++ ".pbo.".toList ++ au ++ ".bisign".toList]) = some sb ∧ Sig.read sb = .ok (sg, []) ∧
    pk.verify d.H d.lower r sg = .ok ()

/-- The name of the authority that signs the addon: the one of the settings or else the prefix, the version, and for an
optional addon that is a mod of its own the addon's full name. -/
def SignerIs (env : Env) (s : Settings) (a : Addon) (au : Text) : Prop :=
  (a.location = .optionals ∧ s.optionalFolders = true →
    au = s.authority.getD s.pfx ++ '_' :: env.version ++ '_' :: s.pfx ++ '_' :: a.name) ∧
  (¬ (a.location = .optionals ∧ s.optionalFolders = true) → au = s.authority.getD s.pfx ++ '_' :: env.version)

/-- **C79**: a release. If the build has written the PBOs, no two to the same file and none without files, and what was
copied since has not replaced one, then signing succeeds, in whatever order the addons are taken. Every PBO is as the
build has written it, and it is signed. Files other than keys and signatures are not touched. -/
theorem C79_signed {d : Digest} {env : Env} {s : Settings} {k : Keys} {xs : List Source} {as : List Addon}
    {w w1 w2 : World} (hH : ∀ x, (d.H x).length = 20) (hord : ∀ l, (d.order l).Perm l)
    (hk : KeysFor env s k as) (ht : ∀ x ∈ xs, TreeOk x.tree) (hc : ∀ x ∈ xs, Clean env s x)
    (hdist : (xs.map fun x => target s false x.addon).Nodup) (hfiles : ∀ x ∈ xs, ∃ e, Packed env s x e)
    (hb : build d env s false xs w = .ok w1)
    (hcopy : ∀ x ∈ xs, w2 (target s false x.addon) = w1 (target s false x.addon))
    (has : as.Perm (xs.map (·.addon))) :
    ∃ w3, sign d env s k as w2 = .ok w3 ∧
      (∀ x ∈ xs, ∃ root sub name au r, target s false x.addon = root ++ [sub, name ++ ".pbo".toList] ∧
        w3 (target s false x.addon) = w1 (target s false x.addon) ∧ SignerIs env s x.addon au ∧
        SignedAt d w3 root sub name au r) ∧
      ∀ q, (∀ folder name, q ≠ folder ++ [name ++ ".bisign".toList]) →
        (∀ folder name, q ≠ folder ++ [name ++ ".bikey".toList]) → w3 q = w2 q := by
  have hkey : ∀ a ∈ as, KeyOk (keyOf env s k a) ∧ PrivFits (keyOf env s k a) ∧
      (keyOf env s k a).authority = enc (authorityOf env s k a) := by
    intro a ha
    unfold keyOf authorityOf signing
    cases a.location
    · exact hk.main
    · by_cases ho : s.optionalFolders = true
      · simp only [ho, if_true]; exact hk.single a ha
      · simp only [ho]; exact hk.main
  have hbuilt : ∀ x ∈ xs, ∃ out r sig, w1 (target s false x.addon) = some out ∧ RPbo.from out = .ok r ∧
      (keyOf env s k x.addon).sign d.H d.lower r s.sigVersion = .ok sig ∧ Sig.read sig.write = .ok (sig, []) ∧
      PubKey.read (keyOf env s k x.addon).toPublic.write = .ok ((keyOf env s k x.addon).toPublic, []) ∧
      (keyOf env s k x.addon).toPublic.verify d.H d.lower r sig = .ok () := by
    intro x hx
    obtain ⟨xs1, xs2, rfl⟩ := List.append_of_mem hx
    have hno : ∀ y ∈ xs2, target s false y.addon ≠ target s false x.addon := by
      intro y hy he
      rw [List.map_append, List.nodup_append] at hdist
      have := hdist.2.1
      rw [List.map_cons, List.nodup_cons] at this
      exact this.1 (he ▸ List.mem_map_of_mem hy)
    obtain ⟨pbo, out, sum, h1, h2, h3⟩ := (build_ok _ w w1 hb).2 xs1 x xs2 rfl hno
    obtain ⟨l, l1, l2, l3⟩ := pack_files (ht x hx) h1
    have hne : pbo.files ≠ [] := by
      obtain ⟨e, he⟩ := hfiles x hx
      rw [l3]
      have := (l2 e).2 he
      intro h
      rw [List.map_eq_nil_iff] at h
      simp [h] at this
    obtain ⟨k1, k2, -⟩ := hkey x.addon (has.mem_iff.2 (List.mem_map_of_mem hx))
    obtain ⟨out', sum', r, sig, g1, g2, g3, g4, g5, g6⟩ := C11_end_to_end d.H d.lower hH _ k1 k2 s.sigVersion pbo
      (pack_valid (ht x hx) (hc x hx) h1) hne _ (hord pbo.files) true
    rw [h2] at g1
    obtain ⟨rfl, rfl⟩ : out = out' ∧ sum = sum' := by simpa using g1
    exact ⟨out, r, sig, h3, g2, g3, g4, g5, g6⟩
  have htm : ∀ x ∈ xs, target s false x.addon ≠ ["keys".toList, authority env s none ++ ".bikey".toList] := by
    intro x hx he
    have := lastChar_target s false x.addon
    rw [he] at this
    have e : authority env s none ++ ".bikey".toList = (authority env s none ++ ".bike".toList) ++ ['y'] := by
      rw [List.append_assoc]; rfl
    rw [e] at this
    have h2 := lastChar_append ["keys".toList] (authority env s none ++ ".bike".toList) 'y'
    rw [List.singleton_append, this] at h2
    simp at h2
  have hpair : as.Pairwise fun a b => target s false a ≠ target s false b := by
    have h1 : (as.map (target s false)).Nodup := by
      refine ((has.map (target s false)).nodup_iff).2 ?_
      rw [List.map_map]; exact hdist
    rw [List.Nodup, List.pairwise_map] at h1
    exact h1
  have hex : ∀ a ∈ as, ∃ x ∈ xs, x.addon = a := by
    intro a ha
    have := has.mem_iff.1 ha
    obtain ⟨x, hx, rfl⟩ := List.mem_map.1 this
    exact ⟨x, hx, rfl⟩
  obtain ⟨w3, e1, e2, e3⟩ := signAll_ok (d := d) (env := env) (s := s) (k := k) as
    (w2.put ["keys".toList, authority env s none ++ ".bikey".toList] k.main.toPublic.write) hpair (by
      intro a ha
      obtain ⟨x, hx, rfl⟩ := hex a ha
      obtain ⟨out, r, sig, h1, h2, h3, -⟩ := hbuilt x hx
      refine ⟨out, r, sig, ?_, h2, h3⟩
      simp only [World.put, htm x hx, if_false]
      rw [hcopy x hx, h1])
  refine ⟨w3, e1, ?_, ?_⟩
  · intro x hx
    obtain ⟨out, r, sig, h1, h2, h3, h4, h5, h6⟩ := hbuilt x hx
    obtain ⟨out', r', sig', f1, f2, f3, f4, f5⟩ := e3 x.addon (has.mem_iff.2 (List.mem_map_of_mem hx))
    simp only [World.put, htm x hx, if_false] at f1
    rw [hcopy x hx, h1] at f1
    cases f1
    rw [h2] at f2
    cases f2
    rw [h3] at f3
    cases f3
    have hkeep : w3 (target s false x.addon) = some out := by
      rw [e2 _ fun a _ => target_not_touched env s k x.addon a]
      simp only [World.put, htm x hx, if_false]
      rw [hcopy x hx, h1]
    have hmain : w3 ["keys".toList, authority env s none ++ ".bikey".toList] = some k.main.toPublic.write := by
      rw [e2 _ fun a _ => main_not_touched env s k a _]
      simp [World.put]
    obtain ⟨hko, -, hauth⟩ := hkey x.addon (has.mem_iff.2 (List.mem_map_of_mem hx))
    have hsplit := target_split s x.addon
    have hsig : sigOf env s k x.addon = (target s false x.addon).dropLast ++
        [stem (pboName x.addon s.pfx) ++ ".pbo.".toList ++ authorityOf env s k x.addon ++ ".bisign".toList] :=
      sigPath_target s x.addon _
    have hwhere : ∃ root sub, (target s false x.addon).dropLast = root ++ [sub] ∧
        w3 (root ++ ["keys".toList, authorityOf env s k x.addon ++ ".bikey".toList]) =
          some (keyOf env s k x.addon).toPublic.write := by
      cases hl : x.addon.location with
      | addons =>
        refine ⟨[], "addons".toList, ?_, ?_⟩
        · simp only [target, hl]; rfl
        · have hau : authorityOf env s k x.addon = authority env s none := by simp only [authorityOf, signing, hl]
          have hke : keyOf env s k x.addon = k.main := by simp only [keyOf, signing, hl]
          rw [hau, hke]; exact hmain
      | optionals =>
        by_cases ho : s.optionalFolders = true
        · refine ⟨["optionals".toList, '@' :: pboName x.addon s.release], "addons".toList, ?_, ?_⟩
          · simp only [target, hl, ho]; rfl
          · apply f5
            simp only [ownKey, authorityOf, signing, hl, ho, if_true]
        · refine ⟨[], "optionals".toList, ?_, ?_⟩
          · simp only [target, hl, ho]; rfl
          · have hau : authorityOf env s k x.addon = authority env s none := by
              simp only [authorityOf, signing, hl, ho]; rfl
            have hke : keyOf env s k x.addon = k.main := by simp only [keyOf, signing, hl, ho]; rfl
            rw [hau, hke]; exact hmain
    obtain ⟨root, sub, hr, hkb⟩ := hwhere
    have hsigner : SignerIs env s x.addon (authorityOf env s k x.addon) := by
      unfold SignerIs authorityOf signing
      refine ⟨?_, ?_⟩
      · rintro ⟨hl, ho⟩
        simp [hl, ho, authority, pboName]
      · intro hn
        cases hl : x.addon.location with
        | addons => simp [authority]
        | optionals =>
          have ho : s.optionalFolders = false := by simpa [hl] using hn
          simp [ho, authority]
    rw [hr, List.append_assoc, List.singleton_append] at hsplit hsig
    refine ⟨root, sub, stem (pboName x.addon s.pfx), authorityOf env s k x.addon, r, hsplit, by rw [hkeep, h1],
      hsigner, out, _, _, _, sig, ?_, h2, hkb, h5, hauth, hko.len, ?_, h4, h6⟩
    · rw [← hsplit]; exact hkeep
    · rw [← hsig]; exact f4
  · intro q hn hy
    have h1 : ∀ a ∈ as, ¬ Touches env s k a q := by
      rintro a - (h | h)
      · unfold ownKey signing at h
        cases hl : a.location <;> simp only [hl] at h
        · simp at h
        · by_cases ho : s.optionalFolders = true
          · simp only [ho, if_true, Option.some.injEq] at h
            exact hy (["optionals".toList, '@' :: pboName a s.release] ++ ["keys".toList]) _ h.symm
          · simp [ho] at h
      · rw [sigOf, sigPath_target] at h
        exact hn _ _ h
    rw [e2 q h1]
    have h2 : q ≠ ["keys".toList, authority env s none ++ ".bikey".toList] := hy ["keys".toList] _
    simp only [World.put, h2, if_false]

/-- Digests, keys and a second addon to try signing with. -/
def sampleDigest : Digest := ⟨fun _ => List.replicate 20 0, id, id⟩

def optionalSource : Source :=
  ⟨⟨"compat".toList, .optionals, ["abe".toList, "compat".toList]⟩, none, [top "config.cpp" "class CfgPatches {};"]⟩

def releaseSettings : Settings := { sampleSettings with optionalFolders := true }

def sampleKeys : Keys :=
  ⟨{ exKey with authority := ascii "abe_1.2.3" }, fun _ => { exKey with authority := ascii "abe_1.2.3_abe_compat" }⟩

theorem sampleKeyOk {au : Bytes} (h : NameOk au) : KeyOk { exKey with authority := au } ∧
    PrivFits { exKey with authority := au } := by
  have h1 : KeyOk exKey := by
    refine ⟨exP_prime, exQ_prime, ?_, rfl, ?_, ?_, ?_, ?_, ?_⟩ <;> decide +kernel
  have h2 : PrivFits exKey := by
    refine ⟨⟨by decide, by decide⟩, ?_, ?_, ?_, ?_, ?_, ?_, ?_, ?_, ?_⟩ <;> decide +kernel
  obtain ⟨a1, a2, a3, a4, a5, a6, a7, a8, a9⟩ := h1
  obtain ⟨-, b2, b3, b4, b5, b6, b7, b8, b9, b10⟩ := h2
  exact ⟨⟨a1, a2, a3, a4, a5, a6, a7, a8, a9⟩, ⟨h, b2, b3, b4, b5, b6, b7, b8, b9, b10⟩⟩

/-- A release with an optional addon as a mod of its own. The keys are those of the addons of the list, of which only the
optional one has its own. -/
theorem sampleKeysFor : KeysFor sampleEnv releaseSettings sampleKeys [optionalSource.addon] := by
  refine ⟨⟨(sampleKeyOk (by constructor <;> decide +kernel)).1, (sampleKeyOk (by constructor <;> decide +kernel)).2,
    by decide +kernel⟩, ?_⟩
  intro a ha
  rw [List.mem_singleton.1 ha]
  exact ⟨(sampleKeyOk (by constructor <;> decide +kernel)).1, (sampleKeyOk (by constructor <;> decide +kernel)).2,
    by decide +kernel⟩

theorem optionalClean : Clean sampleEnv releaseSettings optionalSource := by
  refine ⟨by decide +kernel, by decide +kernel, by decide +kernel, by decide +kernel, by simp [sampleEnv], ?_⟩
  intro e he hp
  have hall : ∀ e ∈ optionalSource.tree, sampleEnv.lower e.filename ∉ FILES := by decide +kernel
  exact absurd hp.2 (hall e he)

/-- The hypotheses of `C79_signed` can be met, and its conclusion is about something. -/
example (w : World) : ∃ w1 w3, build sampleDigest sampleEnv releaseSettings false [optionalSource] w = .ok w1 ∧
    sign sampleDigest sampleEnv releaseSettings sampleKeys [optionalSource.addon] w1 = .ok w3 ∧
    ∃ r, SignedAt sampleDigest w3 ["optionals".toList, "@abe_compat".toList] "addons".toList "abe_compat".toList
      "abe_1.2.3_abe_compat".toList r := by
  have ht : TreeOk optionalSource.tree := ⟨by decide +kernel, by decide +kernel⟩
  obtain ⟨pbo, hp⟩ : ∃ pbo, pack sampleEnv releaseSettings optionalSource.addon optionalSource.toml
      optionalSource.tree = .ok pbo := by
    have : (pack sampleEnv releaseSettings optionalSource.addon optionalSource.toml optionalSource.tree).isOk = true := by
      decide +kernel
    cases h : pack sampleEnv releaseSettings optionalSource.addon optionalSource.toml optionalSource.tree with
    | error e => rw [h] at this; simp [Except.isOk, Except.toBool] at this
    | ok pbo => exact ⟨pbo, rfl⟩
  obtain ⟨out, sum, r, g1, -⟩ := C07_round_trip sampleDigest.H sampleDigest.lower (fun _ => rfl) pbo
    (pack_valid ht optionalClean hp) pbo.files (List.Perm.refl _) true
  have hb : build sampleDigest sampleEnv releaseSettings false [optionalSource] w =
      .ok (w.put (target releaseSettings false optionalSource.addon) out) := by
    have : pbo.write sampleDigest.H sampleDigest.lower (sampleDigest.order pbo.files) true = .ok (out, sum) := g1
    rw [build, internalBuild, hp]
    dsimp only
    rw [this]
    rfl
  have hpacked : Packed sampleEnv releaseSettings optionalSource (top "config.cpp" "class CfgPatches {};") := by
    refine ⟨⟨by simp [optionalSource], rfl, by decide +kernel, ?_, ?_⟩, by decide +kernel⟩
    · intro _ b hb _
      have hall : ∀ e ∈ optionalSource.tree, e.filename ≠ "config.bin".toList := by decide +kernel
      exact hall b hb
    · rintro (⟨p, hp, -⟩ | ⟨t, h, -⟩)
      · simp [releaseSettings, sampleSettings] at hp
      · simp [optionalSource] at h
  obtain ⟨w3, h1, h2, -⟩ := C79_signed (d := sampleDigest) (as := [optionalSource.addon]) (fun _ => rfl)
    (fun _ => List.Perm.refl _) sampleKeysFor (by intro x hx; rw [List.mem_singleton.1 hx]; exact ht)
    (by intro x hx; rw [List.mem_singleton.1 hx]; exact optionalClean) (by simp)
    (by intro x hx; rw [List.mem_singleton.1 hx]; exact ⟨_, hpacked⟩) hb (fun _ _ => rfl) (List.Perm.refl _)
  obtain ⟨root, sub, name, au, r, e1, -, e3, e4⟩ := h2 optionalSource (by simp)
  have hau : au = "abe_1.2.3_abe_compat".toList := (e3.1 ⟨rfl, rfl⟩).trans (by decide +kernel)
  have ht2 : target releaseSettings false optionalSource.addon = ["optionals".toList, "@abe_compat".toList] ++
      ["addons".toList, "abe_compat".toList ++ ".pbo".toList] := by decide +kernel
  rw [ht2] at e1
  obtain ⟨i1, i2⟩ := List.append_inj' e1 rfl
  obtain ⟨i3, i4⟩ := List.cons.inj i2
  have i4 := List.append_cancel_right (List.cons.inj i4).1
  subst i1 i3 i4
  rw [hau] at e4
  exact ⟨_, w3, hb, h1, r, e4⟩

/-- **C79**, violated: with a dot in the project's prefix and none in their names, all addons are written to the same
file, and only the last one is left. -/
theorem C79_violated_prefix {d : Digest} {env : Env} {s : Settings} {c : Bool} {p e : Text} (hs : s.pfx = p ++ '.' :: e)
    (hp : p ≠ []) (he : '.' ∉ e) {xs : List Source} {x : Source} {w w' : World}
    (hl : ∀ y ∈ xs ++ [x], y.addon.location = .addons ∧ '.' ∉ y.addon.name)
    (hb : build d env s c (xs ++ [x]) w = .ok w') :
    (∀ y ∈ xs ++ [x], target s c y.addon = ["addons".toList, p ++ ".pbo".toList]) ∧
    ∀ q, q ≠ ["addons".toList, p ++ ".pbo".toList] → w' q = w q := by
  have h1 : ∀ y ∈ xs ++ [x], target s c y.addon = ["addons".toList, p ++ ".pbo".toList] := by
    intro y hy
    obtain ⟨h1, h2⟩ := hl y hy
    have hst : stem (pboName y.addon s.pfx) = p := by
      have : pboName y.addon s.pfx = p ++ '.' :: (e ++ '_' :: y.addon.name) := by simp [pboName, hs]
      rw [this, stem_append hp]
      simp only [List.mem_append, List.mem_cons, not_or]
      exact ⟨he, by decide, h2⟩
    have e1 : ∀ y : Source, y.addon.location = .addons →
        target s c y.addon = ["addons".toList, stem (pboName y.addon s.pfx) ++ ".pbo".toList] := by
      intro y hy
      simp only [target, withExtension, hy]
      cases c <;> rfl
    rw [e1 y h1, hst]
  refine ⟨h1, fun q hq => (build_ok _ _ _ hb).1 q fun y hy => ?_⟩
  rw [h1 y hy]; exact hq

/-- A build succeeds if every addon can be packed. -/
theorem build_total {d : Digest} {env : Env} {s : Settings} {c : Bool} (hH : ∀ x, (d.H x).length = 20)
    (hord : ∀ l, (d.order l).Perm l) : ∀ (xs : List Source) (w : World), (∀ x ∈ xs, TreeOk x.tree) →
    (∀ x ∈ xs, Clean env s x) → (∀ x ∈ xs, (pack env s x.addon x.toml x.tree).isOk = true) →
    ∃ w', build d env s c xs w = .ok w' := by
  intro xs
  induction xs with
  | nil => intro w _ _ _; exact ⟨w, rfl⟩
  | cons x xs ih =>
    intro w ht hc hp
    have hx := hp x (by simp)
    cases h : pack env s x.addon x.toml x.tree with
    | error e => rw [h] at hx; simp [Except.isOk, Except.toBool] at hx
    | ok pbo =>
      obtain ⟨out, sum, r, g1, -⟩ := C07_round_trip d.H d.lower hH pbo
        (pack_valid (ht x (by simp)) (hc x (by simp)) h) _ (hord pbo.files) true
      obtain ⟨w', hw⟩ := ih (w.put (target s c x.addon) out) (fun y hy => ht y (by simp [hy]))
        (fun y hy => hc y (by simp [hy])) (fun y hy => hp y (by simp [hy]))
      refine ⟨w', ?_⟩
      rw [build, internalBuild, h]
      dsimp only
      rw [g1]
      exact hw

/-- Two addons of a project whose prefix is `abe.core`: both are written, to the same file. -/
example (w : World) : ∃ w', build sampleDigest sampleEnv { sampleSettings with pfx := "abe.core".toList } false
    [⟨⟨"main".toList, .addons, []⟩, none, [top "a.sqf" "1"]⟩, ⟨⟨"ui".toList, .addons, []⟩, none, [top "b.sqf" "2"]⟩] w = .ok w' ∧
    ∀ q, q ≠ ["addons".toList, "abe.pbo".toList] → w' q = w q := by
  obtain ⟨w', hb⟩ := build_total (d := sampleDigest) (env := sampleEnv)
    (s := { sampleSettings with pfx := "abe.core".toList }) (c := false) (fun _ => rfl) (fun _ => List.Perm.refl _)
    ([⟨⟨"main".toList, .addons, []⟩, none, [top "a.sqf" "1"]⟩] ++ [⟨⟨"ui".toList, .addons, []⟩, none, [top "b.sqf" "2"]⟩]) w
    (by
      intro x hx
      simp only [List.cons_append, List.nil_append, List.mem_cons, List.not_mem_nil, or_false] at hx
      rcases hx with rfl | rfl <;> exact ⟨by decide +kernel, by decide +kernel⟩)
    (by
      intro x hx
      simp only [List.cons_append, List.nil_append, List.mem_cons, List.not_mem_nil, or_false] at hx
      have hall : sampleEnv.lower "a.sqf".toList ∉ FILES ∧ sampleEnv.lower "b.sqf".toList ∉ FILES := by
        constructor <;> decide +kernel
      rcases hx with rfl | rfl <;>
        refine ⟨by decide +kernel, by decide +kernel, by decide +kernel, by decide +kernel, by simp [sampleEnv], ?_⟩
      · intro e he hp
        rw [List.mem_singleton.1 he] at hp
        exact absurd hp.2 hall.1
      · intro e he hp
        rw [List.mem_singleton.1 he] at hp
        exact absurd hp.2 hall.2)
    (by decide +kernel)
  refine ⟨w', hb, ?_⟩
  exact (C79_violated_prefix (p := "abe".toList) (e := "core".toList) rfl (by decide +kernel) (by decide +kernel)
    (by decide +kernel) hb).2

/-- **C79**, violated: so are two addons whose names have dots and are the same up to the last. -/
theorem C79_violated_names : ∃ a b : Addon, a.name ≠ b.name ∧ a.location = b.location ∧
    target sampleSettings false a = target sampleSettings false b := by
  refine ⟨⟨"compat_ace.v3".toList, .addons, []⟩, ⟨"compat_ace.v4".toList, .addons, []⟩, ?_, rfl, ?_⟩ <;> decide +kernel

/-! ### C80: files beside the PBOs, and the archive -/

/-- The file is to be copied: it is not in the folder `.hemtt`, and a pattern of the settings, taken from the root of the
project, or one of the five names that are always copied matches its path. -/
def Wanted (glob : Text → Option (Text → Bool)) (s : Settings) (p : Path) : Prop :=
  p.head? ≠ some ".hemtt".toList ∧
  ((∃ i ∈ s.include_, ∃ m, glob (if i.head? = some '/' then i else '/' :: i) = some m ∧ m (asStr p) = true) ∨
    ∃ n ∈ ["mod.cpp", "meta.cpp", "LICENSE", "logo_ca.paa", "logo_co.paa"], ∃ m,
      glob ('/' :: n.toList) = some m ∧ m (asStr p) = true)

theorem compile_any {glob : Text → Option (Text → Bool)} {ps : List Text} {l : List (Text → Bool)}
    (h : compile glob ps = .ok l) (t : Text) : (l.any fun m => m t) = true ↔ Hit glob ps t := by
  induction ps generalizing l with
  | nil => simp only [compile, Except.ok.injEq] at h; subst h; simp [Hit]
  | cons p ps ih =>
    rw [compile] at h
    cases hg : glob p with
    | none => rw [hg] at h; simp at h
    | some m =>
      rw [hg] at h
      dsimp only at h
      cases hc : compile glob ps with
      | error e => rw [hc] at h; simp at h
      | ok l' =>
        rw [hc] at h
        simp only [Except.ok.injEq] at h
        subst h
        rw [List.any_cons, Bool.or_eq_true, ih hc]
        constructor
        · rintro (h | ⟨q, hq, r⟩)
          · exact ⟨p, by simp, m, hg, h⟩
          · exact ⟨q, by simp [hq], r⟩
        · rintro ⟨q, hq, m', h1, h2⟩
          rcases List.mem_cons.1 hq with rfl | hq
          · rw [hg] at h1; cases h1; exact .inl h2
          · exact .inr ⟨q, hq, m', h1, h2⟩

/-- Copies in turn, each path once: the path of a copied file has its content, others are as before. -/
theorem put_all (l : List WEntry) (hn : (l.map Prod.fst).Nodup) (hs : ∀ e ∈ l, e.2.isSome = true) : ∀ w : World,
    (∀ p b, (p, some b) ∈ l → (l.foldl (fun w e => w.put e.1 (e.2.getD [])) w) p = some b) ∧
    ∀ q, q ∉ l.map Prod.fst → (l.foldl (fun w e => w.put e.1 (e.2.getD [])) w) q = w q := by
  induction l with
  | nil => intro w; simp
  | cons e l ih =>
    intro w
    rw [List.map_cons, List.nodup_cons] at hn
    obtain ⟨i1, i2⟩ := ih hn.2 (fun x hx => hs x (by simp [hx])) (w.put e.1 (e.2.getD []))
    refine ⟨?_, ?_⟩
    · intro p b hm
      rw [List.foldl_cons]
      rcases List.mem_cons.1 hm with rfl | hm
      · rw [i2 p hn.1]; simp [World.put]
      · exact i1 p b hm
    · intro q hq
      simp only [List.map_cons, List.mem_cons, not_or] at hq
      rw [List.foldl_cons, i2 q hq.2]
      simp [World.put, hq.1]

/-- **C80**, part of it: of the files of the project, if the name of none at its root begins with `.hemtt` but is not
`.hemtt`, exactly those that are wanted are copied, to the same place in the build folder, and nothing else changes there.
What is missing: names that begin so, see `C80_violated_hemtt`. -/
theorem C80_copied_partial {glob : Text → Option (Text → Bool)} {s : Settings} {entries : List WEntry} {w w' : World}
    (hn : (entries.map Prod.fst).Nodup)
    (hp : ∀ e ∈ entries, ∀ n, e.1.head? = some n → '/' ∉ n ∧ (".hemtt".toList <+: n → n = ".hemtt".toList))
    (he : ∀ e ∈ entries, e.1 ≠ [])
    (h : copyFiles glob s entries w = .ok w') :
    (∀ p b, (p, some b) ∈ entries → Wanted glob s p → w' p = some b) ∧
    (∀ q, (∀ b, (q, some b) ∈ entries → ¬ Wanted glob s q) → w' q = w q) := by
  unfold copyFiles at h
  cases hc : compile glob (includes s) with
  | error e => rw [hc] at h; simp at h
  | ok pats =>
    rw [hc] at h
    simp only [Except.ok.injEq] at h
    have hcop : ∀ e ∈ entries, copied pats e = true ↔ e.2.isSome = true ∧ Wanted glob s e.1 := by
      intro e hem
      have hhead : ("/.hemtt".toList).isPrefixOf (asStr e.1) = true ↔ e.1.head? = some ".hemtt".toList := by
        rw [List.isPrefixOf_iff_prefix]
        obtain ⟨n, r, hr⟩ : ∃ n r, e.1 = n :: r := List.exists_cons_of_ne_nil (he e hem)
        obtain ⟨h1, h2⟩ := hp e hem n (by rw [hr]; rfl)
        have e0 : "/.hemtt".toList = '/' :: ".hemtt".toList := rfl
        have hj : ∃ t, joinWith '/' (n :: r) = n ++ t ∧ (t = [] ∨ t.head? = some '/') := by
          cases r with
          | nil => exact ⟨[], by simp [joinWith], .inl rfl⟩
          | cons m r => exact ⟨_, rfl, .inr rfl⟩
        obtain ⟨t, ht, hts⟩ := hj
        rw [asStr, hr, e0, List.cons_prefix_cons, ht, List.head?_cons, Option.some.injEq]
        simp only [true_and]
        constructor
        · intro hpre
          rcases List.prefix_or_prefix_of_prefix hpre (List.prefix_append n t) with h | ⟨u, hu⟩
          · exact h2 h
          · rw [← hu] at hpre
            obtain ⟨v, hv⟩ := hpre
            rw [List.append_assoc] at hv
            have hv := List.append_cancel_left hv
            cases u with
            | nil => rw [← hu]; simp
            | cons c u =>
              exfalso
              rcases hts with rfl | hts
              · simp at hv
              · rw [← hv] at hts
                have hc : c = '/' := by simpa using hts
                have : '/' ∈ ".hemtt".toList := by rw [← hu, hc]; simp
                exact absurd this (by decide +kernel)
        · intro h; rw [h]; exact List.prefix_append _ _
      have hhit : (pats.any fun m => m (asStr e.1)) = true ↔
          ((∃ i ∈ s.include_, ∃ m, glob (if i.head? = some '/' then i else '/' :: i) = some m ∧ m (asStr e.1) = true) ∨
          ∃ n ∈ ["mod.cpp", "meta.cpp", "LICENSE", "logo_ca.paa", "logo_co.paa"], ∃ m,
            glob ('/' :: n.toList) = some m ∧ m (asStr e.1) = true) := by
        rw [compile_any hc]
        constructor
        · rintro ⟨q, hq, r⟩
          rcases List.mem_append.1 hq with hq | hq
          · obtain ⟨i, hi, rfl⟩ := List.mem_map.1 hq
            exact .inl ⟨i, hi, r⟩
          · have : q ∈ ["mod.cpp", "meta.cpp", "LICENSE", "logo_ca.paa", "logo_co.paa"].map fun n => '/' :: n.toList := hq
            obtain ⟨n, hn, rfl⟩ := List.mem_map.1 this
            exact .inr ⟨n, hn, r⟩
        · rintro (⟨i, hi, r⟩ | ⟨n, hn, r⟩)
          · exact ⟨_, List.mem_append_left _ (List.mem_map.2 ⟨i, hi, rfl⟩), r⟩
          · have : '/' :: n.toList ∈ ["mod.cpp", "meta.cpp", "LICENSE", "logo_ca.paa", "logo_co.paa"].map
                fun n => '/' :: n.toList := List.mem_map.2 ⟨n, hn, rfl⟩
            exact ⟨_, List.mem_append_right _ this, r⟩
      rw [copied, Bool.and_eq_true, Bool.and_eq_true, Bool.not_eq_true', hhit, Wanted, ← Bool.not_eq_true, hhead]
      exact ⟨fun ⟨⟨a, b⟩, c⟩ => ⟨b, a, c⟩, fun ⟨b, a, c⟩ => ⟨⟨a, b⟩, c⟩⟩
    have hsub : (entries.filter (copied pats)).Sublist entries := List.filter_sublist
    obtain ⟨p1, p2⟩ := put_all (entries.filter (copied pats)) (hn.sublist (hsub.map _)) (by
      intro e hem
      rw [List.mem_filter] at hem
      exact ((hcop e hem.1).1 hem.2).1) w
    rw [h] at p1 p2
    refine ⟨?_, ?_⟩
    · intro p b hm hw
      exact p1 p b (List.mem_filter.2 ⟨hm, (hcop _ hm).2 ⟨rfl, hw⟩⟩)
    · intro q hq
      apply p2
      intro hin
      obtain ⟨e, hem, rfl⟩ := List.mem_map.1 hin
      rw [List.mem_filter] at hem
      obtain ⟨h1, h2⟩ := (hcop e hem.1).1 hem.2
      obtain ⟨q, c⟩ := e
      cases c with
      | none => simp at h1
      | some b => exact hq b hem.1 h2

/-- **C80**, violated: a file at the root of the project whose name begins with `.hemtt` is not copied, whatever the
settings say. -/
theorem C80_violated_hemtt {glob : Text → Option (Text → Bool)} {s : Settings} {b : Bytes} {w w' : World}
    (h : copyFiles glob s [([".hemttrc".toList], some b)] w = .ok w') : w' = w := by
  unfold copyFiles at h
  cases hc : compile glob (includes s) with
  | error e => rw [hc] at h; simp at h
  | ok pats =>
    rw [hc] at h
    simp only [Except.ok.injEq] at h
    have : copied pats ([".hemttrc".toList], some b) = false := by
      have h0 : ("/.hemtt".toList).isPrefixOf (asStr [".hemttrc".toList]) = true := by decide +kernel
      rw [copied, h0]; rfl
    rw [List.filter_cons, this] at h
    exact h.symm

/-- The sample's project: the licence and the file of the settings are copied, the project's settings are not. -/
example (w : World) : ∃ w', copyFiles plainGlob { sampleSettings with include_ := ["docs/guide.md".toList] }
    [([".hemtt".toList, "project.toml".toList], some (ascii "p")), (["LICENSE".toList], some (ascii "l")),
      (["docs".toList], none), (["docs".toList, "guide.md".toList], some (ascii "g"))] w = .ok w' ∧
    w' ["LICENSE".toList] = some (ascii "l") ∧ w' ["docs".toList, "guide.md".toList] = some (ascii "g") ∧
    w' [".hemtt".toList, "project.toml".toList] = w [".hemtt".toList, "project.toml".toList] := by
  refine ⟨_, rfl, ?_⟩
  have hp := C80_copied_partial (glob := plainGlob) (s := { sampleSettings with include_ := ["docs/guide.md".toList] })
    (entries := [([".hemtt".toList, "project.toml".toList], some (ascii "p")), (["LICENSE".toList], some (ascii "l")),
      (["docs".toList], none), (["docs".toList, "guide.md".toList], some (ascii "g"))]) (w := w) (by decide +kernel)
    (by
      have : ∀ e ∈ ([([".hemtt".toList, "project.toml".toList], some (ascii "p")), (["LICENSE".toList], some (ascii "l")),
          (["docs".toList], none), (["docs".toList, "guide.md".toList], some (ascii "g"))] : List WEntry),
          ∀ n ∈ e.1.head?, '/' ∉ n ∧ (".hemtt".toList <+: n → n = ".hemtt".toList) := by decide +kernel
      exact fun e he n hn => this e he n hn)
    (by decide +kernel) rfl
  refine ⟨hp.1 _ _ (by simp) ⟨by decide +kernel, .inr ⟨"LICENSE", by simp, _, rfl, by decide +kernel⟩⟩,
    hp.1 _ _ (by simp) ⟨by decide +kernel, .inl ⟨"docs/guide.md".toList, by simp, _, rfl, by decide +kernel⟩⟩,
    hp.2 _ fun b _ hw => hw.1 rfl⟩

/-- **C80**: the archive. Every file of the build folder is in it, in the mod's folder and under its path, and no two
are under the same name, if no name holds a separator. -/
theorem C80_archive {s : Settings} {files : List (Path × Bytes)} (hn : (files.map Prod.fst).Nodup)
    (hne : ∀ f ∈ files, f.1 ≠ []) (hsep : ∀ f ∈ files, ∀ c ∈ f.1, '/' ∉ c ∧ '\\' ∉ c) (hr : '/' ∉ s.release) :
    (zip s files).map Prod.snd = files.map Prod.snd ∧
    (∀ f ∈ files, ∃ n, (n, f.2) ∈ zip s files ∧ split '/' n = ('@' :: s.release) :: f.1) ∧
    ((zip s files).map Prod.fst).Nodup := by
  have hname : ∀ f ∈ files, split '/' (zipName s f.1) = ('@' :: s.release) :: f.1 := by
    intro f hf
    have hm : (joinWith '/' f.1).map (fun c => if c = '\\' then '/' else c) = joinWith '/' f.1 := by
      conv_rhs => rw [← List.map_id (joinWith '/' f.1)]
      apply List.map_congr_left
      intro c hc
      have : c ≠ '\\' := by
        rintro rfl
        exact joinWith_not_mem (by decide) (fun p hp => (hsep f hf p hp).2) hc
      simp [this]
    rw [zipName, hm, List.cons_append, ← List.cons_append, split_append (by simpa using hr),
      split_joinWith (hne f hf) fun p hp => (hsep f hf p hp).1]
  refine ⟨by simp [zip], ?_, ?_⟩
  · intro f hf
    exact ⟨zipName s f.1, List.mem_map.2 ⟨f, hf, rfl⟩, hname f hf⟩
  · rw [zip, List.map_map]
    have : ∀ l : List (Path × Bytes), (∀ f ∈ l, f ∈ files) → (l.map Prod.fst).Nodup →
        (l.map (Prod.fst ∘ fun f => (zipName s f.1, f.2))).Nodup := by
      intro l
      induction l with
      | nil => intro _ _; simp
      | cons f l ih =>
        intro hm hn
        rw [List.map_cons, List.nodup_cons] at hn ⊢
        refine ⟨fun hin => hn.1 ?_, ih (fun g hg => hm g (by simp [hg])) hn.2⟩
        obtain ⟨g, hg, he⟩ := List.mem_map.1 hin
        simp only [Function.comp_apply] at he
        have h1 := hname g (hm g (by simp [hg]))
        rw [he, hname f (hm f (by simp))] at h1
        have : f.1 = g.1 := by simpa using h1
        rw [this]
        exact List.mem_map_of_mem hg
    exact this files (fun _ h => h) hn

example : (zip sampleSettings [(["addons".toList, "abe_main.pbo".toList], ascii "x"), (["mod.cpp".toList], ascii "y")]).map
    Prod.fst = ["@abe/addons/abe_main.pbo".toList, "@abe/mod.cpp".toList] := by decide +kernel

/-- **C80**: the names of the archives, if the project's prefix has no dot. -/
theorem C80_names {env : Env} {s : Settings} (h : '.' ∉ s.pfx) :
    zipNames env s = (s.pfx ++ "-latest.zip".toList, s.pfx ++ '-' :: env.version ++ ".zip".toList) := by
  have : '.' ∉ s.pfx ++ "-latest".toList := by
    rw [List.mem_append, not_or]; exact ⟨h, by decide +kernel⟩
  rw [zipNames, withExtension, stem_of_no_dot this, List.append_assoc]
  rfl

/-- **C80**, violated: with a dot in the prefix the latest archive loses the rest of its name, so that the archives of two
projects in one place can replace each other. -/
theorem C80_violated_name : (zipNames sampleEnv { sampleSettings with pfx := "abe.core".toList }).1 = "abe.zip".toList ∧
    (zipNames sampleEnv { sampleSettings with pfx := "abe.extra".toList }).1 = "abe.zip".toList := by
  constructor <;> decide +kernel

/-! ### C81: addons with nothing to pack -/

/-- `names` are the names of what is in the addon's folder itself, as `walk_dir` has it: what is deeper is in one of its
folders. -/
structure TopNames (tree : List Entry) (names : List Text) : Prop where
  top : ∀ e ∈ tree, e.dir = [] → e.filename ∈ names
  below : ∀ e ∈ tree, ∀ d r, e.dir = d :: r → d ∈ names ∧ ∃ f ∈ tree, f.dir = [] ∧ f.filename = d ∧ f.file = false

/-- **C81**: nothing is packed of an addon that is reported to be empty, if all that is in its folder itself
are files. For a single folder it is false, see `C81_violated_folder`. -/
theorem C81_reported {env : Env} {s : Settings} {x : Source} {names : List Text} (ht : TopNames x.tree names)
    (hf : ∀ e ∈ x.tree, e.dir = [] → e.file = true) (h : reportedEmpty env.lower names = true) :
    (∀ e, ¬ Packed env s x e) ∧ ∀ pbo, TreeOk x.tree → pack env s x.addon x.toml x.tree = .ok pbo → pbo.files = [] := by
  have h1 : ∀ e, ¬ Packed env s x e := by
    rintro e ⟨hc, hp⟩
    have hd : e.dir = [] := by
      cases hd : e.dir with
      | nil => rfl
      | cons d r =>
        obtain ⟨-, f, hfm, h1, -, h3⟩ := ht.below e hc.mem d r hd
        rw [hf f hfm h1] at h3
        simp at h3
    have hm := ht.top e hc.mem hd
    match names, h, hm with
    | [n], h, hm =>
      rw [List.mem_singleton] at hm
      rw [reportedEmpty, decide_eq_true_eq] at h
      exact hp (hm ▸ h)
    | _ :: _ :: _, h, _ => simp [reportedEmpty] at h
  refine ⟨h1, fun pbo hok h2 => ?_⟩
  obtain ⟨l, -, l2, l3⟩ := pack_files hok h2
  cases l with
  | nil => exact l3
  | cons e l => exact absurd ((l2 e).1 (by simp)) (h1 e)

/-- The hypotheses can be met: all there is is the prefix, in a file with another case. -/
example : TopNames [top "$PBOPrefix$" "z"] ["$PBOPrefix$".toList] ∧
    reportedEmpty sampleEnv.lower ["$PBOPrefix$".toList] = true := by
  refine ⟨⟨?_, ?_⟩, by decide +kernel⟩
  · intro e he _; rw [List.mem_singleton.1 he]; simp [top]
  · intro e he d r hd; rw [List.mem_singleton.1 he] at hd; simp [top] at hd

/-- Signing the addons in turn works only if each one's file is there, can be read and has something in it. -/
theorem signAll_inv {d : Digest} {env : Env} {s : Settings} {k : Keys} : ∀ (as : List Addon) (w w' : World),
    signAll d env s k as w = .ok w' → ∀ a ∈ as, ∃ out r, w (target s false a) = some out ∧ RPbo.from out = .ok r ∧
      r.headers ≠ [] := by
  intro as
  induction as with
  | nil => intro w w' _ a ha; simp at ha
  | cons a as ih =>
    intro w w' h
    rw [signAll] at h
    cases h1 : signOne d env s k a w with
    | error e => rw [h1] at h; simp at h
    | ok w1 =>
      rw [h1] at h
      dsimp only at h
      obtain ⟨out, r, sig, g1, g2, g3⟩ : ∃ out r sig, w (target s false a) = some out ∧ RPbo.from out = .ok r ∧
          (keyOf env s k a).sign d.H d.lower r s.sigVersion = .ok sig := by
        have hx : signing env s k a = (target s false a, keyOf env s k a, authorityOf env s k a, ownKey env s k a) := by
          rw [← signing_path env s k a]; rfl
        unfold signOne at h1
        rw [hx] at h1
        dsimp only at h1
        obtain ⟨w0, hq, h1⟩ : ∃ w0 : World, w0 (target s false a) = w (target s false a) ∧
            (match w0 (target s false a) with
              | none => .error .open_
              | some out => match RPbo.from out with
                | .error _ => .error .read
                | .ok r => match (keyOf env s k a).sign d.H d.lower r s.sigVersion with
                  | .error _ => .error .sign
                  | .ok sig => .ok (w0.put (sigPath (target s false a) (authorityOf env s k a)) sig.write) :
              Except BErr World) = .ok w1 := by
          refine ⟨_, ?_, h1⟩
          cases ho : ownKey env s k a with
          | none => rfl
          | some q =>
            have : target s false a ≠ q := fun e => target_not_touched env s k a a (.inl (e ▸ ho))
            simp only [World.put, this, if_false]
        rw [hq] at h1
        cases hw : w (target s false a) with
        | none => rw [hw] at h1; simp at h1
        | some out =>
          rw [hw] at h1
          dsimp only at h1
          cases hr : RPbo.from out with
          | error e => rw [hr] at h1; simp at h1
          | ok r =>
            rw [hr] at h1
            dsimp only at h1
            cases hs : (keyOf env s k a).sign d.H d.lower r s.sigVersion with
            | error e => rw [hs] at h1; simp at h1
            | ok sig => exact ⟨out, r, sig, rfl, hr, hs⟩
      have hkeep : ∀ b, w1 (target s false b) = w (target s false b) := by
        intro b
        rw [signOne_ok g1 g2 g3, Except.ok.injEq] at h1
        rw [← h1]
        exact afterSign_other (target_not_touched env s k b a)
      intro b hb
      rcases List.mem_cons.1 hb with rfl | hb
      · refine ⟨out, r, g1, g2, fun h0 => ?_⟩
        have hf : r.filenamesInput d.lower = none := by rw [RPbo.filenamesInput, if_pos h0]
        unfold PrivKey.sign generateHashes rawHashes at g3
        rw [hf] at g3
        cases hg : r.genChecksum d.H d.lower <;> rw [hg] at g3 <;> cases g3
      · obtain ⟨out', r', f1, f2⟩ := ih w1 w' h b hb
        rw [hkeep] at f1
        exact ⟨out', r', f1, f2⟩

/-- **C81**: if a release is built and signed, there is something in every PBO. The example after `C79_signed` meets the
hypotheses. -/
theorem C81_signed {d : Digest} {env : Env} {s : Settings} {k : Keys} {xs : List Source} {as : List Addon}
    {w w1 w2 w3 : World} (hH : ∀ x, (d.H x).length = 20) (hord : ∀ l, (d.order l).Perm l)
    (ht : ∀ x ∈ xs, TreeOk x.tree) (hc : ∀ x ∈ xs, Clean env s x)
    (hdist : (xs.map fun x => target s false x.addon).Nodup) (hb : build d env s false xs w = .ok w1)
    (hcopy : ∀ x ∈ xs, w2 (target s false x.addon) = w1 (target s false x.addon))
    (has : ∀ x ∈ xs, x.addon ∈ as) (hs : sign d env s k as w2 = .ok w3) : ∀ x ∈ xs, ∃ e, Packed env s x e := by
  intro x hx
  obtain ⟨xs1, xs2, rfl⟩ := List.append_of_mem hx
  have hno : ∀ y ∈ xs2, target s false y.addon ≠ target s false x.addon := by
    intro y hy he
    rw [List.map_append, List.nodup_append] at hdist
    have := hdist.2.1
    rw [List.map_cons, List.nodup_cons] at this
    exact this.1 (he ▸ List.mem_map_of_mem hy)
  obtain ⟨pbo, out, sum, h1, h2, h3⟩ := (build_ok _ w w1 hb).2 xs1 x xs2 rfl hno
  obtain ⟨l, l1, l2, l3⟩ := pack_files (ht x hx) h1
  obtain ⟨out', sum', r, g1, g2, -, -, g5, -⟩ :=
    C07_round_trip d.H d.lower hH pbo (pack_valid (ht x hx) (hc x hx) h1) _ (hord pbo.files) true
  rw [h2] at g1
  obtain ⟨rfl, rfl⟩ : out = out' ∧ sum = sum' := by simpa using g1
  obtain ⟨out2, r2, e1, e2, e3⟩ := signAll_inv _ _ _ hs x.addon (has x hx)
  have htm : target s false x.addon ≠ ["keys".toList, authority env s none ++ ".bikey".toList] := by
    intro he
    have := lastChar_target s false x.addon
    rw [he] at this
    have e : authority env s none ++ ".bikey".toList = (authority env s none ++ ".bike".toList) ++ ['y'] := by
      rw [List.append_assoc]; rfl
    rw [e] at this
    have h2 := lastChar_append ["keys".toList] (authority env s none ++ ".bike".toList) 'y'
    rw [List.singleton_append, this] at h2
    simp at h2
  simp only [World.put, htm, if_false] at e1
  rw [hcopy x hx, h3, Option.some.injEq] at e1
  subst e1
  rw [g2, Except.ok.injEq] at e2
  subst e2
  cases l with
  | nil =>
    exfalso
    rw [l3] at g5
    exact e3 (List.perm_nil.1 g5)
  | cons e l => exact ⟨e, (l2 e).1 (by simp)⟩

/-- **C81**, violated: an addon that holds its settings and a file with the prefix is not reported, though nothing of it
is packed; by `C81_signed` it is never signed either. -/
theorem C81_violated_settings : ∃ (x : Source) (names : List Text), TreeOk x.tree ∧ TopNames x.tree names ∧
    reportedEmpty sampleEnv.lower names = false ∧ ∀ e, ¬ Packed sampleEnv sampleSettings x e := by
  refine ⟨⟨mainAddon, some ⟨[], []⟩, [top "$PBOPREFIX$" "z\\abe\\addons\\main", top "addon.toml" ""]⟩,
    ["$PBOPREFIX$".toList, "addon.toml".toList], ⟨by decide +kernel, by decide +kernel⟩, ⟨?_, ?_⟩, rfl, ?_⟩
  · intro e he _
    simp only [List.mem_cons, List.not_mem_nil, or_false] at he
    rcases he with rfl | rfl <;> simp [top]
  · intro e he d r hd
    simp only [List.mem_cons, List.not_mem_nil, or_false] at he
    rcases he with rfl | rfl <;> simp [top] at hd
  · rintro e ⟨hc, hp⟩
    have he := hc.mem
    simp only [List.mem_cons, List.not_mem_nil, or_false] at he
    rcases he with rfl | rfl
    · exact hp (by decide +kernel)
    · exact hc.notSettings rfl

/-- **C81**, violated: an addon with a single folder whose name is that of a file with the prefix is reported to be empty
although something is packed. -/
theorem C81_violated_folder : ∃ (x : Source) (names : List Text) (e : Entry), TreeOk x.tree ∧ TopNames x.tree names ∧
    reportedEmpty sampleEnv.lower names = true ∧ Packed sampleEnv sampleSettings x e := by
  refine ⟨⟨mainAddon, none, [⟨[], "$PBOPREFIX$".toList, false, []⟩,
      ⟨["$PBOPREFIX$".toList], "a.sqf".toList, true, ascii "a"⟩]⟩,
    ["$PBOPREFIX$".toList], ⟨["$PBOPREFIX$".toList], "a.sqf".toList, true, ascii "a"⟩,
    ⟨by decide +kernel, by decide +kernel⟩, ⟨?_, ?_⟩, by decide +kernel, ⟨by simp, rfl, by decide +kernel, ?_, ?_⟩,
    by decide +kernel⟩
  · intro e he hd
    simp only [List.mem_cons, List.not_mem_nil, or_false] at he
    rcases he with rfl | rfl
    · simp
    · simp at hd
  · intro e he d r hd
    simp only [List.mem_cons, List.not_mem_nil, or_false] at he
    rcases he with rfl | rfl
    · simp at hd
    · simp only [List.cons.injEq] at hd
      exact ⟨by simp [← hd.1], ⟨[], "$PBOPREFIX$".toList, false, []⟩, by simp, rfl, hd.1, rfl⟩
  · intro h; exact absurd h (by decide +kernel)
  · rintro (⟨p, hp, -⟩ | ⟨t, h, -⟩)
    · simp [sampleSettings] at hp
    · simp at h

end Verif.Release
