import Verif.Spec.Release
import Verif.Lib.SqfSource
import Verif.Lib.Encode
import Verif.Props.Pbo
import Verif.Props.Signing
/-! Packing and signing: the steps. -/
namespace Verif.Release
open Verif.Io Verif.Pbo Verif.Sign
open Verif.Workspace (Location Addon FILES)
open Verif.SqfLex (enc enc_inj)

/-! ### Names -/

theorem joinWith_head {c : Char} {ps : List Text} (hne : ps ≠ []) (h : ∀ p ∈ ps, p ≠ [] ∧ c ∉ p) :
    (joinWith c ps).head? ≠ some c := by
  match ps, hne with
  | [p], _ =>
    obtain ⟨h1, h2⟩ := h p (by simp)
    cases p with
    | nil => exact absurd rfl h1
    | cons a p => simp only [joinWith, List.head?_cons, ne_eq, Option.some.injEq]; rintro rfl; simp at h2
  | p :: q :: ps, _ =>
    obtain ⟨h1, h2⟩ := h p (by simp)
    cases p with
    | nil => exact absurd rfl h1
    | cons a p =>
      simp only [joinWith, List.cons_append, List.head?_cons, ne_eq, Option.some.injEq]; rintro rfl; simp at h2

theorem joinWith_inj {c : Char} {ps qs : List Text} (hp : ps ≠ []) (hq : qs ≠ []) (h : ∀ p ∈ ps, c ∉ p)
    (h' : ∀ p ∈ qs, c ∉ p) (he : joinWith c ps = joinWith c qs) : ps = qs := by
  rw [← split_joinWith hp h, he, split_joinWith hq h']

theorem joinWith_map (f : Char → Char) (c : Char) (ps : List Text) :
    (joinWith c ps).map f = joinWith (f c) (ps.map (·.map f)) := by
  match ps with
  | [] => rfl
  | [p] => rfl
  | p :: q :: ps =>
    have := joinWith_map f c (q :: ps)
    simp only [joinWith, List.map_append, List.map_cons] at this ⊢
    rw [this]

theorem trimStart_once {p s : Text} (hp : p.head? = some '/') (hs : s.head? ≠ some '/') : trimStart p (p ++ s) = s := by
  have hne : p ≠ [] := by rintro rfl; simp at hp
  rw [trimStart.eq_def, dif_pos ⟨hne, by simp⟩, List.drop_left, trimStart.eq_def, dif_neg]
  rintro ⟨-, h⟩
  rw [List.isPrefixOf_iff_prefix] at h
  obtain ⟨t, rfl⟩ := h
  cases p with
  | nil => exact hne rfl
  | cons a p => exact hs (by simpa using hp)

theorem Entry.rel_head {tree : List Entry} (ht : TreeOk tree) {e : Entry} (he : e ∈ tree) : e.rel.head? ≠ some '/' :=
  joinWith_head (by simp) fun p hp => ⟨(ht.names e he p hp).1, (ht.names e he p hp).2.1⟩

theorem Entry.trim {tree : List Entry} (ht : TreeOk tree) {e : Entry} (he : e ∈ tree) (f : Text) :
    trimStart ('/' :: f ++ ['/']) (e.asStr f) = e.rel := by
  have := trimStart_once (p := '/' :: f ++ ['/']) (by simp) (Entry.rel_head ht he)
  rw [← this]
  simp [Entry.asStr]

theorem Entry.inPbo_eq {tree : List Entry} (ht : TreeOk tree) {e : Entry} (he : e ∈ tree) :
    (e.rel.map fun c => if c = '/' then '\\' else c) = inPbo e := by
  rw [Entry.rel, joinWith_map, inPbo]
  congr 1
  conv_rhs => rw [← List.map_id (e.dir ++ [e.filename])]
  apply List.map_congr_left
  intro p hp
  conv_rhs => rw [id, ← List.map_id p]
  apply List.map_congr_left
  intro c hc
  have : c ≠ '/' := fun h => (ht.names e he p hp).2.1 (h ▸ hc)
  simp [this]

theorem inPbo_inj {tree : List Entry} (ht : TreeOk tree) {e e' : Entry} (he : e ∈ tree) (he' : e' ∈ tree)
    (h : inPbo e = inPbo e') : e = e' := by
  have := joinWith_inj (by simp) (by simp) (fun p hp => (ht.names e he p hp).2.2)
    (fun p hp => (ht.names e' he' p hp).2.2) h
  have h2 := List.append_inj' this rfl
  have h3 : e.filename = e'.filename := by simpa using h2.2
  exact List.inj_on_of_nodup_map ht.nodup he he' (by simp [h2.1, h3])

theorem inPbo_slash {tree : List Entry} (ht : TreeOk tree) {e : Entry} (he : e ∈ tree) : '/' ∉ inPbo e := by
  rw [← Entry.inPbo_eq ht he]
  intro h
  obtain ⟨c, -, hc⟩ := List.mem_map.1 h
  by_cases h : c = '/' <;> simp [h] at hc

theorem enc_cons (a : Char) (u : Text) : enc (a :: u) = String.utf8EncodeChar a ++ enc u := by simp [enc]

/-- Turning slashes around can be done before encoding. -/
theorem norm_enc (t : Text) : norm (enc t) = enc (t.map fun c => if c = '/' then '\\' else c) := by
  induction t with
  | nil => rfl
  | cons c t ih =>
    rw [enc_cons, List.map_cons, enc_cons]
    have : norm (String.utf8EncodeChar c ++ enc t) = norm (String.utf8EncodeChar c) ++ norm (enc t) := by simp [norm]
    rw [this, ih]
    congr 1
    by_cases hc : c = '/'
    · subst hc; decide +kernel
    · rw [if_neg hc]
      have hno : (47 : UInt8) ∉ String.utf8EncodeChar c := by
        intro hm
        apply hc
        have := encode_small hm (by decide)
        exact Char.ext (UInt32.toNat.inj this)
      unfold norm
      conv_rhs => rw [← List.map_id (String.utf8EncodeChar c)]
      apply List.map_congr_left
      intro b hb
      have : b ≠ 47 := fun h => hno (h ▸ hb)
      simp [this]

/-! ### Packing -/

theorem excluded_iff {glob : Text → Option (Text → Bool)} {s : Text} {ps : List Text} {b : Bool}
    (h : excluded glob s ps = .ok b) : b = true ↔ Hit glob ps s := by
  induction ps with
  | nil => simp only [excluded, Except.ok.injEq] at h; subst h; simp [Hit]
  | cons p ps ih =>
    rw [excluded] at h
    cases hg : glob p with
    | none => rw [hg] at h; simp at h
    | some m =>
      rw [hg] at h
      by_cases hm : m s = true
      · simp only [hm, if_true, Except.ok.injEq] at h
        subst h
        simp only [Hit, true_iff]
        exact ⟨p, by simp, m, hg, hm⟩
      · simp only [hm] at h
        rw [ih h]
        constructor
        · rintro ⟨q, hq, r⟩; exact ⟨q, by simp [hq], r⟩
        · rintro ⟨q, hq, m', h1, h2⟩
          rcases List.mem_cons.1 hq with rfl | hq
          · rw [hg] at h1; cases h1; exact absurd h2 hm
          · exact ⟨q, hq, m', h1, h2⟩

/-- The properties a prefix file adds. -/
def addPrefix (env : Env) (p : List Text) (pbo : WPbo) : WPbo :=
  let pbo := (pbo.addProperty prefixKey (enc (Prefix.display p))).addProperty (ascii "version") (enc env.version)
  match env.git with
  | none => pbo
  | some h => pbo.addProperty (ascii "git") (enc h)

/-- A file put into the builder. -/
def addPacked (e : Entry) (pbo : WPbo) : WPbo :=
  ⟨pbo.properties, IMap.insert pbo.files (enc (inPbo e)) (e.content, Header.newForFile (enc (inPbo e)) e.content.length)⟩

theorem packEntry_cases {env : Env} {s : Settings} {x : Source} (ht : TreeOk x.tree) {pbo pbo' : WPbo} {e : Entry}
    (he : e ∈ x.tree) (h : packEntry env s x.addon x.toml x.tree pbo e = .ok pbo') :
    (¬ Considered env s x e ∧ pbo' = pbo) ∨
    (PrefixFile env s x e ∧ ∃ t p, decode? e.content = some t ∧ Prefix.new t = .ok p ∧ pbo' = addPrefix env p pbo) ∨
    (Packed env s x e ∧ e.content.length < 2 ^ 32 ∧ pbo' = addPacked e pbo) := by
  unfold packEntry at h
  by_cases h1 : e.file = false
  · rw [if_pos h1] at h
    simp only [Except.ok.injEq] at h
    exact .inl ⟨fun c => by simp [c.file] at h1, h.symm⟩
  rw [if_neg h1] at h
  split at h
  · rename_i h2
    simp only [Except.ok.injEq] at h
    refine .inl ⟨fun c => ?_, h.symm⟩
    obtain ⟨h2, h3⟩ := h2
    simp only [List.any_eq_true, decide_eq_true_eq] at h3
    obtain ⟨b, hb, h3, h4⟩ := h3
    exact c.notReplaced h2 b hb h3 h4
  rename_i h2
  split at h
  · rename_i h3
    simp only [Except.ok.injEq] at h
    exact .inl ⟨fun c => c.notSettings h3, h.symm⟩
  rename_i h3
  cases hx : excluded env.glob (e.asStr (folder x.addon)) s.exclude with
  | error y => rw [hx] at h; simp at h
  | ok b =>
    have hb := excluded_iff hx
    rw [hx] at h
    cases b with
    | true =>
      simp only [Except.ok.injEq] at h
      exact .inl ⟨fun c => c.kept (.inl (hb.1 rfl)), h.symm⟩
    | false =>
      dsimp only at h
      rw [Entry.trim ht he] at h
      cases hy : excluded env.glob e.rel ((x.toml.map (·.exclude)).getD []) with
      | error y => rw [hy] at h; simp at h
      | ok b' =>
        have hb' := excluded_iff hy
        rw [hy] at h
        have hiff : Hit env.glob ((x.toml.map (·.exclude)).getD []) e.rel ↔
            ∃ t, x.toml = some t ∧ Hit env.glob t.exclude e.rel := by
          cases x.toml with
          | none => simp [Hit]
          | some t => simp
        cases b' with
        | true =>
          simp only [Except.ok.injEq] at h
          exact .inl ⟨fun c => c.kept (.inr (hiff.1 (hb'.1 rfl))), h.symm⟩
        | false =>
          have hc : Considered env s x e := by
            refine ⟨he, by simpa using h1, h3, ?_, ?_⟩
            · intro a b hm hd hf
              exact h2 ⟨a, by simp only [List.any_eq_true, decide_eq_true_eq]; exact ⟨b, hm, hd, hf⟩⟩
            · rintro (h | h)
              · exact absurd (hb.2 h) (by simp)
              · exact absurd (hb'.2 (hiff.2 h)) (by simp)
          dsimp only at h
          split at h
          · rename_i hp
            refine .inr (.inl ⟨⟨hc, hp⟩, ?_⟩)
            cases hd : decode? e.content with
            | none => rw [hd] at h; simp at h
            | some t =>
              rw [hd] at h
              dsimp only at h
              cases hn : Prefix.new t with
              | error y => rw [hn] at h; simp at h
              | ok p =>
                rw [hn] at h
                dsimp only at h
                refine ⟨t, p, rfl, hn, ?_⟩
                unfold addPrefix
                cases hg : env.git <;> simp only [hg, Except.ok.injEq] at h ⊢ <;> exact h.symm
          · rename_i hp
            refine .inr (.inr ⟨⟨hc, hp⟩, ?_⟩)
            rw [Entry.inPbo_eq ht he] at h
            unfold WPbo.addFile at h
            by_cases hl : e.content.length > 2 ^ 32 - 1
            · rw [if_pos hl] at h; simp at h
            · rw [if_neg hl] at h
              simp only [Except.ok.injEq] at h
              have hn : norm (enc (inPbo e)) = enc (inPbo e) := by
                rw [norm_enc]
                congr 1
                conv_rhs => rw [← List.map_id (inPbo e)]
                apply List.map_congr_left
                intro c hc
                have : c ≠ '/' := fun h => inPbo_slash ht he (h ▸ hc)
                simp [this]
              rw [hn] at h
              exact ⟨by omega, h.symm⟩

/-! ### The files of a PBO -/

theorem insert_new {κ ν : Type} [DecidableEq κ] {m : List (κ × ν)} {k : κ} (v : ν) (h : k ∉ IMap.keys m) :
    IMap.insert m k v = m ++ [(k, v)] := by
  induction m with
  | nil => rfl
  | cons x m ih =>
    obtain ⟨a, b⟩ := x
    simp only [IMap.keys, List.map_cons, List.mem_cons, not_or] at h
    have : ¬ a = k := fun e => h.1 e.symm
    simp only [IMap.insert, this, if_false, List.cons_append, ih h.2]

/-- A file as the builder stores it. -/
def stored (e : Entry) : Bytes × (Bytes × Header) :=
  (enc (inPbo e), (e.content, Header.newForFile (enc (inPbo e)) e.content.length))

theorem addPrefix_files (env : Env) (p : List Text) (pbo : WPbo) : (addPrefix env p pbo).files = pbo.files := by
  unfold addPrefix
  cases env.git <;> rfl

theorem packEntries_files {env : Env} {s : Settings} {x : Source} (ht : TreeOk x.tree) :
    ∀ (es : List Entry) (pbo pbo' : WPbo), (∀ e ∈ es, e ∈ x.tree) → es.Nodup →
    (∀ e ∈ es, enc (inPbo e) ∉ IMap.keys pbo.files) →
    packEntries env s x.addon x.toml x.tree es pbo = .ok pbo' →
    ∃ l : List Entry, l.Sublist es ∧ (∀ e ∈ es, e ∈ l ↔ Packed env s x e) ∧ pbo'.files = pbo.files ++ l.map stored := by
  intro es
  induction es with
  | nil =>
    intro pbo pbo' _ _ _ h
    simp only [packEntries, Except.ok.injEq] at h
    exact ⟨[], .refl _, by simp, by simp [h]⟩
  | cons e es ih =>
    intro pbo pbo' hm hn hk h
    rw [packEntries] at h
    have he := hm e (by simp)
    rw [List.nodup_cons] at hn
    cases h1 : packEntry env s x.addon x.toml x.tree pbo e with
    | error y => rw [h1] at h; simp at h
    | ok p1 =>
      rw [h1] at h
      dsimp only at h
      have hskip : p1.files = pbo.files → ¬ Packed env s x e → ∃ l : List Entry, l.Sublist (e :: es) ∧
          (∀ e' ∈ e :: es, e' ∈ l ↔ Packed env s x e') ∧ pbo'.files = pbo.files ++ l.map stored := by
        intro hf hnp
        obtain ⟨l, a, b, c⟩ := ih p1 pbo' (fun y hy => hm y (by simp [hy])) hn.2
          (fun y hy => by rw [hf]; exact hk y (by simp [hy])) h
        refine ⟨l, a.cons _, ?_, by rw [c, hf]⟩
        intro e' he'
        rcases List.mem_cons.1 he' with rfl | he'
        · exact ⟨fun hl => absurd (a.subset hl) hn.1, fun hp => absurd hp hnp⟩
        · exact b e' he'
      rcases packEntry_cases ht he h1 with ⟨hc, rfl⟩ | ⟨hp, t, p, -, -, rfl⟩ | ⟨hp, -, rfl⟩
      · exact hskip rfl fun h => hc h.1
      · exact hskip (addPrefix_files _ _ _) fun h => h.2 hp.2
      · have hnew : (addPacked e pbo).files = pbo.files ++ [stored e] := by
          rw [addPacked, insert_new _ (hk e (by simp))]; rfl
        obtain ⟨l, a, b, c⟩ := ih _ pbo' (fun y hy => hm y (by simp [hy])) hn.2 (by
          intro y hy hin
          rw [hnew, IMap.keys, List.map_append, List.mem_append] at hin
          rcases hin with hin | hin
          · exact hk y (by simp [hy]) hin
          · simp only [stored, List.map_cons, List.map_nil, List.mem_singleton] at hin
            have := inPbo_inj ht (hm y (by simp [hy])) he (enc_inj hin)
            exact hn.1 (this ▸ hy)) h
        refine ⟨e :: l, a.cons_cons _, ?_, by rw [c, hnew]; simp⟩
        intro e' he'
        rcases List.mem_cons.1 he' with rfl | he'
        · exact ⟨fun _ => hp, fun _ => by simp⟩
        · rw [← b e' he', List.mem_cons]
          constructor
          · rintro (h | h)
            · exact absurd (h ▸ he') hn.1
            · exact h
          · exact .inr

theorem addProperties_files (l : List (Text × Text)) : ∀ pbo : WPbo, (addProperties l pbo).files = pbo.files := by
  induction l with
  | nil => intro _; rfl
  | cons a l ih => intro pbo; rw [addProperties, ih]; rfl

theorem pack_files {env : Env} {s : Settings} {x : Source} (ht : TreeOk x.tree) {pbo : WPbo}
    (h : pack env s x.addon x.toml x.tree = .ok pbo) :
    ∃ l : List Entry, l.Sublist x.tree ∧ (∀ e, e ∈ l ↔ Packed env s x e) ∧ pbo.files = l.map stored := by
  unfold pack at h
  dsimp only at h
  cases h1 : packEntries env s x.addon x.toml x.tree x.tree
      ((WPbo.new.addProperty (ascii "hemtt") (enc env.hemtt)).addProperty (ascii "version") (enc env.version)) with
  | error y => rw [h1] at h; simp at h
  | ok p1 =>
    rw [h1] at h
    simp only [Except.ok.injEq] at h
    obtain ⟨l, a, b, c⟩ := packEntries_files ht _ _ _ (fun _ h => h) ht.nodup.of_map
      (by intro e _; simp [WPbo.addProperty, WPbo.new, IMap.keys]) h1
    refine ⟨l, a, ?_, ?_⟩
    · intro e
      constructor
      · intro he; exact (b e (a.subset he)).1 he
      · intro hp; exact (b e hp.1.mem).2 hp
    · rw [← h, addProperties_files, addProperties_files, c]; simp [WPbo.addProperty, WPbo.new]

/-! ### Properties -/

theorem property_addProperty (pbo : WPbo) (k v k' : Bytes) :
    (pbo.addProperty k v).property k' = if k' = k then some (trimBackslash v) else pbo.property k' :=
  IMap.get_insert _ _ _ _

theorem property_addProperties_not {l : List (Text × Text)} {k : Text} (h : k ∉ l.map Prod.fst) (pbo : WPbo) :
    (addProperties l pbo).property (enc k) = pbo.property (enc k) := by
  induction l generalizing pbo with
  | nil => rfl
  | cons a l ih =>
    simp only [List.map_cons, List.mem_cons, not_or] at h
    rw [addProperties, ih h.2, property_addProperty, if_neg]
    exact fun e => h.1 (enc_inj e)

theorem property_addProperties {l : List (Text × Text)} (hn : (l.map Prod.fst).Nodup) {k v : Text} (h : (k, v) ∈ l)
    (pbo : WPbo) : (addProperties l pbo).property (enc k) = some (trimBackslash (enc v)) := by
  induction l generalizing pbo with
  | nil => simp at h
  | cons a l ih =>
    rw [List.map_cons, List.nodup_cons] at hn
    rw [addProperties]
    rcases List.mem_cons.1 h with rfl | h
    · rw [property_addProperties_not hn.1, property_addProperty, if_pos rfl]
    · exact ih hn.2 h _

/-- What the entries of a list do to the properties: nothing if none says what the prefix is, and otherwise the last one
that does decides. -/
def PropsAfter (env : Env) (s : Settings) (x : Source) (es : List Entry) (pbo pbo' : WPbo) : Prop :=
  ((∀ e ∈ es, ¬ PrefixFile env s x e) ∧ pbo'.properties = pbo.properties) ∨
  ∃ es1 e es2 t p, es = es1 ++ e :: es2 ∧ PrefixFile env s x e ∧ (∀ e' ∈ es2, ¬ PrefixFile env s x e') ∧
    decode? e.content = some t ∧ Prefix.new t = .ok p ∧
    ∀ k, pbo'.property k =
      if k = prefixKey then some (trimBackslash (enc (Prefix.display p)))
      else if k = ascii "version" then some (trimBackslash (enc env.version))
      else if k = ascii "git" ∧ env.git.isSome then env.git.map fun h => trimBackslash (enc h)
      else pbo.property k

theorem packEntries_props {env : Env} {s : Settings} {x : Source} (ht : TreeOk x.tree) :
    ∀ (es : List Entry) (pbo pbo' : WPbo), (∀ e ∈ es, e ∈ x.tree) →
    packEntries env s x.addon x.toml x.tree es pbo = .ok pbo' → PropsAfter env s x es pbo pbo' := by
  intro es
  induction es with
  | nil =>
    intro pbo pbo' _ h
    simp only [packEntries, Except.ok.injEq] at h
    exact .inl ⟨by simp, by rw [h]⟩
  | cons e es ih =>
    intro pbo pbo' hm h
    rw [packEntries] at h
    have he := hm e (by simp)
    cases h1 : packEntry env s x.addon x.toml x.tree pbo e with
    | error y => rw [h1] at h; simp at h
    | ok p1 =>
      rw [h1] at h
      dsimp only at h
      have hskip : p1.properties = pbo.properties → ¬ PrefixFile env s x e → PropsAfter env s x (e :: es) pbo pbo' := by
        intro hf hnp
        have hg : ∀ k, p1.property k = pbo.property k := fun k => by rw [WPbo.property, hf, WPbo.property]
        rcases ih p1 pbo' (fun y hy => hm y (by simp [hy])) h with ⟨a, b⟩ | ⟨es1, e', es2, t, p, a, b, c, d, f, g⟩
        · refine .inl ⟨?_, b.trans hf⟩
          intro e' he'
          rcases List.mem_cons.1 he' with rfl | he'
          · exact hnp
          · exact a e' he'
        · refine .inr ⟨e :: es1, e', es2, t, p, by rw [a]; rfl, b, c, d, f, ?_⟩
          intro k
          rw [g k, hg]
      rcases packEntry_cases ht he h1 with ⟨hc, rfl⟩ | ⟨hp, t, p, hd, hq, rfl⟩ | ⟨hp, -, rfl⟩
      · exact hskip rfl fun h => hc h.1
      · have hnew : ∀ k, (addPrefix env p pbo).property k =
            if k = prefixKey then some (trimBackslash (enc (Prefix.display p)))
            else if k = ascii "version" then some (trimBackslash (enc env.version))
            else if k = ascii "git" ∧ env.git.isSome then env.git.map fun h => trimBackslash (enc h)
            else pbo.property k := by
          intro k
          have d1 : ¬ ascii "version" = prefixKey := by decide +kernel
          have d2 : ¬ ascii "git" = prefixKey := by decide +kernel
          have d3 : ¬ ascii "git" = ascii "version" := by decide +kernel
          unfold addPrefix
          cases hg : env.git with
          | none =>
            simp only [property_addProperty, Option.isSome_none, Bool.false_eq_true, and_false, if_false]
            by_cases e1 : k = prefixKey
            · subst e1
              rw [if_neg fun h => d1 h.symm]
              simp
            · simp [e1]
          | some g =>
            simp only [property_addProperty, Option.isSome_some, and_true, Option.map_some]
            by_cases e1 : k = prefixKey
            · subst e1
              rw [if_neg fun h => d2 h.symm, if_neg fun h => d1 h.symm]
              simp
            · by_cases e2 : k = ascii "version"
              · subst e2
                rw [if_neg fun h => d3 h.symm]
                simp [d1]
              · simp [e1, e2]
        rcases ih _ pbo' (fun y hy => hm y (by simp [hy])) h with ⟨a, b⟩ | ⟨es1, e', es2, t', p', a, b, c, d, f, g⟩
        · refine .inr ⟨[], e, es, t, p, rfl, hp, a, hd, hq, ?_⟩
          intro k
          rw [WPbo.property, b]
          exact hnew k
        · refine .inr ⟨e :: es1, e', es2, t', p', by rw [a]; rfl, b, c, d, f, ?_⟩
          intro k
          rw [g k, hnew k]
          by_cases e1 : k = prefixKey
          · simp [e1]
          · by_cases e2 : k = ascii "version"
            · simp [e2]
            · by_cases e3 : k = ascii "git" ∧ env.git.isSome = true
              · simp [e3]
              · simp only [e1, e2, e3, if_false]
      · exact hskip rfl fun h => hp.2 h.2

/-! ### What is packed can be written -/

/-- What the program puts into a PBO holds no NUL, and no key is empty. -/
structure Clean (env : Env) (s : Settings) (x : Source) : Prop where
  names : ∀ e ∈ x.tree, '\x00' ∉ e.filename ∧ ∀ d ∈ e.dir, '\x00' ∉ d
  props : ∀ kv ∈ s.properties ++ (x.toml.map (·.properties)).getD [], kv.1 ≠ [] ∧ '\x00' ∉ kv.1 ∧ '\x00' ∉ kv.2
  hemtt : '\x00' ∉ env.hemtt
  version : '\x00' ∉ env.version
  git : ∀ g, env.git = some g → '\x00' ∉ g
  pfx : ∀ e ∈ x.tree, PrefixFile env s x e → ∀ t p, decode? e.content = some t → Prefix.new t = .ok p →
    '\x00' ∉ Prefix.display p

theorem enc_nul {t : Text} (h : '\x00' ∉ t) : (0 : UInt8) ∉ enc t := by
  intro hc
  simp only [enc, List.mem_flatMap] at hc
  obtain ⟨c, hc, h0⟩ := hc
  have := encode_small h0 (by decide)
  have : c = '\x00' := Char.ext (UInt32.toNat.inj this)
  exact h (this ▸ hc)

theorem enc_ne_nil {t : Text} (h : t ≠ []) : enc t ≠ [] := by
  intro hc
  exact h (enc_inj (hc.trans (by rfl : ([] : Bytes) = enc [])))

/-- A builder that calls with representable arguments lead to. -/
def Reach (pbo : WPbo) : Prop := ∃ ops, (∀ op ∈ ops, OpOk op) ∧ pbo = runOps ops

theorem Reach.step {pbo : WPbo} (h : Reach pbo) {op : Op} (ho : OpOk op) : Reach (apply pbo op) := by
  obtain ⟨ops, h1, rfl⟩ := h
  refine ⟨ops ++ [op], ?_, (runOps_snoc _ _).symm⟩
  intro o hm
  rcases List.mem_append.1 hm with hm | hm
  · exact h1 o hm
  · rw [List.mem_singleton.1 hm]; exact ho

theorem Reach.addProperty {pbo : WPbo} (h : Reach pbo) {k v : Bytes} (hk : k ≠ []) (hk0 : (0 : UInt8) ∉ k)
    (hu : isUtf8 k = true) {t : Text} (hv : v = enc t) (ht : '\x00' ∉ t) : Reach (pbo.addProperty k v) :=
  h.step (op := .addProperty k v) ⟨hk, hk0, hv ▸ enc_nul ht, hu, hv ▸ isUtf8_enc t⟩

theorem Reach.valid {pbo : WPbo} (h : Reach pbo) : Valid pbo := by
  obtain ⟨ops, h1, rfl⟩ := h
  exact C07_valid_of_history ops h1

theorem joinWith_not_mem {c x : Char} {ps : List Text} (hx : x ≠ c) (h : ∀ p ∈ ps, x ∉ p) : x ∉ joinWith c ps := by
  match ps with
  | [] => simp [joinWith]
  | [p] => exact h p (by simp)
  | p :: q :: ps =>
    have ih := joinWith_not_mem (ps := q :: ps) hx (fun y hy => h y (by simp [hy]))
    simp only [joinWith, List.mem_append, List.mem_cons, not_or]
    exact ⟨h p (by simp), hx, ih⟩

theorem joinWith_ne_nil {c : Char} {ps : List Text} (hne : ps ≠ []) (h : ∀ p ∈ ps, p ≠ []) : joinWith c ps ≠ [] := by
  match ps, hne with
  | [p], _ => exact h p (by simp)
  | p :: q :: ps, _ => simp [joinWith]

theorem packEntries_reach {env : Env} {s : Settings} {x : Source} (ht : TreeOk x.tree) (hc : Clean env s x) :
    ∀ (es : List Entry) (pbo pbo' : WPbo), (∀ e ∈ es, e ∈ x.tree) → Reach pbo →
    packEntries env s x.addon x.toml x.tree es pbo = .ok pbo' → Reach pbo' := by
  intro es
  induction es with
  | nil =>
    intro pbo pbo' _ hr h
    simp only [packEntries, Except.ok.injEq] at h
    exact h ▸ hr
  | cons e es ih =>
    intro pbo pbo' hm hr h
    rw [packEntries] at h
    have he := hm e (by simp)
    cases h1 : packEntry env s x.addon x.toml x.tree pbo e with
    | error y => rw [h1] at h; simp at h
    | ok p1 =>
      rw [h1] at h
      dsimp only at h
      refine ih p1 pbo' (fun y hy => hm y (by simp [hy])) ?_ h
      rcases packEntry_cases ht he h1 with ⟨-, rfl⟩ | ⟨hp, t, p, hd, hq, rfl⟩ | ⟨hp, hl, rfl⟩
      · exact hr
      · have h2 : Reach ((pbo.addProperty prefixKey (enc (Prefix.display p))).addProperty (ascii "version")
            (enc env.version)) :=
          (hr.addProperty (by decide) (by decide) (by decide +kernel) rfl (hc.pfx e he hp t p hd hq)).addProperty
            (by decide +kernel) (by decide +kernel) (by decide +kernel) rfl hc.version
        unfold addPrefix
        cases hg : env.git with
        | none => exact h2
        | some g => exact h2.addProperty (by decide +kernel) (by decide +kernel) (by decide +kernel) rfl (hc.git g hg)
      · have hn : norm (enc (inPbo e)) = enc (inPbo e) := by
          rw [norm_enc]
          congr 1
          conv_rhs => rw [← List.map_id (inPbo e)]
          apply List.map_congr_left
          intro c hc
          have : c ≠ '/' := fun h => inPbo_slash ht he (h ▸ hc)
          simp [this]
        have hstep : Reach (apply pbo (.addFile (enc (inPbo e)) e.content)) := by
          refine hr.step ⟨enc_ne_nil ?_, enc_nul ?_, isUtf8_enc _⟩
          · exact joinWith_ne_nil (by simp) fun p hp => (ht.names e he p hp).1
          · refine joinWith_not_mem (by decide) fun p hp => ?_
            rcases List.mem_append.1 hp with hp | hp
            · exact (hc.names e he).2 p hp
            · rw [List.mem_singleton.1 hp]; exact (hc.names e he).1
        have : apply pbo (.addFile (enc (inPbo e)) e.content) = addPacked e pbo := by
          simp only [apply, WPbo.addFile]
          rw [if_neg (by omega)]
          simp only [hn]
          rfl
        exact this ▸ hstep

theorem addProperties_reach (l : List (Text × Text)) (h : ∀ kv ∈ l, kv.1 ≠ [] ∧ '\x00' ∉ kv.1 ∧ '\x00' ∉ kv.2) :
    ∀ pbo : WPbo, Reach pbo → Reach (addProperties l pbo) := by
  induction l with
  | nil => intro _ h; exact h
  | cons a l ih =>
    intro pbo hr
    obtain ⟨h1, h2, h3⟩ := h a (by simp)
    exact ih (fun kv hkv => h kv (by simp [hkv])) _
      (hr.addProperty (enc_ne_nil h1) (enc_nul h2) (isUtf8_enc _) rfl h3)

theorem pack_valid {env : Env} {s : Settings} {x : Source} (ht : TreeOk x.tree) (hc : Clean env s x) {pbo : WPbo}
    (h : pack env s x.addon x.toml x.tree = .ok pbo) : Valid pbo := by
  unfold pack at h
  dsimp only at h
  cases h1 : packEntries env s x.addon x.toml x.tree x.tree
      ((WPbo.new.addProperty (ascii "hemtt") (enc env.hemtt)).addProperty (ascii "version") (enc env.version)) with
  | error y => rw [h1] at h; simp at h
  | ok p1 =>
    rw [h1] at h
    simp only [Except.ok.injEq] at h
    have h0 : Reach WPbo.new := ⟨[], by simp, rfl⟩
    have hr := packEntries_reach ht hc _ _ _ (fun _ h => h)
      ((h0.addProperty (by decide +kernel) (by decide +kernel) (by decide +kernel) rfl hc.hemtt).addProperty
        (by decide +kernel) (by decide +kernel) (by decide +kernel) rfl hc.version) h1
    rw [← h]
    exact (addProperties_reach _ (fun kv hkv => hc.props kv (List.mem_append_right _ hkv)) _
      (addProperties_reach _ (fun kv hkv => hc.props kv (List.mem_append_left _ hkv)) _ hr)).valid

end Verif.Release
