import Verif.Model.Unpack
import Verif.Props.Pbo
/-!
C41: what unpacking an archive writes, and where.

Specification. `Escapes` is a name with `..` among the pieces between slashes or backslashes, or that begins with one.
`Holds` says that a directory holds exactly the given files, and the directories these need.
-/
namespace Verif.Unpack
open Verif.Pbo

/-- `/` or `\`. -/
def IsSep (b : UInt8) : Prop := b = 47 ∨ b = 92

/-- The name begins with a separator, or has a piece `..`. -/
def Escapes (name : Bytes) : Prop :=
  (∃ b rest, name = b :: rest ∧ IsSep b) ∨
  ∃ a c, name = a ++ ascii ".." ++ c ∧ (∀ b, a.getLast? = some b → IsSep b) ∧ (∀ b, c.head? = some b → IsSep b)

/-- The directory `output` holds the files `l`, named by their paths in it, and nothing else but the directories they
lie in. -/
structure Holds (fs : FS) (output : Path) (l : List (Path × Bytes)) : Prop where
  file : ∀ r c, fs (output ++ r) = some (.file c) ↔ (r, c) ∈ l
  dir : ∀ r, fs (output ++ r) = some .dir ↔ r = [] ∨ ∃ f ∈ l, r <+: f.1 ∧ r ≠ f.1

/-- Outside `output` nothing is changed, except that the directories `output` lies in may be made. -/
def SameOutside (output : Path) (fs fs' : FS) : Prop :=
  ∀ q, ¬ output <+: q → fs' q = fs q ∨ (q <+: output ∧ fs q = none ∧ fs' q = some .dir)

/-! ### Names -/

theorem splitSlash_ne_nil (l : Bytes) : splitSlash l ≠ [] := by
  cases l with
  | nil => simp [splitSlash]
  | cons b bs =>
    rw [splitSlash]
    split
    · simp
    · split <;> simp

theorem splitSlash_pieces (l : Bytes) : ∃ s ss, splitSlash l = s :: ss ∧
    (∃ c, l = s ++ c ∧ ∀ b, c.head? = some b → b = 47) ∧
    ∀ t ∈ ss, ∃ a c, l = a ++ t ++ c ∧ a.getLast? = some 47 ∧ ∀ b, c.head? = some b → b = 47 := by
  induction l with
  | nil => exact ⟨[], [], rfl, ⟨[], by simp⟩, by simp⟩
  | cons b bs ih =>
    obtain ⟨s, ss, h1, ⟨c, h2, h3⟩, h4⟩ := ih
    rw [splitSlash]
    split
    · rename_i hb
      subst hb
      refine ⟨[], splitSlash bs, rfl, ⟨47 :: bs, by simp⟩, ?_⟩
      intro t ht
      rw [h1] at ht
      rcases List.mem_cons.1 ht with rfl | ht
      · exact ⟨[47], c, by simp [h2], rfl, h3⟩
      · obtain ⟨a, c', g1, g2, g3⟩ := h4 t ht
        exact ⟨47 :: a, c', by simp [g1], by simp [List.getLast?_cons, g2], g3⟩
    · rw [h1]
      refine ⟨b :: s, ss, rfl, ⟨c, by simp [h2], h3⟩, ?_⟩
      intro t ht
      obtain ⟨a, c', g1, g2, g3⟩ := h4 t ht
      exact ⟨b :: a, c', by simp [g1], by simp [List.getLast?_cons, g2], g3⟩

theorem splitSlash_mem {l s : Bytes} (h : s ∈ splitSlash l) : ∃ a c, l = a ++ s ++ c ∧
    (∀ b, a.getLast? = some b → b = 47) ∧ (∀ b, c.head? = some b → b = 47) := by
  obtain ⟨t, ts, h1, ⟨c, h2, h3⟩, h4⟩ := splitSlash_pieces l
  rw [h1] at h
  rcases List.mem_cons.1 h with rfl | h
  · exact ⟨[], c, by simp [h2], by simp, h3⟩
  · obtain ⟨a, c, g1, g2, g3⟩ := h4 s h
    exact ⟨a, c, g1, by simp [g2], g3⟩

theorem slashes_sep {b : UInt8} (h : (if b = 92 then 47 else b) = 47) : IsSep b := by
  unfold IsSep
  split at h
  · exact Or.inr ‹_›
  · exact Or.inl h

theorem not_dotdot {name s : Bytes} (h : ¬ Escapes name) (hs : s ∈ splitSlash (slashes name)) : s ≠ ascii ".." := by
  rintro rfl
  obtain ⟨a, c, h1, h2, h3⟩ := splitSlash_mem hs
  unfold slashes at h1
  rw [List.map_eq_append_iff] at h1
  obtain ⟨ac, c', rfl, hac, rfl⟩ := h1
  rw [List.map_eq_append_iff] at hac
  obtain ⟨a', d, rfl, rfl, hd⟩ := hac
  have hd' : d = ascii ".." := by
    have : ascii ".." = [46, 46] := by decide +kernel
    rw [this] at hd ⊢
    have hxy : ∀ x : UInt8, (if x = 92 then 47 else x) = 46 → x = 46 := by
      intro x hx
      split at hx
      · exact absurd hx (by decide)
      · exact hx
    simp only [List.map_eq_cons_iff, List.map_eq_nil_iff] at hd
    obtain ⟨x, _, rfl, hx, y, _, rfl, hy, rfl⟩ := hd
    rw [hxy x hx, hxy y hy]
  subst hd'
  refine h (Or.inr ⟨a', c', rfl, ?_, ?_⟩)
  · intro b hb
    exact slashes_sep (h2 _ (by rw [List.getLast?_map, hb]; rfl))
  · intro b hb
    exact slashes_sep (h3 _ (by rw [List.head?_map, hb]; rfl))

theorem not_absolute {name : Bytes} (h : ¬ Escapes name) : (slashes name).head? ≠ some 47 := by
  intro hh
  unfold slashes at hh
  rw [List.head?_map] at hh
  cases name with
  | nil => simp at hh
  | cons b rest => exact h (Or.inl ⟨b, rest, rfl, slashes_sep (by simpa using hh)⟩)

/-! ### Where is written -/

theorem set_other {fs : FS} {p q : Path} {n : Node} (h : q ≠ p) : fs.set p n q = fs q := if_neg h

theorem create_other {fs : FS} {p q : Path} (h : q ≠ p) : (create fs p).2 q = fs q := by
  unfold create
  split
  · rfl
  · exact set_other h

theorem append_other {fs : FS} {p q : Path} (c : Bytes) (h : q ≠ p) : append fs p c q = fs q := by
  unfold append
  rcases fs p with _ | _ | old
  · rfl
  · rfl
  · exact set_other h

theorem openAppend_other {fs : FS} {p q : Path} (h : q ≠ p) : (openAppend fs p).2 q = fs q := by
  unfold openAppend
  split
  · rfl
  · rfl
  · exact set_other h

theorem prefix_snoc_ne {a q : Path} {s : Bytes} (h : a ++ [s] <+: q) : q ≠ a := by
  rintro rfl
  have := h.length_le
  simp at this

theorem createDirAll_changes (fs : FS) (at_ : Path) (ss : List Bytes) (h : ascii ".." ∉ ss) :
    (∀ r, (createDirAll fs at_ ss).1 = .ok r → r = at_ ++ ss) ∧
    ∀ q, (createDirAll fs at_ ss).2 q = fs q ∨
      (at_ <+: q ∧ q ≠ at_ ∧ q <+: at_ ++ ss ∧ fs q = none ∧ (createDirAll fs at_ ss).2 q = some .dir) := by
  induction ss generalizing fs at_ with
  | nil => simp [createDirAll]
  | cons s ss ih =>
    have hs : s ≠ ascii ".." := fun e => h (e ▸ List.mem_cons_self ..)
    have hss : ascii ".." ∉ ss := fun e => h (List.mem_cons_of_mem _ e)
    rw [createDirAll, if_neg hs]
    have happ : at_ ++ s :: ss = at_ ++ [s] ++ ss := by simp
    split
    · rename_i hn
      obtain ⟨i1, i2⟩ := ih (fs.set (at_ ++ [s]) .dir) (at_ ++ [s]) hss
      rw [happ]
      refine ⟨i1, fun q => ?_⟩
      by_cases hq : q = at_ ++ [s]
      · subst hq
        right
        refine ⟨List.prefix_append _ _, by simp, List.prefix_append _ _, hn, ?_⟩
        rcases i2 (at_ ++ [s]) with e | ⟨_, _, _, e, _⟩
        · rw [e]; exact if_pos rfl
        · rw [FS.set, if_pos rfl] at e; cases e
      · rcases i2 q with e | ⟨e1, _, e2, e3, e4⟩
        · left; rw [e]; exact set_other hq
        · right; exact ⟨(List.prefix_append _ _).trans e1, prefix_snoc_ne e1, e2, by rw [← e3]; exact (set_other hq).symm, e4⟩
    · obtain ⟨i1, i2⟩ := ih fs (at_ ++ [s]) hss
      rw [happ]
      refine ⟨i1, fun q => ?_⟩
      rcases i2 q with e | ⟨e1, _, e2, e3, e4⟩
      · exact Or.inl e
      · exact Or.inr ⟨(List.prefix_append _ _).trans e1, prefix_snoc_ne e1, e2, e3, e4⟩
    · simp

theorem mem_of_mem_dropLast {α : Type} {a : α} {l : List α} (h : a ∈ l.dropLast) : a ∈ l := (List.dropLast_sublist l).subset h

theorem mem_components {s : Bytes} {ss : List Bytes} (h : s ∈ components ss) : s ∈ ss := List.mem_of_mem_filter h

theorem place_outside {fs : FS} {output : Path} {name : Bytes} (h : ¬ Escapes name) :
    (∀ r, (place fs output name).1 = .ok r → output <+: r) ∧
    ∀ q, ¬ output <+: q → (place fs output name).2 q = fs q := by
  have hn : ascii ".." ∉ (components (splitSlash (slashes name))).dropLast := fun e =>
    not_dotdot h (mem_components (mem_of_mem_dropLast e)) rfl
  have hc := createDirAll_changes fs output _ hn
  unfold place
  dsimp only
  simp only [not_absolute h, if_false, false_and]
  generalize createDirAll fs output (components (splitSlash (slashes name))).dropLast = res at *
  rcases res with ⟨e | dir, fs1⟩
  · refine ⟨by simp, fun q hq => ?_⟩
    rcases hc.2 q with e | ⟨e, _⟩
    · exact e
    · exact absurd e hq
  · obtain ⟨c1, c2⟩ := hc
    have hd : output <+: dir := by rw [c1 dir rfl]; exact List.prefix_append _ _
    have hf : ∀ q, ¬ output <+: q → fs1 q = fs q := by
      intro q hq
      rcases c2 q with e | ⟨e, _⟩
      · exact e
      · exact absurd e hq
    dsimp only
    split
    · exact ⟨by simp, hf⟩
    · have hx : ∀ l : Bytes, output <+: dir ++ [l] := fun l => hd.trans (List.prefix_append _ _)
      have ho : ∀ q, ¬ output <+: q → (create fs1 (dir ++ [((splitSlash (slashes name)).getLast?.getD [])])).2 q = fs q := by
        intro q hq
        rw [create_other (by rintro rfl; exact hq (hx _)), hf q hq]
      generalize create fs1 (dir ++ [((splitSlash (slashes name)).getLast?.getD [])]) = res at *
      rcases res with ⟨e | u, fs2⟩
      · exact ⟨by simp, ho⟩
      · refine ⟨?_, ho⟩
        intro r hr
        cases hr
        exact hx _

theorem files_outside {lower : Bytes → Bytes} {p : RPbo} {output : Path} (hs : List Header)
    (h : ∀ x ∈ hs, ¬ Escapes x.filename) (fs : FS) :
    ∀ q, ¬ output <+: q → (files lower p fs output hs).2 q = fs q := by
  induction hs generalizing fs with
  | nil => intro q _; rfl
  | cons x hs ih =>
    intro q hq
    obtain ⟨h1, h2⟩ := place_outside (fs := fs) (output := output) (h x (List.mem_cons_self ..))
    rw [files]
    generalize place fs output x.filename = res at *
    rcases res with ⟨e | path, fs1⟩
    · exact h2 q hq
    · dsimp only
      split
      · exact h2 q hq
      · rw [ih (fun y hy => h y (List.mem_cons_of_mem _ hy)) _ q hq,
          append_other _ (by rintro rfl; exact hq (h1 _ rfl))]
        exact h2 q hq

theorem properties_outside {output : Path} (ps : List (Bytes × Bytes)) (fs : FS) :
    ∀ q, ¬ output <+: q → (properties fs output ps).2 q = fs q := by
  induction ps generalizing fs with
  | nil => intro q _; rfl
  | cons kv ps ih =>
    obtain ⟨k, v⟩ := kv
    intro q hq
    have hne : ∀ s, q ≠ output ++ [s] := by rintro s rfl; exact hq (List.prefix_append _ _)
    rw [properties]
    split
    · have := create_other (fs := fs) (hne (ascii "$PBOPREFIX$"))
      generalize create fs (output ++ [ascii "$PBOPREFIX$"]) = res at *
      rcases res with ⟨e | u, fs1⟩
      · exact this
      · dsimp only
        rw [ih _ q hq, append_other _ (hne _)]
        exact this
    · have := openAppend_other (fs := fs) (hne (ascii "properties.txt"))
      generalize openAppend fs (output ++ [ascii "properties.txt"]) = res at *
      rcases res with ⟨e | u, fs1⟩
      · exact this
      · dsimp only
        rw [ih _ q hq, append_other _ (hne _)]
        exact this

/-- Unpacking stays inside the output directory, if no file name escapes: whatever the archive and the file system, and
whether it succeeds or not. Missing for the full claim: names that escape, see `C41_violated`. -/
theorem C41_contained_partial (lower : Bytes → Bytes) (p : RPbo) (fs : FS) (output : Path) (ho : ascii ".." ∉ output)
    (h : ∀ x ∈ p.headers, ¬ Escapes x.filename) : SameOutside output fs (unpack lower p fs output).2 := by
  intro q hq
  unfold unpack
  split
  · exact Or.inl rfl
  · have hc := (createDirAll_changes fs [] output ho).2 q
    have : ∀ fs' : FS, (fs' q = fs q ∨ [] <+: q ∧ q ≠ [] ∧ q <+: [] ++ output ∧ fs q = none ∧ fs' q = some .dir) →
        fs' q = fs q ∨ (q <+: output ∧ fs q = none ∧ fs' q = some .dir) := by
      rintro fs' (e | ⟨_, _, e2, e3, e4⟩)
      · exact Or.inl e
      · exact Or.inr ⟨by simpa using e2, e3, e4⟩
    generalize createDirAll fs [] output = res at *
    rcases res with ⟨e | u, fs1⟩
    · exact this _ hc
    · have hp := properties_outside (output := output) p.properties fs1 q hq
      dsimp only
      generalize properties fs1 output p.properties = res at *
      rcases res with ⟨e | u, fs2⟩
      · dsimp only at hp ⊢
        rw [hp]
        exact this _ hc
      · dsimp only at hp ⊢
        rw [files_outside p.headers h fs2 q hq, hp]
        exact this _ hc

/-- An output directory that is already there is left alone. -/
theorem C41_existing_untouched (lower : Bytes → Bytes) (p : RPbo) (fs : FS) (output : Path) (h : fs output ≠ none) :
    unpack lower p fs output = (.ok (), fs) := by
  unfold unpack
  rw [if_pos (Option.isSome_iff_ne_none.2 h)]

/-! ### What is written -/

/-- A path of ordinary names. -/
def Plain (path : Path) : Prop :=
  path ≠ [] ∧ ∀ s ∈ path, s ≠ [] ∧ s ≠ ascii "." ∧ s ≠ ascii ".." ∧ ∀ b ∈ s, ¬ IsSep b

/-- A path as it is written in an archive: backslashes between the names. -/
def joined : Path → Bytes
  | [] => []
  | [s] => s
  | s :: ss => s ++ 92 :: joined ss

/-- Neither is, nor lies in, the other. -/
def Apart (a b : Path) : Prop := ¬ a <+: b ∧ ¬ b <+: a

/-- The files the properties of an archive go to: the prefix to one, the others, line by line, to another. -/
def propertyFiles (ps : List (Bytes × Bytes)) : List (Path × Bytes) :=
  (ps.filter (·.1 = prefixKey)).map (fun kv => ([ascii "$PBOPREFIX$"], kv.2)) ++
  if ps.filter (·.1 ≠ prefixKey) = [] then []
  else [([ascii "properties.txt"],
    (ps.filter (·.1 ≠ prefixKey)).flatMap fun kv => kv.1 ++ ascii "=" ++ kv.2 ++ ascii "\n")]

theorem splitSlash_plain {s rest : Bytes} (h : 47 ∉ s) : splitSlash (s ++ 47 :: rest) = s :: splitSlash rest := by
  induction s with
  | nil => simp [splitSlash]
  | cons b s ih =>
    rw [List.cons_append, splitSlash, if_neg (fun e : b = 47 => h (e ▸ List.mem_cons_self ..)),
      ih (fun e => h (List.mem_cons_of_mem _ e))]

theorem splitSlash_last {s : Bytes} (h : 47 ∉ s) : splitSlash s = [s] := by
  induction s with
  | nil => rfl
  | cons b s ih =>
    rw [splitSlash, if_neg (fun e : b = 47 => h (e ▸ List.mem_cons_self ..)), ih (fun e => h (List.mem_cons_of_mem _ e))]

theorem slashes_plain {s : Bytes} (h : ∀ b ∈ s, ¬ IsSep b) : slashes s = s := by
  unfold slashes
  conv_rhs => rw [← List.map_id s]
  apply List.map_congr_left
  intro b hb
  exact if_neg (fun e => h b hb (Or.inr e))

theorem split_joined : ∀ (path : Path), path ≠ [] → (∀ s ∈ path, ∀ b ∈ s, ¬ IsSep b) →
    splitSlash (slashes (joined path)) = path
  | [], h, _ => absurd rfl h
  | [s], _, h => by
    have hs := h s (List.mem_cons_self ..)
    rw [joined, slashes_plain hs, splitSlash_last (fun e => hs _ e (Or.inl rfl))]
  | s :: t :: ss, _, h => by
    have hs := h s (List.mem_cons_self ..)
    have : slashes (joined (s :: t :: ss)) = s ++ 47 :: slashes (joined (t :: ss)) := by
      have e := slashes_plain hs
      unfold slashes at e ⊢
      simp only [joined, List.map_append, List.map_cons, e, if_true]
    rw [this, splitSlash_plain (fun e => hs _ e (Or.inl rfl)),
      split_joined (t :: ss) (by simp) (fun x hx => h x (List.mem_cons_of_mem _ hx))]

theorem components_plain {path : Path} (h : Plain path) : components path = path := by
  unfold components
  rw [List.filter_eq_self]
  intro s hs
  simp [(h.2 s hs).1, (h.2 s hs).2.1]

theorem joined_no_slash : ∀ (path : Path), (∀ s ∈ path, ∀ b ∈ s, ¬ IsSep b) → 47 ∉ joined path
  | [], _ => by simp [joined]
  | [s], h => fun e => h s (List.mem_cons_self ..) _ e (Or.inl rfl)
  | s :: t :: ss, h => by
    rw [joined]
    · rw [List.mem_append, List.mem_cons]
      rintro (e | e | e)
      · exact h s (List.mem_cons_self ..) _ e (Or.inl rfl)
      · exact absurd e (by decide)
      · exact joined_no_slash (t :: ss) (fun x hx => h x (List.mem_cons_of_mem _ hx)) e
    · simp

theorem joined_not_absolute {path : Path} (h : Plain path) : (slashes (joined path)).head? ≠ some 47 := by
  obtain ⟨hne, hp⟩ := h
  match path, hne with
  | s :: ss, _ =>
    obtain ⟨h1, _, _, h4⟩ := hp s (List.mem_cons_self ..)
    match s, h1 with
    | b :: bs, _ =>
      have : ∃ r, joined ((b :: bs) :: ss) = b :: r := by
        cases ss with
        | nil => exact ⟨_, rfl⟩
        | cons t ts => exact ⟨_, rfl⟩
      obtain ⟨r, hr⟩ := this
      rw [hr]
      intro e
      exact h4 b (List.mem_cons_self ..) (slashes_sep (by simpa [slashes] using e))

theorem splitSlash_append (x y : Bytes) : splitSlash (x ++ 47 :: y) = splitSlash x ++ splitSlash y := by
  induction x with
  | nil => simp [splitSlash]
  | cons b x ih =>
    rw [List.cons_append, splitSlash, splitSlash, ih]
    obtain ⟨s, ss, h⟩ := List.exists_cons_of_ne_nil (splitSlash_ne_nil x)
    rw [h]
    split <;> rfl

theorem splitSlash_of_piece (a c s : Bytes) (h : ∀ b, a.getLast? = some b → b = 47) (hc : ∀ b, c.head? = some b → b = 47)
    (hs : 47 ∉ s) : s ∈ splitSlash (a ++ s ++ c) := by
  have h1 : s ∈ splitSlash (s ++ c) := by
    cases c with
    | nil => rw [List.append_nil, splitSlash_last hs]; exact List.mem_singleton.2 rfl
    | cons x c =>
      have := hc x rfl
      subst this
      rw [splitSlash_plain hs]
      exact List.mem_cons_self ..
  rcases List.eq_nil_or_concat a with rfl | ⟨a, b, rfl⟩
  · simpa using h1
  · have := h b (by simp)
    subst this
    rw [List.append_assoc, List.concat_eq_append, List.append_assoc, List.singleton_append, splitSlash_append]
    exact List.mem_append_right _ h1

theorem not_escapes_of {path : Path} (hs : splitSlash (slashes (joined path)) = path) (h : Plain path) :
    ¬ Escapes (joined path) := by
  rintro (⟨b, rest, e, hb⟩ | ⟨a, c, e, h1, h2⟩)
  · apply joined_not_absolute h
    rw [e]
    rcases hb with rfl | rfl <;> rfl
  · have : ascii ".." ∈ splitSlash (slashes (joined path)) := by
      have hd : slashes (ascii "..") = ascii ".." := by decide +kernel
      have hsep : ∀ b, IsSep b → (if b = 92 then 47 else b) = 47 := by
        rintro b (rfl | rfl) <;> rfl
      rw [e]
      unfold slashes at hd ⊢
      rw [List.map_append, List.map_append, hd]
      apply splitSlash_of_piece
      · intro b hb
        rw [List.getLast?_map] at hb
        obtain ⟨x, hx, rfl⟩ := Option.map_eq_some_iff.1 hb
        exact hsep x (h1 x hx)
      · intro b hb
        rw [List.head?_map] at hb
        obtain ⟨x, hx, rfl⟩ := Option.map_eq_some_iff.1 hb
        exact hsep x (h2 x hx)
      · decide +kernel
    rw [hs] at this
    exact (h.2 _ this).2.2.1 rfl

theorem createDirAll_ok (fs : FS) (at_ : Path) (ss : List Bytes) (h : ascii ".." ∉ ss)
    (hf : ∀ q c, at_ <+: q → q ≠ at_ → q <+: at_ ++ ss → fs q ≠ some (.file c)) :
    ∃ fs', createDirAll fs at_ ss = (.ok (at_ ++ ss), fs') ∧
      (∀ q, at_ <+: q → q ≠ at_ → q <+: at_ ++ ss → fs' q = some .dir) ∧
      ∀ q, ¬ (at_ <+: q ∧ q ≠ at_ ∧ q <+: at_ ++ ss) → fs' q = fs q := by
  have hok : ∀ (ss : List Bytes) (fs : FS) (at_ : Path), ascii ".." ∉ ss →
      (∀ q c, at_ <+: q → q ≠ at_ → q <+: at_ ++ ss → fs q ≠ some (.file c)) →
      (∃ r, (createDirAll fs at_ ss).1 = .ok r) ∧
      ∀ q, at_ <+: q → q ≠ at_ → q <+: at_ ++ ss → (createDirAll fs at_ ss).2 q = some .dir := by
    intro ss
    induction ss with
    | nil =>
      intro fs at_ _ _
      refine ⟨⟨_, rfl⟩, ?_⟩
      intro q h1 h2 h3
      rw [List.append_nil] at h3
      exact absurd (h3.eq_of_length (Nat.le_antisymm h3.length_le h1.length_le)) h2
    | cons s ss ih =>
      intro fs at_ h hf
      have hs : s ≠ ascii ".." := fun e => h (e ▸ List.mem_cons_self ..)
      have hss : ascii ".." ∉ ss := fun e => h (List.mem_cons_of_mem _ e)
      have happ : at_ ++ s :: ss = at_ ++ [s] ++ ss := by simp
      have key : ∀ fs1 : FS, fs1 (at_ ++ [s]) = some .dir → (∀ q, q ≠ at_ ++ [s] → fs1 q = fs q) →
          (∃ r, (createDirAll fs1 (at_ ++ [s]) ss).1 = .ok r) ∧
          ∀ q, at_ <+: q → q ≠ at_ → q <+: at_ ++ s :: ss → (createDirAll fs1 (at_ ++ [s]) ss).2 q = some .dir := by
        intro fs1 h1 h2
        obtain ⟨i1, i2⟩ := ih fs1 (at_ ++ [s]) hss (by
          intro q c g1 g2 g3
          rw [h2 q g2]
          exact hf q c ((List.prefix_append _ _).trans g1) (prefix_snoc_ne g1) (by rw [happ]; exact g3))
        refine ⟨i1, ?_⟩
        intro q g1 g2 g3
        by_cases hq : q = at_ ++ [s]
        · subst hq
          rcases (createDirAll_changes fs1 (at_ ++ [s]) ss hss).2 (at_ ++ [s]) with e | ⟨_, e, _⟩
          · rw [e, h1]
          · exact absurd rfl e
        · refine i2 q ?_ hq (by rw [← happ]; exact g3)
          rw [happ] at g3
          obtain ⟨t, rfl⟩ := g1
          cases t with
          | nil => exact absurd (by simp) g2
          | cons x t =>
            have : x = s := by
              obtain ⟨u, hu⟩ := g3
              simp only [List.append_assoc, List.cons_append, List.append_cancel_left_eq, List.nil_append,
                List.cons.injEq] at hu
              exact hu.1
            subst this
            exact ⟨t, by simp⟩
      rw [createDirAll, if_neg hs]
      split
      · exact key _ (if_pos rfl) (fun q hq => set_other hq)
      · exact key fs ‹_› (fun _ _ => rfl)
      · rename_i c hc
        exact absurd hc (hf _ c (List.prefix_append _ _) (by simp) (by rw [happ]; exact List.prefix_append _ _))
  obtain ⟨⟨r, hr⟩, h3⟩ := hok ss fs at_ h hf
  obtain ⟨h1, h2⟩ := createDirAll_changes fs at_ ss h
  generalize createDirAll fs at_ ss = res at *
  obtain ⟨r', fs'⟩ := res
  dsimp only at hr h1 h2 h3
  subst hr
  have := h1 r rfl
  subst this
  refine ⟨fs', rfl, h3, ?_⟩
  intro q hq
  rcases h2 q with e | ⟨e1, e2, e3, _⟩
  · exact e
  · exact absurd ⟨e1, e2, e3⟩ hq

theorem holds_congr {fs : FS} {output : Path} {l l' : List (Path × Bytes)} (h : Holds fs output l)
    (hl : ∀ x, x ∈ l ↔ x ∈ l') : Holds fs output l' where
  file r c := by rw [h.file, hl]
  dir r := by
    rw [h.dir]
    simp only [hl]

/-- A file is added in its place. -/
theorem holds_add {fs fs3 : FS} {output path : Path} {c : Bytes} {l : List (Path × Bytes)} (h : Holds fs output l)
    (hp : path ≠ []) (ha : ∀ f ∈ l, Apart f.1 path) (h1 : fs3 (output ++ path) = some (.file c))
    (h2 : ∀ r, r ≠ [] → r <+: path → r ≠ path → fs3 (output ++ r) = some .dir)
    (h3 : ∀ r, r ≠ path → ¬ (r ≠ [] ∧ r <+: path) → fs3 (output ++ r) = fs (output ++ r)) :
    Holds fs3 output (l ++ [(path, c)]) where
  file r d := by
    by_cases hr : r = path
    · subst hr
      rw [h1]
      simp only [Option.some.injEq, Node.file.injEq, List.mem_append, List.mem_singleton, Prod.mk.injEq, true_and]
      constructor
      · rintro rfl; exact Or.inr rfl
      · rintro (e | rfl)
        · exact absurd List.prefix_rfl (ha _ e).1
        · rfl
    · by_cases hq : r ≠ [] ∧ r <+: path
      · rw [h2 r hq.1 hq.2 hr]
        simp only [Option.some.injEq, reduceCtorEq, List.mem_append, List.mem_singleton, Prod.mk.injEq, hr, false_and,
          or_false, false_iff]
        intro e
        exact (ha _ e).1 hq.2
      · rw [h3 r hr hq, h.file]
        simp [hr]
  dir r := by
    by_cases hr : r = path
    · subst hr
      rw [h1]
      simp only [Option.some.injEq, reduceCtorEq, false_iff, not_or]
      refine ⟨hp, ?_⟩
      rintro ⟨f, hf, e1, e2⟩
      rcases List.mem_append.1 hf with hf | hf
      · exact (ha f hf).2 e1
      · rw [List.mem_singleton] at hf
        subst hf
        exact e2 rfl
    · by_cases hq : r ≠ [] ∧ r <+: path
      · rw [h2 r hq.1 hq.2 hr]
        simp only [true_iff]
        exact Or.inr ⟨(path, c), by simp, hq.2, hr⟩
      · rw [h3 r hr hq, h.dir]
        constructor
        · rintro (e | ⟨f, hf, e⟩)
          · exact Or.inl e
          · exact Or.inr ⟨f, List.mem_append_left _ hf, e⟩
        · rintro (e | ⟨f, hf, e1, e2⟩)
          · exact Or.inl e
          · rcases List.mem_append.1 hf with hf | hf
            · exact Or.inr ⟨f, hf, e1, e2⟩
            · rw [List.mem_singleton] at hf
              subst hf
              left
              by_contra hne
              exact hq ⟨hne, e1⟩

/-- The content of a file is replaced. -/
theorem holds_set {fs : FS} {output path : Path} {c d : Bytes} {l : List (Path × Bytes)}
    (h : Holds fs output (l ++ [(path, c)])) (ha : ∀ f ∈ l, f.1 ≠ path) :
    Holds (fs.set (output ++ path) (.file d)) output (l ++ [(path, d)]) where
  file r e := by
    by_cases hr : r = path
    · subst hr
      rw [FS.set, if_pos rfl]
      simp only [Option.some.injEq, Node.file.injEq, List.mem_append, List.mem_singleton, Prod.mk.injEq, true_and]
      constructor
      · rintro rfl; exact Or.inr rfl
      · rintro (e | rfl)
        · exact absurd rfl (ha _ e)
        · rfl
    · rw [set_other (by simpa using hr), h.file]
      simp [hr]
  dir r := by
    by_cases hr : r = path
    · subst hr
      have := h.dir r
      rw [(h.file r c).2 (by simp)] at this
      rw [FS.set, if_pos rfl]
      simp only [Option.some.injEq, reduceCtorEq, false_iff] at this ⊢
      rintro (e | ⟨f, hf, e1, e2⟩)
      · exact this (Or.inl e)
      · rcases List.mem_append.1 hf with hf | hf
        · exact this (Or.inr ⟨f, List.mem_append_left _ hf, e1, e2⟩)
        · rw [List.mem_singleton] at hf
          subst hf
          exact e2 rfl
    · rw [set_other (by simpa using hr), h.dir]
      simp only [List.mem_append, List.mem_singleton, or_and_right, exists_or, exists_eq_left]

theorem not_at {fs : FS} {output path : Path} {l : List (Path × Bytes)} (h : Holds fs output l) (hp : path ≠ [])
    (ha : ∀ f ∈ l, Apart f.1 path) : fs (output ++ path) = none := by
  cases hf : fs (output ++ path) with
  | none => rfl
  | some n =>
    cases n with
    | dir =>
      rcases (h.dir path).1 hf with e | ⟨f, hf, e, _⟩
      · exact absurd e hp
      · exact absurd e (ha f hf).2
    | file c => exact absurd List.prefix_rfl (ha _ ((h.file path c).1 hf)).1

theorem place_holds {fs : FS} {output path : Path} (c : Bytes) {l : List (Path × Bytes)} (h : Holds fs output l)
    (hp : Plain path) (ha : ∀ f ∈ l, Apart f.1 path) :
    ∃ fs', place fs output (joined path) = (.ok (output ++ path), fs') ∧
      Holds (append fs' (output ++ path) c) output (l ++ [(path, c)]) := by
  have hsplit := split_joined path hp.1 (fun s hs => (hp.2 s hs).2.2.2)
  have hne := hp.1
  obtain ⟨init, last, rfl⟩ : ∃ a b, path = a ++ [b] := ⟨path.dropLast, path.getLast hne, (List.dropLast_concat_getLast hne).symm⟩
  obtain ⟨g1, g2, g3, g4⟩ := hp.2 last (by simp)
  have hdd : ascii ".." ∉ init := fun e => (hp.2 _ (List.mem_append_left _ e)).2.2.1 rfl
  have hnf : ∀ q c, output <+: q → q ≠ output → q <+: output ++ init → fs q ≠ some (.file c) := by
    rintro q c ⟨r, rfl⟩ _ h3 hf
    have h3 : r <+: init := (List.prefix_append_right_inj _).1 h3
    exact (ha _ ((h.file r c).1 hf)).1 (h3.trans (List.prefix_append _ _))
  obtain ⟨fs1, e1, e2, e3⟩ := createDirAll_ok fs output init hdd hnf
  have hin : ∀ r, r <+: init ↔ r <+: init ++ [last] ∧ r ≠ init ++ [last] := by
    intro r
    constructor
    · intro hr
      refine ⟨hr.trans (List.prefix_append _ _), ?_⟩
      rintro rfl
      have := hr.length_le
      simp at this
    · rintro ⟨h1, h2⟩
      rcases List.prefix_concat_iff.1 h1 with e | e
      · exact absurd e h2
      · exact e
  have hat : fs1 (output ++ (init ++ [last])) = none := by
    rw [e3, not_at h hne ha]
    rintro ⟨_, _, h3⟩
    exact ((hin _).1 ((List.prefix_append_right_inj _).1 h3)).2 rfl
  refine ⟨fs1.set (output ++ (init ++ [last])) (.file []), ?_, ?_⟩
  · unfold place
    dsimp only
    rw [hsplit, components_plain hp]
    simp only [joined_not_absolute hp, if_false, false_and, List.dropLast_concat, e1, List.getLast?_concat,
      Option.getD_some, g1, g2, g3, or_self]
    unfold create
    rw [List.append_assoc, hat]
  · have hset : append (fs1.set (output ++ (init ++ [last])) (.file [])) (output ++ (init ++ [last])) c =
        (fs1.set (output ++ (init ++ [last])) (.file [])).set (output ++ (init ++ [last])) (.file c) := by
      unfold append
      rw [show (fs1.set (output ++ (init ++ [last])) (.file [])) (output ++ (init ++ [last])) = some (.file []) from
        if_pos rfl]
      rfl
    rw [hset]
    refine holds_add h hne ha (if_pos rfl) ?_ ?_
    · intro r r1 r2 r3
      have hx : output ++ r ≠ output ++ (init ++ [last]) := by simpa using r3
      rw [set_other hx, set_other hx]
      exact e2 _ (List.prefix_append _ _) (by simpa using r1)
        ((List.prefix_append_right_inj _).2 ((hin r).2 ⟨r2, r3⟩))
    · intro r r1 r2
      have hx : output ++ r ≠ output ++ (init ++ [last]) := by simpa using r1
      rw [set_other hx, set_other hx]
      apply e3
      rintro ⟨_, q2, q3⟩
      exact r2 ⟨by simpa using q2, ((hin r).1 ((List.prefix_append_right_inj _).1 q3)).1⟩

theorem files_holds {lower : Bytes → Bytes} {p : RPbo} {output : Path} : ∀ (hs : List Header) (paths : List Path)
    (fs : FS) (l : List (Path × Bytes)), Holds fs output l → hs.map Header.filename = paths.map joined →
    (∀ path ∈ paths, Plain path) → (l.map Prod.fst ++ paths).Pairwise Apart →
    (∀ path ∈ paths, (p.file lower (joined path)).isSome) →
    ∃ fs', files lower p fs output hs = (.ok (), fs') ∧
      Holds fs' output (l ++ paths.map fun path => (path, (p.file lower (joined path)).getD []))
  | [], paths, fs, l, h, hm, _, _, _ => by
    have : paths = [] := by simpa using hm.symm
    subst this
    exact ⟨fs, rfl, by simpa using h⟩
  | x :: hs, [], fs, l, h, hm, _, _, _ => by simp at hm
  | x :: hs, path :: paths, fs, l, h, hm, hp, ha, hi => by
    simp only [List.map_cons, List.cons.injEq] at hm
    obtain ⟨c, hc⟩ := Option.isSome_iff_exists.1 (hi path (List.mem_cons_self ..))
    have hapart : ∀ f ∈ l, Apart f.1 path := by
      intro f hf
      exact (List.pairwise_append.1 ha).2.2 f.1 (List.mem_map_of_mem hf) path (List.mem_cons_self ..)
    obtain ⟨fs1, e1, e2⟩ := place_holds c h (hp path (List.mem_cons_self ..)) hapart
    obtain ⟨fs2, e3, e4⟩ := files_holds hs paths _ _ e2 hm.2 (fun q hq => hp q (List.mem_cons_of_mem _ hq))
      (by simpa using ha) (fun q hq => hi q (List.mem_cons_of_mem _ hq))
    refine ⟨fs2, ?_, ?_⟩
    · rw [files, hm.1, e1]
      simp only [hc]
      exact e3
    · simpa [hc] using e4

theorem locate_isSome (lower : Bytes → Bytes) (name : Bytes) (hs : List Header) (off : Nat)
    (h : ∃ x ∈ hs, x.filename = norm name) : (locate lower name hs off).isSome := by
  induction hs generalizing off with
  | nil => simp at h
  | cons y hs ih =>
    rw [locate]
    split
    · rfl
    · rename_i hne
      obtain ⟨x, hx, e⟩ := h
      rcases List.mem_cons.1 hx with rfl | hx
      · exact absurd (by rw [e]) hne
      · exact ih _ ⟨x, hx, e⟩

theorem norm_joined {path : Path} (h : ∀ s ∈ path, ∀ b ∈ s, ¬ IsSep b) : norm (joined path) = joined path := by
  unfold norm
  conv_rhs => rw [← List.map_id (joined path)]
  apply List.map_congr_left
  intro b hb
  exact if_neg (fun e : b = 47 => joined_no_slash path h (e ▸ hb))

theorem apart_props : Apart [ascii "$PBOPREFIX$"] [ascii "properties.txt"] := by
  unfold Apart
  decide +kernel

theorem properties_holds {output : Path} : ∀ (ps done : List (Bytes × Bytes)) (fs : FS),
    ((done ++ ps).map Prod.fst).Nodup → Holds fs output (propertyFiles done) →
    ∃ fs', properties fs output ps = (.ok (), fs') ∧ Holds fs' output (propertyFiles (done ++ ps))
  | [], done, fs, _, h => ⟨fs, rfl, by simpa using h⟩
  | (k, v) :: ps, done, fs, hn, h => by
    have hrec := fun fs' => properties_holds (output := output) ps (done ++ [(k, v)]) fs' (by simpa using hn)
    rw [properties]
    split
    · rename_i hk
      subst hk
      have hno : done.filter (·.1 = prefixKey) = [] := by
        rw [List.filter_eq_nil_iff]
        intro kv hkv e
        simp only [decide_eq_true_eq] at e
        rw [List.map_append, List.nodup_append] at hn
        exact hn.2.2 _ (List.mem_map_of_mem hkv) _ (by simp) e
      have hd : propertyFiles (done ++ [(prefixKey, v)]) = ([ascii "$PBOPREFIX$"], v) :: propertyFiles done := by
        have e1 : (done ++ [(prefixKey, v)]).filter (·.1 ≠ prefixKey) = done.filter (·.1 ≠ prefixKey) := by
          simp [List.filter_append]
        have e2 : (done ++ [(prefixKey, v)]).filter (·.1 = prefixKey) = [(prefixKey, v)] := by
          simp [List.filter_append, hno]
        unfold propertyFiles
        rw [e1, e2, hno]
        rfl
      have ha : ∀ f ∈ propertyFiles done, Apart f.1 [ascii "$PBOPREFIX$"] := by
        intro f hf
        unfold propertyFiles at hf
        rw [hno] at hf
        split at hf
        · simp at hf
        · simp only [List.map_nil, List.nil_append, List.mem_singleton] at hf
          subst hf
          exact apart_props.symm
      have hat := not_at h (by simp) ha
      unfold create
      rw [hat]
      dsimp only
      rw [append, show (fs.set (output ++ [ascii "$PBOPREFIX$"]) (.file [])) (output ++ [ascii "$PBOPREFIX$"]) =
        some (.file []) from if_pos rfl]
      dsimp only
      have := holds_add (c := v) (fs3 := (fs.set (output ++ [ascii "$PBOPREFIX$"]) (.file [])).set
        (output ++ [ascii "$PBOPREFIX$"]) (.file v)) h (by simp) ha (if_pos rfl) (by
          intro r r1 r2 r3
          rcases List.prefix_cons_iff.1 r2 with e | ⟨t, e, et⟩
          · exact absurd e r1
          · rw [List.prefix_nil] at et
            subst et
            exact absurd e r3) (by
          intro r r1 _
          rw [set_other (by simpa using r1), set_other (by simpa using r1)])
      obtain ⟨fs2, e1, e2⟩ := hrec _ (by rw [hd]; exact holds_congr this (by intro x; simp [or_comm]))
      exact ⟨fs2, e1, by simpa using e2⟩
    · rename_i hk
      have hd : propertyFiles (done ++ [(k, v)]) = (done.filter (·.1 = prefixKey)).map
          (fun kv => ([ascii "$PBOPREFIX$"], kv.2)) ++ [([ascii "properties.txt"],
            ((done.filter (·.1 ≠ prefixKey)).flatMap fun kv => kv.1 ++ ascii "=" ++ kv.2 ++ ascii "\n") ++
            (k ++ ascii "=" ++ v ++ ascii "\n"))] := by
        simp [propertyFiles, List.filter_append, hk]
      have ha : ∀ f ∈ (done.filter (·.1 = prefixKey)).map (fun kv => (([ascii "$PBOPREFIX$"] : Path), kv.2)),
          Apart f.1 [ascii "properties.txt"] := by
        intro f hf
        obtain ⟨kv, _, rfl⟩ := List.mem_map.1 hf
        exact apart_props
      have hne : ∀ f ∈ (done.filter (·.1 = prefixKey)).map (fun kv => (([ascii "$PBOPREFIX$"] : Path), kv.2)),
          f.1 ≠ [ascii "properties.txt"] := by
        intro f hf e
        exact (ha f hf).1 (e ▸ List.prefix_rfl)
      by_cases ht : done.filter (·.1 ≠ prefixKey) = []
      · have hp : propertyFiles done = (done.filter (·.1 = prefixKey)).map
            (fun kv => ([ascii "$PBOPREFIX$"], kv.2)) := by
          simp only [propertyFiles, ht, if_true, List.append_nil]
        rw [hp] at h
        have hat := not_at h (by simp) ha
        unfold openAppend
        rw [hat]
        dsimp only
        rw [append, show (fs.set (output ++ [ascii "properties.txt"]) (.file [])) (output ++ [ascii "properties.txt"]) =
          some (.file []) from if_pos rfl]
        dsimp only
        have := holds_add (c := k ++ ascii "=" ++ v ++ ascii "\n")
          (fs3 := (fs.set (output ++ [ascii "properties.txt"]) (.file [])).set
          (output ++ [ascii "properties.txt"]) (.file (k ++ ascii "=" ++ v ++ ascii "\n"))) h (by simp) ha (if_pos rfl) (by
            intro r r1 r2 r3
            rcases List.prefix_cons_iff.1 r2 with e | ⟨t, e, et⟩
            · exact absurd e r1
            · rw [List.prefix_nil] at et
              subst et
              exact absurd e r3) (by
            intro r r1 _
            rw [set_other (by simpa using r1), set_other (by simpa using r1)])
        obtain ⟨fs2, e1, e2⟩ := hrec _ (by rw [hd, ht]; exact this)
        exact ⟨fs2, e1, by simpa using e2⟩
      · have hp : propertyFiles done = (done.filter (·.1 = prefixKey)).map
            (fun kv => ([ascii "$PBOPREFIX$"], kv.2)) ++ [([ascii "properties.txt"],
            (done.filter (·.1 ≠ prefixKey)).flatMap fun kv => kv.1 ++ ascii "=" ++ kv.2 ++ ascii "\n")] := by
          simp only [propertyFiles, ht, if_false]
        rw [hp] at h
        have hat := (h.file [ascii "properties.txt"] _).2 (List.mem_append_right _ (List.mem_singleton.2 rfl))
        unfold openAppend
        rw [hat]
        dsimp only
        rw [append, hat]
        dsimp only
        obtain ⟨fs2, e1, e2⟩ := hrec _ (by rw [hd]; exact holds_set h hne)
        exact ⟨fs2, e1, by simpa using e2⟩

/-- Unpacking gives what is in the archive: the output directory holds every file of the archive at its path with its
content, a file with the prefix and one with the other properties, and nothing else; nothing else changes. The file
names are to be ordinary ones, none of them lying in another or where the properties go. -/
theorem C41_contents (lower : Bytes → Bytes) (p : RPbo) (fs : FS) (output : Path) (paths : List Path)
    (ho : output ≠ []) (hod : ascii ".." ∉ output) (hnew : ∀ r, fs (output ++ r) = none)
    (hdir : ∀ q c, q <+: output → fs q ≠ some (.file c))
    (hp : p.headers.map Header.filename = paths.map joined) (hplain : ∀ path ∈ paths, Plain path)
    (hkeys : (p.properties.map Prod.fst).Nodup)
    (ha : ((propertyFiles p.properties).map Prod.fst ++ paths).Pairwise Apart) :
    ∃ fs', unpack lower p fs output = (.ok (), fs') ∧
      (∀ path ∈ paths, ∃ c, p.file lower (joined path) = some c) ∧
      Holds fs' output (propertyFiles p.properties ++
        paths.map fun path => (path, (p.file lower (joined path)).getD [])) ∧
      SameOutside output fs fs' := by
  have hout : ∀ x ∈ p.headers, ¬ Escapes x.filename := by
    intro x hx
    have : x.filename ∈ paths.map joined := hp ▸ List.mem_map_of_mem hx
    obtain ⟨path, hpath, e⟩ := List.mem_map.1 this
    rw [← e]
    have hpl := hplain path hpath
    have hs := split_joined path hpl.1 (fun s hs => (hpl.2 s hs).2.2.2)
    exact not_escapes_of hs hpl
  have hsome : ∀ path ∈ paths, (p.file lower (joined path)).isSome := by
    intro path hpath
    unfold RPbo.file
    rw [Option.isSome_map]
    apply locate_isSome
    have : joined path ∈ p.headers.map Header.filename := hp ▸ List.mem_map_of_mem hpath
    obtain ⟨x, hx, e⟩ := List.mem_map.1 this
    exact ⟨x, hx, by rw [e, norm_joined (fun s hs => ((hplain path hpath).2 s hs).2.2.2)]⟩
  have hsame := C41_contained_partial lower p fs output hod hout
  obtain ⟨fs1, e1, e2, e3⟩ := createDirAll_ok fs [] output hod (fun q c _ _ h => hdir q c (by simpa using h))
  have h0 : Holds fs1 output (propertyFiles []) := by
    have hd : fs1 output = some .dir := e2 output List.nil_prefix ho (by simp)
    have hn : ∀ r, r ≠ [] → fs1 (output ++ r) = none := by
      intro r hr
      rw [e3, hnew]
      rintro ⟨_, _, h⟩
      have := h.length_le
      simp only [List.length_append, List.nil_append] at this
      exact hr (List.length_eq_zero_iff.1 (by omega))
    constructor
    · intro r c
      by_cases hr : r = []
      · subst hr
        simp [hd, propertyFiles]
      · simp [hn r hr, propertyFiles]
    · intro r
      by_cases hr : r = []
      · subst hr
        simp [hd]
      · simp [hn r hr, hr, propertyFiles]
  obtain ⟨fs2, e4, e5⟩ := properties_holds p.properties [] fs1 (by simpa using hkeys) h0
  obtain ⟨fs3, e6, e7⟩ := files_holds (lower := lower) (p := p) p.headers paths fs2 _ e5 hp hplain (by simpa using ha) hsome
  have hu : unpack lower p fs output = (.ok (), fs3) := by
    unfold unpack
    have : fs output = none := by simpa using hnew []
    rw [this, e1]
    simp only [Option.isSome_none, Bool.false_eq_true, if_false, e4]
    exact e6
  rw [hu] at hsame
  exact ⟨fs3, hu, fun path hpath => Option.isSome_iff_exists.1 (hsome path hpath), e7, hsame⟩

theorem propertyFiles_perm {a b : List (Bytes × Bytes)} (h : a.Perm b)
    (he : a.filter (·.1 ≠ prefixKey) = b.filter (·.1 ≠ prefixKey)) : (propertyFiles a).Perm (propertyFiles b) := by
  unfold propertyFiles
  rw [he]
  exact ((h.filter _).map _).append_right _

/-- Packing and unpacking: an archive with ordinary file names, no two of them equal but for case, gives its files back. -/
theorem C41_round_trip (H lower : Bytes → Bytes) (hH : ∀ x, (H x).length = 20) (p : WPbo) (hv : Valid p)
    (hc : CaseDistinct lower p) (iter : List (Bytes × (Bytes × Header))) (hi : iter.Perm p.files)
    (pathOf : Bytes → Path)
    (hplain : ∀ e ∈ p.files, Plain (pathOf e.2.2.filename) ∧ joined (pathOf e.2.2.filename) = e.2.2.filename)
    (ha : ((propertyFiles p.properties).map Prod.fst ++ p.files.map fun e => pathOf e.2.2.filename).Pairwise Apart)
    (fs : FS) (output : Path) (ho : output ≠ []) (hod : ascii ".." ∉ output) (hnew : ∀ r, fs (output ++ r) = none)
    (hdir : ∀ q c, q <+: output → fs q ≠ some (.file c)) :
    ∃ out sum r fs', p.write H lower iter true = .ok (out, sum) ∧ RPbo.from out = .ok r ∧
      unpack lower r fs output = (.ok (), fs') ∧
      Holds fs' output (propertyFiles p.properties ++ p.files.map fun e => (pathOf e.2.2.filename, e.2.1)) ∧
      SameOutside output fs fs' := by
  obtain ⟨out, sum, r, h1, h2, h3, _, h5, _, h7⟩ := C07_round_trip H lower hH p hv iter hi true
  obtain ⟨h3a, _, h3c⟩ := h3 rfl
  obtain ⟨h7a, _⟩ := h7 hc
  have hmem : ∀ x ∈ r.headers, ∃ e ∈ p.files, e.2.2 = x := by
    intro x hx
    obtain ⟨e, he, e2⟩ := List.mem_map.1 (h5.mem_iff.1 hx)
    exact ⟨e, he, e2⟩
  have hpf := propertyFiles_perm h3a h3c
  have hfile : ∀ e ∈ p.files, r.file lower e.2.2.filename = some e.2.1 := by
    intro e he
    refine h7a e he _ ?_
    rw [(hv.files e he).normed]
  obtain ⟨fs', g1, g2, g3, g4⟩ := C41_contents lower r fs output (r.headers.map fun x => pathOf x.filename) ho hod hnew hdir
    (by
      rw [List.map_map]
      apply List.map_congr_left
      intro x hx
      obtain ⟨e, he, rfl⟩ := hmem x hx
      exact (hplain e he).2.symm)
    (by
      intro path hpath
      obtain ⟨x, hx, rfl⟩ := List.mem_map.1 hpath
      obtain ⟨e, he, rfl⟩ := hmem x hx
      exact (hplain e he).1)
    ((h3a.map _).nodup_iff.2 hv.propKeys)
    (by
      refine (List.Perm.pairwise_iff (fun h => ⟨h.2, h.1⟩) ?_).2 ha
      refine (hpf.map _).append ?_
      have := h5.map (fun x => pathOf x.filename)
      rw [List.map_map] at this
      exact this)
  refine ⟨out, sum, r, fs', h1, h2, g1, holds_congr g3 ?_, g4⟩
  intro x
  rw [List.mem_append, List.mem_append, hpf.mem_iff]
  refine or_congr Iff.rfl ?_
  rw [List.mem_map, List.mem_map]
  constructor
  · rintro ⟨path, hpath, rfl⟩
    obtain ⟨x, hx, rfl⟩ := List.mem_map.1 hpath
    obtain ⟨e, he, rfl⟩ := hmem x hx
    exact ⟨e, he, by rw [(hplain e he).2, hfile e he]; rfl⟩
  · rintro ⟨e, he, rfl⟩
    exact ⟨_, List.mem_map.2 ⟨e.2.2, h5.mem_iff.2 (List.mem_map_of_mem he), rfl⟩, by rw [(hplain e he).2, hfile e he]; rfl⟩

/-! ### Violations -/

/-- The root directory and nothing else. -/
def bare : FS := fun q => if q = [] then some .dir else none

/-- What an archive with one file looks like to the reader. -/
theorem read_one (name content : Bytes) (h : OpOk (.addFile name content)) (hn : norm name = name)
    (hl : content.length < 2 ^ 32) :
    ∃ bytes r, RPbo.from bytes = .ok r ∧ r.properties = [] ∧ (∃ x, r.headers = [x] ∧ x.filename = name) ∧
      r.file id name = some content := by
  have hv : Valid (runOps [.addFile name content]) := C07_valid_of_history _ (by simpa using h)
  have hf : (runOps [.addFile name content]).files = [(name, (content, Header.newForFile name content.length))] := by
    have : ¬ content.length > 2 ^ 32 - 1 := by omega
    simp only [runOps, List.foldl_cons, List.foldl_nil, apply, WPbo.addFile, this, if_false, hn]
    rfl
  obtain ⟨out, sum, r, _, h2, _, h4, h5, _, h7⟩ := C07_round_trip (fun _ => List.replicate 20 0) id (by simp) _ hv _
    (List.Perm.refl _) false
  have hx : CaseDistinct id (runOps [.addFile name content]) := by
    intro a ha b hb _
    rw [hf, List.mem_singleton] at ha hb
    rw [ha, hb]
  rw [hf] at h5
  refine ⟨out, r, h2, h4 rfl, ⟨_, List.perm_singleton.1 h5, rfl⟩, ?_⟩
  exact (h7 hx).1 (name, (content, Header.newForFile name content.length)) (by rw [hf]; exact List.mem_singleton.2 rfl)
    name (by simp [hn, Header.newForFile])

theorem unpack_one {r : RPbo} {fs : FS} {output : Path} {x : Header} {name content : Bytes} (h1 : r.properties = [])
    (h2 : r.headers = [x]) (h3 : x.filename = name) (h4 : r.file id name = some content) (hn : fs output = none)
    {d path : Path} {fs1 fs2 : FS} (hc : createDirAll fs [] output = (.ok d, fs1))
    (hp : place fs1 output name = (.ok path, fs2)) : (unpack id r fs output).2 = append fs2 path content := by
  unfold unpack
  rw [hn, hc, h1, h2]
  simp only [Option.isSome_none, Bool.false_eq_true, if_false, properties, files, h3, hp, h4]

/-- Violation: a file called `..\x` lands next to the output directory, one called `\x` in the root directory,
wherever the output directory is to be. -/
theorem C41_violated :
    (∃ bytes r, RPbo.from bytes = .ok r ∧
      (unpack id r bare [ascii "out"]).2 [ascii "x"] = some (.file [1])) ∧
    (∃ bytes r, RPbo.from bytes = .ok r ∧ ∀ fs output, fs output = none → fs [ascii "x"] = none →
      ascii ".." ∉ output → (∀ q c, q <+: output → fs q ≠ some (.file c)) → output.head? ≠ some (ascii "x") →
      (unpack id r fs output).2 [ascii "x"] = some (.file [1])) := by
  constructor
  · obtain ⟨bytes, r, h, h1, ⟨x, h2, h3⟩, h4⟩ := read_one (ascii "..\\x") [1]
      ⟨by decide +kernel, by decide +kernel, by decide +kernel⟩ (by decide +kernel) (by decide)
    refine ⟨bytes, r, h, ?_⟩
    rw [unpack_one h1 h2 h3 h4 (d := [ascii "out"]) (path := [ascii "x"]) (fs1 := bare.set [ascii "out"] .dir)
      (fs2 := (bare.set [ascii "out"] .dir).set [ascii "x"] (.file [])) (by decide +kernel) ?_ ?_]
    · decide +kernel
    · have : bare ([] ++ [ascii "out"]) = none := by decide +kernel
      rw [createDirAll, if_neg (by decide +kernel), this]
      rfl
    · have e1 : slashes (ascii "..\\x") = ascii "../x" := by decide +kernel
      have e2 : splitSlash (ascii "../x") = [ascii "..", ascii "x"] := by decide +kernel
      have e3 : components [ascii "..", ascii "x"] = [ascii "..", ascii "x"] := by decide +kernel
      have e4 : (ascii "../x").head? ≠ some 47 := by decide +kernel
      have e5 : ¬ (ascii "x" = [] ∨ ascii "x" = ascii "." ∨ ascii "x" = ascii "..") := by decide +kernel
      unfold place
      dsimp only
      rw [e1, e2, e3]
      simp only [e4, if_false, false_and, List.dropLast, createDirAll, if_true, List.getLast?_cons_cons,
        List.getLast?_singleton, Option.getD_some, e5, create, List.nil_append]
      rfl
  · obtain ⟨bytes, r, h, h1, ⟨x, h2, h3⟩, h4⟩ := read_one (ascii "\\x") [1]
      ⟨by decide +kernel, by decide +kernel, by decide +kernel⟩ (by decide +kernel) (by decide)
    refine ⟨bytes, r, h, ?_⟩
    intro fs output hn hx ho hd hh
    obtain ⟨fs1, g1, _, g3⟩ := createDirAll_ok fs [] output ho (fun q c _ _ h => hd q c (by simpa using h))
    have hx1 : fs1 [ascii "x"] = none := by
      rw [g3, hx]
      rintro ⟨_, _, t, ht⟩
      rw [List.nil_append] at ht
      rw [← ht] at hh
      exact hh rfl
    rw [unpack_one h1 h2 h3 h4 (path := [ascii "x"]) (fs2 := fs1.set [ascii "x"] (.file [])) hn g1 ?_]
    · rw [append, FS.set, if_pos rfl]
      exact if_pos rfl
    · have e1 : slashes (ascii "\\x") = ascii "/x" := by decide +kernel
      have e2 : splitSlash (ascii "/x") = [[], ascii "x"] := by decide +kernel
      have e3 : components [[], ascii "x"] = [ascii "x"] := by decide +kernel
      have e4 : (ascii "/x").head? = some 47 := by decide +kernel
      have e5 : ¬ (ascii "x" = [] ∨ ascii "x" = ascii "." ∨ ascii "x" = ascii "..") := by decide +kernel
      unfold place
      dsimp only
      rw [e1, e2, e3]
      simp only [e4, if_true, List.cons_ne_nil, and_false, if_false, List.dropLast, createDirAll, List.getLast?_cons_cons,
        List.getLast?_singleton, Option.getD_some, e5, create, List.nil_append, hx1]

/-! ### Cases -/

/-- An archive with a file in a directory, one beside it, a prefix and another property. -/
def sampleOps : List Op :=
  [.addFile (ascii "data/a.txt") (ascii "A"), .addFile (ascii "config.bin") (ascii "C"),
   .addProperty prefixKey (ascii "z\\main"), .addProperty (ascii "version") (ascii "1")]

def samplePath (name : Bytes) : Path :=
  if name = ascii "config.bin" then [ascii "config.bin"] else [ascii "data", ascii "a.txt"]

/-- It meets the hypotheses of `C41_round_trip`. -/
example : Valid (runOps sampleOps) ∧ CaseDistinct id (runOps sampleOps) ∧
    (∀ e ∈ (runOps sampleOps).files, Plain (samplePath e.2.2.filename) ∧
      joined (samplePath e.2.2.filename) = e.2.2.filename) ∧
    ((propertyFiles (runOps sampleOps).properties).map Prod.fst ++
      (runOps sampleOps).files.map fun e => samplePath e.2.2.filename).Pairwise Apart := by
  refine ⟨C07_valid_of_history _ ?_, ?_, ?_, ?_⟩
  · intro op hop
    simp only [sampleOps, List.mem_cons, List.not_mem_nil, or_false] at hop
    rcases hop with rfl | rfl | rfl | rfl
    · exact ⟨by decide +kernel, by decide +kernel, by decide +kernel⟩
    · exact ⟨by decide +kernel, by decide +kernel, by decide +kernel⟩
    · exact ⟨by decide +kernel, by decide +kernel, by decide +kernel, by decide +kernel, by decide +kernel⟩
    · exact ⟨by decide +kernel, by decide +kernel, by decide +kernel, by decide +kernel, by decide +kernel⟩
  · unfold CaseDistinct
    decide +kernel
  · unfold Plain IsSep
    decide +kernel
  · unfold Apart
    decide +kernel

example : propertyFiles (runOps sampleOps).properties =
    [([ascii "$PBOPREFIX$"], ascii "z\\main"), ([ascii "properties.txt"], ascii "version=1\n")] := by decide +kernel

/-- Names that escape, and names that do not. -/
example : Escapes (ascii "a\\..\\..\\b") := by
  refine Or.inr ⟨ascii "a\\", ascii "\\..\\b", by decide +kernel, ?_, ?_⟩
  · rintro b ⟨⟩
    exact Or.inr rfl
  · rintro b ⟨⟩
    exact Or.inr rfl
example : ¬ Escapes (ascii "a\\..b") := not_escapes_of (path := [ascii "a", ascii "..b"]) (by decide +kernel)
  (by unfold Plain IsSep; decide +kernel)

/-- A name with a slash in it stops the program: the file is looked up with a backslash instead. Only a file created
empty is left. -/
example (p : RPbo) (h : p.headers = [Header.newForFile (ascii "a/b") 1]) (hp : p.properties = []) :
    (unpack id p bare [ascii "out"]).1 = .error .panic := by
  have hf : p.file id (ascii "a/b") = none := by
    unfold RPbo.file
    rw [h]
    have : locate id (ascii "a/b") [Header.newForFile (ascii "a/b") 1] p.blobStart = none := by
      rw [locate, if_neg (by decide +kernel)]
      rfl
    rw [this]
    rfl
  have hc : ∃ fs1, createDirAll bare [] [ascii "out"] = (.ok [ascii "out"], fs1) ∧
      ∃ fs2, place fs1 [ascii "out"] (ascii "a/b") = (.ok [ascii "out", ascii "a", ascii "b"], fs2) := by
    have hb : bare ([] ++ [ascii "out"]) = none := by decide +kernel
    refine ⟨bare.set [ascii "out"] .dir, ?_, ?_⟩
    · rw [createDirAll, if_neg (by decide +kernel), hb]
      rfl
    · have : (place (bare.set [ascii "out"] .dir) [ascii "out"] (ascii "a/b")).1 =
          .ok [ascii "out", ascii "a", ascii "b"] := by decide +kernel
      exact ⟨_, Prod.ext this rfl⟩
  obtain ⟨fs1, h1, fs2, h2⟩ := hc
  have hn : bare [ascii "out"] = none := by decide +kernel
  unfold unpack
  rw [hn, h1, hp, h]
  simp only [Option.isSome_none, Bool.false_eq_true, if_false, properties, files, Header.newForFile, h2, hf]

end Verif.Unpack
