import Verif.Model.P3d
import Verif.Lib.IoLemmas
/-! Property C21: P3D models round-trip. -/
namespace Verif.P3d
open Io

/-! ### Specification -/

/-- A string that survives NUL-terminated storage: no NUL inside (and UTF-8, as every Rust string). -/
def OkName (s : Bytes) : Prop := (0 : UInt8) ∉ s ∧ isUtf8 s = true

/-- The faces the format can hold. -/
def Face.Valid (f : Face) : Prop :=
  (f.vertices.length = 3 ∨ f.vertices.length = 4) ∧ OkName f.texture ∧ OkName f.material

/-- The levels of detail the format can hold: 32-bit counts, distinct section names other than the end marker. -/
structure Lod.Valid (l : Lod) : Prop where
  points : l.points.length < 2 ^ 32
  normals : l.normals.length < 2 ^ 32
  faces : l.faces.length < 2 ^ 32
  face : ∀ f ∈ l.faces, f.Valid
  distinct : (l.taggs.map Prod.fst).Nodup
  tagg : ∀ t ∈ l.taggs, OkName t.1 ∧ t.1 ≠ ascii "#EndOfFile#" ∧ t.2.length < 2 ^ 32

def Model.Valid (m : Model) : Prop := m.lods.length < 2 ^ 32 ∧ ∀ l ∈ m.lods, l.Valid

/-! ### Reading back what was written -/

@[simp] theorem rU32_le (x : Nat) (h : x < 2 ^ 32) (rest : Bytes) :
    rU32 (le32 x ++ rest) = .ok (UInt32.ofNat x, rest) := by
  unfold rU32
  rw [readLe_leBytes rest (by omega)]

@[simp] theorem rU32_w (x : UInt32) (rest : Bytes) : rU32 (wU32 x ++ rest) = .ok (x, rest) := by
  unfold wU32
  rw [rU32_le _ x.toNat_lt]
  simp

theorem point_rt (p : Point) (rest : Bytes) : Point.read (p.write ++ rest) = .ok (p, rest) := by
  simp [Point.read, Point.write, bind, Except.bind]

theorem vertex_rt (p : Vertex) (rest : Bytes) : Vertex.read (p.write ++ rest) = .ok (p, rest) := by
  simp [Vertex.read, Vertex.write, bind, Except.bind]

theorem normal_rt (n : UInt32 × UInt32 × UInt32) (rest : Bytes) :
    readNormal (writeNormal n ++ rest) = .ok (n, rest) := by
  simp [readNormal, writeNormal, bind, Except.bind]

theorem readN_flatMap {α : Type} (r : Reader α) (w : α → Bytes) (h : ∀ a rest, r (w a ++ rest) = .ok (a, rest)) :
    ∀ (l : List α) (rest : Bytes), readN r l.length (l.flatMap w ++ rest) = .ok (l, rest)
  | [], rest => rfl
  | a :: l, rest => by
    simp only [List.flatMap_cons, List.length_cons, readN, List.append_assoc, h, readN_flatMap r w h l]

theorem face_rt (f : Face) (hf : f.Valid) :
    ∃ b, f.write = .ok b ∧ ∀ rest, Face.read (b ++ rest) = .ok (f, rest) := by
  obtain ⟨hn, ⟨ht, htu⟩, hm, hmu⟩ := hf
  refine ⟨_, by unfold Face.write; rw [if_neg (by omega), if_neg (by omega)], fun rest => ?_⟩
  have hv := fun rest => readN_flatMap Vertex.read Vertex.write vertex_rt f.vertices rest
  unfold Face.read
  rcases hn with hn | hn
  · simp only [hn] at hv
    simp [bind, Except.bind, hn, hv, vertex_rt, readCString_write _ ht htu, readCString_write _ hm hmu]
  · simp only [hn] at hv
    simp [bind, Except.bind, hn, hv, readCString_write _ ht htu, readCString_write _ hm hmu]

theorem writeAll_rt {α : Type} (r : Reader α) (w : α → Except Err Bytes) (P : α → Prop)
    (h : ∀ a, P a → ∃ b, w a = .ok b ∧ ∀ rest, r (b ++ rest) = .ok (a, rest)) :
    ∀ (l : List α), (∀ a ∈ l, P a) →
      ∃ bs, writeAll w l = .ok bs ∧ ∀ rest, readN r l.length (bs ++ rest) = .ok (l, rest)
  | [], _ => ⟨[], rfl, fun _ => rfl⟩
  | a :: l, hl => by
    obtain ⟨b, hb, hr⟩ := h a (hl a (by simp))
    obtain ⟨bs, hbs, hrs⟩ := writeAll_rt r w P h l (fun x hx => hl x (by simp [hx]))
    refine ⟨b ++ bs, by simp only [writeAll, hb, hbs], fun rest => ?_⟩
    simp only [List.length_cons, readN, List.append_assoc, hr, hrs]

theorem taggs_write : ∀ (ts : List (Bytes × Bytes)), (∀ t ∈ ts, t.2.length < 2 ^ 32) →
    ∃ bs, writeAll writeTagg ts = .ok bs ∧ ts.length ≤ bs.length
  | [], _ => ⟨[], rfl, by simp⟩
  | t :: ts, h => by
    obtain ⟨bs, hbs, hl⟩ := taggs_write ts (fun x hx => h x (by simp [hx]))
    have := h t (by simp)
    refine ⟨[1] ++ writeCString t.1 ++ le32 t.2.length ++ t.2 ++ bs,
      by simp only [writeAll, writeTagg, if_neg (show ¬ 2 ^ 32 ≤ t.2.length by omega), hbs], ?_⟩
    simp; omega

theorem insert_new {m : List (Bytes × Bytes)} {k v : Bytes} (h : k ∉ m.map Prod.fst) :
    IMap.insert m k v = m ++ [(k, v)] := by
  induction m with
  | nil => rfl
  | cons x m ih =>
    obtain ⟨a, b⟩ := x
    simp only [List.map_cons, List.mem_cons, not_or] at h
    have : ¬ a = k := fun e => h.1 e.symm
    simp [IMap.insert, this, ih h.2]

theorem endName_ok : OkName endName := ⟨by decide +kernel, by decide +kernel⟩

theorem readTaggs_step (f : Nat) (acc : List (Bytes × Bytes)) (name buf rest : Bytes) (h : OkName name)
    (hl : buf.length < 2 ^ 32) :
    readTaggs (f + 1) acc ([1] ++ writeCString name ++ (le32 buf.length ++ (buf ++ rest))) =
      if name = endName then .ok (acc, rest) else readTaggs f (IMap.insert acc name buf) rest := by
  have h1 : List.drop 1 ([1] ++ writeCString name ++ (le32 buf.length ++ (buf ++ rest))) =
      writeCString name ++ (le32 buf.length ++ (buf ++ rest)) := rfl
  have hlt : (UInt32.ofNat buf.length).toNat = buf.length := by simp; omega
  rw [readTaggs, h1, readCString_write _ h.1 h.2]
  dsimp only
  rw [rU32_le _ hl]
  simp only [bind, Except.bind, hlt, takeN_append]

theorem taggs_rt : ∀ (ts acc : List (Bytes × Bytes)) (bs : Bytes) (f : Nat) (rest : Bytes),
    ((acc ++ ts).map Prod.fst).Nodup →
    (∀ t ∈ ts, OkName t.1 ∧ t.1 ≠ endName ∧ t.2.length < 2 ^ 32) →
    writeAll writeTagg ts = .ok bs → ts.length < f →
    readTaggs f acc (bs ++ (writeCString ([1] ++ endName) ++ (le32 0 ++ rest))) = .ok (acc ++ ts, rest) := by
  intro ts
  induction ts with
  | nil =>
    intro acc bs f rest _ _ hw hf
    obtain ⟨f, rfl⟩ := Nat.exists_eq_add_of_le' (show 1 ≤ f from hf)
    simp only [writeAll, Except.ok.injEq] at hw
    subst hw
    have := readTaggs_step f acc endName [] rest endName_ok (by simp)
    rw [if_pos rfl] at this
    simpa [writeCString] using this
  | cons t ts ih =>
    intro acc bs f rest hd ht hw hf
    obtain ⟨f, rfl⟩ := Nat.exists_eq_add_of_le' (show 1 ≤ f by simp at hf; omega)
    obtain ⟨⟨hn, hu⟩, hne, hl⟩ := ht t (by simp)
    simp only [writeAll, writeTagg, if_neg (show ¬ 2 ^ 32 ≤ t.2.length by omega)] at hw
    cases hts : writeAll writeTagg ts with
    | error e => simp [hts] at hw
    | ok bs' =>
      simp only [hts, Except.ok.injEq] at hw
      subst hw
      have h1 := readTaggs_step f acc t.1 t.2 (bs' ++ (writeCString ([1] ++ endName) ++ (le32 0 ++ rest))) ⟨hn, hu⟩ hl
      rw [if_neg hne] at h1
      have hnew : t.1 ∉ acc.map Prod.fst := by
        intro hm
        rw [List.map_append, List.nodup_append] at hd
        exact hd.2.2 _ hm _ (by simp) rfl
      rw [insert_new hnew] at h1
      have := ih (acc ++ [(t.1, t.2)]) bs' f rest (by simpa using hd) (fun x hx => ht x (by simp [hx])) hts
        (by simp at hf; omega)
      rw [this] at h1
      simpa only [List.append_assoc, List.cons_append, List.nil_append] using h1

theorem lod_rt (l : Lod) (h : l.Valid) :
    ∃ b, l.write = .ok b ∧ ∀ rest, Lod.read (b ++ rest) = .ok (l, rest) := by
  obtain ⟨fs, hfs, hfr⟩ := writeAll_rt Face.read Face.write Face.Valid face_rt l.faces h.face
  obtain ⟨ts, hts, htl⟩ := taggs_write l.taggs (fun t ht => (h.tagg t ht).2.2)
  have hp := h.points; have hn := h.normals; have hf := h.faces
  refine ⟨_, by
    unfold Lod.write
    rw [if_neg (by omega)]
    simp only [hfs, hts, bind, Except.bind]
    rfl, fun rest => ?_⟩
  have e : ∀ x, x < 2 ^ 32 → (UInt32.ofNat x).toNat = x := fun x hx => by simp; omega
  have hpr := fun rest => readN_flatMap Point.read Point.write point_rt l.points rest
  have hnr := fun rest => readN_flatMap readNormal writeNormal normal_rt l.normals rest
  have hmag : ∀ (s : Bytes), takeN 4 (ascii "P3DM" ++ s) = .ok (ascii "P3DM", s) := fun s => takeN_append _ s
  have htag : ∀ (s : Bytes), takeN 4 (ascii "TAGG" ++ s) = .ok (ascii "TAGG", s) := fun s => takeN_append _ s
  have hd4 : ∀ (s : Bytes), List.drop 4 ([0, 0, 0, 0] ++ s) = s := fun s => rfl
  unfold Lod.read
  simp only [List.append_assoc, hmag, bind, Except.bind, ne_eq, not_true, if_false, rU32_w, rU32_le _ hp,
    rU32_le _ hn, rU32_le _ hf, hd4, e _ hp, e _ hn, e _ hf, hpr, hnr, hfr, htag]
  have := taggs_rt l.taggs [] ts ((ts ++ (writeCString ([1] ++ endName) ++ (le32 0 ++ (wU32 l.resolution ++ rest)))).length + 1)
    (wU32 l.resolution ++ rest) (by simpa using h.distinct) h.tagg hts
    (by simp only [List.length_append]; omega)
  simp only [List.nil_append] at this
  rw [this]
  simp

theorem model_rt (m : Model) (h : m.Valid) :
    ∃ b, m.write = .ok b ∧ ∀ rest, Model.read (b ++ rest) = .ok (m, rest) := by
  obtain ⟨ls, hls, hlr⟩ := writeAll_rt Lod.read Lod.write Lod.Valid lod_rt m.lods h.2
  refine ⟨_, by
    unfold Model.write
    rw [if_neg (by have := h.1; omega)]
    simp only [hls, bind, Except.bind]
    rfl, fun rest => ?_⟩
  have hmag : ∀ (s : Bytes), takeN 4 (ascii "MLOD" ++ s) = .ok (ascii "MLOD", s) := fun s => takeN_append _ s
  have e : (UInt32.ofNat m.lods.length).toNat = m.lods.length := by have := h.1; simp; omega
  unfold Model.read
  simp only [List.append_assoc, hmag, bind, Except.bind, ne_eq, not_true, if_false, rU32_w, rU32_le _ h.1, e, hlr]

/-! ### What reading produces -/

/-- The result satisfies `P` and leaves at most `n` bytes, or is an error other than a panic. -/
def Res {α : Type} (P : α → Prop) (n : Nat) (e : Except Err (α × Bytes)) : Prop :=
  (∀ a rest, e = .ok (a, rest) → P a ∧ rest.length ≤ n) ∧ e ≠ .error .panic

theorem res_ok {α : Type} {P : α → Prop} {n : Nat} {a : α} {rest : Bytes} (h1 : P a) (h2 : rest.length ≤ n) :
    Res P n (.ok (a, rest)) :=
  ⟨fun a' r' e => by simp only [Except.ok.injEq, Prod.mk.injEq] at e; rw [← e.1, ← e.2]; exact ⟨h1, h2⟩, by simp⟩

theorem res_parse {α : Type} {P : α → Prop} {n : Nat} : Res P n (.error .parse) := ⟨by simp, by simp⟩

/-- Everything `r` produces satisfies `P`, it never panics, and it does not grow the input. -/
def Makes {α : Type} (r : Reader α) (P : α → Prop) : Prop := ∀ bs, Res P bs.length (r bs)

theorem res_bind {α β : Type} {P : α → Prop} {m n : Nat} {e : Except Err (α × Bytes)} (h : Res P m e)
    {Q : β → Prop} {k : α × Bytes → Except Err (β × Bytes)}
    (hk : ∀ a rest, e = .ok (a, rest) → P a → rest.length ≤ m → Res Q n (k (a, rest))) :
    Res Q n (e >>= k) := by
  cases e with
  | error e => exact ⟨by simp [bind, Except.bind], by simpa [bind, Except.bind] using h.2⟩
  | ok v =>
    obtain ⟨a, rest⟩ := v
    have := h.1 a rest rfl
    exact hk a rest rfl this.1 this.2

theorem makes_bind {α β : Type} {r : Reader α} {P : α → Prop} (h : Makes r P) {Q : β → Prop} {bs : Bytes} {n : Nat}
    (hn : bs.length ≤ n) {k : α × Bytes → Except Err (β × Bytes)}
    (hk : ∀ a rest, r bs = .ok (a, rest) → P a → rest.length ≤ n → Res Q n (k (a, rest))) :
    Res Q n (r bs >>= k) :=
  res_bind (h bs) fun a rest h1 h2 h3 => hk a rest h1 h2 (Nat.le_trans h3 hn)

theorem makes_takeN (n : Nat) : Makes (takeN n) (fun b => b.length = n) := by
  intro bs
  unfold takeN
  split
  · exact ⟨by simp, by simp⟩
  · exact res_ok (by simp; omega) (by simp)

theorem makes_u32 : Makes rU32 (fun _ => True) := by
  intro bs
  have := makes_takeN 4 bs
  unfold rU32 readLe
  cases h : takeN 4 bs with
  | error e => rw [h] at this; exact ⟨by simp, by simpa using this.2⟩
  | ok v => obtain ⟨v, r⟩ := v; rw [h] at this; exact res_ok trivial (this.1 v r rfl).2

theorem cstring_length (bs : Bytes) : (readCString bs).2.length ≤ bs.length := by
  unfold readCString
  dsimp only
  induction bs with
  | nil => simp [cstringBytes]
  | cons b bs ih =>
    simp only [cstringBytes]
    split
    · simp
    · simp at ih ⊢; omega

theorem cstring_ok (bs : Bytes) : OkName (readCString bs).1 := by
  unfold readCString
  dsimp only
  split
  · rename_i h; exact ⟨cstringBytes_no_zero bs, h⟩
  · exact ⟨by simp, by decide⟩

theorem makes_readN {α : Type} {r : Reader α} {P : α → Prop} (h : Makes r P) :
    ∀ n, Makes (readN r n) (fun l => l.length = n ∧ ∀ a ∈ l, P a)
  | 0, bs => res_ok (by simp) (Nat.le_refl _)
  | n+1, bs => by
    have h1 := h bs
    simp only [readN]
    cases hr : r bs with
    | error e => rw [hr] at h1; exact ⟨by simp, by simpa using h1.2⟩
    | ok v =>
      obtain ⟨a, rest⟩ := v
      have h1 := h1.1 a rest hr
      have h2 := makes_readN h n rest
      dsimp only
      cases hr2 : readN r n rest with
      | error e => rw [hr2] at h2; exact ⟨by simp, by simpa using h2.2⟩
      | ok v =>
        obtain ⟨as, rest'⟩ := v
        have h2 := h2.1 as rest' hr2
        refine res_ok ⟨by simp [h2.1.1], ?_⟩ (by omega)
        intro x hx
        rcases List.mem_cons.1 hx with rfl | hx
        · exact h1.1
        · exact h2.1.2 x hx

theorem makes_quad {α : Type} (f : UInt32 → UInt32 → UInt32 → UInt32 → α) :
    Makes (fun bs => do
      let (x, bs) ← rU32 bs
      let (y, bs) ← rU32 bs
      let (z, bs) ← rU32 bs
      let (w, bs) ← rU32 bs
      .ok (f x y z w, bs)) (fun _ => True) := by
  intro bs
  refine makes_bind makes_u32 (Nat.le_refl _) fun a1 r1 _ _ h1 => ?_
  refine makes_bind makes_u32 h1 fun a2 r2 _ _ h2 => ?_
  refine makes_bind makes_u32 h2 fun a3 r3 _ _ h3 => ?_
  refine makes_bind makes_u32 h3 fun a4 r4 _ _ h4 => ?_
  exact res_ok trivial h4

theorem makes_point : Makes Point.read (fun _ => True) := makes_quad Point.mk
theorem makes_vertex : Makes Vertex.read (fun _ => True) := makes_quad Vertex.mk
theorem makes_normal : Makes readNormal (fun _ => True) := by
  intro bs
  refine makes_bind makes_u32 (Nat.le_refl _) fun a1 r1 _ _ h1 => ?_
  refine makes_bind makes_u32 h1 fun a2 r2 _ _ h2 => ?_
  refine makes_bind makes_u32 h2 fun a3 r3 _ _ h3 => ?_
  exact res_ok trivial h3

theorem makes_face : Makes Face.read Face.Valid := by
  intro bs
  refine makes_bind makes_u32 (Nat.le_refl _) fun n r1 _ _ h1 => ?_
  dsimp only
  split
  · exact res_parse
  · rename_i hn
    have hn' : n.toNat = 3 ∨ n.toNat = 4 := by
      by_cases h3 : n = 3
      · subst h3; exact .inl rfl
      · by_cases h4 : n = 4
        · subst h4; exact .inr rfl
        · exact absurd ⟨h3, h4⟩ hn
    refine makes_bind (makes_readN makes_vertex n.toNat) h1 fun vs r2 _ hvs h2 => ?_
    have tail : ∀ r3 : Bytes, r3.length ≤ bs.length → Res Face.Valid bs.length (rU32 r3 >>= fun x =>
        match x with
        | (flags, bs) => Except.ok ((⟨vs, flags, (readCString bs).1, (readCString (readCString bs).2).1⟩,
            (readCString (readCString bs).2).2) : Face × Bytes)) := by
      intro r3 h3
      refine makes_bind makes_u32 h3 fun flags r4 _ _ h4 => ?_
      refine res_ok ⟨by have := hvs.1; dsimp only; omega, cstring_ok _, cstring_ok _⟩ ?_
      have := cstring_length r4
      have := cstring_length (readCString r4).2
      omega
    by_cases h3 : n = 3
    · simp only [h3, if_true]
      have hv := makes_vertex r2
      cases hr : Vertex.read r2 with
      | error e => rw [hr] at hv; exact ⟨by simp [bind, Except.bind], by simpa [bind, Except.bind] using hv.2⟩
      | ok v =>
        obtain ⟨v, r3⟩ := v
        exact tail r3 (Nat.le_trans (hv.1 v r3 hr).2 h2)
    · simp only [h3, if_false]
      exact tail r2 h2

/-- What the section map satisfies while it is being built. -/
def TaggsOk (ts : List (Bytes × Bytes)) : Prop :=
  (ts.map Prod.fst).Nodup ∧ ∀ t ∈ ts, OkName t.1 ∧ t.1 ≠ endName ∧ t.2.length < 2 ^ 32

theorem insert_mem {m : List (Bytes × Bytes)} {k v : Bytes} {x : Bytes × Bytes} (h : x ∈ IMap.insert m k v) :
    x = (k, v) ∨ x ∈ m := by
  induction m with
  | nil => simpa [IMap.insert] using h
  | cons y m ih =>
    obtain ⟨a, b⟩ := y
    simp only [IMap.insert] at h
    split at h
    · rcases List.mem_cons.1 h with h | h
      · exact .inl h
      · exact .inr (by simp [h])
    · rcases List.mem_cons.1 h with h | h
      · exact .inr (by simp [h])
      · rcases ih h with h | h
        · exact .inl h
        · exact .inr (by simp [h])

theorem rU32_consumes {bs : Bytes} {a : UInt32} {rest : Bytes} (h : rU32 bs = .ok (a, rest)) :
    bs.length = rest.length + 4 := by
  unfold rU32 readLe takeN at h
  by_cases h4 : bs.length < 4
  · simp [h4] at h
  · simp only [h4, if_false, Except.ok.injEq, Prod.mk.injEq] at h
    rw [← h.2]; simp; omega

theorem makes_taggs : ∀ (f : Nat) (ts : List (Bytes × Bytes)) (bs : Bytes), TaggsOk ts → bs.length < f →
    Res TaggsOk bs.length (readTaggs f ts bs) := by
  intro f
  induction f with
  | zero => intro ts bs _ h; omega
  | succ f ih =>
    intro ts bs hts hf
    unfold readTaggs
    dsimp only
    have hc := cstring_length (bs.drop 1)
    have hname := cstring_ok (bs.drop 1)
    generalize (readCString (bs.drop 1)).1 = name at hname
    generalize (readCString (bs.drop 1)).2 = r0 at hc
    have hr0 : r0.length ≤ bs.length := by simp at hc; omega
    refine makes_bind makes_u32 hr0 fun size r1 he1 _ h1 => ?_
    have hlt := rU32_consumes he1
    refine makes_bind (makes_takeN size.toNat) h1 fun buf r2 he2 hb h2 => ?_
    have hle : r2.length ≤ r1.length := by
      exact ((makes_takeN size.toNat r1).1 _ _ he2).2
    dsimp only
    split
    · exact res_ok hts h2
    · rename_i hne
      have hts' : TaggsOk (IMap.insert ts name buf) := by
        constructor
        · have := IMap.keys_insert ts name buf
          unfold IMap.keys at this
          rw [this]
          split
          · exact hts.1
          · rename_i hnm
            rw [List.nodup_append]
            exact ⟨hts.1, by simp, by rintro a ha b hb rfl; simp at hb; subst hb; exact hnm ha⟩
        · intro t ht
          rcases insert_mem ht with rfl | h
          · exact ⟨hname, hne, by have := size.toNat_lt; dsimp only; omega⟩
          · exact hts.2 t h
      have := ih _ r2 hts' (by omega)
      exact ⟨fun a r e => ⟨(this.1 a r e).1, by have := (this.1 a r e).2; omega⟩, this.2⟩

theorem makes_lod : Makes Lod.read Lod.Valid := by
  intro bs
  refine makes_bind (makes_takeN 4) (Nat.le_refl _) fun magic r _ _ h => ?_
  dsimp only
  split
  · exact res_parse
  · refine makes_bind makes_u32 h fun major r _ _ h => ?_
    refine makes_bind makes_u32 h fun minor r _ _ h => ?_
    refine makes_bind makes_u32 h fun np r _ _ h => ?_
    refine makes_bind makes_u32 h fun nn r _ _ h => ?_
    refine makes_bind makes_u32 h fun nf r _ _ h => ?_
    have h : (r.drop 4).length ≤ bs.length := by simp; omega
    refine makes_bind (makes_readN makes_point np.toNat) h fun ps r _ hp h => ?_
    refine makes_bind (makes_readN makes_normal nn.toNat) h fun ns r _ hn h => ?_
    refine makes_bind (makes_readN makes_face nf.toNat) h fun fs r _ hf h => ?_
    refine makes_bind (makes_takeN 4) h fun tagg r _ _ h => ?_
    dsimp only
    split
    · exact res_parse
    · refine res_bind (makes_taggs (r.length + 1) [] r ⟨by simp, by simp⟩ (by omega)) fun ts r' _ ht h' => ?_
      refine makes_bind makes_u32 (Nat.le_trans h' h) fun res r _ _ h => ?_
      have a1 := np.toNat_lt
      have a2 := nn.toNat_lt
      have a3 := nf.toNat_lt
      exact res_ok ⟨by dsimp only; omega, by dsimp only; omega, by dsimp only; omega, hf.2, ht.1, ht.2⟩ h

theorem makes_model (bs : Bytes) : Res Model.Valid bs.length (Model.read bs) := by
  unfold Model.read
  refine makes_bind (makes_takeN 4) (Nat.le_refl _) fun magic r _ _ h => ?_
  dsimp only
  split
  · exact res_parse
  · refine makes_bind makes_u32 h fun version r _ _ h => ?_
    refine makes_bind makes_u32 h fun n r _ _ h => ?_
    refine makes_bind (makes_readN makes_lod n.toNat) h fun ls r _ hl h => ?_
    have := n.toNat_lt
    exact res_ok ⟨by dsimp only; omega, hl.2⟩ h

/-! ### The property -/

/-- C21: every model the format can hold is written, and reading the file back (whatever follows it) yields the same
model. -/
theorem C21_round_trip (m : Model) (h : m.Valid) :
    ∃ b, m.write = .ok b ∧ ∀ rest, Model.read (b ++ rest) = .ok (m, rest) := model_rt m h

/-- C21: whatever file a model was read from, writing that model succeeds and reading it again yields the same
model. -/
theorem C21_read_write_read (file : Bytes) (m : Model) (rest : Bytes) (h : Model.read file = .ok (m, rest)) :
    ∃ b, m.write = .ok b ∧ Model.read b = .ok (m, []) := by
  obtain ⟨b, h1, h2⟩ := model_rt m ((makes_model file).1 m rest h).1
  exact ⟨b, h1, by simpa using h2 []⟩

/-- C21: reading any bytes ends with a model or an error value, never with a crash. -/
theorem C21_read_no_panic (file : Bytes) : Model.read file ≠ .error .panic :=
  (makes_model file).2

/-! ### Non-vacuity -/

/-- A model with a triangle, a quad and a section. -/
def exModel : Model :=
  ⟨257, [⟨28, 256, 0x3f800000, [⟨0, 1, 2, 3⟩], [(4, 5, 6)],
    [⟨[⟨0, 0, 1, 2⟩, ⟨0, 0, 3, 4⟩, ⟨0, 0, 5, 6⟩], 7, ascii "a\\b.paa", []⟩,
     ⟨[⟨0, 0, 1, 2⟩, ⟨0, 0, 3, 4⟩, ⟨0, 0, 5, 6⟩, ⟨0, 0, 7, 8⟩], 9, ascii "#(argb)", ascii "m.rvmat"⟩],
    [(ascii "#Mass#", [0, 1, 0, 255]), (ascii "sel", [])]⟩]⟩

theorem exModel_valid : exModel.Valid := by
  refine ⟨by decide, ?_⟩
  intro l hl
  simp only [exModel, List.mem_cons, List.not_mem_nil, or_false] at hl
  subst hl
  refine ⟨by decide, by decide, by decide, ?_, by decide, ?_⟩
  · intro f hf
    simp only [List.mem_cons, List.not_mem_nil, or_false] at hf
    rcases hf with rfl | rfl <;> (unfold Face.Valid OkName; decide +kernel)
  · intro t ht
    simp only [List.mem_cons, List.not_mem_nil, or_false] at ht
    rcases ht with rfl | rfl <;> (unfold OkName; decide +kernel)

example : ∃ b, exModel.write = .ok b ∧ Model.read b = .ok (exModel, []) := by
  obtain ⟨b, h1, h2⟩ := C21_round_trip exModel exModel_valid
  exact ⟨b, h1, by simpa using h2 []⟩

/-- The restriction on names matters: a section called like the end marker is lost with everything after it. -/
example : (match Lod.write ⟨0, 0, 0, [], [], [], [(endName, []), (ascii "x", [])]⟩ with
    | .ok b => (Lod.read b).map (fun (r : Lod × Bytes) => r.1.taggs)
    | .error e => .error e) = .ok [] := by decide +kernel

end Verif.P3d
