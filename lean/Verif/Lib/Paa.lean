import Verif.Spec.Paa
import Verif.Props.Lzo
import Mathlib.Tactic.Ring
/-!
Lemmas for C85 to C87.
-/
namespace Verif.Paa

theorem code_eq (p : Pax) : code p = p.asBytes := by cases p <;> rfl

theorem codec_eq {p : Pax} {f : Format} : codec p = some f ↔ p.format = .ok f := by
  cases p <;> simp [codec, Pax.format]

/-! ### Tags -/

theorem takeN_ok {n : Nat} {bs a r : Bytes} : takeN n bs = .ok (a, r) ↔ bs = a ++ r ∧ a.length = n := by
  rw [takeN]
  split
  · rename_i h
    constructor
    · intro h'; simp at h'
    · rintro ⟨rfl, rfl⟩; simp at h
  · rename_i h
    constructor
    · intro h'
      simp only [Except.ok.injEq, Prod.mk.injEq] at h'
      obtain ⟨rfl, rfl⟩ := h'
      exact ⟨(List.take_append_drop n bs).symm, by rw [List.length_take]; omega⟩
    · rintro ⟨rfl, rfl⟩; simp

theorem readLe_ok {n v : Nat} {bs r : Bytes} : readLe n bs = .ok (v, r) ↔ bs = leBytes n v ++ r ∧ v < 256 ^ n := by
  rw [readLe]
  constructor
  · intro h
    split at h
    · rename_i a r' ha
      simp only [Except.ok.injEq, Prod.mk.injEq] at h
      obtain ⟨rfl, rfl⟩ := h
      obtain ⟨rfl, rfl⟩ := takeN_ok.1 ha
      exact ⟨by rw [leBytes_leValue], leValue_lt a⟩
    · simp at h
  · rintro ⟨rfl, h⟩
    rw [takeN_append' (leBytes_length n v)]
    simp [leValue_leBytes_of_lt h]

theorem find_filter_ne {name name' : Bytes} (h : name ≠ name') (tags : List (Bytes × Bytes)) :
    (tags.filter fun t => t.1 ≠ name).find? (fun t => t.1 = name') = tags.find? fun t => t.1 = name' := by
  induction tags with
  | nil => rfl
  | cons t tags ih =>
    by_cases h1 : t.1 = name
    · rw [List.filter_cons_of_neg (by simp [h1]), ih, List.find?_cons_of_neg (by simp [h1, h])]
    · rw [List.filter_cons_of_pos (by simp [h1])]
      by_cases h2 : t.1 = name'
      · rw [List.find?_cons_of_pos (by simp [h2]), List.find?_cons_of_pos (by simp [h2])]
      · rw [List.find?_cons_of_neg (by simp [h2]), List.find?_cons_of_neg (by simp [h2]), ih]

theorem getTag_insertTag {name data name' : Bytes} {tags : List (Bytes × Bytes)} :
    getTag name' (insertTag name data tags) = if name = name' then some data else getTag name' tags := by
  rw [getTag, insertTag]
  split
  · rename_i h
    rw [List.find?_cons_of_pos (by simp [h])]
    rfl
  · rename_i h
    rw [List.find?_cons_of_neg (by simp [h]), find_filter_ne h]
    rfl

/-- What the loop over the tags holds after `l`. -/
def after (l tags : List (Bytes × Bytes)) : List (Bytes × Bytes) :=
  l.foldl (fun tags t => insertTag t.1 t.2 tags) tags

theorem getTag_after {name : Bytes} (l tags : List (Bytes × Bytes)) :
    getTag name (after l tags) = match lastTag name l with
      | some d => some d
      | none => getTag name tags := by
  induction l generalizing tags with
  | nil => rfl
  | cons t l ih =>
    rw [after, List.foldl_cons, ← after, ih, getTag_insertTag, lastTag, lastTag, List.reverse_cons, List.find?_append]
    cases hf : l.reverse.find? fun t => t.1 = name with
    | some x => rfl
    | none =>
      by_cases h : t.1 = name
      · simp [h]
      · simp [h]

theorem nodup_after (l : List (Bytes × Bytes)) : ∀ (tags : List (Bytes × Bytes)), (tags.map Prod.fst).Nodup →
    ((after l tags).map Prod.fst).Nodup := by
  induction l with
  | nil => exact fun _ h => h
  | cons t l ih =>
    intro tags h
    rw [after, List.foldl_cons, ← after]
    apply ih
    rw [insertTag, List.map_cons, List.nodup_cons]
    constructor
    · simp
    · exact (h.sublist ((List.filter_sublist (l := tags)).map Prod.fst))

theorem readTags_ok {n : Nat} {tags res : List (Bytes × Bytes)} {bs : Bytes} (h : readTags n tags bs = .ok res) :
    ∃ l rest, bs = l.flatMap tagBytes ++ rest ∧
      (∀ t ∈ l, t.1.length = 4 ∧ isUtf8 t.1 = true ∧ t.2.length < 2 ^ 32) ∧ 4 ≤ rest.length ∧
      rest.take 4 ≠ ascii "GGAT" ∧ res = after l tags := by
  induction n generalizing tags bs with
  | zero => simp [readTags] at h
  | succ n ih =>
    rw [readTags] at h
    split at h
    · simp at h
    rename_i sig bs1 h1
    obtain ⟨rfl, hs⟩ := takeN_ok.1 h1
    split at h
    · rename_i hsig
      subst hsig
      split at h
      · simp at h
      rename_i name bs2 h2
      obtain ⟨rfl, hn⟩ := takeN_ok.1 h2
      split at h
      · rename_i hu
        split at h
        · simp at h
        rename_i len bs3 h3
        obtain ⟨rfl, hl⟩ := readLe_ok.1 h3
        split at h
        · simp at h
        rename_i data bs4 h4
        obtain ⟨rfl, rfl⟩ := takeN_ok.1 h4
        obtain ⟨l, rest, rfl, ht, hr, ho, rfl⟩ := ih h
        refine ⟨(name, data) :: l, rest, ?_, ?_, hr, ho, rfl⟩
        · simp only [List.flatMap_cons, tagBytes, List.append_assoc]
        · intro t ht'
          rcases List.mem_cons.1 ht' with rfl | ht'
          · exact ⟨hn, hu, hl⟩
          · exact ht t ht'
      · simp at h
    · rename_i hsig
      obtain rfl := Except.ok.inj h
      refine ⟨[], sig ++ bs1, rfl, by simp, by simp; omega, ?_, rfl⟩
      rwa [← hs, List.take_left' rfl]

theorem readTags_total {l tags : List (Bytes × Bytes)} {rest : Bytes} {n : Nat} (hn : l.length < n)
    (ht : ∀ t ∈ l, t.1.length = 4 ∧ isUtf8 t.1 = true ∧ t.2.length < 2 ^ 32) (hr : 4 ≤ rest.length)
    (ho : rest.take 4 ≠ ascii "GGAT") : readTags n tags (l.flatMap tagBytes ++ rest) = .ok (after l tags) := by
  induction l generalizing n tags with
  | nil =>
    obtain ⟨n, rfl⟩ : ∃ m, n = m + 1 := ⟨n - 1, by simp at hn; omega⟩
    rw [List.flatMap_nil, List.nil_append, readTags]
    have : takeN 4 rest = .ok (rest.take 4, rest.drop 4) := by rw [takeN, if_neg (by omega)]
    rw [this]
    dsimp only
    rw [if_neg ho]
    rfl
  | cons t l ih =>
    obtain ⟨n, rfl⟩ : ∃ m, n = m + 1 := ⟨n - 1, by simp at hn; omega⟩
    obtain ⟨h1, h2, h3⟩ := ht t (by simp)
    rw [List.flatMap_cons, tagBytes]
    simp only [List.append_assoc]
    rw [readTags, takeN_append' (show (ascii "GGAT").length = 4 from rfl)]
    dsimp only
    rw [if_pos rfl, takeN_append' h1]
    dsimp only
    rw [if_pos h2, readLe_leBytes _ (by simpa using h3)]
    dsimp only
    rw [takeN_append]
    dsimp only
    exact ih (by simp at hn; omega) fun t ht' => ht t (by simp [ht'])

/-! ### Mip maps -/

theorem mapAt_iff {file : Bytes} {f : Format} {o : Nat} (ho : o ≤ file.length) {m : MipMap} :
    MipMap.fromStream f (file.drop o) = .ok m ↔ MapAt file f o m := by
  constructor
  · intro h
    rw [MipMap.fromStream] at h
    split at h
    · simp at h
    rename_i w bs1 h1
    split at h
    · simp at h
    rename_i ht bs2 h2
    split at h
    · simp at h
    rename_i len bs3 h3
    split at h
    · simp at h
    rename_i data bs4 h4
    obtain rfl := Except.ok.inj h
    obtain ⟨e1, hw⟩ := readLe_ok.1 h1
    obtain ⟨rfl, hh⟩ := readLe_ok.1 h2
    obtain ⟨rfl, hl⟩ := readLe_ok.1 h3
    obtain ⟨rfl, rfl⟩ := takeN_ok.1 h4
    refine ⟨rfl, hw, hh, hl, file.take o, bs4, by simp [ho], ?_⟩
    conv_lhs => rw [← List.take_append_drop o file, e1]
    simp only [List.append_assoc]
  · rintro ⟨rfl, hw, hh, hl, a, b, rfl, rfl⟩
    rw [List.append_assoc, List.drop_left' rfl, MipMap.fromStream]
    simp only [List.append_assoc]
    rw [readLe_leBytes _ (by simpa using hw)]
    dsimp only
    rw [readLe_leBytes _ (by simpa using hh)]
    dsimp only
    rw [readLe_leBytes _ (by simpa using hl)]
    dsimp only
    rw [takeN_append]

theorem mapAt_lt {file : Bytes} {f : Format} {o : Nat} {m : MipMap} (h : MapAt file f o m) : o ≤ file.length := by
  obtain ⟨-, -, -, -, a, b, rfl, rfl⟩ := h
  simp

theorem fromStream_lt {file : Bytes} {f : Format} {o : Nat} {m : MipMap}
    (h : MipMap.fromStream f (file.drop o) = .ok m) : o ≤ file.length := by
  by_contra hc
  rw [List.drop_eq_nil_of_le (by omega)] at h
  simp [MipMap.fromStream, readLe, takeN] at h

theorem readMaps_iff {pax : Pax} {file : Bytes} {os : List Nat} {ms : List MipMap} :
    readMaps pax file os = .ok ms ↔
      List.Forall₂ (fun o m => ∃ f, codec pax = some f ∧ MapAt file f o m) (os.filter (· ≠ 0)) ms := by
  induction os generalizing ms with
  | nil => simp [readMaps, eq_comm]
  | cons o os ih =>
    rw [readMaps]
    split
    · rename_i h
      rw [List.filter_cons_of_neg (by simp [h]), ih]
    · rename_i h
      rw [List.filter_cons_of_pos (by simp [h])]
      constructor
      · intro h'
        split at h'
        · simp at h'
        rename_i f hf
        split at h'
        · simp at h'
        rename_i m hm
        split at h'
        · simp at h'
        rename_i ms' hms
        obtain rfl := Except.ok.inj h'
        exact .cons ⟨f, codec_eq.2 hf, (mapAt_iff (fromStream_lt hm)).1 hm⟩ (ih.1 hms)
      · intro h'
        cases h' with
        | cons h1 h2 =>
          obtain ⟨f, hf, hm⟩ := h1
          rw [codec_eq.1 hf]
          dsimp only
          rw [(mapAt_iff (mapAt_lt hm)).2 hm]
          dsimp only
          rw [ih.2 h2]

theorem offsets_table (offs : Bytes) : Table offs (offsets offs) := by
  induction offs using offsets.induct with
  | case1 a b c d bs ih =>
    obtain ⟨r, h1, h2, h3⟩ := ih
    have e := leBytes_leValue [a, b, c, d]
    have el := leValue_lt [a, b, c, d]
    refine ⟨r, h1, ?_, ?_⟩
    · rw [offsets, List.flatMap_cons, List.append_assoc, ← h2]
      exact (congrArg (· ++ bs) e).symm
    · intro o ho
      rw [offsets] at ho
      rcases List.mem_cons.1 ho with rfl | ho
      · exact Nat.lt_of_lt_of_eq el (by simp)
      · exact h3 o ho
  | case2 t h =>
    have : offsets t = [] := by
      rw [offsets.eq_def]
      split
      · rename_i a b c d bs; exact absurd rfl (h a b c d bs)
      · rfl
    rw [this]
    refine ⟨t, ?_, rfl, by simp⟩
    match t, h with
    | [], _ => simp
    | [_], _ => simp
    | [_, _], _ => simp
    | [_, _, _], _ => simp
    | a :: b :: c :: d :: bs, h => exact absurd rfl (h a b c d bs)

theorem table_offsets {offs : Bytes} {l : List Nat} (h : Table offs l) : offsets offs = l := by
  obtain ⟨r, h1, rfl, h3⟩ := h
  induction l with
  | nil =>
    rw [List.flatMap_nil, List.nil_append]
    match r, h1 with
    | [], _ => rfl
    | [_], _ => rfl
    | [_, _], _ => rfl
    | [_, _, _], _ => rfl
    | a :: b :: c :: d :: bs, h => simp at h; omega
  | cons o l ih =>
    rw [List.flatMap_cons, List.append_assoc]
    have e : leValue (le32 o) = o := leValue_leBytes_of_lt (by simpa using h3 o (by simp))
    have hl : (le32 o).length = 4 := leBytes_length 4 o
    obtain ⟨a, b, c, d, he⟩ : ∃ a b c d, le32 o = [a, b, c, d] := ⟨_, _, _, _, rfl⟩
    rw [he] at e ⊢
    simp only [List.cons_append, List.nil_append]
    rw [offsets, e, ih fun o ho => h3 o (by simp [ho])]

theorem fromBytes_iff {b : Bytes} {p : Pax} : Pax.fromBytes b = some p ↔ b = p.asBytes := by
  constructor
  · intro h
    rw [Pax.fromBytes.eq_def] at h
    split at h
    all_goals first
      | (obtain rfl := Option.some.inj h; rfl)
      | simp at h
  · rintro rfl
    cases p <;> rfl

theorem asBytes_length (p : Pax) : p.asBytes.length = 2 := by cases p <;> rfl

theorem forall2_mem {α β : Type} {R : α → β → Prop} {l : List α} {l' : List β} (h : List.Forall₂ R l l') {y : β}
    (hy : y ∈ l') : ∃ x, R x y := by
  induction h with
  | nil => simp at hy
  | cons h1 _ ih =>
    rcases List.mem_cons.1 hy with rfl | hy
    · exact ⟨_, h1⟩
    · exact ih hy

theorem fuel {file : Bytes} {pax : Pax} {tags : List (Bytes × Bytes)} {rest : Bytes} (hl : Layout file pax tags rest) :
    tags.length < file.length + 1 := by
  have h1 : ∀ l : List (Bytes × Bytes), l.length ≤ (l.flatMap tagBytes).length := by
    intro l
    induction l with
    | nil => simp
    | cons t l ih =>
      rw [List.flatMap_cons, List.length_append, List.length_cons, tagBytes]
      simp only [List.length_append]
      have : (ascii "GGAT").length = 4 := rfl
      omega
  have := h1 tags
  rw [hl.file]
  simp only [List.length_append]
  omega

/-! ### Writing -/

theorem foldl_sum {l : List Pixel} {ch : Pixel → UInt8} (a : Nat) (h : a + 255 * l.length < 2 ^ 32) :
    l.foldl (fun acc p => (acc + (ch p).toNat) % 2 ^ 32) a = a + (l.map fun p => (ch p).toNat).sum := by
  induction l generalizing a with
  | nil => simp
  | cons p l ih =>
    have := (ch p).toNat_lt
    simp only [List.length_cons] at h
    rw [List.foldl_cons, Nat.mod_eq_of_lt (by omega), ih _ (by omega)]
    simp
    omega

theorem sum_le {l : List Pixel} {ch : Pixel → UInt8} : (l.map fun p => (ch p).toNat).sum ≤ 255 * l.length := by
  induction l with
  | nil => simp
  | cons p l ih =>
    have := (ch p).toNat_lt
    simp only [List.map_cons, List.sum_cons, List.length_cons]
    omega

theorem max_def' (a b : UInt8) : max a b = if a ≤ b then b else a := rfl

theorem le_max_l (a b : UInt8) : a ≤ max a b := by
  rw [max_def']
  split
  · assumption
  · exact Nat.le_refl _

theorem le_max_r (a b : UInt8) : b ≤ max a b := by
  rw [max_def']
  split
  · exact Nat.le_refl _
  · rename_i h
    exact Nat.le_of_not_le h

theorem max_or (a b : UInt8) : max a b = a ∨ max a b = b := by
  rw [max_def']
  split
  · exact .inr rfl
  · exact .inl rfl

theorem foldl_max {l : List Pixel} {ch : Pixel → UInt8} (a : UInt8) :
    (∀ p ∈ l, ch p ≤ l.foldl (fun acc p => max acc (ch p)) a) ∧ a ≤ l.foldl (fun acc p => max acc (ch p)) a ∧
      (l.foldl (fun acc p => max acc (ch p)) a = a ∨ ∃ p ∈ l, l.foldl (fun acc p => max acc (ch p)) a = ch p) := by
  induction l generalizing a with
  | nil => simp
  | cons p l ih =>
    obtain ⟨h1, h2, h3⟩ := ih (max a (ch p))
    rw [List.foldl_cons]
    refine ⟨?_, Nat.le_trans (le_max_l a (ch p)) h2, ?_⟩
    · intro q hq
      rcases List.mem_cons.1 hq with rfl | hq
      · exact Nat.le_trans (le_max_r a (ch q)) h2
      · exact h1 q hq
    · rcases h3 with h3 | ⟨q, hq, h3⟩
      · rw [h3]
        rcases max_or a (ch p) with h | h
        · exact .inl h
        · exact .inr ⟨p, by simp, h⟩
      · exact .inr ⟨q, by simp [hq], h3⟩

theorem size_ge (w h : Nat) : w * h ≤ Format.bc3.size w h := by
  have h1 : w ≤ (w + 3) / 4 * 4 := by omega
  have h2 : h ≤ (h + 3) / 4 * 4 := by omega
  have := Nat.mul_le_mul h1 h2
  rw [Format.size, if_neg (by decide)]
  calc w * h ≤ _ := this
    _ = _ := by ring

theorem write_layout {i : Image} {data f : Bytes} (h : write i data = .ok f) :
    ∃ avg mx : Bytes, avg = [average i Pixel.r, average i Pixel.g, average i Pixel.b, average i Pixel.a] ∧
      mx = [greatest i Pixel.r, greatest i Pixel.g, greatest i Pixel.b, greatest i Pixel.a] ∧
      f = Pax.dxt5.asBytes ++ [(ascii "AVGC", avg), (ascii "CXAM", mx),
        (ascii "SFFO", le32 110 ++ List.replicate 60 0)].flatMap tagBytes ++
        (le16 i.width ++ le16 i.height ++ leBytes 3 (Format.bc3.size i.width i.height) ++ data) ∧
      Format.bc3.size i.width i.height < 2 ^ 24 := by
  rw [write] at h
  split at h
  · simp at h
  dsimp only at h
  split at h
  · simp at h
  rename_i hs
  obtain rfl := Except.ok.inj h
  refine ⟨_, _, rfl, rfl, ?_, by omega⟩
  simp only [List.flatMap_cons, List.flatMap_nil, tagBytes, List.append_assoc]
  rfl

end Verif.Paa
