import Verif.Lib.Paa
/-!
C85: writing PAA images. C86: reading PAA files. C87: what is handed to the codec.
-/
namespace Verif.Paa

/-! ### C86 -/

/-- A file that can be read consists of a format, tags and what follows, and reading yields these. -/
theorem C86_sound (file : Bytes) (p : File) (h : read file = .ok p) :
    ∃ tags rest, Layout file p.format tags rest ∧ Yields file p.format tags p := by
  rw [read] at h
  split at h
  · simp at h
  rename_i b bs hb
  obtain ⟨hfile, -⟩ := takeN_ok.1 hb
  split at h
  · simp at h
  rename_i pax hpax
  rw [fromBytes_iff] at hpax
  split at h
  · simp at h
  rename_i res hres
  obtain ⟨l, rest, hbs, ht, hr, ho, rfl⟩ := readTags_ok hres
  have hL : ∀ ms, Layout file (File.mk pax (after l []) ms).format l rest := fun ms =>
    ⟨by rw [hfile, hpax, hbs, List.append_assoc, code_eq], ht, hr, ho⟩
  have hg : ∀ name, getTag name (after l []) = lastTag name l := by
    intro name
    rw [getTag_after]
    cases lastTag name l <;> rfl
  have hnd : ((after l []).map Prod.fst).Nodup := nodup_after l [] (by simp)
  rw [hg] at h
  split at h
  · rename_i hs
    obtain rfl := Except.ok.inj h
    exact ⟨l, rest, hL _, rfl, hnd, hg, .inl ⟨hs, rfl⟩⟩
  · rename_i offs hs
    split at h
    · simp at h
    rename_i ms hms
    obtain rfl := Except.ok.inj h
    exact ⟨l, rest, hL _, rfl, hnd, hg, .inr ⟨offs, offsets offs, hs, offsets_table offs, readMaps_iff.1 hms⟩⟩

/-- A file that consists of a format, tags and what follows, with mip maps at all offsets that are not zero, is read as
just that. -/
theorem C86_complete (file : Bytes) (pax : Pax) (tags : List (Bytes × Bytes)) (rest : Bytes) (ms : List MipMap)
    (hl : Layout file pax tags rest)
    (hm : (lastTag (ascii "SFFO") tags = none ∧ ms = []) ∨
      ∃ offs l, lastTag (ascii "SFFO") tags = some offs ∧ Table offs l ∧
        List.Forall₂ (fun o m => ∃ f, codec pax = some f ∧ MapAt file f o m) (l.filter (· ≠ 0)) ms) :
    ∃ p, read file = .ok p ∧ p.maps = ms ∧ Yields file pax tags p := by
  have hg : ∀ name, getTag name (after tags []) = lastTag name tags := by
    intro name
    rw [getTag_after]
    cases lastTag name tags <;> rfl
  have hnd : ((after tags []).map Prod.fst).Nodup := nodup_after tags [] (by simp)
  have hread : ∀ r, (match getTag (ascii "SFFO") (after tags []) with
      | none => .ok ⟨pax, after tags [], []⟩
      | some offs => match readMaps pax file (offsets offs) with
        | .error e => .error e
        | .ok maps => .ok ⟨pax, after tags [], maps⟩) = r → read file = r := by
    intro r hr
    rw [read]
    have e : takeN 2 file = .ok (pax.asBytes, tags.flatMap tagBytes ++ rest) := by
      rw [takeN_ok, hl.file, List.append_assoc, code_eq]
      exact ⟨rfl, asBytes_length pax⟩
    rw [e]
    dsimp only
    rw [fromBytes_iff.2 rfl]
    dsimp only
    rw [readTags_total (fuel hl) hl.tag hl.long hl.other]
    dsimp only
    exact hr
  refine ⟨⟨pax, after tags [], ms⟩, hread _ ?_, rfl, rfl, hnd, hg, hm⟩
  rw [hg]
  rcases hm with ⟨h1, rfl⟩ | ⟨offs, l, h1, h2, h3⟩
  · rw [h1]
  · rw [h1]
    dsimp only
    rw [table_offsets h2, readMaps_iff.2 h3]

/-- Reading does not abort for the formats DXT1, DXT3 and DXT5. -/
theorem C86_no_abort (file : Bytes) (h : ∀ pax : Pax, file.take 2 = code pax → pax = .dxt1 ∨ pax = .dxt3 ∨ pax = .dxt5) :
    read file ≠ .error .panic := by
  have htags : ∀ n tags bs, bs.length < n → readTags n tags bs ≠ .error .panic := by
    intro n
    induction n with
    | zero => intro tags bs h; omega
    | succ n ih =>
      intro tags bs hn he
      have tk : ∀ k (b : Bytes), takeN k b ≠ .error .panic := by
        intro k b h'
        rw [takeN] at h'
        split at h' <;> simp at h'
      have rl : ∀ k (b : Bytes), readLe k b ≠ .error .panic := by
        intro k b h'
        rw [readLe] at h'
        split at h'
        · simp at h'
        · rename_i e he'
          obtain rfl := Except.error.inj h'
          exact tk _ _ he'
      rw [readTags] at he
      split at he
      · rename_i e h1
        obtain rfl := Except.error.inj he
        exact tk _ _ h1
      rename_i sig bs1 h1
      obtain ⟨rfl, hs⟩ := takeN_ok.1 h1
      split at he
      · split at he
        · rename_i e h2
          obtain rfl := Except.error.inj he
          exact tk _ _ h2
        rename_i name bs2 h2
        obtain ⟨rfl, hnm⟩ := takeN_ok.1 h2
        split at he
        · split at he
          · rename_i e h3
            obtain rfl := Except.error.inj he
            exact rl _ _ h3
          rename_i len bs3 h3
          obtain ⟨rfl, hl⟩ := readLe_ok.1 h3
          split at he
          · rename_i e h4
            obtain rfl := Except.error.inj he
            exact tk _ _ h4
          rename_i data bs4 h4
          obtain ⟨rfl, rfl⟩ := takeN_ok.1 h4
          refine ih _ _ ?_ he
          simp only [List.length_append] at hn
          omega
        · simp at he
      · simp at he
  have tk : ∀ k (b : Bytes), takeN k b ≠ .error .panic := by
    intro k b h'
    rw [takeN] at h'
    split at h' <;> simp at h'
  have rl : ∀ k (b : Bytes), readLe k b ≠ .error .panic := by
    intro k b h'
    rw [readLe] at h'
    split at h'
    · simp at h'
    · rename_i e he'
      obtain rfl := Except.error.inj h'
      exact tk _ _ he'
  have hst : ∀ f b, MipMap.fromStream f b ≠ .error .panic := by
    intro f b he
    rw [MipMap.fromStream] at he
    split at he
    · rename_i e h1; obtain rfl := Except.error.inj he; exact rl _ _ h1
    split at he
    · rename_i e h1; obtain rfl := Except.error.inj he; exact rl _ _ h1
    split at he
    · rename_i e h1; obtain rfl := Except.error.inj he; exact rl _ _ h1
    split at he
    · rename_i e h1; obtain rfl := Except.error.inj he; exact tk _ _ h1
    simp at he
  intro he
  rw [read] at he
  split at he
  · simp at he
  rename_i b bs hb
  obtain ⟨hfile, hlen⟩ := takeN_ok.1 hb
  split at he
  · simp at he
  rename_i pax hpax
  rw [fromBytes_iff] at hpax
  have hp := h pax (by rw [hfile, ← hlen, List.take_left' rfl, hpax, code_eq])
  have hf : ∃ f, pax.format = .ok f := by rcases hp with rfl | rfl | rfl <;> exact ⟨_, rfl⟩
  split at he
  · rename_i e h1
    obtain rfl := Except.error.inj he
    refine htags _ _ _ ?_ h1
    rw [hfile]; simp; omega
  split at he
  · simp at he
  rename_i offs _
  have hmaps : ∀ os, readMaps pax file os ≠ .error .panic := by
    intro os
    obtain ⟨f, hf⟩ := hf
    induction os with
    | nil => intro h'; simp [readMaps] at h'
    | cons o os ih =>
      intro h'
      rw [readMaps] at h'
      split at h'
      · exact ih h'
      · rw [hf] at h'
        dsimp only at h'
        split at h'
        · rename_i e h1; obtain rfl := Except.error.inj h'; exact hst _ _ h1
        split at h'
        · rename_i e h1; obtain rfl := Except.error.inj h'; exact ih h1
        simp at h'
  split at he
  · rename_i e h1; obtain rfl := Except.error.inj he; exact hmaps _ h1
  simp at he

/-- Files of the other formats with at least one mip map abort the program. -/
theorem C86_violated_formats (file : Bytes) (pax : Pax) (tags : List (Bytes × Bytes)) (rest offs : Bytes) (l : List Nat)
    (hl : Layout file pax tags rest) (hs : lastTag (ascii "SFFO") tags = some offs) (ht : Table offs l)
    (ho : ∃ o ∈ l, o ≠ 0) (hp : pax ≠ .dxt1 ∧ pax ≠ .dxt3 ∧ pax ≠ .dxt5) : read file = .error .panic := by
  have hf : pax.format = .error .panic := by
    obtain ⟨h1, h2, h3⟩ := hp
    cases pax <;> first | rfl | contradiction
  have hm : ∀ l : List Nat, (∃ o ∈ l, o ≠ 0) → readMaps pax file l = .error .panic := by
    intro l
    induction l with
    | nil => simp
    | cons o l ih =>
      rintro ⟨o', h1, h2⟩
      rw [readMaps]
      split
      · rename_i h0
        rcases List.mem_cons.1 h1 with rfl | h1
        · exact absurd h0 h2
        · exact ih ⟨o', h1, h2⟩
      · rw [hf]
  rw [read]
  have e : takeN 2 file = .ok (pax.asBytes, tags.flatMap tagBytes ++ rest) := by
    rw [takeN_ok, hl.file, List.append_assoc, code_eq]
    exact ⟨rfl, asBytes_length pax⟩
  rw [e]
  dsimp only
  rw [fromBytes_iff.2 rfl]
  dsimp only
  rw [readTags_total (fuel hl) hl.tag hl.long hl.other]
  dsimp only
  rw [getTag_after, hs]
  dsimp only
  rw [table_offsets ht, hm l ho]

/-! ### C85 -/

/-- An image can be written exactly if it has pixels and its blocks take less than 2^24 bytes; in all other cases the
program aborts. -/
theorem C85_total (i : Image) (data : Bytes) :
    ((0 < i.width ∧ 0 < i.height ∧ Format.bc3.size i.width i.height < 2 ^ 24) → ∃ f, write i data = .ok f) ∧
    (¬ (0 < i.width ∧ 0 < i.height ∧ Format.bc3.size i.width i.height < 2 ^ 24) → write i data = .error .panic) := by
  constructor
  · rintro ⟨h1, h2, h3⟩
    have := size_ge i.width i.height
    have hp := Nat.mul_pos h1 h2
    rw [write, if_neg (by rw [Nat.mod_eq_of_lt (by omega)]; omega)]
    dsimp only
    rw [if_neg (by omega)]
    exact ⟨_, rfl⟩
  · intro h
    rw [write]
    split
    · rfl
    rename_i h0
    dsimp only
    rw [if_pos]
    by_contra hc
    apply h
    refine ⟨Nat.pos_of_ne_zero ?_, Nat.pos_of_ne_zero ?_, by omega⟩
    · intro hw; rw [hw] at h0; simp at h0
    · intro hh; rw [hh] at h0; simp at h0

/-- The mean and the greatest value of a channel. -/
theorem C85_colours (i : Image) (hp : i.pixels.length = i.width * i.height) (hw : 0 < i.width) (hh : 0 < i.height)
    (hs : Format.bc3.size i.width i.height < 2 ^ 24) (ch : Pixel → UInt8) :
    (average i ch).toNat = (i.pixels.map fun p => (ch p).toNat).sum / i.pixels.length ∧
    (∀ p ∈ i.pixels, ch p ≤ greatest i ch) ∧ ∃ p ∈ i.pixels, greatest i ch = ch p := by
  have hle := size_ge i.width i.height
  have hpos := Nat.mul_pos hw hh
  refine ⟨?_, (foldl_max 0).1, ?_⟩
  · rw [average, foldl_sum 0 (by omega), Nat.mod_eq_of_lt (a := i.width * i.height) (by omega), ← hp, Nat.zero_add]
    have h1 := sum_le (l := i.pixels) (ch := ch)
    have h2 : (i.pixels.map fun p => (ch p).toNat).sum / i.pixels.length ≤ 255 := by
      calc _ ≤ 255 * i.pixels.length / i.pixels.length := Nat.div_le_div_right h1
        _ = 255 := Nat.mul_div_cancel _ (by omega)
    rw [UInt8.toNat_ofNat_of_lt' (by rw [UInt8.size]; omega)]
  · have h := (foldl_max (l := i.pixels) (ch := ch) 0).2.2
    rcases h with h | h
    · cases hl : i.pixels with
      | nil => rw [hl] at hp; simp at hp; omega
      | cons p l =>
        refine ⟨p, by simp, ?_⟩
        have h1 := (foldl_max (l := i.pixels) (ch := ch) 0).1 p (by rw [hl]; simp)
        rw [h] at h1
        rw [greatest, h]
        have h2 : (ch p).toNat ≤ 0 := h1
        apply UInt8.toNat_inj.1
        have h3 : (0 : UInt8).toNat = 0 := rfl
        rw [h3]; omega
    · exact h

/-- An image that is narrower than 32768 and lower than 65536 pixels is read back: the format is DXT5, the tags hold the
mean and the greatest colour, and the only mip map has the size of the image and the bytes the codec made. -/
theorem C85_round_trip (i : Image) (data f : Bytes) (hd : data.length = Format.bc3.size i.width i.height)
    (hw : i.width < 32768) (hh : i.height < 65536) (h : write i data = .ok f) :
    ∃ p, read f = .ok p ∧ p.format = .dxt5 ∧
      getTag (ascii "AVGC") p.tags =
        some [average i Pixel.r, average i Pixel.g, average i Pixel.b, average i Pixel.a] ∧
      getTag (ascii "CXAM") p.tags =
        some [greatest i Pixel.r, greatest i Pixel.g, greatest i Pixel.b, greatest i Pixel.a] ∧
      (∀ t ∈ p.tags, t.1 = ascii "AVGC" ∨ t.1 = ascii "CXAM" ∨ t.1 = ascii "SFFO") ∧
      ∃ m, p.maps = [m] ∧ m.realWidth = i.width ∧ m.height = i.height ∧ m.format = .bc3 ∧ m.isCompressed = false ∧
        m.decoderInput = .ok (data, i.width, i.height) := by
  obtain ⟨avg, mx, ha, hm, hf, hs⟩ := write_layout h
  have hla : avg.length = 4 := by rw [ha]; rfl
  have hlm : mx.length = 4 := by rw [hm]; rfl
  have hmod : i.width % 32768 = i.width := Nat.mod_eq_of_lt hw
  have hL : Layout f .dxt5 [(ascii "AVGC", avg), (ascii "CXAM", mx), (ascii "SFFO", le32 110 ++ List.replicate 60 0)]
      (le16 i.width ++ le16 i.height ++ leBytes 3 (Format.bc3.size i.width i.height) ++ data) := by
    refine ⟨by rw [code_eq]; exact hf, ?_, ?_, ?_⟩
    · intro t ht
      simp only [List.mem_cons, List.not_mem_nil, or_false] at ht
      rcases ht with rfl | rfl | rfl
      · exact ⟨rfl, (by decide : isUtf8 (ascii "AVGC") = true), by rw [hla]; decide⟩
      · exact ⟨rfl, (by decide : isUtf8 (ascii "CXAM") = true), by rw [hlm]; decide⟩
      · exact ⟨rfl, by decide, by decide⟩
    · simp only [List.length_append, leBytes_length]; omega
    · intro he
      have hget : (le16 i.width ++ le16 i.height ++ leBytes 3 (Format.bc3.size i.width i.height) ++ data).take 4 =
          le16 i.width ++ le16 i.height := by
        rw [List.append_assoc, List.take_left' (by simp)]
      rw [hget] at he
      have he' : le16 i.width ++ le16 i.height = [71, 71] ++ [65, 84] := he
      have e1 : le16 i.width = [71, 71] := (List.append_inj he' (by simp)).1
      have e2 : le16 i.height = [65, 84] := (List.append_inj he' (by simp)).2
      have v1 : i.width = 18247 := by
        have := congrArg leValue e1
        rw [leValue_leBytes_of_lt (by omega)] at this
        rw [this]; decide
      have v2 : i.height = 21569 := by
        have := congrArg leValue e2
        rw [leValue_leBytes_of_lt (by omega)] at this
        rw [this]; decide
      rw [v1, v2] at hs
      revert hs
      decide
  have hmap : MapAt f .bc3 110 ⟨i.width, i.height, data, .bc3⟩ := by
    refine ⟨rfl, by dsimp only; omega, by dsimp only; omega, by rw [hd]; exact hs,
      Pax.dxt5.asBytes ++ [(ascii "AVGC", avg), (ascii "CXAM", mx),
        (ascii "SFFO", le32 110 ++ List.replicate 60 0)].flatMap tagBytes, [], ?_, by rw [hf, List.append_nil, hd]⟩
    simp only [List.flatMap_cons, List.flatMap_nil, tagBytes, List.length_append, hla, hlm, asBytes_length]
    rfl
  obtain ⟨p, hp, hms, hy⟩ := C86_complete f .dxt5 _ _ [⟨i.width, i.height, data, .bc3⟩] hL
    (.inr ⟨le32 110 ++ List.replicate 60 0, 110 :: List.replicate 15 0, by rfl,
      ⟨[], by simp, by decide, by decide⟩, by
        rw [show (110 :: List.replicate 15 0 : List Nat).filter (· ≠ 0) = [110] by decide]
        exact .cons ⟨.bc3, rfl, hmap⟩ .nil⟩)
  obtain ⟨h1, -, h2, -⟩ := hy
  refine ⟨p, hp, h1, by rw [h2, ← ha]; rfl, by rw [h2, ← hm]; rfl, ?_, _, hms, ?_, rfl, rfl, ?_, ?_⟩
  · intro t ht
    have hsome : getTag t.1 p.tags ≠ none := by
      rw [getTag]
      simp only [ne_eq, Option.map_eq_none_iff, List.find?_eq_none, decide_eq_true_eq, not_forall, not_not]
      exact ⟨t, ht, rfl⟩
    rw [h2] at hsome
    by_contra hc
    simp only [not_or] at hc
    apply hsome
    rw [lastTag]
    simp only [Option.map_eq_none_iff, List.find?_eq_none, decide_eq_true_eq, List.mem_reverse]
    intro x hx
    simp only [List.mem_cons, List.not_mem_nil, or_false] at hx
    rcases hx with rfl | rfl | rfl
    · exact fun h => hc.1 h.symm
    · exact fun h => hc.2.1 h.symm
    · exact fun h => hc.2.2 h.symm
  · rw [MipMap.realWidth, MipMap.isCompressed]
    simp [hmod]
  · rw [MipMap.isCompressed]
    simp [hmod]
  · rw [MipMap.decoderInput]
    simp [hmod]

/-- Wider and higher images are written too, but no mip map that is read back has their size. -/
theorem C85_violated_large (i : Image) (data f : Bytes) (p : File) (hl : 32768 ≤ i.width ∨ 65536 ≤ i.height)
    (_ : write i data = .ok f) (hr : read f = .ok p) : ∀ m ∈ p.maps, ¬ (m.realWidth = i.width ∧ m.height = i.height) := by
  intro m hm
  have hb : m.width < 2 ^ 16 ∧ m.height < 2 ^ 16 := by
    obtain ⟨tags, rest, -, -, -, -, h | ⟨offs, l, -, -, h⟩⟩ := C86_sound f p hr
    · rw [h.2] at hm; simp at hm
    · obtain ⟨o, f', -, h'⟩ := forall2_mem h hm
      exact ⟨h'.2.1, h'.2.2.1⟩
  rw [MipMap.realWidth, MipMap.isCompressed]
  have := Nat.mod_lt m.width (show 0 < 32768 by decide)
  split
  · omega
  · rename_i h
    simp only [ne_eq, decide_not, Bool.not_eq_eq_eq_not, Bool.not_true, decide_eq_false_iff_not, not_not] at h
    omega

/-! ### C87 -/

/-- A mip map of a size divisible by four that is stored compressed hands the same bytes to the codec as one that is
stored plainly. -/
theorem C87_compressed (f : Format) (w h : Nat) (raw z : Bytes) (hw : w < 32768) (h4 : w % 4 = 0) (hh4 : h % 4 = 0)
    (hr : raw.length = f.size w h) (hlen : raw.length < 2 ^ 63)
    (hz : Lzo.compress (Lzo.worstCompress raw.length) raw = .ok z) :
    (MipMap.mk (w + 32768) h z f).decoderInput = .ok (raw, w, h) ∧
    (MipMap.mk w h raw f).decoderInput = .ok (raw, w, h) := by
  have hsize : (if f = .bc1 then w * h / 2 else w * h) = raw.length := by
    obtain ⟨a, rfl⟩ : ∃ a, w = 4 * a := ⟨w / 4, by omega⟩
    obtain ⟨b, rfl⟩ : ∃ b, h = 4 * b := ⟨h / 4, by omega⟩
    have ea : (4 * a + 3) / 4 = a := by omega
    have eb : (4 * b + 3) / 4 = b := by omega
    rw [hr, Format.size, ea, eb]
    split
    · rw [show 4 * a * (4 * b) = a * b * 8 * 2 by ring, Nat.mul_div_cancel _ (by decide)]
    · ring
  constructor
  · have hn : ¬ (w + 32768) % 32768 = w + 32768 := by omega
    rw [MipMap.decoderInput]
    dsimp only
    rw [if_neg hn, if_neg hn, Nat.add_sub_cancel, hsize]
    obtain ⟨z', hz', hd⟩ := Lzo.C18_round_trip raw hlen
    rw [hz] at hz'
    obtain rfl := Except.ok.inj hz'
    rw [Lzo.decompress] at hd
    cases hraw : Lzo.decompressRaw raw.length z with
    | error e => rw [hraw] at hd; simp at hd
    | ok r =>
      rw [hraw] at hd
      dsimp only at hd ⊢
      split at hd
      · split at hd
        · rename_i hle
          simp only [Except.ok.injEq] at hd
          have : r.written.length ≤ raw.length := by
            obtain ⟨r', hr', h1, -⟩ := Lzo.decompressRaw_safe raw.length z
            rw [hraw] at hr'
            obtain rfl := Except.ok.inj hr'
            exact h1
          have hl : (r.written.take r.outLen).length = raw.length := by rw [hd]
          rw [List.length_take] at hl
          have hw' : r.written = raw := by rw [← hd, List.take_of_length_le (by omega)]
          rw [hw', Nat.sub_self]
          simp
        · simp at hd
      · simp at hd
  · rw [MipMap.decoderInput]
    dsimp only
    have hm : w % 32768 = w := Nat.mod_eq_of_lt hw
    rw [if_pos hm, if_pos hm]

/-- If a side is not divisible by four, the buffer for a compressed mip map is smaller than the blocks of the image. -/
theorem C87_violated_sides (m : MipMap) (b : Bytes) (w h : Nat) (hc : m.isCompressed = true)
    (hd : m.decoderInput = .ok (b, w, h)) (hw : 0 < w) (hh : 0 < h) (h4 : w % 4 ≠ 0 ∨ h % 4 ≠ 0) :
    b.length < m.format.size w h := by
  have hc' : ¬ m.width % 32768 = m.width := by
    rw [MipMap.isCompressed] at hc
    simpa using hc
  rw [MipMap.decoderInput] at hd
  rw [if_neg hc', if_neg hc'] at hd
  obtain ⟨r, hr, h1, -⟩ := Lzo.decompressRaw_safe
    (if m.format = .bc1 then (m.width - 32768) * m.height / 2 else (m.width - 32768) * m.height) m.data
  rw [hr] at hd
  simp only [Except.ok.injEq, Prod.mk.injEq] at hd
  obtain ⟨rfl, rfl, rfl⟩ := hd
  rw [List.length_append, List.length_replicate, Nat.add_sub_cancel' h1, Format.size]
  generalize m.width - 32768 = w at *
  generalize m.height = h at *
  have hlt : w * h < (w + 3) / 4 * 4 * ((h + 3) / 4 * 4) := by
    rcases h4 with h4 | h4
    · exact Nat.mul_lt_mul_of_lt_of_le (by omega) (by omega) (by omega)
    · exact Nat.mul_lt_mul_of_le_of_lt (by omega) (by omega) (by omega)
  have e : (w + 3) / 4 * 4 * ((h + 3) / 4 * 4) = (w + 3) / 4 * ((h + 3) / 4) * 16 := by ring
  split
  · omega
  · omega

/-! ### Examples -/

/-- A red and a blue pixel above a green and a white one, the blocks being sixteen bytes. -/
def sample : Image := ⟨2, 2, [⟨255, 0, 0, 255⟩, ⟨0, 0, 255, 255⟩, ⟨0, 255, 0, 255⟩, ⟨255, 255, 255, 0⟩]⟩

/-- The blocks of the sample. -/
def sampleData : Bytes := [1, 2, 3, 4, 5, 6, 7, 8, 9, 10, 11, 12, 13, 14, 15, 16]

example : sample.width < 32768 ∧ sample.height < 65536 ∧ sampleData.length = Format.bc3.size sample.width sample.height ∧
    sample.pixels.length = sample.width * sample.height := by decide +kernel

example : (write sample sampleData).toOption.bind (fun f => (read f).toOption) = some ⟨.dxt5,
    [(ascii "SFFO", le32 110 ++ List.replicate 60 0), (ascii "CXAM", [255, 255, 255, 255]),
     (ascii "AVGC", [127, 127, 127, 191])], [⟨2, 2, sampleData, .bc3⟩]⟩ := by decide +kernel

example (data : Bytes) : ∃ f, write ⟨32768, 4, []⟩ data = .ok f := (C85_total _ _).1 (by decide)

/-- A file with a tag twice, a table of three offsets, one of them zero, and two mip maps. -/
def sampleFile : Bytes :=
  [1, 255] ++ ascii "GGAT" ++ ascii "AVGC" ++ le32 1 ++ [7] ++ ascii "GGAT" ++ ascii "AVGC" ++ le32 2 ++ [8, 9] ++
    ascii "GGAT" ++ ascii "SFFO" ++ le32 12 ++ le32 54 ++ le32 0 ++ le32 53 ++ [9, 4, 0, 4, 0, 0, 0, 0, 0, 0, 0]

example : Layout sampleFile .dxt1 [(ascii "AVGC", [7]), (ascii "AVGC", [8, 9]),
    (ascii "SFFO", le32 54 ++ le32 0 ++ le32 53)] [9, 4, 0, 4, 0, 0, 0, 0, 0, 0, 0] :=
  ⟨by decide +kernel, by decide +kernel, by decide, by decide +kernel⟩

example : read sampleFile = .ok ⟨.dxt1, [(ascii "SFFO", le32 54 ++ le32 0 ++ le32 53), (ascii "AVGC", [8, 9])],
    [⟨4, 4, [], .bc1⟩, ⟨1033, 1024, [], .bc1⟩]⟩ := by decide +kernel

/-- The same file in a format without codec aborts. -/
example : read (128 :: 128 :: sampleFile.drop 2) = .error .panic := by decide +kernel

example : ∃ z, Lzo.compress (Lzo.worstCompress sampleData.length) sampleData = .ok z ∧
    (MipMap.mk (4 + 32768) 4 z .bc3).decoderInput = .ok (sampleData, 4, 4) := by
  obtain ⟨z, hz, -⟩ := Lzo.C18_round_trip sampleData (by decide)
  exact ⟨z, hz, (C87_compressed .bc3 4 4 sampleData z (by decide) (by decide) (by decide) (by decide) (by decide) hz).1⟩

example : ∃ b w h, (MipMap.mk (2 + 32768) 2 [17, 0, 0] .bc3).decoderInput = .ok (b, w, h) ∧
    b.length < Format.bc3.size w h := ⟨[0, 0, 0, 0], 2, 2, by decide +kernel, by decide⟩

end Verif.Paa
