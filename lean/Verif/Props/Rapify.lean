import Verif.Lib.RapDecode
/-!
C16, C17: binary configs.
-/
namespace Verif.Rap
open Verif.Io Spec

/-- C17. Writing any config without leftovers of parse errors succeeds (no assertion fails), and the file has
exactly the predicted length; the same for each class body at each offset. -/
theorem C17_config_length (ps : List Prp) (h : propsClean ps) :
    ∃ file, rapify ps = .ok file ∧ file.length = configLen ps := by
  obtain ⟨b, hb, hl⟩ := Prp.body_ok (rootClass ps) 16 (by simpa [rootClass, Prp.clean] using h)
  refine ⟨_, by simp only [rapify, hb, hl, configLen, ne_eq, not_true, if_false]; rfl, ?_⟩
  simp [configLen, hl]; omega

/-- C17, parts: every array item, value and class body has its predicted length, at every offset. -/
theorem C17_part_lengths :
    (∀ i : Item, i.clean → ∃ b, i.bytes = .ok b ∧ b.length = i.len) ∧
    (∀ v : Value, v.clean → ∃ b, v.bytes = .ok b ∧ b.length = v.len) ∧
    (∀ (p : Prp) (off : Nat), p.clean → ∃ b, p.body off = .ok b ∧ b.length = p.bodyLen) :=
  ⟨Item.bytes_ok, Value.bytes_ok, Prp.body_ok⟩

/-- C16. The independent reader recovers the config from the written file. -/
theorem C16_decode (ps : List Prp) (file : Bytes) (hc : propsClean ps) (hf : propsFit ps)
    (h : rapify ps = .ok file) (hsize : file.length < 2 ^ 32) : decode file = some ps := by
  have hcl : (rootClass ps).clean := by simpa [rootClass, Prp.clean] using hc
  obtain ⟨b, hb, hl⟩ := Prp.body_ok (rootClass ps) 16 hcl
  simp only [rapify, hb, hl, configLen, ne_eq, not_true, if_false, Except.ok.injEq] at h
  rw [← hl] at h
  subst h
  simp only [List.length_append, leBytes_length, List.length_cons, List.length_nil] at hsize
  have hfits : (rootClass ps).fits := by
    simp only [rootClass, Prp.fits]
    exact ⟨by simp, by simp, hf⟩
  generalize hpre : [0, 114, 97, 80] ++ [0, 0, 0, 0, 8, 0, 0, 0] ++ le32 (16 + b.length) = pre
  have hprel : pre.length = 16 := by rw [← hpre]; simp
  have hdec := cls_decode (rootClass ps) pre [0, 0, 0, 0] b hcl hfits (by rw [hprel]; exact hb)
    (by omega) ((pre ++ b ++ [0, 0, 0, 0]).length + 1) (by simp; omega)
  simp only [rootClass] at hdec
  rw [decode]
  have h12 : (pre ++ b ++ [0, 0, 0, 0]).take 12 = [0, 0x72, 0x61, 0x50, 0, 0, 0, 0, 8, 0, 0, 0] := by
    rw [← hpre]; simp [leBytes]
  have hd12 : (pre ++ b ++ [0, 0, 0, 0]).drop 12 = le32 (16 + b.length) ++ (b ++ [0, 0, 0, 0]) := by
    rw [← hpre]; simp
  rw [if_neg (not_not.mpr h12), hd12, u32_le _ _ (by omega)]
  simp only []
  rw [hprel] at hdec
  rw [hdec]
  have hde : (pre ++ b ++ [0, 0, 0, 0]).drop (16 + b.length) = [0, 0, 0, 0] := by
    have : 16 + b.length = (pre ++ b).length := by simp [hprel]
    rw [this, List.drop_left]
  dsimp only
  rw [if_pos ⟨rfl, hde⟩]

/-- C16, consequence: no two different configs produce the same file. -/
theorem C16_injective (ps qs : List Prp) (file : Bytes) (hp : propsClean ps) (hp' : propsFit ps)
    (hq : propsClean qs) (hq' : propsFit qs) (h1 : rapify ps = .ok file) (h2 : rapify qs = .ok file)
    (hsize : file.length < 2 ^ 32) : ps = qs := by
  have a := C16_decode ps file hp hp' h1 hsize
  rw [C16_decode qs file hq hq' h2 hsize] at a
  exact (Option.some.inj a).symm

/-- An example config: nested classes with a parent, an external class, a deletion, an expression, a negative
number, a nested array and an appended array. -/
def exConfig : List Prp :=
  [ .ext (ascii "Base"),
    .loc (ascii "A") (some (ascii "Base"))
      [ .entry (ascii "x") (.num (.i32 (-5))),
        .loc (ascii "B") none [ .entry (ascii "s") (.str (ascii "hi")), .loc (ascii "C") none [] ],
        .entry (ascii "arr") (.arr false [.num (.f32 0x3f800000), .arr [.str (ascii "a"), .num (.i64 7)]]),
        .entry (ascii "add") (.arr true []) ],
    .del (ascii "D"),
    .entry (ascii "e") (.expr (ascii "1+1")) ]

example : propsClean exConfig ∧ propsFit exConfig := by
  simp [exConfig, propsClean, propsFit, Prp.clean, Prp.fits, Value.clean, Value.fits, itemsClean, itemsFit,
    Item.clean, Item.fits, Num.fits, ascii]

/-- The hypotheses of `C16_decode` hold of the example. -/
example : ∃ file, rapify exConfig = .ok file ∧ decode file = some exConfig := by
  have hc : propsClean exConfig := by
    simp [exConfig, propsClean, Prp.clean, Value.clean, itemsClean, Item.clean]
  have hf : propsFit exConfig := by
    simp [exConfig, propsFit, Prp.fits, Value.fits, itemsFit, Item.fits, Num.fits, ascii]
  obtain ⟨file, h, hl⟩ := C17_config_length exConfig hc
  refine ⟨file, h, C16_decode _ _ hc hf h ?_⟩
  rw [hl]
  simp [configLen, rootClass, Prp.bodyLen, exConfig, propsTotal, Prp.len, Prp.codeLen, Value.len, Prp.name,
    Num.len, compressedIntLen_eq, writeCompressed, countU32, itemsLen, Item.len, ascii]

end Verif.Rap
