import Verif.Spec.Rapify
import Verif.Lib.IoLemmas
namespace Verif.Rap
open Verif.Io

theorem Num.bytes_length (n : Num) : n.bytes.length = n.len := by
  cases n <;> simp [Num.bytes, Num.len]

theorem Item.code_ok {i : Item} (h : i.clean) : ∃ c, i.code = .ok c := by
  cases i <;> simp_all [Item.code, Item.clean]

theorem writeCString_length (s : Bytes) : (writeCString s).length = s.length + 1 := by
  simp [writeCString]

mutual
theorem Item.bytes_ok : ∀ (i : Item), i.clean → ∃ b, i.bytes = .ok b ∧ b.length = i.len
  | .str s, _ => ⟨_, rfl, writeCString_length s⟩
  | .num n, _ => ⟨_, rfl, n.bytes_length⟩
  | .arr is, h => by
    obtain ⟨b, hb, hl⟩ := itemsBytes_ok is (by simpa [Item.clean] using h)
    refine ⟨_, by simp only [Item.bytes, hb]; rfl, ?_⟩
    simp [Item.len, hl, compressedIntLen_eq]
  | .invalid, h => by simp [Item.clean] at h
theorem itemsBytes_ok : ∀ (is : List Item), itemsClean is → ∃ b, itemsBytes is = .ok b ∧ b.length = itemsLen is
  | [], _ => ⟨[], by simp [itemsBytes], by simp [itemsLen]⟩
  | i :: is, h => by
    simp only [itemsClean] at h
    obtain ⟨c, hc⟩ := Item.code_ok h.1
    obtain ⟨b, hb, hl⟩ := Item.bytes_ok i h.1
    obtain ⟨r, hr, hrl⟩ := itemsBytes_ok is h.2
    refine ⟨c :: b ++ r, by simp only [itemsBytes, hc, hb, hr], ?_⟩
    simp [itemsLen, hl, hrl]; omega
end

theorem assertLen_ok {b : Bytes} {n : Nat} (h : b.length = n) : assertLen b n = .ok b := by
  simp [assertLen, h]

theorem arrayBytes_ok (is : List Item) (h : itemsClean is) :
    ∃ b, itemsBytes is = .ok b ∧ b.length = itemsLen is ∧
      arrayBytes is = .ok (writeCompressed (countU32 is) ++ b) := by
  obtain ⟨b, hb, hl⟩ := itemsBytes_ok is h
  refine ⟨b, hb, hl, ?_⟩
  simp only [arrayBytes, hb]
  exact assertLen_ok (by simp [hl, compressedIntLen_eq])

theorem Value.bytes_ok (v : Value) (h : v.clean) : ∃ b, v.bytes = .ok b ∧ b.length = v.len := by
  cases v with
  | str s => exact ⟨_, assertLen_ok (writeCString_length s), writeCString_length s⟩
  | num n => exact ⟨_, assertLen_ok n.bytes_length, n.bytes_length⟩
  | expr s => exact ⟨_, assertLen_ok (writeCString_length s), writeCString_length s⟩
  | arr e is =>
    obtain ⟨b, _, hl, ha⟩ := arrayBytes_ok is h
    have : (writeCompressed (countU32 is) ++ b).length = (Value.arr e is).len := by
      simp [Value.len, hl, compressedIntLen_eq]
    exact ⟨_, by simp only [Value.bytes, ha]; exact assertLen_ok this, this⟩
  | invalid => exact h.elim

theorem Prp.code_ok {p : Prp} (h : p.clean) : ∃ c, p.code = .ok c ∧ c.length = p.codeLen := by
  cases p with
  | entry n v =>
    cases v with
    | arr e is => cases e <;> simp [Prp.code, Prp.codeLen]
    | invalid => simp [Prp.clean, Value.clean] at h
    | _ => simp [Prp.code, Prp.codeLen]
  | missing n => simp [Prp.clean] at h
  | _ => simp [Prp.code, Prp.codeLen]

/-- What the class writer produces, in terms of the pieces. -/
theorem parentBytes_length (p : Option Bytes) :
    (parentBytes p).length = (p.map List.length).getD 0 + 1 := by
  cases p <;> simp [parentBytes, writeCString]

theorem propsTotal_eq (ps : List Prp) :
    propsTotal ps = propsLen ps + (ps.map Prp.bodyLen).sum := by
  induction ps with
  | nil => simp [propsTotal, propsLen]
  | cons p ps ih => simp [propsTotal, ih, propsLen]; omega

mutual
theorem Prp.body_ok : ∀ (p : Prp) (off : Nat), p.clean → ∃ b, p.body off = .ok b ∧ b.length = p.bodyLen
  | .loc n parent ps, off, h => by
    obtain ⟨pb, bodies, fin, e, h1, h2, _⟩ := propsBytes_ok ps
      (off + (parentBytes parent ++ writeCompressed (countU32 ps)).length + propsLen ps + 4)
      (by simpa [Prp.clean] using h)
    refine ⟨_, by simp only [Prp.body, e, h1, ne_eq, not_true, if_false]; rfl, ?_⟩
    simp [Prp.bodyLen, h1, h2, parentBytes_length, compressedIntLen_eq, propsTotal_eq]
    omega
  | .entry _ _, _, _ => ⟨[], rfl, rfl⟩
  | .ext _, _, _ => ⟨[], rfl, rfl⟩
  | .del _, _, _ => ⟨[], rfl, rfl⟩
  | .missing _, _, _ => ⟨[], rfl, rfl⟩
theorem propsBytes_ok : ∀ (ps : List Prp) (next : Nat), propsClean ps →
    ∃ pb bodies fin, propsBytes ps next = .ok (pb, bodies, fin) ∧ pb.length = propsLen ps ∧
      bodies.length = (ps.map Prp.bodyLen).sum ∧ fin = next + bodies.length
  | [], next, _ => ⟨[], [], next, rfl, rfl, rfl, rfl⟩
  | .entry n v :: ps, next, h => by
    simp only [propsClean] at h
    obtain ⟨c, hc, hcl⟩ := Prp.code_ok h.1
    obtain ⟨vb, hv, hvl⟩ := Value.bytes_ok v (by simpa [Prp.clean] using h.1)
    obtain ⟨pb, bodies, fin, e, h1, h2, h3⟩ := propsBytes_ok ps next h.2
    have hl : (c ++ writeCString n ++ vb).length = (Prp.entry n v).len + n.length + 1 := by
      simp [writeCString_length, hcl, hvl, Prp.len]; omega
    refine ⟨c ++ writeCString n ++ vb ++ pb, bodies, fin, ?_, ?_, ?_, h3⟩
    · simp only [propsBytes, hc, hv, Prp.name, hl, e, ne_eq, not_true, if_false]
    · rw [List.length_append, hl, h1]; simp [propsLen, Prp.name]; omega
    · simp [h2, Prp.bodyLen]
  | .loc n parent cs :: ps, next, h => by
    simp only [propsClean] at h
    obtain ⟨b, hb, hbl⟩ := Prp.body_ok (.loc n parent cs) next h.1
    obtain ⟨pb, bodies, fin, e, h1, h2, h3⟩ := propsBytes_ok ps (next + b.length) h.2
    have hl : ([0] ++ writeCString n ++ le32 next).length = (Prp.loc n parent cs).len + n.length + 1 := by
      simp [writeCString_length, Prp.len, Prp.codeLen]; omega
    refine ⟨[0] ++ writeCString n ++ le32 next ++ pb, b ++ bodies, fin, ?_, ?_, ?_, ?_⟩
    · simp only [propsBytes, Prp.code, hb, Prp.name, hl, hbl, e, ne_eq, not_true, if_false]
      rw [hbl] at e; simp only [e]
    · rw [List.length_append, hl, h1]; simp [propsLen, Prp.name]; omega
    · simp [h2, hbl]
    · simp [h3]; omega
  | .ext n :: ps, next, h => by
    simp only [propsClean] at h
    obtain ⟨pb, bodies, fin, e, h1, h2, h3⟩ := propsBytes_ok ps next h.2
    have hl : ([3] ++ writeCString n).length = (Prp.ext n).len + n.length + 1 := by
      simp [writeCString_length, Prp.len, Prp.codeLen]; omega
    refine ⟨[3] ++ writeCString n ++ pb, bodies, fin, ?_, ?_, ?_, h3⟩
    · simp only [propsBytes, Prp.code, Prp.name, hl, e, ne_eq, not_true, if_false]
    · rw [List.length_append, hl, h1]; simp [propsLen, Prp.name]; omega
    · simp [h2, Prp.bodyLen]
  | .del n :: ps, next, h => by
    simp only [propsClean] at h
    obtain ⟨pb, bodies, fin, e, h1, h2, h3⟩ := propsBytes_ok ps next h.2
    refine ⟨[4] ++ writeCString n ++ pb, bodies, fin, ?_, ?_, ?_, h3⟩
    · simp only [propsBytes, Prp.code, Prp.name, e]
    · simp [propsLen, Prp.name, writeCString_length, Prp.len, Prp.codeLen, h1]; omega
    · simp [h2, Prp.bodyLen]
  | .missing n :: ps, next, h => by simp [propsClean, Prp.clean] at h
end

end Verif.Rap
