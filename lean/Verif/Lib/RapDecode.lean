import Verif.Lib.RapLemmas
namespace Verif.Rap
open Verif.Io Spec

theorem cstr_write {s : Bytes} (rest : Bytes) (h : (0 : UInt8) ∉ s) :
    cstr (writeCString s ++ rest) = some (s, rest) := by
  induction s with
  | nil => simp [writeCString, cstr]
  | cons b s ih =>
    simp only [List.mem_cons, not_or] at h
    have := ih h.2
    simp only [writeCString, List.cons_append, List.append_assoc] at this ⊢
    rw [cstr, if_neg (fun e => h.1 e.symm), this]

theorem varint_write (x : Nat) (rest : Bytes) : varint (writeCompressed x ++ rest) = some (x, rest) := by
  induction x using Nat.strongRecOn with
  | _ x ih =>
    rw [writeCompressed]
    split
    · rename_i h
      have hd : x >>> 7 = x / 128 := by rw [Nat.shiftRight_eq_div_pow]
      rw [List.cons_append, varint, lowByte, if_neg (by omega), ih _ (by rw [hd]; omega)]
      simp only [hd, Option.some.injEq, Prod.mk.injEq, and_true]
      omega
    · rename_i h
      have hx : (UInt8.ofNat x).toNat = x := by simp; omega
      rw [List.cons_append, varint, hx, if_pos (by omega)]; rfl

theorem u32_le (x : Nat) (rest : Bytes) (h : x < 2 ^ 32) : u32 (le32 x ++ rest) = some (x, rest) := by
  simp [leBytes, u32]; omega

theorem signed_ok32 (v : Int) (h : -2 ^ 31 ≤ v ∧ v < 2 ^ 31) : signed 32 (v % 2 ^ 32).toNat = v := by
  simp only [signed]; split <;> omega

theorem signed_ok64 (v : Int) (h : -2 ^ 63 ≤ v ∧ v < 2 ^ 63) : signed 64 (v % 2 ^ 64).toNat = v := by
  simp only [signed]; split <;> omega

theorem i32_write (v : Int) (rest : Bytes) (h : -2 ^ 31 ≤ v ∧ v < 2 ^ 31) :
    i32 ((Num.i32 v).bytes ++ rest) = some (v, rest) := by
  rw [i32, Num.bytes, u32_le _ _ (by omega)]
  simp only [signed_ok32 v h]

theorem le64_split (x : Nat) : leBytes 8 x = le32 (x % 2 ^ 32) ++ le32 (x / 2 ^ 32) := by
  have : ∀ a b : Nat, a % 256 = b % 256 → UInt8.ofNat (a % 256) = UInt8.ofNat (b % 256) := by
    intro a b h; rw [h]
  simp only [leBytes, List.cons_append, List.nil_append, List.cons.injEq, and_true]
  refine ⟨?_, ?_, ?_, ?_, ?_, ?_, ?_, ?_⟩ <;> apply this <;> omega

theorem i64_write (v : Int) (rest : Bytes) (h : -2 ^ 63 ≤ v ∧ v < 2 ^ 63) :
    i64 ((Num.i64 v).bytes ++ rest) = some (v, rest) := by
  rw [i64, Num.bytes, le64_split, List.append_assoc, u32_le _ _ (by omega)]
  simp only []
  rw [u32_le _ _ (by omega)]
  simp only [Nat.mod_add_div, signed_ok64 v h]

theorem scalar_num (n : Num) (rest : Bytes) (h : n.fits) :
    scalar n.code (n.bytes ++ rest) = some (.inl n, rest) := by
  cases n with
  | i32 v => simp only [scalar, Num.code, i32_write v rest h]; rfl
  | i64 v => simp only [scalar, Num.code, i64_write v rest h]; rfl
  | f32 b => simp only [scalar, Num.code, Num.bytes, u32_le b rest h]; rfl

theorem scalar_str (s : Bytes) (rest : Bytes) (h : (0 : UInt8) ∉ s) :
    scalar 0 (writeCString s ++ rest) = some (.inr s, rest) := by
  simp only [scalar, cstr_write rest h]; rfl

theorem itemsLen_ge (is : List Item) : is.length ≤ itemsLen is := by
  induction is with
  | nil => simp
  | cons i is ih => simp [itemsLen]; omega

theorem writeCompressed_pos (x : Nat) : 1 ≤ (writeCompressed x).length := by
  rw [writeCompressed]; split <;> simp

mutual
theorem item_decode : ∀ (i : Item) (c : UInt8) (b : Bytes), i.clean → i.fits → i.code = .ok c → i.bytes = .ok b →
    b.length < 2 ^ 32 → ∀ fuel, b.length < fuel → ∀ rest, item fuel (c :: (b ++ rest)) = some (i, rest)
  | .str s, c, b, _, hf, hc, hb, _, fuel, hfu, rest => by
    cases hc; cases hb
    simp only [Item.fits] at hf
    obtain ⟨fuel, rfl⟩ := Nat.exists_eq_add_of_le' (Nat.lt_of_le_of_lt (Nat.zero_le _) hfu)
    simp [item, scalar_str s rest hf, out]
  | .num n, c, b, _, hf, hc, hb, _, fuel, hfu, rest => by
    cases hc; cases hb
    simp only [Item.fits] at hf
    obtain ⟨fuel, rfl⟩ := Nat.exists_eq_add_of_le' (Nat.lt_of_le_of_lt (Nat.zero_le _) hfu)
    have : n.code ≠ 3 := by cases n <;> simp [Num.code]
    simp [item, this, scalar_num n rest hf, out]
  | .arr is, c, b, hcl, hf, hc, hb, hlt, fuel, hfu, rest => by
    cases hc
    simp only [Item.clean] at hcl
    simp only [Item.fits] at hf
    obtain ⟨r, hr, hrl⟩ := itemsBytes_ok is hcl
    simp only [Item.bytes, hr, Except.ok.injEq] at hb
    subst hb
    obtain ⟨fuel, rfl⟩ := Nat.exists_eq_add_of_le' (Nat.lt_of_le_of_lt (Nat.zero_le _) hfu)
    have hp := writeCompressed_pos (countU32 is)
    simp only [List.length_append] at hfu hlt
    have hge := itemsLen_ge is
    have hcount : countU32 is = is.length := by
      simp only [countU32]; apply Nat.mod_eq_of_lt; omega
    simp only [item, if_true, List.append_assoc, varint_write]
    rw [hcount, items_decode is r hcl hf hr (by omega) fuel (by omega) rest]
    rfl
  | .invalid, c, b, hcl, _, _, _, _, _, _, _ => by simp [Item.clean] at hcl
theorem items_decode : ∀ (is : List Item) (b : Bytes), itemsClean is → itemsFit is → itemsBytes is = .ok b →
    b.length < 2 ^ 32 → ∀ fuel, b.length ≤ fuel → ∀ rest,
      rep (item fuel) is.length (b ++ rest) = some (is, rest)
  | [], b, _, _, hb, _, fuel, _, rest => by
    simp only [itemsBytes, Except.ok.injEq] at hb; subst hb
    rfl
  | i :: is, b, hcl, hf, hb, hlt, fuel, hfu, rest => by
    simp only [itemsClean] at hcl
    simp only [itemsFit] at hf
    obtain ⟨c, hc⟩ := Item.code_ok hcl.1
    obtain ⟨ib, hib, _⟩ := Item.bytes_ok i hcl.1
    obtain ⟨r, hr, _⟩ := itemsBytes_ok is hcl.2
    simp only [itemsBytes, hc, hib, hr, Except.ok.injEq] at hb
    subst hb
    simp only [List.cons_append, List.length_cons, List.length_append] at hfu hlt
    simp only [List.length_cons, rep, List.cons_append, List.append_assoc]
    rw [item_decode i c ib hcl.1 hf.1 hc hib (by omega) fuel (by omega)]
    simp only []
    rw [items_decode is r hcl.2 hf.2 hr (by omega) fuel (by omega)]
end

theorem array_decode (is : List Item) (b : Bytes) (hcl : itemsClean is) (hf : itemsFit is)
    (hb : arrayBytes is = .ok b) (hlt : b.length < 2 ^ 32) (fuel : Nat) (hfu : b.length ≤ fuel) (rest : Bytes) :
    array fuel (b ++ rest) = some (is, rest) := by
  obtain ⟨r, hr, hrl, ha⟩ := arrayBytes_ok is hcl
  rw [ha] at hb
  cases hb
  simp only [List.length_append] at hfu hlt
  have hge := itemsLen_ge is
  have hcount : countU32 is = is.length := by
    simp only [countU32]; apply Nat.mod_eq_of_lt; omega
  simp only [array, List.append_assoc, varint_write, hcount]
  rw [items_decode is r hcl hf hr (by omega) fuel (by omega) rest]

/-- Reading the table entry of a property that is not a class with a body. -/
theorem entry_value (n : Bytes) (v : Value) (c b : Bytes) (hn : (0 : UInt8) ∉ n) (hcl : v.clean) (hf : v.fits)
    (hc : (Prp.entry n v).code = .ok c) (hb : v.bytes = .ok b) (hlt : b.length < 2 ^ 32) (fuel : Nat)
    (hfu : b.length ≤ fuel) (rest : Bytes) :
    entry fuel (c ++ writeCString n ++ b ++ rest) = some (.done (.entry n v), rest) := by
  cases v with
  | str s =>
    cases hc
    rw [Value.bytes, assertLen_ok (by simp [writeCString_length, Value.len])] at hb
    cases hb
    simp [entry, List.append_assoc, cstr_write _ hn, scalar_str s rest hf, out]
  | num m =>
    cases hc
    rw [Value.bytes, assertLen_ok (by simp [Num.bytes_length, Value.len])] at hb
    cases hb
    have : m.code ≠ 4 := by cases m <;> simp [Num.code]
    simp [entry, List.append_assoc, cstr_write _ hn, scalar_num m rest hf, out, this]
  | expr s =>
    cases hc
    rw [Value.bytes, assertLen_ok (by simp [writeCString_length, Value.len])] at hb
    cases hb
    simp [entry, List.append_assoc, cstr_write _ hn, cstr_write (s := s) rest hf, out]
  | arr e is =>
    obtain ⟨r, hr, hrl, ha⟩ := arrayBytes_ok is hcl
    have hb' : arrayBytes is = .ok b := by
      simp only [Value.bytes, ha] at hb
      rw [assertLen_ok (by simp [Value.len, hrl, compressedIntLen_eq])] at hb
      rw [ha, hb]
    have hd := array_decode is b hcl hf hb' hlt fuel hfu rest
    cases e
    · cases hc
      simp [entry, List.append_assoc, cstr_write _ hn, hd, out]
    · cases hc
      have h1 : ∀ r : Bytes, u32 (1 :: 0 :: 0 :: 0 :: r) = some (1, r) := fun r => by simp [u32]
      simp [entry, List.append_assoc, cstr_write _ hn, hd, out, h1]
  | invalid => exact hcl.elim

theorem propsLen_ge (ps : List Prp) : ps.length ≤ propsLen ps := by
  induction ps with
  | nil => simp
  | cons p ps ih => simp only [propsLen, List.map_cons, List.sum_cons, List.length_cons] at ih ⊢; omega

/-- The raw table that the writer's class table stands for, `next` being the running class offset. -/
def raws : List Prp → Nat → List Raw
  | [], _ => []
  | p :: ps, next =>
    (match p with
      | .loc n _ _ => Raw.cls n next
      | p => Raw.done p) :: raws ps (next + p.bodyLen)

theorem raws_length (ps : List Prp) (next : Nat) : (raws ps next).length = ps.length := by
  induction ps generalizing next with
  | nil => rfl
  | cons p ps ih => simp [raws, ih]

/-- The property table reads back as the raw table. -/
theorem table_decode : ∀ (ps : List Prp) (next : Nat) (pb bodies : Bytes) (fin : Nat),
    propsClean ps → propsFit ps → propsBytes ps next = .ok (pb, bodies, fin) → fin < 2 ^ 32 →
    pb.length < 2 ^ 32 → ∀ fuel, pb.length ≤ fuel → ∀ rest,
    rep (entry fuel) ps.length (pb ++ rest) = some (raws ps next, rest)
  | [], next, pb, bodies, fin, _, _, h, _, _, fuel, _, rest => by
    simp only [propsBytes, Except.ok.injEq, Prod.mk.injEq] at h
    obtain ⟨rfl, _, _⟩ := h; rfl
  | p :: ps, next, pb, bodies, fin, hcl, hf, h, hfin, hlt, fuel, hfu, rest => by
    simp only [propsClean] at hcl
    simp only [propsFit] at hf
    cases p with
    | entry n v =>
      simp only [Prp.clean] at hcl
      simp only [Prp.fits] at hf
      obtain ⟨c, hc, hcl'⟩ := Prp.code_ok (p := .entry n v) hcl.1
      obtain ⟨vb, hv, hvl⟩ := Value.bytes_ok v hcl.1
      obtain ⟨pb', bodies', fin', e, h1, h2, h3⟩ := propsBytes_ok ps next hcl.2
      have hl : (c ++ writeCString n ++ vb).length = (Prp.entry n v).len + n.length + 1 := by
        simp [writeCString_length, hcl', hvl, Prp.len]; omega
      simp only [propsBytes, hc, hv, Prp.name, hl, e, ne_eq, not_true, if_false, Except.ok.injEq,
        Prod.mk.injEq] at h
      obtain ⟨rfl, rfl, rfl⟩ := h
      have hl' : pb'.length + vb.length ≤ (c ++ writeCString n ++ vb ++ pb').length := by simp; omega
      simp only [List.length_cons, rep, raws, Prp.bodyLen, Nat.add_zero]
      rw [List.append_assoc, entry_value n v c vb hf.1.1 hcl.1 hf.1.2 hc hv (by omega) fuel (by omega)]
      simp only []
      rw [table_decode ps next pb' bodies' fin' hcl.2 hf.2 e hfin (by omega) fuel (by omega)]
    | loc n parent cs =>
      simp only [Prp.fits] at hf
      obtain ⟨b, hb, hbl⟩ := Prp.body_ok (.loc n parent cs) next hcl.1
      obtain ⟨pb', bodies', fin', e, h1, h2, h3⟩ := propsBytes_ok ps (next + b.length) hcl.2
      have hl : ([0] ++ writeCString n ++ le32 next).length = (Prp.loc n parent cs).len + n.length + 1 := by
        simp [writeCString_length, Prp.len, Prp.codeLen]; omega
      have e' := e
      rw [hbl] at e'
      simp only [propsBytes, Prp.code, hb, Prp.name, hl, hbl, e', ne_eq, not_true, if_false, Except.ok.injEq,
        Prod.mk.injEq] at h
      obtain ⟨rfl, rfl, rfl⟩ := h
      have hl' : pb'.length ≤ ([0] ++ writeCString n ++ le32 next ++ pb').length := by simp; omega
      have hn : next < 2 ^ 32 := by omega
      simp only [List.length_cons, rep, raws]
      rw [← hbl]
      have h0 : entry fuel ([0] ++ writeCString n ++ le32 next ++ pb' ++ rest)
          = some (Raw.cls n next, pb' ++ rest) := by
        simp [entry, List.append_assoc, cstr_write _ hf.1.1, u32_le next _ hn, out]
      rw [h0]
      simp only []
      rw [table_decode ps _ pb' bodies' fin' hcl.2 hf.2 e hfin (by omega) fuel (by omega)]
    | ext n =>
      simp only [Prp.fits] at hf
      obtain ⟨pb', bodies', fin', e, h1, h2, h3⟩ := propsBytes_ok ps next hcl.2
      have hl : ([3] ++ writeCString n).length = (Prp.ext n).len + n.length + 1 := by
        simp [writeCString_length, Prp.len, Prp.codeLen]; omega
      simp only [propsBytes, Prp.code, Prp.name, hl, e, ne_eq, not_true, if_false, Except.ok.injEq,
        Prod.mk.injEq] at h
      obtain ⟨rfl, rfl, rfl⟩ := h
      have hl' : pb'.length ≤ ([3] ++ writeCString n ++ pb').length := by simp; omega
      simp only [List.length_cons, rep, raws, Prp.bodyLen, Nat.add_zero]
      have h0 : entry fuel ([3] ++ writeCString n ++ pb' ++ rest)
          = some (Raw.done (.ext n), pb' ++ rest) := by
        simp [entry, List.append_assoc, cstr_write _ hf.1, out]
      rw [h0]
      simp only []
      rw [table_decode ps _ pb' bodies' fin' hcl.2 hf.2 e hfin (by omega) fuel (by omega)]
    | del n =>
      simp only [Prp.fits] at hf
      obtain ⟨pb', bodies', fin', e, h1, h2, h3⟩ := propsBytes_ok ps next hcl.2
      simp only [propsBytes, Prp.code, Prp.name, e, Except.ok.injEq, Prod.mk.injEq] at h
      obtain ⟨rfl, rfl, rfl⟩ := h
      have hl' : pb'.length ≤ ([4] ++ writeCString n ++ pb').length := by simp; omega
      simp only [List.length_cons, rep, raws, Prp.bodyLen, Nat.add_zero]
      have h0 : entry fuel ([4] ++ writeCString n ++ pb' ++ rest)
          = some (Raw.done (.del n), pb' ++ rest) := by
        simp [entry, List.append_assoc, cstr_write _ hf.1, out]
      rw [h0]
      simp only []
      rw [table_decode ps _ pb' bodies' fin' hcl.2 hf.2 e hfin (by omega) fuel (by omega)]
    | missing n => simp [Prp.clean] at hcl

theorem parent_decode (parent : Option Bytes) (rest : Bytes)
    (h : ∀ p, parent = some p → p ≠ [] ∧ (0 : UInt8) ∉ p) :
    ∃ s, cstr (parentBytes parent ++ rest) = some (s, rest) ∧ (if s = [] then none else some s) = parent := by
  cases parent with
  | none => exact ⟨[], by simp [parentBytes, cstr], by simp⟩
  | some p =>
    obtain ⟨h1, h2⟩ := h p rfl
    exact ⟨p, by rw [parentBytes, cstr_write _ h2], by simp [h1]⟩

mutual
/-- A class body placed at offset `pre.length` of any file reads back. -/
theorem cls_decode : ∀ (p : Prp) (pre post b : Bytes), p.clean → p.fits →
    p.body pre.length = .ok b → pre.length + b.length < 2 ^ 32 →
    ∀ fuel, b.length < fuel →
    match p with
    | .loc _ parent ps => cls fuel (pre ++ b ++ post) pre.length = some (parent, ps, pre.length + b.length)
    | _ => True
  | .loc n parent ps, pre, post, b, hcl, hf, hb, hlt, fuel, hfu => by
    simp only [Prp.clean] at hcl
    simp only [Prp.fits] at hf
    generalize hstart : pre.length + (parentBytes parent ++ writeCompressed (countU32 ps)).length
      + propsLen ps + 4 = start
    obtain ⟨pb, bodies, fin, e, h1, h2, h3⟩ := propsBytes_ok ps start hcl
    simp only [Prp.body, hstart, e, h1, ne_eq, not_true, if_false, Except.ok.injEq] at hb
    subst hb
    obtain ⟨fuel, rfl⟩ := Nat.exists_eq_add_of_le' (Nat.lt_of_le_of_lt (Nat.zero_le _) hfu)
    have hp := writeCompressed_pos (countU32 ps)
    have hq : 1 ≤ (parentBytes parent).length := by rw [parentBytes_length]; omega
    simp only [List.length_append, leBytes_length] at hfu hlt hstart
    have hge := propsLen_ge ps
    have hcount : countU32 ps = ps.length := by
      simp only [countU32]; apply Nat.mod_eq_of_lt; omega
    have hfin : fin < 2 ^ 32 := by omega
    -- the file seen from the body, and split at the children
    have hfile : pre ++ (parentBytes parent ++ writeCompressed (countU32 ps) ++ pb ++ le32 fin ++ bodies) ++ post
        = (pre ++ (parentBytes parent ++ (writeCompressed (countU32 ps) ++ (pb ++ le32 fin)))) ++ bodies ++ post := by
      simp only [List.append_assoc]
    have hdrop : (pre ++ (parentBytes parent ++ writeCompressed (countU32 ps) ++ pb ++ le32 fin ++ bodies) ++ post).drop
        pre.length = parentBytes parent ++ (writeCompressed (countU32 ps) ++ (pb ++ (le32 fin ++ (bodies ++ post)))) := by
      simp only [List.append_assoc, List.drop_left]
    obtain ⟨s, hs1, hs2⟩ := parent_decode parent
      (writeCompressed (countU32 ps) ++ (pb ++ (le32 fin ++ (bodies ++ post)))) hf.2.1
    have hchildren := resolve_decode ps
      (pre ++ (parentBytes parent ++ (writeCompressed (countU32 ps) ++ (pb ++ le32 fin)))) post pb bodies fin start
      hcl hf.2.2 (by simp only [List.length_append, leBytes_length]; omega) e hfin fuel (by omega)
    rw [← hfile] at hchildren
    have hlen : (pre ++ (parentBytes parent ++ writeCompressed (countU32 ps) ++ pb ++ le32 fin ++ bodies)
        ++ post).length - (bodies ++ post).length = start := by
      simp only [List.length_append, leBytes_length]; omega
    rw [cls, hdrop, hs1]
    simp only []
    rw [varint_write, hcount]
    simp only []
    rw [table_decode ps start pb bodies fin hcl hf.2.2 e hfin (by omega) fuel (by omega)]
    simp only []
    rw [u32_le fin _ hfin]
    simp only []
    rw [← hcount, hlen, hchildren]
    simp only [if_true]
    rw [hs2]
    have : pre.length + (parentBytes parent ++ writeCompressed (countU32 ps) ++ pb ++ le32 fin ++ bodies).length = fin := by
      simp only [List.length_append, leBytes_length]; omega
    rw [this]
  | .entry _ _, _, _, _, _, _, _, _, _, _ => trivial
  | .ext _, _, _, _, _, _, _, _, _, _ => trivial
  | .del _, _, _, _, _, _, _, _, _, _ => trivial
  | .missing _, _, _, _, _, _, _, _, _, _ => trivial
/-- The bodies of the classes of a table, placed where the table says, are found by following it. -/
theorem resolve_decode : ∀ (ps : List Prp) (pre post pb bodies : Bytes) (fin next : Nat),
    propsClean ps → propsFit ps → pre.length = next → propsBytes ps next = .ok (pb, bodies, fin) →
    fin < 2 ^ 32 → ∀ fuel, bodies.length < fuel →
    resolve (cls fuel (pre ++ bodies ++ post)) (raws ps next) next = some (ps, fin)
  | [], pre, post, pb, bodies, fin, next, _, _, _, h, _, fuel, _ => by
    simp only [propsBytes, Except.ok.injEq, Prod.mk.injEq] at h
    obtain ⟨_, rfl, rfl⟩ := h; rfl
  | .entry n v :: ps, pre, post, pb, bodies, fin, next, hcl, hf, hpre, h, hfin, fuel, hfu => by
    simp only [propsClean] at hcl
    simp only [propsFit] at hf
    obtain ⟨c, hc, hcl'⟩ := Prp.code_ok (p := .entry n v) hcl.1
    obtain ⟨vb, hv, hvl⟩ := Value.bytes_ok v (by simpa [Prp.clean] using hcl.1)
    obtain ⟨pb', bodies', fin', e, h1, h2, h3⟩ := propsBytes_ok ps next hcl.2
    have hl : (c ++ writeCString n ++ vb).length = (Prp.entry n v).len + n.length + 1 := by
      simp [writeCString_length, hcl', hvl, Prp.len]; omega
    simp only [propsBytes, hc, hv, Prp.name, hl, e, ne_eq, not_true, if_false, Except.ok.injEq,
      Prod.mk.injEq] at h
    obtain ⟨rfl, rfl, rfl⟩ := h
    simp only [raws, resolve, Prp.bodyLen, Nat.add_zero]
    rw [resolve_decode ps pre post pb' bodies' fin' next hcl.2 hf.2 hpre e hfin fuel hfu]
  | .loc n parent cs :: ps, pre, post, pb, bodies, fin, next, hcl, hf, hpre, h, hfin, fuel, hfu => by
    simp only [propsClean] at hcl
    simp only [propsFit] at hf
    obtain ⟨b, hb, hbl⟩ := Prp.body_ok (.loc n parent cs) next hcl.1
    obtain ⟨pb', bodies', fin', e, h1, h2, h3⟩ := propsBytes_ok ps (next + b.length) hcl.2
    have hl : ([0] ++ writeCString n ++ le32 next).length = (Prp.loc n parent cs).len + n.length + 1 := by
      simp [writeCString_length, Prp.len, Prp.codeLen]; omega
    have e' := e
    rw [hbl] at e'
    simp only [propsBytes, Prp.code, hb, Prp.name, hl, hbl, e', ne_eq, not_true, if_false, Except.ok.injEq,
      Prod.mk.injEq] at h
    obtain ⟨rfl, rfl, rfl⟩ := h
    simp only [List.length_append] at hfu
    subst hpre
    have hc := cls_decode (.loc n parent cs) pre (bodies' ++ post) b hcl.1 hf.1 hb (by omega) fuel (by omega)
    have hfile : pre ++ (b ++ bodies') ++ post = pre ++ b ++ (bodies' ++ post) := by simp only [List.append_assoc]
    have hfile2 : pre ++ (b ++ bodies') ++ post = (pre ++ b) ++ bodies' ++ post := by simp only [List.append_assoc]
    have hr := resolve_decode ps (pre ++ b) post pb' bodies' fin' (pre.length + b.length) hcl.2 hf.2
      (by simp) e hfin fuel (by omega)
    simp only [raws, resolve, ne_eq, not_true, if_false, ← hbl]
    rw [← hfile2] at hr
    rw [← hfile] at hc
    rw [hc]
    simp only []
    rw [hr]
  | .ext n :: ps, pre, post, pb, bodies, fin, next, hcl, hf, hpre, h, hfin, fuel, hfu => by
    simp only [propsClean] at hcl
    simp only [propsFit] at hf
    obtain ⟨pb', bodies', fin', e, h1, h2, h3⟩ := propsBytes_ok ps next hcl.2
    have hl : ([3] ++ writeCString n).length = (Prp.ext n).len + n.length + 1 := by
      simp [writeCString_length, Prp.len, Prp.codeLen]; omega
    simp only [propsBytes, Prp.code, Prp.name, hl, e, ne_eq, not_true, if_false, Except.ok.injEq,
      Prod.mk.injEq] at h
    obtain ⟨rfl, rfl, rfl⟩ := h
    simp only [raws, resolve, Prp.bodyLen, Nat.add_zero]
    rw [resolve_decode ps pre post pb' bodies' fin' next hcl.2 hf.2 hpre e hfin fuel hfu]
  | .del n :: ps, pre, post, pb, bodies, fin, next, hcl, hf, hpre, h, hfin, fuel, hfu => by
    simp only [propsClean] at hcl
    simp only [propsFit] at hf
    obtain ⟨pb', bodies', fin', e, h1, h2, h3⟩ := propsBytes_ok ps next hcl.2
    simp only [propsBytes, Prp.code, Prp.name, e, Except.ok.injEq, Prod.mk.injEq] at h
    obtain ⟨rfl, rfl, rfl⟩ := h
    simp only [raws, resolve, Prp.bodyLen, Nat.add_zero]
    rw [resolve_decode ps pre post pb' bodies' fin' next hcl.2 hf.2 hpre e hfin fuel hfu]
  | .missing n :: ps, pre, post, pb, bodies, fin, next, hcl, _, _, _, _, _, _ => by
    simp [propsClean, Prp.clean] at hcl
end

end Verif.Rap
