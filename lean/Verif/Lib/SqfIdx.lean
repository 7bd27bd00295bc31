import Verif.Lib.Sqfc
/-! Invariants of the compiler's tables: all indices are in range and all pointers fit the file format. -/
namespace Verif.Sqf
open Sqfc (PtrFits Fits FitsAll plain plains)

/-- Index of an instruction in range -/
def WI (nc nn : Nat) : Instr → Prop
  | .endStatement | .makeArray .. => True
  | .push k => k.toNat < nc
  | .callUnary n _ | .callBinary n _ | .callNular n _ | .assignTo n _ | .assignToLocal n _ | .getVariable n _ => n.toNat < nn

mutual
def WC (nc nn : Nat) : Const → Prop
  | .code is => (∀ i ∈ is.contents, WI nc nn i) ∧ PtrFits is.ptr
  | .arr cs => WCs nc nn cs
  | .carr cs => WCs nc nn cs
  | _ => True
def WCs (nc nn : Nat) : List Const → Prop
  | [] => True
  | c :: cs => WC nc nn c ∧ WCs nc nn cs
end

theorem WI.mono {a b a' b' : Nat} (ha : a ≤ a') (hb : b ≤ b') {i : Instr} (h : WI a b i) : WI a' b' i := by
  cases i <;> simp only [WI] at * <;> omega

mutual
theorem WC.mono {a b a' b' : Nat} (ha : a ≤ a') (hb : b ≤ b') : ∀ {c : Const}, WC a b c → WC a' b' c
  | .code is, h => by
    simp only [WC] at *
    exact ⟨fun i hi => (h.1 i hi).mono ha hb, h.2⟩
  | .arr cs, h => by simp only [WC] at *; exact WCs.mono ha hb h
  | .carr cs, h => by simp only [WC] at *; exact WCs.mono ha hb h
  | .str _, _ => by simp [WC]
  | .num _, _ => by simp [WC]
  | .bool _, _ => by simp [WC]
  | .nular _, _ => by simp [WC]
theorem WCs.mono {a b a' b' : Nat} (ha : a ≤ a') (hb : b ≤ b') : ∀ {cs : List Const}, WCs a b cs → WCs a' b' cs
  | [], _ => by simp [WCs]
  | c :: cs, h => by simp only [WCs] at *; exact ⟨WC.mono ha hb h.1, WCs.mono ha hb h.2⟩
end

theorem WCs_append {a b : Nat} {cs : List Const} {c : Const} (h : WCs a b cs) (hc : WC a b c) : WCs a b (cs ++ [c]) := by
  induction cs with
  | nil => exact ⟨hc, trivial⟩
  | cons d ds ih => exact ⟨h.1, ih h.2⟩

/-- Instructions in range for a context -/
def WIs (ctx : Ctx) (is : List Instr) : Prop := ∀ i ∈ is, WI ctx.consts.length ctx.names.length i

/-- The context is closed: its constants refer only to entries it has. -/
def Inv (ctx : Ctx) : Prop := WCs ctx.consts.length ctx.names.length ctx.consts

def WCx (ctx : Ctx) (c : Const) : Prop := WC ctx.consts.length ctx.names.length c

theorem Ext.lens {a b : Ctx} (h : Ext a b) : a.consts.length ≤ b.consts.length ∧ a.names.length ≤ b.names.length :=
  ⟨h.1.length_le, h.2.length_le⟩

theorem WIs.mono {a b : Ctx} (h : Ext a b) {is : List Instr} (hi : WIs a is) : WIs b is :=
  fun i hm => (hi i hm).mono h.lens.1 h.lens.2

theorem WIs.append {a : Ctx} {is js : List Instr} (hi : WIs a is) (hj : WIs a js) : WIs a (is ++ js) := by
  intro i hm
  rcases List.mem_append.1 hm with h | h
  · exact hi i h
  · exact hj i h

theorem WIs.single {a : Ctx} {i : Instr} (h : WI a.consts.length a.names.length i) : WIs a [i] := by
  intro j hj; simp at hj; subst hj; exact h

theorem getElem?_lt {α : Type} {l : List α} {i : Nat} {x : α} (h : l[i]? = some x) : i < l.length := by
  by_contra hc
  rw [List.getElem?_eq_none (by omega)] at h
  cases h

theorem addConst_inv {c : Const} {ctx ctx' : Ctx} {i : UInt16} (h : addConst c ctx = .ok (i, ctx')) (hi : Inv ctx)
    (hc : WCx ctx c) : Inv ctx' ∧ WIs ctx' [.push i] := by
  obtain ⟨⟨j, l⟩, ha, h⟩ := rbind h
  cases h
  obtain ⟨_, x, hx, _⟩ := addOrGet_ok ha
  refine ⟨?_, WIs.single (getElem?_lt hx)⟩
  unfold addOrGet at ha
  split at ha
  · obtain ⟨_, _, ha⟩ := rbind ha
    cases ha; exact hi
  · obtain ⟨_, _, ha⟩ := rbind ha
    cases ha
    show WCs (ctx.consts ++ [c]).length ctx.names.length _
    exact WCs_append (hi.mono (by simp) (Nat.le_refl _)) (WC.mono (by simp) (Nat.le_refl _) hc)

theorem pushConst_atom_inv {c : Const} (hc : ∀ cs, c ≠ .arr cs) {ctx ctx' : Ctx} {is : List Instr}
    (h : pushConst c ctx = .ok (is, ctx')) (hi : Inv ctx) (hw : WCx ctx c) : Inv ctx' ∧ WIs ctx' is := by
  rw [pushConst_atom hc] at h
  obtain ⟨⟨i, ctx1⟩, h1, h⟩ := rbind h
  cases h
  exact addConst_inv h1 hi hw

mutual
theorem pushConst_inv : ∀ (c : Const) (ctx ctx' : Ctx) (is : List Instr), pushConst c ctx = .ok (is, ctx') →
    Inv ctx → WCx ctx c → Inv ctx' ∧ WIs ctx' is
  | .arr cs, ctx, ctx', is, h, hi, hw => by
    rw [pushConst] at h
    obtain ⟨⟨a, ctx1⟩, h1, h⟩ := rbind h
    dsimp only at h
    split at h
    · cases h
      obtain ⟨i1, w1⟩ := pushConsts_inv cs _ _ _ h1 hi (by simpa only [WCx, WC] using hw)
      exact ⟨i1, w1.append (.single (by simp [WI]))⟩
    · cases h
  | .code _, ctx, ctx', is, h, hi, hw => pushConst_atom_inv (by simp) h hi hw
  | .str _, ctx, ctx', is, h, hi, hw => pushConst_atom_inv (by simp) h hi hw
  | .num _, ctx, ctx', is, h, hi, hw => pushConst_atom_inv (by simp) h hi hw
  | .bool _, ctx, ctx', is, h, hi, hw => pushConst_atom_inv (by simp) h hi hw
  | .carr _, ctx, ctx', is, h, hi, hw => pushConst_atom_inv (by simp) h hi hw
  | .nular _, ctx, ctx', is, h, hi, hw => pushConst_atom_inv (by simp) h hi hw
theorem pushConsts_inv : ∀ (cs : List Const) (ctx ctx' : Ctx) (is : List Instr), pushConsts cs ctx = .ok (is, ctx') →
    Inv ctx → WCs ctx.consts.length ctx.names.length cs → Inv ctx' ∧ WIs ctx' is
  | [], ctx, ctx', is, h, hi, _ => by
    rw [pushConsts] at h; cases h
    exact ⟨hi, fun i hm => by cases hm⟩
  | c :: cs, ctx, ctx', is, h, hi, hw => by
    rw [pushConsts] at h
    obtain ⟨⟨a, ctx1⟩, h1, h⟩ := rbind h
    obtain ⟨⟨b, ctx2⟩, h2, h⟩ := rbind h
    cases h
    have e1 := (pushConst_ok _ _ _ _ h1).1
    have e2 := (pushConsts_ok _ _ _ _ h2).1
    obtain ⟨i1, w1⟩ := pushConst_inv c _ _ _ h1 hi hw.1
    obtain ⟨i2, w2⟩ := pushConsts_inv cs _ _ _ h2 i1 (hw.2.mono e1.lens.1 e1.lens.2)
    exact ⟨i2, (w1.mono e2).append w2⟩
end

theorem emitName_inv {P : Proc} {mk : UInt16 → SourceInfo → Instr} {n : Bytes} {sp : Span} {ctx ctx' : Ctx}
    {is : List Instr} (h : emitName P mk n sp ctx = .ok (is, ctx')) (hi : Inv ctx)
    (hmk : ∀ a b i s, i.toNat < b → WI a b (mk i s)) : Inv ctx' ∧ WIs ctx' is := by
  obtain ⟨⟨i, ctx1⟩, h1, h⟩ := rbind h
  obtain ⟨s, h2, h⟩ := rbind h
  cases h
  obtain ⟨m, hm, h1⟩ := rbind h1
  obtain ⟨⟨j, l⟩, h3, h1⟩ := rbind h1
  cases h1
  obtain ⟨e, x, hx, hxe⟩ := addOrGet_ok h3
  exact ⟨hi.mono (Nat.le_refl _) e.length_le, .single (hmk _ _ _ _ (getElem?_lt hx))⟩

theorem nested_fits (P : Proc) (hP : ∀ sp, P.len sp < 2 ^ 31) (c : List Stmt) (sp : Span) : PtrFits (nestedPtr P c sp) := by
  show UInt32.toNat _ < _
  split
  · decide
  · have := hP sp
    rw [UInt32.toNat_ofNat', Nat.mod_eq_of_lt (by omega)]; exact this

mutual
theorem compConst_inv (P : Proc) (hP : ∀ sp, P.len sp < 2 ^ 31) : ∀ (e : Expr) (ctx ctx' : Ctx) (r : Option Const),
    compConst P e ctx = .ok (r, ctx') → Inv ctx → Inv ctx' ∧ ∀ c, r = some c → WCx ctx' c
  | .code c s sp, ctx, ctx', r, h, hi => by
    rw [compConst] at h
    obtain ⟨⟨is, ctx1⟩, h1, h⟩ := rbind h
    cases h
    obtain ⟨i1, w1⟩ := compSs_inv P hP c _ _ _ h1 hi
    exact ⟨i1, fun c' hc => by cases hc; exact ⟨w1, nested_fits P hP c sp⟩⟩
  | .str s _ _, ctx, ctx', r, h, hi => by
    rw [compConst] at h; cases h
    exact ⟨hi, fun c hc => by cases hc; simp [WCx, WC]⟩
  | .num s _, ctx, ctx', r, h, hi => by
    rw [compConst] at h; cases h
    exact ⟨hi, fun c hc => by cases hc; simp [WCx, WC]⟩
  | .bool s _, ctx, ctx', r, h, hi => by
    rw [compConst] at h; cases h
    exact ⟨hi, fun c hc => by cases hc; simp [WCx, WC]⟩
  | .arr es sp, ctx, ctx', r, h, hi => by
    rw [compConst] at h
    obtain ⟨⟨cs, ctx1⟩, h1, h⟩ := rbind h
    cases h
    obtain ⟨i1, w1⟩ := compConsts_inv P hP es _ _ _ h1 hi
    refine ⟨i1, fun c hc => ?_⟩
    cases cs with
    | none => simp at hc
    | some cs => simp at hc; subst hc; exact w1 cs rfl
  | .carr es sp, ctx, ctx', r, h, hi => by
    rw [compConst] at h
    obtain ⟨⟨cs, ctx1⟩, h1, h⟩ := rbind h
    cases h
    obtain ⟨i1, w1⟩ := compConsts_inv P hP es _ _ _ h1 hi
    refine ⟨i1, fun c hc => ?_⟩
    cases cs with
    | none => simp at hc
    | some cs => simp at hc; subst hc; exact w1 cs rfl
  | .nular n sp, ctx, ctx', r, h, hi => by
    rw [compConst] at h
    split at h
    · obtain ⟨m, hm, h⟩ := rbind h
      cases h
      exact ⟨hi, fun c hc => by cases hc; simp [WCx, WC]⟩
    · cases h
      exact ⟨hi, fun c hc => by cases hc⟩
  | .un _ _ _, ctx, ctx', r, h, hi => by
    simp only [compConst] at h; cases h; exact ⟨hi, fun c hc => by cases hc⟩
  | .bin _ _ _ _, ctx, ctx', r, h, hi => by
    simp only [compConst] at h; cases h; exact ⟨hi, fun c hc => by cases hc⟩
  | .var _ _, ctx, ctx', r, h, hi => by
    simp only [compConst] at h; cases h; exact ⟨hi, fun c hc => by cases hc⟩
theorem compConsts_inv (P : Proc) (hP : ∀ sp, P.len sp < 2 ^ 31) : ∀ (es : List Expr) (ctx ctx' : Ctx) (r : Option (List Const)),
    compConsts P es ctx = .ok (r, ctx') → Inv ctx →
    Inv ctx' ∧ ∀ cs, r = some cs → WCs ctx'.consts.length ctx'.names.length cs
  | [], ctx, ctx', r, h, hi => by
    rw [compConsts] at h; cases h
    exact ⟨hi, fun cs hc => by cases hc; exact trivial⟩
  | e :: es, ctx, ctx', r, h, hi => by
    rw [compConsts] at h
    obtain ⟨⟨c, ctx1⟩, h1, h⟩ := rbind h
    obtain ⟨i1, w1⟩ := compConst_inv P hP e _ _ _ h1 hi
    cases c with
    | none => cases h; exact ⟨i1, fun cs hc => by cases hc⟩
    | some c =>
      obtain ⟨⟨cs, ctx2⟩, h2, h⟩ := rbind h
      cases h
      have e2 := (compConsts_ok P es _ _ _ h2).1
      obtain ⟨i2, w2⟩ := compConsts_inv P hP es _ _ _ h2 i1
      refine ⟨i2, fun cs' hc => ?_⟩
      cases cs with
      | none => simp at hc
      | some cs =>
        simp at hc; subst hc
        exact ⟨(w1 c rfl).mono e2.lens.1 e2.lens.2, w2 cs rfl⟩
theorem compInstr_inv (P : Proc) (hP : ∀ sp, P.len sp < 2 ^ 31) : ∀ (e : Expr) (ctx ctx' : Ctx) (is : List Instr),
    compInstr P e ctx = .ok (is, ctx') → Inv ctx → Inv ctx' ∧ WIs ctx' is
  | .code c s sp, ctx, ctx', is, h, hi => by
    rw [compInstr] at h
    obtain ⟨⟨js, ctx1⟩, h1, h⟩ := rbind h
    obtain ⟨i1, w1⟩ := compSs_inv P hP c _ _ _ h1 hi
    exact pushConst_inv _ _ _ _ h i1 ⟨w1, nested_fits P hP c sp⟩
  | .str s _ _, ctx, ctx', is, h, hi => by
    rw [compInstr] at h; exact pushConst_inv _ _ _ _ h hi (by simp [WCx, WC])
  | .num s _, ctx, ctx', is, h, hi => by
    rw [compInstr] at h; exact pushConst_inv _ _ _ _ h hi (by simp [WCx, WC])
  | .bool s _, ctx, ctx', is, h, hi => by
    rw [compInstr] at h; exact pushConst_inv _ _ _ _ h hi (by simp [WCx, WC])
  | .arr es sp, ctx, ctx', is, h, hi => by
    rw [compInstr] at h
    obtain ⟨⟨cs, ctx1⟩, h1, h⟩ := rbind h
    obtain ⟨i1, w1⟩ := compConsts_inv P hP es _ _ _ h1 hi
    cases cs with
    | some cs => exact pushConst_inv _ _ _ _ h i1 (by simpa only [WCx, WC] using w1 cs rfl)
    | none =>
      obtain ⟨len, hl, h⟩ := rbind h
      obtain ⟨⟨js, ctx2⟩, h2, h⟩ := rbind h
      obtain ⟨s, hs, h⟩ := rbind h
      cases h
      obtain ⟨i2, w2⟩ := compInstrs_inv P hP es _ _ _ h2 i1
      exact ⟨i2, w2.append (.single (by simp [WI]))⟩
  | .carr es sp, ctx, ctx', is, h, hi => by
    rw [compInstr] at h
    obtain ⟨⟨cs, ctx1⟩, h1, h⟩ := rbind h
    obtain ⟨i1, w1⟩ := compConsts_inv P hP es _ _ _ h1 hi
    cases cs with
    | some cs => exact pushConst_inv _ _ _ _ h i1 (by simpa only [WCx, WC] using w1 cs rfl)
    | none => cases h
  | .nular n sp, ctx, ctx', is, h, hi => by
    rw [compInstr] at h
    split at h
    · obtain ⟨m, hm, h⟩ := rbind h
      exact pushConst_inv _ _ _ _ h hi (by simp [WCx, WC])
    · exact emitName_inv h hi fun _ _ _ _ h => h
  | .un c e sp, ctx, ctx', is, h, hi => by
    rw [compInstr] at h
    obtain ⟨⟨a, ctx1⟩, h1, h⟩ := rbind h
    obtain ⟨⟨b, ctx2⟩, h2, h⟩ := rbind h
    cases h
    obtain ⟨i1, w1⟩ := compInstr_inv P hP e _ _ _ h1 hi
    obtain ⟨i2, w2⟩ := emitName_inv h2 i1 fun _ _ _ _ h => h
    exact ⟨i2, (w1.mono (emitName_ok h2).1).append w2⟩
  | .bin c l r sp, ctx, ctx', is, h, hi => by
    rw [compInstr] at h
    obtain ⟨⟨a, ctx1⟩, h1, h⟩ := rbind h
    obtain ⟨⟨b, ctx2⟩, h2, h⟩ := rbind h
    obtain ⟨⟨d, ctx3⟩, h3, h⟩ := rbind h
    cases h
    obtain ⟨i1, w1⟩ := compInstr_inv P hP l _ _ _ h1 hi
    obtain ⟨i2, w2⟩ := compInstr_inv P hP r _ _ _ h2 i1
    obtain ⟨i3, w3⟩ := emitName_inv h3 i2 fun _ _ _ _ h => h
    have e2 := (compInstr_ok P r _ _ _ h2).1
    have e3 := (emitName_ok h3).1
    exact ⟨i3, ((w1.mono (e2.trans e3)).append (w2.mono e3)).append w3⟩
  | .var n sp, ctx, ctx', is, h, hi => by
    rw [compInstr] at h
    exact emitName_inv h hi fun _ _ _ _ h => h
theorem compInstrs_inv (P : Proc) (hP : ∀ sp, P.len sp < 2 ^ 31) : ∀ (es : List Expr) (ctx ctx' : Ctx) (is : List Instr),
    compInstrs P es ctx = .ok (is, ctx') → Inv ctx → Inv ctx' ∧ WIs ctx' is
  | [], ctx, ctx', is, h, hi => by
    rw [compInstrs] at h; cases h
    exact ⟨hi, fun i hm => by cases hm⟩
  | e :: es, ctx, ctx', is, h, hi => by
    rw [compInstrs] at h
    obtain ⟨⟨a, ctx1⟩, h1, h⟩ := rbind h
    obtain ⟨⟨b, ctx2⟩, h2, h⟩ := rbind h
    cases h
    obtain ⟨i1, w1⟩ := compInstr_inv P hP e _ _ _ h1 hi
    obtain ⟨i2, w2⟩ := compInstrs_inv P hP es _ _ _ h2 i1
    exact ⟨i2, (w1.mono (compInstrs_ok P es _ _ _ h2).1).append w2⟩
theorem compS_inv (P : Proc) (hP : ∀ sp, P.len sp < 2 ^ 31) : ∀ (s : Stmt) (ctx ctx' : Ctx) (is : List Instr),
    compS P s ctx = .ok (is, ctx') → Inv ctx → Inv ctx' ∧ WIs ctx' is
  | .assignGlobal n e sp, ctx, ctx', is, h, hi => by
    rw [compS] at h
    obtain ⟨⟨a, ctx1⟩, h1, h⟩ := rbind h
    obtain ⟨⟨b, ctx2⟩, h2, h⟩ := rbind h
    cases h
    obtain ⟨i1, w1⟩ := compInstr_inv P hP e _ _ _ h1 hi
    obtain ⟨i2, w2⟩ := emitName_inv h2 i1 fun _ _ _ _ h => h
    exact ⟨i2, WIs.append (is := [.endStatement]) (.single (by simp [WI])) ((w1.mono (emitName_ok h2).1).append w2)⟩
  | .assignLocal n e sp, ctx, ctx', is, h, hi => by
    rw [compS] at h
    obtain ⟨⟨a, ctx1⟩, h1, h⟩ := rbind h
    obtain ⟨⟨b, ctx2⟩, h2, h⟩ := rbind h
    cases h
    obtain ⟨i1, w1⟩ := compInstr_inv P hP e _ _ _ h1 hi
    obtain ⟨i2, w2⟩ := emitName_inv h2 i1 fun _ _ _ _ h => h
    exact ⟨i2, WIs.append (is := [.endStatement]) (.single (by simp [WI])) ((w1.mono (emitName_ok h2).1).append w2)⟩
  | .expr e sp, ctx, ctx', is, h, hi => by
    rw [compS] at h
    obtain ⟨⟨a, ctx1⟩, h1, h⟩ := rbind h
    cases h
    obtain ⟨i1, w1⟩ := compInstr_inv P hP e _ _ _ h1 hi
    exact ⟨i1, WIs.append (is := [.endStatement]) (.single (by simp [WI])) w1⟩
theorem compSs_inv (P : Proc) (hP : ∀ sp, P.len sp < 2 ^ 31) : ∀ (ss : List Stmt) (ctx ctx' : Ctx) (is : List Instr),
    compSs P ss ctx = .ok (is, ctx') → Inv ctx → Inv ctx' ∧ WIs ctx' is
  | [], ctx, ctx', is, h, hi => by
    rw [compSs] at h; cases h
    exact ⟨hi, fun i hm => by cases hm⟩
  | s :: ss, ctx, ctx', is, h, hi => by
    rw [compSs] at h
    obtain ⟨⟨a, ctx1⟩, h1, h⟩ := rbind h
    obtain ⟨⟨b, ctx2⟩, h2, h⟩ := rbind h
    cases h
    obtain ⟨i1, w1⟩ := compS_inv P hP s _ _ _ h1 hi
    obtain ⟨i2, w2⟩ := compSs_inv P hP ss _ _ _ h2 i1
    exact ⟨i2, (w1.mono (compSs_ok P ss _ _ _ h2).1).append w2⟩
end

theorem compile_inv {P : Proc} (hP : ∀ sp, P.len sp < 2 ^ 31) {files : List Bytes} {b : Block} {c : Compiled}
    (h : b.compile P files = .ok c) : WCs c.consts.length c.names.length c.consts := by
  obtain ⟨⟨is, ctx1⟩, h1, h⟩ := rbind h
  obtain ⟨⟨i, ctx2⟩, h2, h⟩ := rbind h
  cases h
  obtain ⟨i1, w1⟩ := compSs_inv P hP b.content _ _ _ h1 trivial
  obtain ⟨i2, w2⟩ := addConst_inv h2 i1 (by simp [WCx, WC])
  have e2 := (addConst_ok h2).1
  refine WCs_append (i2.mono (by simp) (Nat.le_refl _)) ⟨fun j hj => ?_, ?_⟩
  · exact (w1.mono e2 j hj).mono (by simp) (Nat.le_refl _)
  · show i.toUInt64.toNat < _
    have := i.toNat_lt
    simp only [UInt16.toNat_toUInt64]; omega

mutual
theorem WC.fits {a b : Nat} : ∀ {c : Const}, WC a b c → Fits c
  | .code is, h => by simp only [WC, Fits] at *; exact h.2
  | .arr cs, h => by simp only [WC, Fits] at *; exact WCs.fits h
  | .carr cs, h => by simp only [WC, Fits] at *; exact WCs.fits h
  | .str _, _ => by simp [Fits]
  | .num _, _ => by simp [Fits]
  | .bool _, _ => by simp [Fits]
  | .nular _, _ => by simp [Fits]
theorem WCs.fits {a b : Nat} : ∀ {cs : List Const}, WCs a b cs → FitsAll cs
  | [], _ => by simp [FitsAll]
  | c :: cs, h => by simp only [WCs, FitsAll] at *; exact ⟨h.1.fits, WCs.fits h.2⟩
end

/-! ### Writing never fails for another reason than size -/

/-- Errors saying that something is too large for the format. -/
def SErr.Size : SErr → Prop
  | .stringTooLong | .arrayTooLong | .instrLimit | .bufferLimit | .listTooLong => True
  | .badConst | .badName | .lzo => False

/-- A writer that fails for its size only. -/
def Sz (r : SR) : Prop := ∀ e, r = .error e → e.Size

theorem Sz.ok (w : Bytes) : Sz (.ok w) := fun e h => by cases h

theorem Sz.bind {r : SR} {f : Bytes → SR} (h : Sz r) (hf : ∀ w, r = .ok w → Sz (f w)) : Sz (r >>= f) := by
  intro e he
  cases r with
  | error e' => cases he; exact h _ rfl
  | ok w => exact hf w rfl e he

theorem Sz.ite {p : Prop} [Decidable p] {e : SErr} (he : e.Size) {r : SR} (hr : ¬ p → Sz r) :
    Sz (if p then .error e else r) := by
  split
  · intro e' h; cases h; exact he
  · rename_i h; exact hr h

theorem serString_sz (s : Bytes) : Sz (serString s) := by
  unfold serString; exact Sz.ite (e := .stringTooLong) trivial fun _ => .ok _

theorem serAll_sz {α : Type} {f : α → SR} : ∀ {l : List α}, (∀ x ∈ l, Sz (f x)) → Sz (serAll f l)
  | [], _ => .ok _
  | x :: xs, h => .bind (h x (by simp)) fun _ _ => .bind (serAll_sz fun y hy => h y (by simp [hy])) fun _ _ => .ok _

theorem serInstr_sz {c : Compiled} {i : Instr} (h : WI c.consts.length c.names.length i) : Sz (serInstr c i) := by
  refine .bind ?_ fun _ _ => .ok _
  cases i <;> simp only [WI] at h <;> dsimp only <;> first | exact .ok _ | (rw [if_neg (by omega)]; exact .ok _)

theorem serInstrs_sz {c : Compiled} {is : Instrs} (h : ∀ i ∈ is.contents, WI c.consts.length c.names.length i) :
    Sz (serInstrs c is) := by
  unfold serInstrs
  exact Sz.ite (e := .instrLimit) trivial fun _ => .bind (serAll_sz fun i hi => serInstr_sz (h i hi)) fun _ _ => .ok _

mutual
theorem serConst_sz (c : Compiled) : ∀ (k : Const), WC c.consts.length c.names.length k → Sz (serConst c k)
  | .code is, h => by rw [serConst]; exact .bind (serInstrs_sz h.1) fun _ _ => .ok _
  | .str s, _ => by rw [serConst]; exact .bind (serString_sz s) fun _ _ => .ok _
  | .num x, _ => by rw [serConst]; exact .ok _
  | .bool b, _ => by rw [serConst]; exact .ok _
  | .arr cs, h => by
    rw [serConst]
    simp only [WC] at h
    exact Sz.ite (e := .arrayTooLong) trivial fun _ => .bind (serConsts_sz c cs h) fun _ _ => .ok _
  | .carr cs, h => by
    rw [serConst]
    simp only [WC] at h
    exact Sz.ite (e := .arrayTooLong) trivial fun _ => .bind (serConsts_sz c cs h) fun _ _ => .ok _
  | .nular s, _ => by rw [serConst]; exact .bind (serString_sz s) fun _ _ => .ok _
theorem serConsts_sz (c : Compiled) : ∀ (ks : List Const), WCs c.consts.length c.names.length ks → Sz (serConsts c ks)
  | [], _ => by rw [serConsts]; exact .ok _
  | k :: ks, h => by
    rw [serConsts]
    exact .bind (serConst_sz c k h.1) fun _ _ => .bind (serConsts_sz c ks h.2) fun _ _ => .ok _
end

theorem serBuffer_sz (b : Bytes) : Sz (serBuffer b) := by
  unfold serBuffer
  refine Sz.ite (e := .bufferLimit) trivial fun hl => ?_
  obtain ⟨z, h1, _⟩ := Lzo.compress_ok _ b (by omega) (Nat.le_refl _)
  rw [h1]
  exact .ok _

theorem serList_sz (l : List Bytes) : Sz (serList serString l) := by
  unfold serList
  exact Sz.ite (e := .listTooLong) trivial fun _ => .bind (serAll_sz fun s _ => serString_sz s) fun _ _ => .ok _

theorem serTable_sz {c : Compiled} (h : WCs c.consts.length c.names.length c.consts) : Sz (serTable c) := by
  unfold serTable
  exact Sz.ite (e := .listTooLong) trivial fun _ => .bind (serConsts_sz c _ h) fun _ _ => .ok _

theorem serialize_sz {c : Compiled} (h : WCs c.consts.length c.names.length c.consts) : Sz c.serialize := by
  refine .bind (serList_sz _) fun _ _ => .bind (serBuffer_sz _) fun _ _ => .bind ?_ fun _ _ =>
    .bind (serList_sz _) fun _ _ => .ok _
  unfold serConstBlock
  split
  · exact .bind (serTable_sz h) fun _ _ => .bind (serBuffer_sz _) fun _ _ => .ok _
  · exact .bind (serTable_sz h) fun _ _ => .ok _

/-! ### Reading back a file: arrays lose the mark that says they are shared -/

theorem unshareEs_map : ∀ l, unshareEs l = l.map unshare
  | [] => by simp [unshareEs]
  | e :: es => by simp [unshareEs, unshareEs_map es]

theorem unshareSs_map : ∀ l, unshareSs l = l.map unshareS
  | [] => by simp [unshareSs]
  | e :: es => by simp [unshareSs, unshareSs_map es]

theorem plains_map : ∀ l, plains l = l.map plain
  | [] => by simp [plains]
  | e :: es => by simp [plains, plains_map es]

def unM (st : MState) : MState := (st.1.map unshareS, st.2.map unshare)

theorem flush_un (st : MState) : flush (unM st) = (flush st).map (List.map unshareS) := by
  obtain ⟨d, s⟩ := st
  cases s with
  | nil => rfl
  | cons a s =>
    cases s with
    | nil => simp [flush, unM, unshareS]
    | cons b s => simp [flush, unM]

theorem exec_un {v v' : Const → Option Tree} {cs : List Const} {ns : List Bytes}
    (hv : ∀ c, v' (plain c) = (v c).map unshare) (i : Instr) (st : MState) :
    exec v' ⟨plains cs, ns⟩ i (unM st) = (exec v ⟨cs, ns⟩ i st).map unM := by
  obtain ⟨d, s⟩ := st
  cases i with
  | endStatement =>
    simp only [exec, flush_un]
    cases flush (d, s) <;> rfl
  | push k =>
    simp only [exec, unM, plains_map, List.getElem?_map]
    cases cs[k.toNat]? with
    | none => rfl
    | some c =>
      simp only [Option.map_some, Option.bind_eq_bind, Option.bind_some, hv]
      cases v c <;> rfl
  | callUnary n a =>
    cases s with
    | nil => rfl
    | cons e s =>
      simp only [exec, unM, List.map_cons]
      cases ns[n.toNat]? <;> simp [unM, unshare]
  | callBinary n a =>
    cases s with
    | nil => rfl
    | cons e s =>
      cases s with
      | nil => rfl
      | cons e' s =>
        simp only [exec, unM, List.map_cons]
        cases ns[n.toNat]? <;> simp [unM, unshare]
  | callNular n a =>
    simp only [exec, unM]
    cases ns[n.toNat]? <;> simp [unM, unshare]
  | getVariable n a =>
    simp only [exec, unM]
    cases ns[n.toNat]? <;> simp [unM, unshare]
  | assignTo n a =>
    cases s with
    | nil => rfl
    | cons e s =>
      cases s with
      | nil =>
        simp only [exec, unM, List.map_cons, List.map_nil]
        cases ns[n.toNat]? <;> simp [unM, unshareS]
      | cons e' s => rfl
  | assignToLocal n a =>
    cases s with
    | nil => rfl
    | cons e s =>
      cases s with
      | nil =>
        simp only [exec, unM, List.map_cons, List.map_nil]
        cases ns[n.toNat]? <;> simp [unM, unshareS]
      | cons e' s => rfl
  | makeArray n a =>
    simp only [exec, unM, List.length_map]
    split
    · simp [unM, unshare, unshareEs_map, List.map_take, List.map_drop]
    · rfl

theorem execs_un {v v' : Const → Option Tree} {cs : List Const} {ns : List Bytes}
    (hv : ∀ c, v' (plain c) = (v c).map unshare) : ∀ (is : List Instr) (st : MState),
    execs v' ⟨plains cs, ns⟩ is (unM st) = (execs v ⟨cs, ns⟩ is st).map unM
  | [], st => rfl
  | i :: is, st => by
    simp only [execs, exec_un hv]
    cases exec v ⟨cs, ns⟩ i st with
    | none => rfl
    | some st' => exact execs_un hv is st'

theorem body_un {v v' : Const → Option Tree} {cs : List Const} {ns : List Bytes}
    (hv : ∀ c, v' (plain c) = (v c).map unshare) (is : List Instr) :
    body v' ⟨plains cs, ns⟩ is = (body v ⟨cs, ns⟩ is).map unshareSs := by
  have h := execs_un (cs := cs) (ns := ns) hv is ([], [])
  unfold body
  rw [show (([], []) : MState) = unM ([], []) from rfl, h]
  cases hx : execs v ⟨cs, ns⟩ is (unM ([], [])) with
  | none => rw [show unM ([], []) = (([], []) : MState) from rfl] at hx; rw [hx]; rfl
  | some st =>
    rw [show unM ([], []) = (([], []) : MState) from rfl] at hx; rw [hx]
    simp only [Option.map_some, Option.bind_some, flush_un]
    cases flush st with
    | none => rfl
    | some d => simp [unshareSs_map]

theorem mapM_un {v v' : Const → Option Tree} (hv : ∀ c, v' (plain c) = (v c).map unshare) :
    ∀ cs : List Const, (plains cs).mapM v' = (cs.mapM v).map unshareEs
  | [] => by simp [plains, unshareEs]
  | c :: cs => by
    simp only [plains, List.mapM_cons, hv, mapM_un hv cs]
    cases v c with
    | none => rfl
    | some t =>
      cases cs.mapM v with
      | none => rfl
      | some ts => simp [unshareEs]

theorem tree_un (cs : List Const) (ns : List Bytes) : ∀ (f : Nat) (c : Const),
    tree ⟨plains cs, ns⟩ f (plain c) = (tree ⟨cs, ns⟩ f c).map unshare
  | 0, c => by simp [tree]
  | f + 1, c => by
    have ih := tree_un cs ns f
    cases c with
    | str s => simp [tree, plain, unshare]
    | num s => simp [tree, plain, unshare]
    | bool s => simp [tree, plain, unshare]
    | nular s => simp [tree, plain, unshare]
    | arr ks =>
      simp only [plain, tree, mapM_un ih]
      cases ks.mapM (tree ⟨cs, ns⟩ f) <;> simp [unshare]
    | carr ks =>
      simp only [plain, tree, mapM_un ih]
      cases ks.mapM (tree ⟨cs, ns⟩ f) <;> simp [unshare]
    | code is =>
      simp only [plain, tree, body_un ih]
      cases body (tree ⟨cs, ns⟩ f) ⟨cs, ns⟩ is.contents <;> simp [unshare]

end Verif.Sqf
