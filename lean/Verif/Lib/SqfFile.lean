import Verif.Spec.SqfFile
import Verif.Props.Sqfc
import Verif.Props.SqfOpt
import Verif.Props.SqfLex
import Verif.Props.Processed
/-! Lemmas for C129. -/
namespace Verif.Sqf
open Sqfc (plain plains)

/-! ### Tables -/

mutual
/-- No shared array, however deep. -/
def NoC : Const → Prop
  | .arr cs => NoCs cs
  | .carr _ => False
  | _ => True
def NoCs : List Const → Prop
  | [] => True
  | c :: cs => NoC c ∧ NoCs cs
end

/-- An entry of the table: not an array that is to be copied, and if a shared array, then without one inside. -/
def TopC : Const → Prop
  | .arr _ => False
  | .carr cs => NoCs cs
  | _ => True

mutual
/-- What `compile_constant` makes: shared arrays only outside of shared arrays. -/
def OkC : Const → Prop
  | .arr cs => OkCs cs
  | .carr cs => NoCs cs
  | _ => True
def OkCs : List Const → Prop
  | [] => True
  | c :: cs => OkC c ∧ OkCs cs
end

def Tops (ctx : Ctx) : Prop := ∀ c ∈ ctx.consts, TopC c

mutual
/-- No shared array reachable through arrays. -/
def Flat : Expr → Prop
  | .arr es _ => Flats es
  | .carr _ _ => False
  | _ => True
def Flats : List Expr → Prop
  | [] => True
  | e :: es => Flat e ∧ Flats es
end

mutual
/-- Code is kept with its text `X`, and shared arrays hold none. -/
def FileOk (X : Span → Bytes) : Expr → Prop
  | .code c s sp => s = X sp ∧ FileOkSs X c
  | .arr es _ => FileOks X es
  | .carr es _ => FileOks X es ∧ Flats es
  | .un _ e _ => FileOk X e
  | .bin _ l r _ => FileOk X l ∧ FileOk X r
  | _ => True
def FileOks (X : Span → Bytes) : List Expr → Prop
  | [] => True
  | e :: es => FileOk X e ∧ FileOks X es
def FileOkS (X : Span → Bytes) : Stmt → Prop
  | .assignGlobal _ e _ | .assignLocal _ e _ | .expr e _ => FileOk X e
def FileOkSs (X : Span → Bytes) : List Stmt → Prop
  | [] => True
  | s :: ss => FileOkS X s ∧ FileOkSs X ss
end

theorem addConst_tops {c : Const} {ctx ctx' : Ctx} {i : UInt16} (h : addConst c ctx = .ok (i, ctx')) (hi : Tops ctx)
    (hc : TopC c) : Tops ctx' := by
  obtain ⟨⟨j, l⟩, ha, h⟩ := rbind h
  cases h
  unfold addOrGet at ha
  split at ha
  · obtain ⟨_, _, ha⟩ := rbind ha
    cases ha; exact hi
  · obtain ⟨_, _, ha⟩ := rbind ha
    cases ha
    intro x hx
    rcases List.mem_append.1 hx with hx | hx
    · exact hi x hx
    · rw [List.mem_singleton.1 hx]; exact hc

theorem pushConst_atom_tops {c : Const} (hc : ∀ cs, c ≠ .arr cs) {ctx ctx' : Ctx} {is : List Instr}
    (h : pushConst c ctx = .ok (is, ctx')) (hi : Tops ctx) (hw : TopC c) : Tops ctx' := by
  rw [pushConst_atom hc] at h
  obtain ⟨⟨i, ctx1⟩, h1, h⟩ := rbind h
  cases h
  exact addConst_tops h1 hi hw

mutual
theorem pushConst_tops : ∀ (c : Const) (ctx ctx' : Ctx) (is : List Instr), pushConst c ctx = .ok (is, ctx') →
    Tops ctx → OkC c → Tops ctx'
  | .arr cs, ctx, ctx', is, h, hi, hw => by
    rw [pushConst] at h
    obtain ⟨⟨a, ctx1⟩, h1, h⟩ := rbind h
    dsimp only at h
    split at h
    · cases h; exact pushConsts_tops cs _ _ _ h1 hi (by simpa only [OkC] using hw)
    · cases h
  | .carr cs, ctx, ctx', is, h, hi, hw =>
    pushConst_atom_tops (by simp) h hi (by simpa only [OkC, TopC] using hw)
  | .code _, ctx, ctx', is, h, hi, hw => pushConst_atom_tops (by simp) h hi (by simp [TopC])
  | .str _, ctx, ctx', is, h, hi, hw => pushConst_atom_tops (by simp) h hi (by simp [TopC])
  | .num _, ctx, ctx', is, h, hi, hw => pushConst_atom_tops (by simp) h hi (by simp [TopC])
  | .bool _, ctx, ctx', is, h, hi, hw => pushConst_atom_tops (by simp) h hi (by simp [TopC])
  | .nular _, ctx, ctx', is, h, hi, hw => pushConst_atom_tops (by simp) h hi (by simp [TopC])
theorem pushConsts_tops : ∀ (cs : List Const) (ctx ctx' : Ctx) (is : List Instr), pushConsts cs ctx = .ok (is, ctx') →
    Tops ctx → OkCs cs → Tops ctx'
  | [], ctx, ctx', is, h, hi, _ => by rw [pushConsts] at h; cases h; exact hi
  | c :: cs, ctx, ctx', is, h, hi, hw => by
    rw [pushConsts] at h
    obtain ⟨⟨a, ctx1⟩, h1, h⟩ := rbind h
    obtain ⟨⟨b, ctx2⟩, h2, h⟩ := rbind h
    cases h
    simp only [OkCs] at hw
    exact pushConsts_tops cs _ _ _ h2 (pushConst_tops c _ _ _ h1 hi hw.1) hw.2
end

theorem emitName_tops {P : Proc} {mk : UInt16 → SourceInfo → Instr} {n : Bytes} {sp : Span} {ctx ctx' : Ctx}
    {is : List Instr} (h : emitName P mk n sp ctx = .ok (is, ctx')) (hi : Tops ctx) : Tops ctx' := by
  obtain ⟨⟨i, ctx1⟩, h1, h⟩ := rbind h
  obtain ⟨s, _, h⟩ := rbind h
  cases h
  obtain ⟨m, _, h1⟩ := rbind h1
  obtain ⟨⟨j, l⟩, _, h1⟩ := rbind h1
  cases h1
  exact hi

mutual
theorem compConst_tops {X : Span → Bytes} (P : Proc) : ∀ (e : Expr) (ctx ctx' : Ctx) (r : Option Const), compConst P e ctx = .ok (r, ctx') →
    FileOk X e → Tops ctx → Tops ctx' ∧ ∀ c, r = some c → OkC c ∧ (Flat e → NoC c)
  | .code c s sp, ctx, ctx', r, h, hf, hi => by
    rw [compConst] at h
    obtain ⟨⟨is, ctx1⟩, h1, h⟩ := rbind h
    cases h
    simp only [FileOk] at hf
    refine ⟨compSs_tops P c _ _ _ h1 hf.2 hi, fun c' hc => ?_⟩
    cases hc
    exact ⟨by simp [OkC], fun _ => by simp [NoC]⟩
  | .str s _ _, ctx, ctx', r, h, _, hi => by
    rw [compConst] at h; cases h
    exact ⟨hi, fun c hc => by cases hc; exact ⟨by simp [OkC], fun _ => by simp [NoC]⟩⟩
  | .num s _, ctx, ctx', r, h, _, hi => by
    rw [compConst] at h; cases h
    exact ⟨hi, fun c hc => by cases hc; exact ⟨by simp [OkC], fun _ => by simp [NoC]⟩⟩
  | .bool s _, ctx, ctx', r, h, _, hi => by
    rw [compConst] at h; cases h
    exact ⟨hi, fun c hc => by cases hc; exact ⟨by simp [OkC], fun _ => by simp [NoC]⟩⟩
  | .arr es _, ctx, ctx', r, h, hf, hi => by
    rw [compConst] at h
    obtain ⟨⟨cs, ctx1⟩, h1, h⟩ := rbind h
    cases h
    simp only [FileOk] at hf
    obtain ⟨k1, k2⟩ := compConsts_tops P es _ _ _ h1 hf hi
    refine ⟨k1, fun c hc => ?_⟩
    obtain ⟨cs', rfl, rfl⟩ := Option.map_eq_some_iff.1 hc
    obtain ⟨k3, k4⟩ := k2 _ rfl
    exact ⟨by simpa only [OkC] using k3, fun hfl => by simp only [Flat] at hfl; simpa only [NoC] using k4 hfl⟩
  | .carr es _, ctx, ctx', r, h, hf, hi => by
    rw [compConst] at h
    obtain ⟨⟨cs, ctx1⟩, h1, h⟩ := rbind h
    cases h
    simp only [FileOk] at hf
    obtain ⟨k1, k2⟩ := compConsts_tops P es _ _ _ h1 hf.1 hi
    refine ⟨k1, fun c hc => ?_⟩
    obtain ⟨cs', rfl, rfl⟩ := Option.map_eq_some_iff.1 hc
    obtain ⟨k3, k4⟩ := k2 _ rfl
    exact ⟨by simpa only [OkC] using k4 hf.2, fun hfl => by simp [Flat] at hfl⟩
  | .nular n _, ctx, ctx', r, h, _, hi => by
    rw [compConst] at h
    split at h
    · obtain ⟨m, _, h⟩ := rbind h
      cases h
      exact ⟨hi, fun c hc => by cases hc; exact ⟨by simp [OkC], fun _ => by simp [NoC]⟩⟩
    · cases h; exact ⟨hi, fun c hc => by cases hc⟩
  | .un _ _ _, ctx, ctx', r, h, _, hi => by
    rw [compConst] at h
    · cases h; exact ⟨hi, fun c hc => by cases hc⟩
    all_goals simp
  | .bin _ _ _ _, ctx, ctx', r, h, _, hi => by
    rw [compConst] at h
    · cases h; exact ⟨hi, fun c hc => by cases hc⟩
    all_goals simp
  | .var _ _, ctx, ctx', r, h, _, hi => by
    rw [compConst] at h
    · cases h; exact ⟨hi, fun c hc => by cases hc⟩
    all_goals simp
theorem compConsts_tops {X : Span → Bytes} (P : Proc) : ∀ (es : List Expr) (ctx ctx' : Ctx) (r : Option (List Const)),
    compConsts P es ctx = .ok (r, ctx') → FileOks X es → Tops ctx →
    Tops ctx' ∧ ∀ cs, r = some cs → OkCs cs ∧ (Flats es → NoCs cs)
  | [], ctx, ctx', r, h, _, hi => by
    rw [compConsts] at h; cases h
    exact ⟨hi, fun cs hc => by cases hc; exact ⟨by simp [OkCs], fun _ => by simp [NoCs]⟩⟩
  | e :: es, ctx, ctx', r, h, hf, hi => by
    rw [compConsts] at h
    obtain ⟨⟨c, ctx1⟩, h1, h⟩ := rbind h
    simp only [FileOks] at hf
    obtain ⟨k1, k2⟩ := compConst_tops P e _ _ _ h1 hf.1 hi
    cases c with
    | none => cases h; exact ⟨k1, fun c hc => by cases hc⟩
    | some c =>
      dsimp only at h
      obtain ⟨⟨cs, ctx2⟩, h2, h⟩ := rbind h
      cases h
      obtain ⟨k3, k4⟩ := compConsts_tops P es _ _ _ h2 hf.2 k1
      refine ⟨k3, fun cs' hc => ?_⟩
      obtain ⟨ds, rfl, rfl⟩ := Option.map_eq_some_iff.1 hc
      obtain ⟨a1, a2⟩ := k2 _ rfl
      obtain ⟨b1, b2⟩ := k4 _ rfl
      exact ⟨by simp only [OkCs]; exact ⟨a1, b1⟩, fun hfl => by
        simp only [Flats] at hfl; simp only [NoCs]; exact ⟨a2 hfl.1, b2 hfl.2⟩⟩
theorem compInstr_tops {X : Span → Bytes} (P : Proc) : ∀ (e : Expr) (ctx ctx' : Ctx) (is : List Instr),
    compInstr P e ctx = .ok (is, ctx') → FileOk X e → Tops ctx → Tops ctx'
  | .code c s sp, ctx, ctx', is, h, hf, hi => by
    rw [compInstr] at h
    obtain ⟨⟨js, ctx1⟩, h1, h⟩ := rbind h
    simp only [FileOk] at hf
    exact pushConst_tops _ _ _ _ h (compSs_tops P c _ _ _ h1 hf.2 hi) (by simp [OkC])
  | .str s _ _, ctx, ctx', is, h, hf, hi => by
    rw [compInstr] at h; exact pushConst_tops _ _ _ _ h hi (by simp [OkC])
  | .num s _, ctx, ctx', is, h, hf, hi => by
    rw [compInstr] at h; exact pushConst_tops _ _ _ _ h hi (by simp [OkC])
  | .bool s _, ctx, ctx', is, h, hf, hi => by
    rw [compInstr] at h; exact pushConst_tops _ _ _ _ h hi (by simp [OkC])
  | .arr es sp, ctx, ctx', is, h, hf, hi => by
    rw [compInstr] at h
    obtain ⟨⟨cs, ctx1⟩, h1, h⟩ := rbind h
    simp only [FileOk] at hf
    obtain ⟨k1, k2⟩ := compConsts_tops P es _ _ _ h1 hf hi
    cases cs with
    | some cs =>
      dsimp only at h
      exact pushConst_tops _ _ _ _ h k1 (by simpa only [OkC] using (k2 _ rfl).1)
    | none =>
      dsimp only at h
      obtain ⟨len, _, h⟩ := rbind h
      obtain ⟨⟨js, ctx2⟩, h2, h⟩ := rbind h
      obtain ⟨s, _, h⟩ := rbind h
      cases h
      exact compInstrs_tops P es _ _ _ h2 hf k1
  | .carr es _, ctx, ctx', is, h, hf, hi => by
    rw [compInstr] at h
    obtain ⟨⟨cs, ctx1⟩, h1, h⟩ := rbind h
    simp only [FileOk] at hf
    obtain ⟨k1, k2⟩ := compConsts_tops P es _ _ _ h1 hf.1 hi
    cases cs with
    | some cs =>
      dsimp only at h
      exact pushConst_tops _ _ _ _ h k1 (by simpa only [OkC] using (k2 _ rfl).2 hf.2)
    | none => cases h
  | .nular n sp, ctx, ctx', is, h, hf, hi => by
    rw [compInstr] at h
    split at h
    · obtain ⟨m, _, h⟩ := rbind h
      exact pushConst_tops _ _ _ _ h hi (by simp [OkC])
    · exact emitName_tops h hi
  | .un c e sp, ctx, ctx', is, h, hf, hi => by
    rw [compInstr] at h
    obtain ⟨⟨a, ctx1⟩, h1, h⟩ := rbind h
    obtain ⟨⟨b, ctx2⟩, h2, h⟩ := rbind h
    cases h
    simp only [FileOk] at hf
    exact emitName_tops h2 (compInstr_tops P e _ _ _ h1 hf hi)
  | .bin c l r sp, ctx, ctx', is, h, hf, hi => by
    rw [compInstr] at h
    obtain ⟨⟨a, ctx1⟩, h1, h⟩ := rbind h
    obtain ⟨⟨b, ctx2⟩, h2, h⟩ := rbind h
    obtain ⟨⟨d, ctx3⟩, h3, h⟩ := rbind h
    cases h
    simp only [FileOk] at hf
    exact emitName_tops h3 (compInstr_tops P r _ _ _ h2 hf.2 (compInstr_tops P l _ _ _ h1 hf.1 hi))
  | .var n sp, ctx, ctx', is, h, hf, hi => by
    rw [compInstr] at h; exact emitName_tops h hi
theorem compInstrs_tops {X : Span → Bytes} (P : Proc) : ∀ (es : List Expr) (ctx ctx' : Ctx) (is : List Instr),
    compInstrs P es ctx = .ok (is, ctx') → FileOks X es → Tops ctx → Tops ctx'
  | [], ctx, ctx', is, h, hf, hi => by rw [compInstrs] at h; cases h; exact hi
  | e :: es, ctx, ctx', is, h, hf, hi => by
    rw [compInstrs] at h
    obtain ⟨⟨a, ctx1⟩, h1, h⟩ := rbind h
    obtain ⟨⟨b, ctx2⟩, h2, h⟩ := rbind h
    cases h
    simp only [FileOks] at hf
    exact compInstrs_tops P es _ _ _ h2 hf.2 (compInstr_tops P e _ _ _ h1 hf.1 hi)
theorem compS_tops {X : Span → Bytes} (P : Proc) : ∀ (s : Stmt) (ctx ctx' : Ctx) (is : List Instr),
    compS P s ctx = .ok (is, ctx') → FileOkS X s → Tops ctx → Tops ctx'
  | .assignGlobal n e sp, ctx, ctx', is, h, hf, hi => by
    rw [compS] at h
    obtain ⟨⟨a, ctx1⟩, h1, h⟩ := rbind h
    obtain ⟨⟨b, ctx2⟩, h2, h⟩ := rbind h
    cases h
    simp only [FileOkS] at hf
    exact emitName_tops h2 (compInstr_tops P e _ _ _ h1 hf hi)
  | .assignLocal n e sp, ctx, ctx', is, h, hf, hi => by
    rw [compS] at h
    obtain ⟨⟨a, ctx1⟩, h1, h⟩ := rbind h
    obtain ⟨⟨b, ctx2⟩, h2, h⟩ := rbind h
    cases h
    simp only [FileOkS] at hf
    exact emitName_tops h2 (compInstr_tops P e _ _ _ h1 hf hi)
  | .expr e sp, ctx, ctx', is, h, hf, hi => by
    rw [compS] at h
    obtain ⟨⟨a, ctx1⟩, h1, h⟩ := rbind h
    cases h
    simp only [FileOkS] at hf
    exact compInstr_tops P e _ _ _ h1 hf hi
theorem compSs_tops {X : Span → Bytes} (P : Proc) : ∀ (ss : List Stmt) (ctx ctx' : Ctx) (is : List Instr),
    compSs P ss ctx = .ok (is, ctx') → FileOkSs X ss → Tops ctx → Tops ctx'
  | [], ctx, ctx', is, h, hf, hi => by rw [compSs] at h; cases h; exact hi
  | s :: ss, ctx, ctx', is, h, hf, hi => by
    rw [compSs] at h
    obtain ⟨⟨a, ctx1⟩, h1, h⟩ := rbind h
    obtain ⟨⟨b, ctx2⟩, h2, h⟩ := rbind h
    cases h
    simp only [FileOkSs] at hf
    exact compSs_tops P ss _ _ _ h2 hf.2 (compS_tops P s _ _ _ h1 hf.1 hi)
end

theorem compile_tops {X : Span → Bytes} {P : Proc} {files : List Bytes} {b : Block} {c : Compiled}
    (h : b.compile P files = .ok c) (hf : FileOkSs X b.content) : ∀ x ∈ c.consts, TopC x := by
  obtain ⟨⟨is, ctx1⟩, h1, h⟩ := rbind h
  obtain ⟨⟨i, ctx2⟩, h2, h⟩ := rbind h
  cases h
  have := addConst_tops h2 (compSs_tops P _ _ _ _ h1 hf (by intro c hc; cases hc)) (by simp [TopC])
  intro x hx
  rcases List.mem_append.1 hx with hx | hx
  · exact this x hx
  · rw [List.mem_singleton.1 hx]; simp [TopC]

/-! ### Reading -/

theorem exec_sub {v v' : Const → Option Tree} {cs : List Const} {ns : List Bytes}
    (hv : ∀ c ∈ cs, ∀ t, v c = some t → v' (plain c) = some t) (i : Instr) (st st' : MState)
    (h : exec v ⟨cs, ns⟩ i st = some st') : exec v' ⟨plains cs, ns⟩ i st = some st' := by
  cases i with
  | push k =>
    obtain ⟨d, s⟩ := st
    simp only [exec, Option.bind_eq_bind, Option.bind_eq_some_iff, plains_map, List.getElem?_map] at h ⊢
    obtain ⟨c, hc, t, ht, h⟩ := h
    exact ⟨plain c, by rw [hc]; rfl, t, hv c (List.mem_of_getElem? hc) t ht, h⟩
  | endStatement => exact h
  | callUnary n a => obtain ⟨d, s⟩ := st; cases s <;> exact h
  | callBinary n a =>
    obtain ⟨d, s⟩ := st
    rcases s with _ | ⟨r, _ | ⟨l, s⟩⟩ <;> exact h
  | callNular n a => exact h
  | assignTo n a =>
    obtain ⟨d, s⟩ := st
    rcases s with _ | ⟨r, _ | ⟨l, s⟩⟩ <;> exact h
  | assignToLocal n a =>
    obtain ⟨d, s⟩ := st
    rcases s with _ | ⟨r, _ | ⟨l, s⟩⟩ <;> exact h
  | getVariable n a => exact h
  | makeArray n a => exact h

theorem execs_sub {v v' : Const → Option Tree} {cs : List Const} {ns : List Bytes}
    (hv : ∀ c ∈ cs, ∀ t, v c = some t → v' (plain c) = some t) (is : List Instr) (st st' : MState)
    (h : execs v ⟨cs, ns⟩ is st = some st') : execs v' ⟨plains cs, ns⟩ is st = some st' := by
  induction is generalizing st with
  | nil => exact h
  | cons i is ih =>
    simp only [execs, Option.bind_eq_some_iff] at h ⊢
    obtain ⟨s1, h1, h2⟩ := h
    exact ⟨s1, exec_sub hv i st s1 h1, ih s1 h2⟩

theorem body_sub {v v' : Const → Option Tree} {cs : List Const} {ns : List Bytes}
    (hv : ∀ c ∈ cs, ∀ t, v c = some t → v' (plain c) = some t) (is : List Instr) (ts : List TStmt)
    (h : body v ⟨cs, ns⟩ is = some ts) : body v' ⟨plains cs, ns⟩ is = some ts := by
  unfold body at h ⊢
  obtain ⟨u, h1, h2⟩ := Option.map_eq_some_iff.1 h
  obtain ⟨st, h3, h4⟩ := Option.bind_eq_some_iff.1 h1
  rw [execs_sub hv is _ _ h3, Option.bind_some, h4, Option.map_some, h2]

theorem ftrees {g g' : Const → Option Tree} : ∀ (ks : List Const), (∀ c t, g c = some t → NoC c → g' (plain c) = some t) →
    NoCs ks → ∀ ts, ks.mapM g = some ts → (plains ks).mapM g' = some ts
  | [], _, _, ts, h => by simpa [plains] using h
  | c :: ks, hg, hn, ts, h => by
    simp only [NoCs] at hn
    simp only [List.mapM_cons, Option.bind_eq_bind, Option.bind_eq_some_iff, plains] at h ⊢
    obtain ⟨t, h1, us, h2, h3⟩ := h
    exact ⟨t, hg c t h1 hn.1, us, ftrees ks hg hn.2 us h2, h3⟩

theorem ftree_eq {cs : List Const} {ns : List Bytes} (hT : ∀ c ∈ cs, TopC c) : ∀ (f : Nat) (c : Const) (t : Tree),
    tree ⟨cs, ns⟩ f c = some t → (TopC c → ftree ⟨plains cs, ns⟩ f true (plain c) = some t) ∧
      (NoC c → ftree ⟨plains cs, ns⟩ f false (plain c) = some t)
  | 0, c, t, h => by simp [tree] at h
  | f + 1, c, t, h => by
    have ih := ftree_eq (ns := ns) hT f
    cases c with
    | str s => simpa [tree, plain, ftree, TopC, NoC] using h
    | num s => simpa [tree, plain, ftree, TopC, NoC] using h
    | bool s => simpa [tree, plain, ftree, TopC, NoC] using h
    | nular s => simpa [tree, plain, ftree, TopC, NoC] using h
    | arr ks =>
      refine ⟨fun hc => by simp [TopC] at hc, fun hc => ?_⟩
      simp only [NoC] at hc
      simp only [tree, plain, ftree] at h ⊢
      obtain ⟨ts, h1, h2⟩ := Option.map_eq_some_iff.1 h
      rw [ftrees ks (fun c t hc hn => (ih c t hc).2 hn) hc ts h1, Option.map_some, h2]
    | carr ks =>
      refine ⟨fun hc => ?_, fun hc => by simp [NoC] at hc⟩
      simp only [TopC] at hc
      simp only [tree, plain, ftree] at h ⊢
      obtain ⟨ts, h1, h2⟩ := Option.map_eq_some_iff.1 h
      rw [ftrees ks (fun c t hc hn => (ih c t hc).2 hn) hc ts h1, Option.map_some, h2]
    | code is =>
      simp only [tree, plain] at h ⊢
      obtain ⟨ts, h1, h2⟩ := Option.map_eq_some_iff.1 h
      have := body_sub (v' := ftree ⟨plains cs, ns⟩ f true) (fun c hc t ht => (ih c t ht).1 (hT c hc)) _ _ h1
      constructor <;> intro _ <;> rw [ftree.eq_def] <;> simp only [this, Option.map_some, h2]

/-! ### The optimiser -/

mutual
theorem isConst_flat : ∀ (e : Expr), isConst e = .ok true → Flat e
  | .arr es _, h => by
    rw [isConst] at h
    simpa only [Flat] using isConstAll_flat es h
  | .carr _ _, h => by rw [isConst] at h; cases h
  | .code _ _ _, _ => by simp [Flat]
  | .str _ _ _, _ => by simp [Flat]
  | .num _ _, _ => by simp [Flat]
  | .bool _ _, _ => by simp [Flat]
  | .nular _ _, _ => by simp [Flat]
  | .un _ _ _, _ => by simp [Flat]
  | .bin _ _ _ _, _ => by simp [Flat]
  | .var _ _, _ => by simp [Flat]
theorem isConstAll_flat : ∀ (es : List Expr), isConstAll es = .ok true → Flats es
  | [], _ => by simp [Flats]
  | e :: es, h => by
    rw [isConstAll] at h
    obtain ⟨b, hb, h⟩ := bind_ok h
    cases b with
    | false => simp [pure, Except.pure] at h
    | true => simp only [Flats]; exact ⟨isConst_flat e hb, isConstAll_flat es (by simpa using h)⟩
end

variable {X : Span → Bytes} {F : FloatOps} {lower : Bytes → Bytes}

theorem consume_file {d : Bool} {e e' : Expr} (h : consume d e = .ok e') (he : FileOk X e) : FileOk X e' := by
  cases e with
  | arr es sp =>
    rw [consume] at h
    obtain ⟨b, hb, h⟩ := bind_ok h
    have he' := he
    simp only [FileOk] at he'
    cases b with
    | false => simp only [Bool.not_false, if_true, pure, Except.pure] at h; cases h; exact he
    | true =>
      have hfl := isConst_flat _ hb
      simp only [Flat] at hfl
      simp only [Bool.not_true, Bool.false_eq_true, if_false, pure, Except.pure] at h
      split at h
      · cases h; exact he
      · split at h
        · cases h; simp only [FileOk]; exact ⟨he', hfl⟩
        · cases h; simp only [FileOk]; exact ⟨he', hfl⟩
  | _ => simp only [consume] at h; cases h; exact he

theorem consumeParams_file {e e' : Expr} (h : consumeParams e = .ok e') (he : FileOk X e) : FileOk X e' := by
  cases e with
  | arr es sp => rw [consumeParams] at h; exact consume_file h he
  | _ => simp only [consumeParams] at h; cases h; exact he

theorem optUn_file {c : UnCmd} {r e' : Expr} {sp : Span} (h : optUn F lower c r sp = .ok e')
    (hr : FileOk X r) : FileOk X e' := by
  have keep : ∀ {e' : Expr}, (Except.ok (Expr.un c r sp) : Except Err Expr) = .ok e' → FileOk X e' := by
    rintro e' h; cases h; simpa only [FileOk] using hr
  have fl : ∀ {op e'}, (Except.ok ((opUniFloat F op sp r).getD (.un c r sp)) : Except Err Expr) = .ok e' → FileOk X e' := by
    intro op e' h
    rcases opUniFloat_cases (F := F) (op := op) (sp := sp) (r := r) with ⟨x, p, rfl, hf, ho⟩ | ho
    · rw [ho] at h; cases h; simp [FileOk]
    · rw [ho] at h; exact keep h
  have st : ∀ {op e'}, (Except.ok ((opUniString op sp r).getD (.un c r sp)) : Except Err Expr) = .ok e' → FileOk X e' := by
    intro op e' h
    rcases opUniString_cases (op := op) (sp := sp) (r := r) with ⟨x, p, w, rfl, hf, ho⟩ | ho
    · rw [ho] at h; cases h; simp [FileOk]
    · rw [ho] at h; exact keep h
  cases c with
  | plus => exact keep h
  | not => exact keep h
  | minus => exact fl h
  | named n =>
    simp only [optUn] at h
    cases hn : knownUn (lower n) with
    | toLower => rw [hn] at h; exact st h
    | toUpper => rw [hn] at h; exact st h
    | sqrt => rw [hn] at h; exact fl h
    | params =>
      rw [hn] at h
      obtain ⟨r', hr', h⟩ := bind_ok h
      cases h
      simpa only [FileOk] using consumeParams_file hr' hr
    | param =>
      rw [hn] at h
      obtain ⟨r', hr', h⟩ := bind_ok h
      cases h
      simpa only [FileOk] using consume_file hr' hr
    | consumeUn =>
      rw [hn] at h
      obtain ⟨r', hr', h⟩ := bind_ok h
      cases h
      simpa only [FileOk] using consume_file hr' hr
    | _ => rw [hn] at h; exact keep h

theorem optBin_file {c : BinCmd} {l r e' : Expr} {sp : Span} (h : optBin F lower c l r sp = .ok e')
    (hl : FileOk X l) (hr : FileOk X r) : FileOk X e' := by
  have keep' : FileOk X (Expr.bin c l r sp) := by simp only [FileOk]; exact ⟨hl, hr⟩
  have keep : ∀ {e' : Expr}, (Except.ok (Expr.bin c l r sp) : Except Err Expr) = .ok e' → FileOk X e' := by
    rintro e' h; cases h; exact keep'
  have fold : ∀ {op : UInt32 → UInt32 → UInt32} {d : Expr}, FileOk X d → FileOk X ((opBinFloat F op sp l r).getD d) := by
    intro op d hd
    rcases opBinFloat_cases (F := F) (op := op) (sp := sp) (l := l) (r := r) with ⟨x, p, y, q, rfl, rfl, hf, ho⟩ | ho
    · rw [ho]; simp [FileOk]
    · rw [ho]; exact hd
  cases c with
  | named n =>
    simp only [optBin] at h
    cases hn : knownBin (lower n) with
    | params =>
      rw [hn] at h
      obtain ⟨r', hr', h⟩ := bind_ok h
      cases h
      simp only [FileOk]; exact ⟨hl, consumeParams_file hr' hr⟩
    | dflt =>
      rw [hn] at h
      obtain ⟨r', hr', h⟩ := bind_ok h
      cases h
      simp only [FileOk]; exact ⟨hl, consume_file hr' hr⟩
    | consumeBin =>
      rw [hn] at h
      obtain ⟨r', hr', h⟩ := bind_ok h
      obtain ⟨l', hl', h⟩ := bind_ok h
      cases h
      simp only [FileOk]; exact ⟨consume_file hl' hl, consume_file hr' hr⟩
    | call =>
      rw [hn] at h; simp only at h
      cases ht : isThis l with
      | false => rw [ht] at h; exact keep h
      | true => rw [ht] at h; cases h; simpa [FileOk] using hr
    | _ => rw [hn] at h; exact keep h
  | add =>
    simp only [optBin] at h
    cases h
    refine fold ?_
    rcases opBinString_cases (op := (· ++ ·)) (sp := sp) (l := l) (r := r) with ⟨s, p, v, t, q, w, rfl, rfl, hf, hg, ho⟩ | ho
    · rw [ho]; simp [FileOk]
    · rw [ho]; exact keep'
  | sub => simp only [optBin] at h; cases h; exact fold keep'
  | mul => simp only [optBin] at h; cases h; exact fold keep'
  | div => simp only [optBin] at h; cases h; exact fold keep'
  | rem => simp only [optBin] at h; cases h; exact fold keep'
  | mod => simp only [optBin] at h; cases h; exact fold keep'
  | els =>
    simp only [optBin] at h
    cases hc : (isCode l && isCode r) with
    | false => rw [hc] at h; exact keep h
    | true =>
      rw [hc] at h
      cases h
      simp only [Bool.and_eq_true] at hc
      cases l <;> simp [isCode] at hc
      cases r <;> simp [isCode] at hc
      simp only [FileOk, FileOks, Flats, Flat]
      simp only [FileOk] at hl hr
      exact ⟨⟨hl, hr, trivial⟩, trivial, trivial, trivial⟩
  | _ => exact keep h

mutual
/-- What the parser makes: code is kept with its text, and there are no shared arrays. -/
def TextOk (X : Span → Bytes) : Expr → Prop
  | .code c s sp => s = X sp ∧ TextOkSs X c
  | .arr es _ => TextOks X es
  | .carr _ _ => False
  | .un _ e _ => TextOk X e
  | .bin _ l r _ => TextOk X l ∧ TextOk X r
  | _ => True
def TextOks (X : Span → Bytes) : List Expr → Prop
  | [] => True
  | e :: es => TextOk X e ∧ TextOks X es
def TextOkS (X : Span → Bytes) : Stmt → Prop
  | .assignGlobal _ e _ | .assignLocal _ e _ | .expr e _ => TextOk X e
def TextOkSs (X : Span → Bytes) : List Stmt → Prop
  | [] => True
  | s :: ss => TextOkS X s ∧ TextOkSs X ss
end

mutual
theorem optE_file : ∀ (e e' : Expr), optE F lower e = .ok e' → TextOk X e → FileOk X e'
  | .code c s sp, e', h, hp => by
    rw [optE] at h
    obtain ⟨c', hc, h⟩ := bind_ok h
    cases h
    simp only [TextOk, FileOk] at hp ⊢
    exact ⟨hp.1, optSs_file c c' hc hp.2⟩
  | .arr es sp, e', h, hp => by
    rw [optE] at h
    obtain ⟨c', hc, h⟩ := bind_ok h
    cases h
    simp only [TextOk, FileOk] at hp ⊢
    exact optEs_file es c' hc hp
  | .un c r sp, e', h, hp => by
    rw [optE] at h
    obtain ⟨r', hc, h⟩ := bind_ok h
    simp only [TextOk] at hp
    exact optUn_file h (optE_file r r' hc hp)
  | .bin c l r sp, e', h, hp => by
    rw [optE] at h
    obtain ⟨l', hl, h⟩ := bind_ok h
    obtain ⟨r', hr, h⟩ := bind_ok h
    simp only [TextOk] at hp
    exact optBin_file h (optE_file l l' hl hp.1) (optE_file r r' hr hp.2)
  | .str _ _ _, e', h, _ => by simp [optE] at h; simp [← h, FileOk]
  | .num _ _, e', h, _ => by simp [optE] at h; simp [← h, FileOk]
  | .bool _ _, e', h, _ => by simp [optE] at h; simp [← h, FileOk]
  | .carr _ _, e', h, hp => by simp [TextOk] at hp
  | .nular _ _, e', h, _ => by simp [optE] at h; simp [← h, FileOk]
  | .var _ _, e', h, _ => by simp [optE] at h; simp [← h, FileOk]
theorem optEs_file : ∀ (es es' : List Expr), optEs F lower es = .ok es' → TextOks X es → FileOks X es'
  | [], es', h, _ => by simp [optEs] at h; simp [h, FileOks]
  | e :: es, es', h, hp => by
    rw [optEs] at h
    obtain ⟨a, ha, h⟩ := bind_ok h
    obtain ⟨b, hb, h⟩ := bind_ok h
    cases h
    simp only [TextOks, FileOks] at hp ⊢
    exact ⟨optE_file e a ha hp.1, optEs_file es b hb hp.2⟩
theorem optS_file : ∀ (s s' : Stmt), optS F lower s = .ok s' → TextOkS X s → FileOkS X s'
  | .assignGlobal n e sp, s', h, hp => by
    rw [optS] at h
    obtain ⟨a, ha, h⟩ := bind_ok h
    cases h
    simp only [TextOkS, FileOkS] at hp ⊢
    exact optE_file e a ha hp
  | .assignLocal n e sp, s', h, hp => by
    rw [optS] at h
    obtain ⟨a, ha, h⟩ := bind_ok h
    cases h
    simp only [TextOkS, FileOkS] at hp ⊢
    exact optE_file e a ha hp
  | .expr e sp, s', h, hp => by
    rw [optS] at h
    obtain ⟨a, ha, h⟩ := bind_ok h
    cases h
    simp only [TextOkS, FileOkS] at hp ⊢
    exact optE_file e a ha hp
theorem optSs_file : ∀ (ss ss' : List Stmt), optSs F lower ss = .ok ss' → TextOkSs X ss → FileOkSs X ss'
  | [], ss', h, _ => by simp [optSs] at h; simp [h, FileOkSs]
  | s :: ss, ss', h, hp => by
    rw [optSs] at h
    obtain ⟨a, ha, h⟩ := bind_ok h
    obtain ⟨b, hb, h⟩ := bind_ok h
    cases h
    simp only [TextOkSs, FileOkSs] at hp ⊢
    exact ⟨optS_file s a ha hp.1, optSs_file ss b hb hp.2⟩
end

/-! ### Meaning -/

section
variable {E S B : Type} {M : Sem E S B} {P : Proc} {src : Bytes}

mutual
theorem wantE_sem (N : NameLaws M) (hX : ∀ sp, (src.drop (P.offset sp.1).toNat).take (UInt32.ofNat (P.len sp)).toNat = X sp) :
    ∀ e : Expr, FileOk X e → M.t src (wantE P e) = M.e e
  | .code c s sp, h => by
    simp only [FileOk] at h
    simp only [wantE, Sem.t, Sem.e]
    rw [wantSs_sem N hX c h.2]
    cases c with
    | nil => simp only [Sem.ss]; exact N.empty _ _
    | cons a l => simp only [List.isEmpty_cons, Bool.false_eq_true, if_false]; rw [hX, h.1]
  | .str s _ _, _ => by simp only [wantE, Sem.t, Sem.e]
  | .num s _, _ => by simp only [wantE, Sem.t, Sem.e]
  | .bool s _, _ => by simp only [wantE, Sem.t, Sem.e]
  | .arr es _, h => by
    simp only [FileOk] at h
    simp only [wantE, Sem.t, Sem.e]
    rw [wantEs_sem N hX es h]
  | .carr es _, h => by
    simp only [FileOk] at h
    simp only [wantE, Sem.t, Sem.e]
    rw [wantEs_sem N hX es h.1]
  | .nular n _, _ => by simp only [wantE, Sem.t, Sem.e]; exact N.nular n
  | .un c e _, h => by
    simp only [FileOk] at h
    simp only [wantE, Sem.t, Sem.e]
    rw [N.un, wantE_sem N hX e h]
  | .bin c l r _, h => by
    simp only [FileOk] at h
    simp only [wantE, Sem.t, Sem.e]
    rw [N.bin, wantE_sem N hX l h.1, wantE_sem N hX r h.2]
  | .var n _, _ => by simp only [wantE, Sem.t, Sem.e]; exact N.var n
theorem wantEs_sem (N : NameLaws M) (hX : ∀ sp, (src.drop (P.offset sp.1).toNat).take (UInt32.ofNat (P.len sp)).toNat = X sp) :
    ∀ es : List Expr, FileOks X es → M.ts src (wantEs P es) = M.es es
  | [], _ => by simp only [wantEs, Sem.ts, Sem.es]
  | e :: es, h => by
    simp only [FileOks] at h
    simp only [wantEs, Sem.ts, Sem.es]
    rw [wantE_sem N hX e h.1, wantEs_sem N hX es h.2]
theorem wantS_sem (N : NameLaws M) (hX : ∀ sp, (src.drop (P.offset sp.1).toNat).take (UInt32.ofNat (P.len sp)).toNat = X sp) :
    ∀ s : Stmt, FileOkS X s → M.tst src (wantS P s) = M.s s
  | .assignGlobal n e sp, h => by
    simp only [FileOkS] at h
    simp only [wantS, Sem.tst, Sem.s]
    rw [N.assign, wantE_sem N hX e h]
  | .assignLocal n e sp, h => by
    simp only [FileOkS] at h
    simp only [wantS, Sem.tst, Sem.s]
    rw [N.assign, wantE_sem N hX e h]
  | .expr e sp, h => by
    simp only [FileOkS] at h
    simp only [wantS, Sem.tst, Sem.s]
    rw [wantE_sem N hX e h]
theorem wantSs_sem (N : NameLaws M) (hX : ∀ sp, (src.drop (P.offset sp.1).toNat).take (UInt32.ofNat (P.len sp)).toNat = X sp) :
    ∀ ss : List Stmt, FileOkSs X ss → M.tss src (wantSs P ss) = M.ss ss
  | [], _ => by simp only [wantSs, Sem.tss, Sem.ss]
  | s :: ss, h => by
    simp only [FileOkSs] at h
    simp only [wantSs, Sem.tss, Sem.ss]
    rw [wantS_sem N hX s h.1, wantSs_sem N hX ss h.2]
end
end

end Verif.Sqf

namespace Verif.SqfParse
open Verif.Sqf

/-! ### The parser -/

/-- What is made keeps the text of code. -/
structure Made (env : Env) (n : Nat) : Prop where
  level : ∀ p ts e r, level env n p ts = .ok e r → TextOk env.extract e
  operands : ∀ p e ts e' r, TextOk env.extract e → operands env n p e ts = .ok e' r → TextOk env.extract e'
  unary : ∀ ts e r, unary env n ts = .ok e r → TextOk env.extract e
  atom : ∀ ts e r, atom env n ts = .ok e r → TextOk env.extract e
  elements : ∀ ts es r, elements env n ts = .ok es r → TextOks env.extract es
  moreElements : ∀ acc ts es r, TextOks env.extract acc.reverse → moreElements env n acc ts = .ok es r → TextOks env.extract es
  statement : ∀ ts s r, statement env n ts = .ok s r → TextOkS env.extract s
  assignment : ∀ ts s r, assignment env n ts = .ok s r → TextOkS env.extract s
  statements : ∀ ts ss r, statements env n ts = .ok ss r → TextOkSs env.extract ss
  moreStatements : ∀ acc ts ss r, TextOkSs env.extract acc.reverse → moreStatements env n acc ts = .ok ss r →
    TextOkSs env.extract ss

theorem textOks_append {X : Span → Bytes} {a : List Expr} {e : Expr} (ha : TextOks X a) (he : TextOk X e) :
    TextOks X (a ++ [e]) := by
  induction a with
  | nil => exact ⟨he, trivial⟩
  | cons b a ih => exact ⟨ha.1, ih ha.2⟩

theorem textOkSs_append {X : Span → Bytes} {a : List Stmt} {e : Stmt} (ha : TextOkSs X a) (he : TextOkS X e) :
    TextOkSs X (a ++ [e]) := by
  induction a with
  | nil => exact ⟨he, trivial⟩
  | cons b a ih => exact ⟨ha.1, ih ha.2⟩

theorem leaf_text {db : Db} {X : Span → Bytes} {t : Tok} {e : Expr} (h : leaf db t = some e) : TextOk X e := by
  have := leaf_sound h
  cases e with
  | code => obtain ⟨t, sp⟩ := t; unfold leaf at h; split at h <;> (try split at h) <;> (try split at h) <;> (try split at h) <;> (try split at h) <;> cases h
  | carr => obtain ⟨t, sp⟩ := t; unfold leaf at h; split at h <;> (try split at h) <;> (try split at h) <;> (try split at h) <;> (try split at h) <;> cases h
  | arr => obtain ⟨t, sp⟩ := t; unfold leaf at h; split at h <;> (try split at h) <;> (try split at h) <;> (try split at h) <;> (try split at h) <;> cases h
  | un => obtain ⟨t, sp⟩ := t; unfold leaf at h; split at h <;> (try split at h) <;> (try split at h) <;> (try split at h) <;> (try split at h) <;> cases h
  | bin => obtain ⟨t, sp⟩ := t; unfold leaf at h; split at h <;> (try split at h) <;> (try split at h) <;> (try split at h) <;> (try split at h) <;> cases h
  | _ => simp [TextOk]

theorem made (env : Env) : ∀ n, Made env n
  | 0 => ⟨fun _ _ _ _ h => (by rw [SqfParse.level] at h; cases h), fun _ _ _ _ _ _ h => (by rw [SqfParse.operands] at h; cases h),
      fun _ _ _ h => (by rw [SqfParse.unary] at h; cases h), fun _ _ _ h => (by rw [SqfParse.atom] at h; cases h),
      fun _ _ _ h => (by rw [SqfParse.elements] at h; cases h), fun _ _ _ _ _ h => (by rw [SqfParse.moreElements] at h; cases h),
      fun _ _ _ h => (by rw [SqfParse.statement] at h; cases h), fun _ _ _ h => (by rw [SqfParse.assignment] at h; cases h),
      fun _ _ _ h => (by rw [SqfParse.statements] at h; cases h), fun _ _ _ _ _ h => (by rw [SqfParse.moreStatements] at h; cases h)⟩
  | n + 1 => by
    have ih := made env n
    constructor
    · intro p ts e r h
      have e1 : SqfParse.level env (n + 1) p ts = if 10 ≤ p then SqfParse.unary env n ts
          else (SqfParse.level env n (p + 1) ts).andThen (fun e r => SqfParse.operands env n p e r) .fail := by
        rw [SqfParse.level]
      rw [e1] at h
      split at h
      · exact ih.unary _ _ _ h
      · obtain ⟨e0, r0, h1, h2⟩ := andThen_ok' h
        exact ih.operands _ _ _ _ _ (ih.level _ _ _ _ h1) h2
    · intro p e ts e' r he h
      cases ts with
      | nil => rw [SqfParse.operands] at h; cases h; exact he
      | cons t ts =>
        rw [SqfParse.operands] at h
        cases hb : binTok env.db p t.1 with
        | none => rw [hb] at h; cases h; exact he
        | some c =>
          rw [hb] at h
          rcases andThen_ok h with ⟨e2, r2, h1, h2⟩ | ⟨_, h2⟩
          · exact ih.operands _ _ _ _ _ (by simp only [TextOk]; exact ⟨he, ih.level _ _ _ _ h1⟩) h2
          · cases h2; exact he
    · intro ts e r h
      cases ts with
      | nil => rw [SqfParse.unary] at h; cases h
      | cons t ts =>
        rw [SqfParse.unary] at h
        cases hb : unTok env.db t.1 with
        | none => rw [hb] at h; exact ih.atom _ _ _ h
        | some c =>
          rw [hb] at h
          obtain ⟨e0, r0, h1, h2⟩ := andThen_ok' h
          cases h2
          simpa only [TextOk] using ih.unary _ _ _ h1
    · intro ts e r h
      cases ts with
      | nil => rw [SqfParse.atom] at h; cases h
      | cons t ts =>
        rw [SqfParse.atom] at h
        split at h
        · obtain ⟨es, r0, h1, h2⟩ := andThen_ok' h
          split at h2
          · cases h2; simpa only [TextOk] using ih.elements _ _ _ h1
          · cases h2
        · split at h
          · obtain ⟨es, r0, h1, h2⟩ := andThen_ok' h
            split at h2
            · cases h2; exact ih.level _ _ _ _ h1
            · cases h2
          · split at h
            · obtain ⟨es, r0, h1, h2⟩ := andThen_ok' h
              split at h2
              · cases h2; simp only [TextOk]; exact ⟨trivial, ih.statements _ _ _ h1⟩
              · cases h2
            · split at h
              · rename_i hl
                cases h
                exact leaf_text hl
              · cases h
    · intro ts es r h
      rw [SqfParse.elements] at h
      rcases andThen_ok h with ⟨e, r0, h1, h2⟩ | ⟨_, h2⟩
      · exact ih.moreElements [e] _ _ _ (by show TextOks _ [e]; simp only [TextOks]; exact ⟨ih.level _ _ _ _ h1, trivial⟩) h2
      · cases h2; trivial
    · intro acc ts es r ha h
      cases ts with
      | nil => rw [SqfParse.moreElements] at h; cases h; exact ha
      | cons t ts =>
        rw [SqfParse.moreElements] at h
        split at h
        · rcases andThen_ok h with ⟨e, r0, h1, h2⟩ | ⟨_, h2⟩
          · exact ih.moreElements _ _ _ _ (by rw [List.reverse_cons]; exact textOks_append ha (ih.level _ _ _ _ h1)) h2
          · cases h2; exact ha
        · cases h; exact ha
    · intro ts s r h
      rw [SqfParse.statement] at h
      rcases andThen_ok h with ⟨s0, r0, h1, h2⟩ | ⟨_, h2⟩
      · cases h2; exact ih.assignment _ _ _ h1
      · obtain ⟨e, r0, h1, h3⟩ := andThen_ok' h2
        cases h3
        simpa only [TextOkS] using ih.level _ _ _ _ h1
    · intro ts s r h
      rw [SqfParse.assignment] at h
      split at h
      · obtain ⟨e, r1, h1, h2⟩ := andThen_ok' h
        have := ih.level _ _ _ _ h1
        cases hp : isPrivate ts with
        | false => rw [hp, if_neg (by simp)] at h2; cases h2; simpa only [TextOkS] using this
        | true => rw [hp, if_pos rfl] at h2; cases h2; simpa only [TextOkS] using this
      · cases h
    · intro ts ss r h
      rw [SqfParse.statements] at h
      rcases andThen_ok h with ⟨s, r0, h1, h2⟩ | ⟨_, h2⟩
      · exact ih.moreStatements [s] _ _ _ (by show TextOkSs _ [s]; simp only [TextOkSs]; exact ⟨ih.statement _ _ _ h1, trivial⟩) h2
      · cases h2; trivial
    · intro acc ts ss r ha h
      cases ts with
      | nil => rw [SqfParse.moreStatements] at h; cases h; exact ha
      | cons t ts =>
        rw [SqfParse.moreStatements] at h
        split at h
        · rcases andThen_ok h with ⟨s, r0, h1, h2⟩ | ⟨_, h2⟩
          · exact ih.moreStatements _ _ _ _ (by rw [List.reverse_cons]; exact textOkSs_append ha (ih.statement _ _ _ h1)) h2
          · cases h2; exact ha
        · cases h; exact ha

theorem run_text {env : Env} {ts : List Tok} {ss : List Stmt} (h : run env ts = some ss) : TextOkSs env.extract ss := by
  unfold run parse at h
  split at h
  · rename_i ss' hs
    cases h
    exact (made env _).statements _ _ _ hs
  · cases h

end Verif.SqfParse
