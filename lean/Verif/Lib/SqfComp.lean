import Verif.Spec.SqfRun
/-! Lemmas about the compiler model: what it emits is read back by the symbolic machine. -/
namespace Verif.Sqf

theorem rbind {ε α β : Type} {x : Except ε α} {f : α → Except ε β} {b : β} (h : (x >>= f) = .ok b) :
    ∃ a, x = .ok a ∧ f a = .ok b := by
  cases x with
  | error e => simp [bind, Except.bind] at h
  | ok a => exact ⟨a, rfl, h⟩

/-- Tables only grow at their end. -/
def Ext (a b : Ctx) : Prop := a.consts <+: b.consts ∧ a.names <+: b.names

theorem Ext.refl (a : Ctx) : Ext a a := ⟨List.prefix_refl _, List.prefix_refl _⟩
theorem Ext.trans {a b c : Ctx} (h : Ext a b) (h' : Ext b c) : Ext a c := ⟨h.1.trans h'.1, h.2.trans h'.2⟩

/-- The final tables contain those of the context. -/
def Has (T : Tables) (a : Ctx) : Prop := a.consts <+: T.consts ∧ a.names <+: T.names

theorem Has.mono {T : Tables} {a b : Ctx} (h : Has T b) (h' : Ext a b) : Has T a := ⟨h'.1.trans h.1, h'.2.trans h.2⟩

theorem prefix_get {α : Type} {l m : List α} (h : l <+: m) {i : Nat} {x : α} (hx : l[i]? = some x) : m[i]? = some x := by
  obtain ⟨r, rfl⟩ := h
  have : i < l.length := by
    by_contra hc
    rw [List.getElem?_eq_none (by omega)] at hx
    simp at hx
  rw [List.getElem?_append_left this, hx]

def Den (T : Tables) (c : Const) (t : Tree) : Prop := ∃ k, ∀ f, k ≤ f → tree T f c = some t
def Dens (T : Tables) (cs : List Const) (ts : List Tree) : Prop := ∃ k, ∀ f, k ≤ f → cs.mapM (tree T f) = some ts
def Runs (T : Tables) (is : List Instr) (ts : List Tree) : Prop :=
  ∃ k, ∀ f, k ≤ f → ∀ d s, execs (tree T f) T is (d, s) = some (d, ts.reverse ++ s)

theorem execs_append (v : Const → Option Tree) (T : Tables) (a b : List Instr) (st : MState) :
    execs v T (a ++ b) st = (execs v T a st).bind (execs v T b) := by
  induction a generalizing st with
  | nil => simp [execs]
  | cons i a ih =>
    simp only [List.cons_append, execs]
    cases exec v T i st with
    | none => rfl
    | some st' => simp [ih]

theorem Runs.append {T : Tables} {a b : List Instr} {ts us : List Tree} (ha : Runs T a ts) (hb : Runs T b us) :
    Runs T (a ++ b) (ts ++ us) := by
  obtain ⟨k, hk⟩ := ha
  obtain ⟨j, hj⟩ := hb
  refine ⟨max k j, fun f hf d s => ?_⟩
  rw [execs_append, hk f (by omega), Option.bind_some, hj f (by omega)]
  simp

theorem Runs.nil (T : Tables) : Runs T [] [] := ⟨0, fun _ _ _ _ => rfl⟩

theorem Runs.un {T : Tables} {a : List Instr} {t : Tree} {n : UInt16} {s : SourceInfo} {nm : Bytes}
    (ha : Runs T a [t]) (hn : T.names[n.toNat]? = some nm) : Runs T (a ++ [.callUnary n s]) [.un nm t (some s)] := by
  obtain ⟨k, hk⟩ := ha
  refine ⟨k, fun f hf d st => ?_⟩
  rw [execs_append, hk f hf]
  simp [execs, exec, hn]

theorem Runs.bin {T : Tables} {a : List Instr} {l r : Tree} {n : UInt16} {s : SourceInfo} {nm : Bytes}
    (ha : Runs T a [l, r]) (hn : T.names[n.toNat]? = some nm) : Runs T (a ++ [.callBinary n s]) [.bin nm l r (some s)] := by
  obtain ⟨k, hk⟩ := ha
  refine ⟨k, fun f hf d st => ?_⟩
  rw [execs_append, hk f hf]
  simp [execs, exec, hn]

theorem Runs.arr {T : Tables} {a : List Instr} {ts : List Tree} {n : UInt16} {s : SourceInfo}
    (ha : Runs T a ts) (hn : n.toNat = ts.length) : Runs T (a ++ [.makeArray n s]) [.arr ts] := by
  obtain ⟨k, hk⟩ := ha
  refine ⟨k, fun f hf d st => ?_⟩
  rw [execs_append, hk f hf]
  simp [execs, exec, hn]

theorem toU16_ok {n : Nat} {i : UInt16} (h : toU16 n = .ok i) : i.toNat = n := by
  unfold toU16 at h
  split at h
  · rename_i hn; cases h; simp only [UInt16.toNat_ofNat']; exact Nat.mod_eq_of_lt hn
  · cases h

theorem addOrGet_ok {α : Type} {eq : α → α → Bool} {l l' : List α} {v : α} {i : UInt16}
    (h : addOrGet eq l v = .ok (i, l')) : l <+: l' ∧ ∃ x, l'[i.toNat]? = some x ∧ (x = v ∨ eq x v = true) := by
  unfold addOrGet at h
  cases hf : l.findIdx? (fun x => eq x v) with
  | some j =>
    rw [hf] at h
    obtain ⟨i', hi, h⟩ := rbind h
    cases h
    rw [List.findIdx?_eq_some_iff_getElem] at hf
    obtain ⟨hj, he, _⟩ := hf
    exact ⟨List.prefix_refl _, l[j], by rw [toU16_ok hi]; exact List.getElem?_eq_getElem hj, .inr he⟩
  | none =>
    rw [hf] at h
    obtain ⟨i', hi, h⟩ := rbind h
    cases h
    exact ⟨List.prefix_append _ _, v, by rw [toU16_ok hi]; simp, .inl rfl⟩

theorem constEqs_mapM {T : Tables} {f : Nat} (ih : ∀ a b, constEq a b = true → tree T f a = tree T f b) :
    ∀ as bs : List Const, constEqs as bs = true → as.mapM (tree T f) = bs.mapM (tree T f)
  | [], [], _ => rfl
  | a :: as, b :: bs, h => by
    simp only [constEqs, Bool.and_eq_true] at h
    simp only [List.mapM_cons, ih a b h.1, constEqs_mapM ih as bs h.2]
  | [], _ :: _, h => by simp [constEqs] at h
  | _ :: _, [], h => by simp [constEqs] at h

theorem constEq_tree (T : Tables) (f : Nat) : ∀ a b : Const, constEq a b = true → tree T f a = tree T f b := by
  induction f with
  | zero => intro a b _; simp [tree]
  | succ f ih =>
    intro a b h
    cases a <;> cases b <;> simp [constEq] at h
    · subst h; rfl
    · subst h; rfl
    · subst h; rfl
    · subst h; rfl
    · simp only [tree]; rw [constEqs_mapM ih _ _ h]
    · simp only [tree, h]

theorem addConst_ok {c : Const} {ctx ctx' : Ctx} {i : UInt16} (h : addConst c ctx = .ok (i, ctx')) :
    Ext ctx ctx' ∧ ∀ T, Has T ctx' → ∀ t, Den T c t → Runs T [.push i] [t] := by
  obtain ⟨⟨j, l⟩, ha, h⟩ := rbind h
  cases h
  obtain ⟨h1, x, h2, h3⟩ := addOrGet_ok ha
  refine ⟨⟨h1, List.prefix_refl _⟩, fun T hT t ⟨k, hk⟩ => ⟨k, fun f hf d s => ?_⟩⟩
  have hx : T.consts[i.toNat]? = some x := prefix_get hT.1 h2
  have ht : tree T f x = some t := by
    rcases h3 with rfl | h3
    · exact hk f hf
    · rw [constEq_tree T f x c h3]; exact hk f hf
  simp [execs, exec, hx, ht]

theorem Dens.cons_inv {T : Tables} {c : Const} {cs : List Const} {ts : List Tree} (h : Dens T (c :: cs) ts) :
    ∃ t us, ts = t :: us ∧ Den T c t ∧ Dens T cs us := by
  obtain ⟨k, hk⟩ := h
  have key : ∀ f, k ≤ f → ∃ t us, ts = t :: us ∧ tree T f c = some t ∧ cs.mapM (tree T f) = some us := by
    intro f hf
    have := hk f hf
    simp only [List.mapM_cons, Option.bind_eq_bind, Option.bind_eq_some_iff] at this
    obtain ⟨t, h1, us, h2, h3⟩ := this
    cases h3
    exact ⟨t, us, rfl, h1, h2⟩
  obtain ⟨t, us, rfl, h1, h2⟩ := key k le_rfl
  refine ⟨t, us, rfl, ⟨k, fun f hf => ?_⟩, ⟨k, fun f hf => ?_⟩⟩
  · obtain ⟨t', us', he, h1, h2⟩ := key f hf
    cases he; exact h1
  · obtain ⟨t', us', he, h1, h2⟩ := key f hf
    cases he; exact h2

theorem Dens.nil_inv {T : Tables} {ts : List Tree} (h : Dens T [] ts) : ts = [] := by
  obtain ⟨k, hk⟩ := h
  simpa using (hk k le_rfl).symm

theorem Dens.length {T : Tables} {cs : List Const} : ∀ {ts : List Tree}, Dens T cs ts → ts.length = cs.length := by
  induction cs with
  | nil => intro ts h; simp [h.nil_inv]
  | cons c cs ih =>
    intro ts h
    obtain ⟨t, us, rfl, _, h2⟩ := h.cons_inv
    simp [ih h2]

theorem Den.arr_inv {T : Tables} {cs : List Const} {t : Tree} (h : Den T (.arr cs) t) :
    ∃ ts, t = .arr ts ∧ Dens T cs ts := by
  obtain ⟨k, hk⟩ := h
  have key : ∀ f, k ≤ f → ∃ ts, t = .arr ts ∧ cs.mapM (tree T f) = some ts := by
    intro f hf
    have := hk (f + 1) (by omega)
    simp only [tree, Option.map_eq_some_iff] at this
    obtain ⟨ts, h1, h2⟩ := this
    exact ⟨ts, h2.symm, h1⟩
  obtain ⟨ts, rfl, _⟩ := key k le_rfl
  refine ⟨ts, rfl, k, fun f hf => ?_⟩
  obtain ⟨ts', he, h⟩ := key f hf
  cases he; exact h

theorem pushConst_atom {c : Const} (hc : ∀ cs, c ≠ .arr cs) (ctx : Ctx) :
    pushConst c ctx = (do let (i, ctx) ← addConst c ctx; return ([.push i], ctx)) := by
  cases c <;> first | rfl | exact absurd rfl (hc _)

theorem pushConst_atom_ok {c : Const} (hc : ∀ cs, c ≠ .arr cs) {ctx ctx' : Ctx} {is : List Instr}
    (h : pushConst c ctx = .ok (is, ctx')) :
    Ext ctx ctx' ∧ ∀ T, Has T ctx' → ∀ t, Den T c t → Runs T is [t] := by
  rw [pushConst_atom hc] at h
  obtain ⟨⟨i, ctx1⟩, h1, h⟩ := rbind h
  cases h
  exact addConst_ok h1

mutual
theorem pushConst_ok : ∀ (c : Const) (ctx ctx' : Ctx) (is : List Instr), pushConst c ctx = .ok (is, ctx') →
    Ext ctx ctx' ∧ ∀ T, Has T ctx' → ∀ t, Den T c t → Runs T is [t]
  | .arr cs, ctx, ctx', is, h => by
    rw [pushConst] at h
    obtain ⟨⟨a, ctx1⟩, h1, h⟩ := rbind h
    dsimp only at h
    split at h
    · rename_i hl
      cases h
      obtain ⟨he, hr⟩ := pushConsts_ok cs ctx ctx' a h1
      refine ⟨he, fun T hT t ht => ?_⟩
      obtain ⟨ts, rfl, hts⟩ := ht.arr_inv
      refine (hr T hT ts hts).arr ?_
      rw [hts.length, UInt16.toNat_ofNat']; exact Nat.mod_eq_of_lt hl
    · cases h
  | .code _, ctx, ctx', is, h => pushConst_atom_ok (by simp) h
  | .str _, ctx, ctx', is, h => pushConst_atom_ok (by simp) h
  | .num _, ctx, ctx', is, h => pushConst_atom_ok (by simp) h
  | .bool _, ctx, ctx', is, h => pushConst_atom_ok (by simp) h
  | .carr _, ctx, ctx', is, h => pushConst_atom_ok (by simp) h
  | .nular _, ctx, ctx', is, h => pushConst_atom_ok (by simp) h
theorem pushConsts_ok : ∀ (cs : List Const) (ctx ctx' : Ctx) (is : List Instr), pushConsts cs ctx = .ok (is, ctx') →
    Ext ctx ctx' ∧ ∀ T, Has T ctx' → ∀ ts, Dens T cs ts → Runs T is ts
  | [], ctx, ctx', is, h => by
    rw [pushConsts] at h
    cases h
    exact ⟨Ext.refl _, fun T _ ts ht => by rw [ht.nil_inv]; exact Runs.nil T⟩
  | c :: cs, ctx, ctx', is, h => by
    rw [pushConsts] at h
    obtain ⟨⟨a, ctx1⟩, h1, h⟩ := rbind h
    obtain ⟨⟨b, ctx2⟩, h2, h⟩ := rbind h
    cases h
    obtain ⟨e1, r1⟩ := pushConst_ok c _ _ _ h1
    obtain ⟨e2, r2⟩ := pushConsts_ok cs _ _ _ h2
    refine ⟨e1.trans e2, fun T hT ts ht => ?_⟩
    obtain ⟨t, us, rfl, ht1, ht2⟩ := ht.cons_inv
    exact (r1 T (hT.mono e2) t ht1).append (r2 T hT us ht2)
end

theorem emitName_ok {P : Proc} {mk : UInt16 → SourceInfo → Instr} {n : Bytes} {sp : Span} {ctx ctx' : Ctx}
    {is : List Instr} (h : emitName P mk n sp ctx = .ok (is, ctx')) :
    Ext ctx ctx' ∧ ∃ i s, is = [mk i s] ∧ P.loc sp = some s ∧
      ∀ T, Has T ctx' → T.names[i.toNat]? = some (asciiLower n) := by
  obtain ⟨⟨i, ctx1⟩, h1, h⟩ := rbind h
  obtain ⟨s, h2, h⟩ := rbind h
  cases h
  obtain ⟨m, hm, h1⟩ := rbind h1
  obtain ⟨⟨j, l⟩, h3, h1⟩ := rbind h1
  cases h1
  have hm' : m = asciiLower n := by
    unfold normName at hm
    split at hm
    · cases hm; rfl
    · cases hm
  subst hm'
  obtain ⟨e, x, hx, hxe⟩ := addOrGet_ok h3
  refine ⟨⟨List.prefix_refl _, e⟩, i, s, rfl, ?_, fun T hT => ?_⟩
  · unfold locOf at h2
    split at h2
    · cases h2; assumption
    · cases h2
  · have : x = asciiLower n := by
      rcases hxe with h | h
      · exact h
      · simpa using h
    exact prefix_get hT.2 (this ▸ hx)

/-- Runs a statement list: whatever could be flushed before is followed by the new statements. -/
def RunsS (T : Tables) (is : List Instr) (ts : List TStmt) : Prop :=
  ∃ k, ∀ f, k ≤ f → ∀ st dn, flush st = some dn →
    ∃ st', execs (tree T f) T is st = some st' ∧ flush st' = some (ts.reverse ++ dn)

theorem RunsS.den {T : Tables} {is : List Instr} {ts : List TStmt} (h : RunsS T is ts) (p : CodePtr) :
    Den T (.code ⟨is, p⟩) (.code p ts) := by
  obtain ⟨k, hk⟩ := h
  refine ⟨k + 1, fun f hf => ?_⟩
  obtain ⟨g, rfl⟩ : ∃ g, f = g + 1 := ⟨f - 1, by omega⟩
  obtain ⟨st', h1, h2⟩ := hk g (by omega) ([], []) [] rfl
  simp [tree, body, h1, h2]

theorem RunsS.expr {T : Tables} {is : List Instr} {t : Tree} (h : Runs T is [t]) :
    RunsS T (.endStatement :: is) [.expr t] := by
  obtain ⟨k, hk⟩ := h
  refine ⟨k, fun f hf st dn hst => ⟨(dn, [t]), ?_, rfl⟩⟩
  simp [execs, exec, hst, hk f hf]

theorem RunsS.assign {T : Tables} {is : List Instr} {t : Tree} {n : UInt16} {s : SourceInfo} {nm : Bytes}
    (h : Runs T is [t]) (hn : T.names[n.toNat]? = some nm) :
    RunsS T (.endStatement :: (is ++ [.assignTo n s])) [.assign false nm t (some s)] ∧
    RunsS T (.endStatement :: (is ++ [.assignToLocal n s])) [.assign true nm t (some s)] := by
  obtain ⟨k, hk⟩ := h
  constructor
  · refine ⟨k, fun f hf st dn hst => ⟨(_ :: dn, []), ?_, rfl⟩⟩
    simp [execs, exec, hst, execs_append, hk f hf, hn]
  · refine ⟨k, fun f hf st dn hst => ⟨(_ :: dn, []), ?_, rfl⟩⟩
    simp [execs, exec, hst, execs_append, hk f hf, hn]

theorem RunsS.append {T : Tables} {a b : List Instr} {ts us : List TStmt} (ha : RunsS T a ts) (hb : RunsS T b us) :
    RunsS T (a ++ b) (ts ++ us) := by
  obtain ⟨k, hk⟩ := ha
  obtain ⟨j, hj⟩ := hb
  refine ⟨max k j, fun f hf st dn hst => ?_⟩
  obtain ⟨st1, h1, h2⟩ := hk f (by omega) st dn hst
  obtain ⟨st2, h3, h4⟩ := hj f (by omega) st1 _ h2
  exact ⟨st2, by rw [execs_append, h1, Option.bind_some, h3], by rw [h4]; simp⟩

theorem wantEs_length (P : Proc) : ∀ es, (wantEs P es).length = es.length
  | [] => by simp [wantEs]
  | e :: es => by simp [wantEs, wantEs_length P es]

theorem atom_den {T : Tables} {c : Const} {t : Tree} (h : ∀ f, tree T (f + 1) c = some t) : Den T c t :=
  ⟨1, fun f hf => by obtain ⟨g, rfl⟩ : ∃ g, f = g + 1 := ⟨f - 1, by omega⟩; exact h g⟩

theorem normName_lower {n m : Bytes} (h : normName n = .ok m) : asciiLower m = asciiLower n := by
  unfold normName at h
  split at h
  · cases h
    simp only [asciiLower, List.map_map]
    apply List.map_congr_left
    intro b _
    simp only [Function.comp, lowerByte]
    split
    · rename_i hb
      have : ¬ (b + 32 ≤ 90) := by
        have h1 := hb.1; have h2 := hb.2
        simp only [UInt8.le_iff_toNat_le, UInt8.toNat_add] at *
        simp at *
        omega
      simp [this]
    · rfl
  · cases h

mutual
theorem compConst_ok (P : Proc) : ∀ (e : Expr) (ctx ctx' : Ctx) (r : Option Const), compConst P e ctx = .ok (r, ctx') →
    Ext ctx ctx' ∧ ∀ c, r = some c → ∀ T, Has T ctx' → Den T c (wantE P e)
  | .code c s sp, ctx, ctx', r, h => by
    rw [compConst] at h
    obtain ⟨⟨is, ctx1⟩, h1, h⟩ := rbind h
    cases h
    obtain ⟨e1, r1⟩ := compSs_ok P c _ _ _ h1
    refine ⟨e1, fun c' hc T hT => ?_⟩
    cases hc
    rw [wantE]
    exact (r1 T hT).den _
  | .str s _ _, ctx, ctx', r, h => by
    rw [compConst] at h; cases h
    exact ⟨Ext.refl _, fun c hc T _ => by cases hc; exact atom_den fun f => by simp [tree, wantE]⟩
  | .num s _, ctx, ctx', r, h => by
    rw [compConst] at h; cases h
    exact ⟨Ext.refl _, fun c hc T _ => by cases hc; exact atom_den fun f => by simp [tree, wantE]⟩
  | .bool s _, ctx, ctx', r, h => by
    rw [compConst] at h; cases h
    exact ⟨Ext.refl _, fun c hc T _ => by cases hc; exact atom_den fun f => by simp [tree, wantE]⟩
  | .arr es sp, ctx, ctx', r, h => by
    rw [compConst] at h
    obtain ⟨⟨cs, ctx1⟩, h1, h⟩ := rbind h
    cases h
    obtain ⟨e1, r1⟩ := compConsts_ok P es _ _ _ h1
    refine ⟨e1, fun c hc T hT => ?_⟩
    cases cs with
    | none => simp at hc
    | some cs =>
      simp at hc; subst hc
      obtain ⟨k, hk⟩ := r1 cs rfl T hT
      exact ⟨k + 1, fun f hf => by
        obtain ⟨g, rfl⟩ : ∃ g, f = g + 1 := ⟨f - 1, by omega⟩
        simp [tree, wantE, hk g (by omega)]⟩
  | .carr es sp, ctx, ctx', r, h => by
    rw [compConst] at h
    obtain ⟨⟨cs, ctx1⟩, h1, h⟩ := rbind h
    cases h
    obtain ⟨e1, r1⟩ := compConsts_ok P es _ _ _ h1
    refine ⟨e1, fun c hc T hT => ?_⟩
    cases cs with
    | none => simp at hc
    | some cs =>
      simp at hc; subst hc
      obtain ⟨k, hk⟩ := r1 cs rfl T hT
      exact ⟨k + 1, fun f hf => by
        obtain ⟨g, rfl⟩ : ∃ g, f = g + 1 := ⟨f - 1, by omega⟩
        simp [tree, wantE, hk g (by omega)]⟩
  | .nular n sp, ctx, ctx', r, h => by
    rw [compConst] at h
    split at h
    · rename_i hc
      obtain ⟨m, hm, h⟩ := rbind h
      cases h
      refine ⟨Ext.refl _, fun c hc' T _ => ?_⟩
      cases hc'
      exact atom_den fun f => by simp [tree, wantE, hc, normName_lower hm]
    · cases h
      exact ⟨Ext.refl _, fun c hc => by cases hc⟩
  | .un _ _ _, ctx, ctx', r, h => by
    simp only [compConst] at h; cases h; exact ⟨Ext.refl _, fun c hc => by cases hc⟩
  | .bin _ _ _ _, ctx, ctx', r, h => by
    simp only [compConst] at h; cases h; exact ⟨Ext.refl _, fun c hc => by cases hc⟩
  | .var _ _, ctx, ctx', r, h => by
    simp only [compConst] at h; cases h; exact ⟨Ext.refl _, fun c hc => by cases hc⟩
theorem compConsts_ok (P : Proc) : ∀ (es : List Expr) (ctx ctx' : Ctx) (r : Option (List Const)),
    compConsts P es ctx = .ok (r, ctx') →
    Ext ctx ctx' ∧ ∀ cs, r = some cs → ∀ T, Has T ctx' → Dens T cs (wantEs P es)
  | [], ctx, ctx', r, h => by
    rw [compConsts] at h; cases h
    exact ⟨Ext.refl _, fun cs hc T _ => by cases hc; exact ⟨0, fun f _ => by simp [wantEs]⟩⟩
  | e :: es, ctx, ctx', r, h => by
    rw [compConsts] at h
    obtain ⟨⟨c, ctx1⟩, h1, h⟩ := rbind h
    obtain ⟨e1, r1⟩ := compConst_ok P e _ _ _ h1
    cases c with
    | none => cases h; exact ⟨e1, fun cs hc => by cases hc⟩
    | some c =>
      obtain ⟨⟨cs, ctx2⟩, h2, h⟩ := rbind h
      cases h
      obtain ⟨e2, r2⟩ := compConsts_ok P es _ _ _ h2
      refine ⟨e1.trans e2, fun cs' hc T hT => ?_⟩
      cases cs with
      | none => simp at hc
      | some cs =>
        simp at hc; subst hc
        obtain ⟨k, hk⟩ := r1 c rfl T (hT.mono e2)
        obtain ⟨j, hj⟩ := r2 cs rfl T hT
        exact ⟨max k j, fun f hf => by
          simp [wantEs, hk f (by omega), hj f (by omega)]⟩
theorem compInstr_ok (P : Proc) : ∀ (e : Expr) (ctx ctx' : Ctx) (is : List Instr), compInstr P e ctx = .ok (is, ctx') →
    Ext ctx ctx' ∧ ∀ T, Has T ctx' → Runs T is [wantE P e]
  | .code c s sp, ctx, ctx', is, h => by
    rw [compInstr] at h
    obtain ⟨⟨js, ctx1⟩, h1, h⟩ := rbind h
    obtain ⟨e1, r1⟩ := compSs_ok P c _ _ _ h1
    obtain ⟨e2, r2⟩ := pushConst_ok _ _ _ _ h
    refine ⟨e1.trans e2, fun T hT => r2 T hT _ ?_⟩
    rw [wantE]
    exact (r1 T (hT.mono e2)).den _
  | .str s _ _, ctx, ctx', is, h => by
    rw [compInstr] at h
    obtain ⟨e2, r2⟩ := pushConst_ok _ _ _ _ h
    exact ⟨e2, fun T hT => r2 T hT _ (atom_den fun f => by simp [tree, wantE])⟩
  | .num s _, ctx, ctx', is, h => by
    rw [compInstr] at h
    obtain ⟨e2, r2⟩ := pushConst_ok _ _ _ _ h
    exact ⟨e2, fun T hT => r2 T hT _ (atom_den fun f => by simp [tree, wantE])⟩
  | .bool s _, ctx, ctx', is, h => by
    rw [compInstr] at h
    obtain ⟨e2, r2⟩ := pushConst_ok _ _ _ _ h
    exact ⟨e2, fun T hT => r2 T hT _ (atom_den fun f => by simp [tree, wantE])⟩
  | .arr es sp, ctx, ctx', is, h => by
    rw [compInstr] at h
    obtain ⟨⟨cs, ctx1⟩, h1, h⟩ := rbind h
    obtain ⟨e1, r1⟩ := compConsts_ok P es _ _ _ h1
    cases cs with
    | some cs =>
      obtain ⟨e2, r2⟩ := pushConst_ok _ _ _ _ h
      refine ⟨e1.trans e2, fun T hT => r2 T hT _ ?_⟩
      obtain ⟨k, hk⟩ := r1 cs rfl T (hT.mono e2)
      exact ⟨k + 1, fun f hf => by
        obtain ⟨g, rfl⟩ : ∃ g, f = g + 1 := ⟨f - 1, by omega⟩
        simp [tree, wantE, hk g (by omega)]⟩
    | none =>
      obtain ⟨len, hl, h⟩ := rbind h
      obtain ⟨⟨js, ctx2⟩, h2, h⟩ := rbind h
      obtain ⟨s, hs, h⟩ := rbind h
      cases h
      obtain ⟨e2, r2⟩ := compInstrs_ok P es _ _ _ h2
      refine ⟨e1.trans e2, fun T hT => ?_⟩
      rw [wantE]
      exact (r2 T hT).arr (by rw [toU16_ok hl, wantEs_length])
  | .carr es sp, ctx, ctx', is, h => by
    rw [compInstr] at h
    obtain ⟨⟨cs, ctx1⟩, h1, h⟩ := rbind h
    obtain ⟨e1, r1⟩ := compConsts_ok P es _ _ _ h1
    cases cs with
    | some cs =>
      obtain ⟨e2, r2⟩ := pushConst_ok _ _ _ _ h
      refine ⟨e1.trans e2, fun T hT => r2 T hT _ ?_⟩
      obtain ⟨k, hk⟩ := r1 cs rfl T (hT.mono e2)
      exact ⟨k + 1, fun f hf => by
        obtain ⟨g, rfl⟩ : ∃ g, f = g + 1 := ⟨f - 1, by omega⟩
        simp [tree, wantE, hk g (by omega)]⟩
    | none => cases h
  | .nular n sp, ctx, ctx', is, h => by
    rw [compInstr] at h
    split at h
    · rename_i hc
      obtain ⟨m, hm, h⟩ := rbind h
      obtain ⟨e2, r2⟩ := pushConst_ok _ _ _ _ h
      exact ⟨e2, fun T hT => r2 T hT _ (atom_den fun f => by simp [tree, wantE, hc, normName_lower hm])⟩
    · rename_i hc
      obtain ⟨e2, i, s, rfl, hs, hn⟩ := emitName_ok h
      refine ⟨e2, fun T hT => ⟨0, fun f _ d st => ?_⟩⟩
      simp [execs, exec, hn T hT, wantE, hc, hs]
  | .un c e sp, ctx, ctx', is, h => by
    rw [compInstr] at h
    obtain ⟨⟨a, ctx1⟩, h1, h⟩ := rbind h
    obtain ⟨⟨b, ctx2⟩, h2, h⟩ := rbind h
    cases h
    obtain ⟨e1, r1⟩ := compInstr_ok P e _ _ _ h1
    obtain ⟨e2, i, s, rfl, hs, hn⟩ := emitName_ok h2
    refine ⟨e1.trans e2, fun T hT => ?_⟩
    rw [wantE, hs]
    exact (r1 T (hT.mono e2)).un (hn T hT)
  | .bin c l r sp, ctx, ctx', is, h => by
    rw [compInstr] at h
    obtain ⟨⟨a, ctx1⟩, h1, h⟩ := rbind h
    obtain ⟨⟨b, ctx2⟩, h2, h⟩ := rbind h
    obtain ⟨⟨d, ctx3⟩, h3, h⟩ := rbind h
    cases h
    obtain ⟨e1, r1⟩ := compInstr_ok P l _ _ _ h1
    obtain ⟨e2, r2⟩ := compInstr_ok P r _ _ _ h2
    obtain ⟨e3, i, s, rfl, hs, hn⟩ := emitName_ok h3
    refine ⟨(e1.trans e2).trans e3, fun T hT => ?_⟩
    rw [wantE, hs]
    exact ((r1 T ((hT.mono e3).mono e2)).append (r2 T (hT.mono e3))).bin (hn T hT)
  | .var n sp, ctx, ctx', is, h => by
    rw [compInstr] at h
    obtain ⟨e2, i, s, rfl, hs, hn⟩ := emitName_ok h
    refine ⟨e2, fun T hT => ⟨0, fun f _ d st => ?_⟩⟩
    simp [execs, exec, hn T hT, wantE, hs]
theorem compInstrs_ok (P : Proc) : ∀ (es : List Expr) (ctx ctx' : Ctx) (is : List Instr),
    compInstrs P es ctx = .ok (is, ctx') → Ext ctx ctx' ∧ ∀ T, Has T ctx' → Runs T is (wantEs P es)
  | [], ctx, ctx', is, h => by
    rw [compInstrs] at h; cases h
    exact ⟨Ext.refl _, fun T _ => by rw [wantEs]; exact Runs.nil T⟩
  | e :: es, ctx, ctx', is, h => by
    rw [compInstrs] at h
    obtain ⟨⟨a, ctx1⟩, h1, h⟩ := rbind h
    obtain ⟨⟨b, ctx2⟩, h2, h⟩ := rbind h
    cases h
    obtain ⟨e1, r1⟩ := compInstr_ok P e _ _ _ h1
    obtain ⟨e2, r2⟩ := compInstrs_ok P es _ _ _ h2
    refine ⟨e1.trans e2, fun T hT => ?_⟩
    rw [wantEs]
    exact (r1 T (hT.mono e2)).append (r2 T hT)
theorem compS_ok (P : Proc) : ∀ (s : Stmt) (ctx ctx' : Ctx) (is : List Instr), compS P s ctx = .ok (is, ctx') →
    Ext ctx ctx' ∧ ∀ T, Has T ctx' → RunsS T is [wantS P s]
  | .assignGlobal n e sp, ctx, ctx', is, h => by
    rw [compS] at h
    obtain ⟨⟨a, ctx1⟩, h1, h⟩ := rbind h
    obtain ⟨⟨b, ctx2⟩, h2, h⟩ := rbind h
    cases h
    obtain ⟨e1, r1⟩ := compInstr_ok P e _ _ _ h1
    obtain ⟨e2, i, s, rfl, hs, hn⟩ := emitName_ok h2
    refine ⟨e1.trans e2, fun T hT => ?_⟩
    rw [wantS, hs]
    exact (RunsS.assign (r1 T (hT.mono e2)) (hn T hT)).1
  | .assignLocal n e sp, ctx, ctx', is, h => by
    rw [compS] at h
    obtain ⟨⟨a, ctx1⟩, h1, h⟩ := rbind h
    obtain ⟨⟨b, ctx2⟩, h2, h⟩ := rbind h
    cases h
    obtain ⟨e1, r1⟩ := compInstr_ok P e _ _ _ h1
    obtain ⟨e2, i, s, rfl, hs, hn⟩ := emitName_ok h2
    refine ⟨e1.trans e2, fun T hT => ?_⟩
    rw [wantS, hs]
    exact (RunsS.assign (r1 T (hT.mono e2)) (hn T hT)).2
  | .expr e sp, ctx, ctx', is, h => by
    rw [compS] at h
    obtain ⟨⟨a, ctx1⟩, h1, h⟩ := rbind h
    cases h
    obtain ⟨e1, r1⟩ := compInstr_ok P e _ _ _ h1
    refine ⟨e1, fun T hT => ?_⟩
    rw [wantS]
    exact RunsS.expr (r1 T hT)
theorem compSs_ok (P : Proc) : ∀ (ss : List Stmt) (ctx ctx' : Ctx) (is : List Instr), compSs P ss ctx = .ok (is, ctx') →
    Ext ctx ctx' ∧ ∀ T, Has T ctx' → RunsS T is (wantSs P ss)
  | [], ctx, ctx', is, h => by
    rw [compSs] at h; cases h
    refine ⟨Ext.refl _, fun T _ => ?_⟩
    rw [wantSs]
    exact ⟨0, fun f _ st dn hst => ⟨st, rfl, by simpa using hst⟩⟩
  | s :: ss, ctx, ctx', is, h => by
    rw [compSs] at h
    obtain ⟨⟨a, ctx1⟩, h1, h⟩ := rbind h
    obtain ⟨⟨b, ctx2⟩, h2, h⟩ := rbind h
    cases h
    obtain ⟨e1, r1⟩ := compS_ok P s _ _ _ h1
    obtain ⟨e2, r2⟩ := compSs_ok P ss _ _ _ h2
    refine ⟨e1.trans e2, fun T hT => ?_⟩
    rw [wantSs]
    exact (r1 T (hT.mono e2)).append (r2 T hT)
end

/-- `compile_instructions` as written: try `compile_constant` first
(libs/sqf/src/compiler/mod.rs:158-244). -/
theorem compInstr_eq (P : Proc) (e : Expr) (ctx : Ctx) :
    compInstr P e ctx = (do
      let (c, ctx) ← compConst P e ctx
      match c with
      | some c => pushConst c ctx
      | none => match e with
        | .arr es sp => do
          let len ← toU16 es.length
          let (is, ctx) ← compInstrs P es ctx
          let s ← locOf P sp
          return (is ++ [.makeArray len s], ctx)
        | .nular n sp => emitName P .callNular n sp ctx
        | .un c e sp => do
          let (a, ctx) ← compInstr P e ctx
          let (b, ctx) ← emitName P .callUnary c.asStr sp ctx
          return (a ++ b, ctx)
        | .bin c l r sp => do
          let (a, ctx) ← compInstr P l ctx
          let (b, ctx) ← compInstr P r ctx
          let (d, ctx) ← emitName P .callBinary c.asStr sp ctx
          return (a ++ b ++ d, ctx)
        | .var n sp => emitName P .getVariable n sp ctx
        | _ => .error .panic) := by
  cases e with
  | code c s sp =>
    rw [compInstr, compConst]
    cases compSs P c ctx <;> rfl
  | arr es sp =>
    rw [compInstr, compConst]
    cases compConsts P es ctx with
    | error e => rfl
    | ok r => obtain ⟨c, ctx1⟩ := r; cases c <;> rfl
  | carr es sp =>
    rw [compInstr, compConst]
    cases compConsts P es ctx with
    | error e => rfl
    | ok r => obtain ⟨c, ctx1⟩ := r; cases c <;> rfl
  | nular n sp =>
    rw [compInstr, compConst]
    split
    · cases normName n <;> rfl
    · rfl
  | _ => simp only [compInstr, compConst]; rfl

end Verif.Sqf
