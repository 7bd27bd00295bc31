import Verif.Lib.SqfFile
/-!
Which scripts are compiled: lemmas for C129.
-/
namespace Verif.Sqf

/-- A name the compiler takes. -/
def ValidN (n : Bytes) : Prop := isValidCommand (asciiLower n) = true

mutual
/-- The compiler takes all names, arrays are small, and shared arrays are constant. -/
def CompOk : Expr → Prop
  | .code c _ _ => CompOkSs c
  | .arr es _ => es.length < 65536 ∧ CompOks es
  | .carr es _ => CompOks es ∧ ∀ x ∈ es, Constant x
  | .nular n _ => ValidN n
  | .un c e _ => ValidN c.asStr ∧ CompOk e
  | .bin c l r _ => ValidN c.asStr ∧ CompOk l ∧ CompOk r
  | .var n _ => ValidN n
  | _ => True
def CompOks : List Expr → Prop
  | [] => True
  | e :: es => CompOk e ∧ CompOks es
def CompOkS : Stmt → Prop
  | .assignGlobal n e _ | .assignLocal n e _ => ValidN n ∧ CompOk e
  | .expr e _ => CompOk e
def CompOkSs : List Stmt → Prop
  | [] => True
  | s :: ss => CompOkS s ∧ CompOkSs ss
end

/-! ### The optimiser -/

variable {F : FloatOps} {lower : Bytes → Bytes}

theorem optEs_length : ∀ (es es' : List Expr), optEs F lower es = .ok es' → es'.length = es.length
  | [], es', h => by simp [optEs] at h; simp [h]
  | e :: es, es', h => by
    rw [optEs] at h
    obtain ⟨a, ha, h⟩ := bind_ok h
    obtain ⟨b, hb, h⟩ := bind_ok h
    cases h
    simp [optEs_length es b hb]

theorem consume_comp {d : Bool} {e e' : Expr} (h : consume d e = .ok e') (he : CompOk e) : CompOk e' := by
  cases e with
  | arr es sp =>
    rw [consume] at h
    obtain ⟨b, hb, h⟩ := bind_ok h
    have he' := he
    simp only [CompOk] at he'
    cases b with
    | false => simp only [Bool.not_false, if_true, pure, Except.pure] at h; cases h; exact he
    | true =>
      have hfl := isConstAll_sound es (by simpa [isConst] using hb)
      simp only [Bool.not_true, Bool.false_eq_true, if_false, pure, Except.pure] at h
      split at h
      · cases h; exact he
      · split at h
        · cases h; simp only [CompOk]; exact ⟨he'.2, hfl⟩
        · cases h; simp only [CompOk]; exact ⟨by unfold ValidN; decide +kernel, he'.2, hfl⟩
  | _ => simp only [consume] at h; cases h; exact he

theorem consumeParams_comp {e e' : Expr} (h : consumeParams e = .ok e') (he : CompOk e) : CompOk e' := by
  cases e with
  | arr es sp => rw [consumeParams] at h; exact consume_comp h he
  | _ => simp only [consumeParams] at h; cases h; exact he

theorem optUn_comp {c : UnCmd} {r e' : Expr} {sp : Span} (h : optUn F lower c r sp = .ok e')
    (hv : ValidN c.asStr) (hr : CompOk r) : CompOk e' := by
  have keep : ∀ {e' : Expr}, (Except.ok (Expr.un c r sp) : Except Err Expr) = .ok e' → CompOk e' := by
    rintro e' h; cases h; simp only [CompOk]; exact ⟨hv, hr⟩
  have fl : ∀ {op e'}, (Except.ok ((opUniFloat F op sp r).getD (.un c r sp)) : Except Err Expr) = .ok e' → CompOk e' := by
    intro op e' h
    rcases opUniFloat_cases (F := F) (op := op) (sp := sp) (r := r) with ⟨x, p, rfl, hf, ho⟩ | ho
    · rw [ho] at h; cases h; simp [CompOk]
    · rw [ho] at h; exact keep h
  have st : ∀ {op e'}, (Except.ok ((opUniString op sp r).getD (.un c r sp)) : Except Err Expr) = .ok e' → CompOk e' := by
    intro op e' h
    rcases opUniString_cases (op := op) (sp := sp) (r := r) with ⟨x, p, w, rfl, hf, ho⟩ | ho
    · rw [ho] at h; cases h; simp [CompOk]
    · rw [ho] at h; exact keep h
  cases c with
  | plus => exact keep h
  | not => exact keep h
  | minus => exact fl h
  | named n =>
    simp only [optUn] at h
    cases hn : knownUn (lower n) with
    | toLower => rw [hn] at h; exact st h
    | toUpper => rw [hn] at h; exact st h
    | sqrt => rw [hn] at h; exact fl h
    | params =>
      rw [hn] at h
      obtain ⟨r', hr', h⟩ := bind_ok h
      cases h
      simp only [CompOk]; exact ⟨hv, consumeParams_comp hr' hr⟩
    | param =>
      rw [hn] at h
      obtain ⟨r', hr', h⟩ := bind_ok h
      cases h
      simp only [CompOk]; exact ⟨hv, consume_comp hr' hr⟩
    | consumeUn =>
      rw [hn] at h
      obtain ⟨r', hr', h⟩ := bind_ok h
      cases h
      simp only [CompOk]; exact ⟨hv, consume_comp hr' hr⟩
    | _ => rw [hn] at h; exact keep h

theorem optBin_comp {c : BinCmd} {l r e' : Expr} {sp : Span} (h : optBin F lower c l r sp = .ok e')
    (hv : ValidN c.asStr) (hl : CompOk l) (hr : CompOk r) : CompOk e' := by
  have keep' : CompOk (Expr.bin c l r sp) := by simp only [CompOk]; exact ⟨hv, hl, hr⟩
  have keep : ∀ {e' : Expr}, (Except.ok (Expr.bin c l r sp) : Except Err Expr) = .ok e' → CompOk e' := by
    rintro e' h; cases h; exact keep'
  have fold : ∀ {op : UInt32 → UInt32 → UInt32} {d : Expr}, CompOk d → CompOk ((opBinFloat F op sp l r).getD d) := by
    intro op d hd
    rcases opBinFloat_cases (F := F) (op := op) (sp := sp) (l := l) (r := r) with ⟨x, p, y, q, rfl, rfl, hf, ho⟩ | ho
    · rw [ho]; simp [CompOk]
    · rw [ho]; exact hd
  cases c with
  | named n =>
    simp only [optBin] at h
    cases hn : knownBin (lower n) with
    | params =>
      rw [hn] at h
      obtain ⟨r', hr', h⟩ := bind_ok h
      cases h
      simp only [CompOk]; exact ⟨hv, hl, consumeParams_comp hr' hr⟩
    | dflt =>
      rw [hn] at h
      obtain ⟨r', hr', h⟩ := bind_ok h
      cases h
      simp only [CompOk]; exact ⟨hv, hl, consume_comp hr' hr⟩
    | consumeBin =>
      rw [hn] at h
      obtain ⟨r', hr', h⟩ := bind_ok h
      obtain ⟨l', hl', h⟩ := bind_ok h
      cases h
      simp only [CompOk]; exact ⟨hv, consume_comp hl' hl, consume_comp hr' hr⟩
    | call =>
      rw [hn] at h; simp only at h
      cases ht : isThis l with
      | false => rw [ht] at h; exact keep h
      | true => rw [ht] at h; cases h; simp only [CompOk]; exact ⟨by unfold ValidN; decide +kernel, hr⟩
    | _ => rw [hn] at h; exact keep h
  | add =>
    simp only [optBin] at h
    cases h
    refine fold ?_
    rcases opBinString_cases (op := (· ++ ·)) (sp := sp) (l := l) (r := r) with ⟨s, p, v, t, q, w, rfl, rfl, hf, hg, ho⟩ | ho
    · rw [ho]; simp [CompOk]
    · rw [ho]; exact keep'
  | sub => simp only [optBin] at h; cases h; exact fold keep'
  | mul => simp only [optBin] at h; cases h; exact fold keep'
  | div => simp only [optBin] at h; cases h; exact fold keep'
  | rem => simp only [optBin] at h; cases h; exact fold keep'
  | mod => simp only [optBin] at h; cases h; exact fold keep'
  | els =>
    simp only [optBin] at h
    cases hc : (isCode l && isCode r) with
    | false => rw [hc] at h; exact keep h
    | true =>
      rw [hc] at h
      cases h
      simp only [Bool.and_eq_true] at hc
      cases l <;> simp [isCode] at hc
      cases r <;> simp [isCode] at hc
      simp only [CompOk, CompOks]
      simp only [CompOk] at hl hr
      refine ⟨⟨hl, hr, trivial⟩, ?_⟩
      intro x hx
      simp only [List.mem_cons, List.not_mem_nil, or_false] at hx
      rcases hx with rfl | rfl <;> exact .code _ _ _
  | _ => exact keep h

mutual
theorem optE_comp : ∀ (e e' : Expr), optE F lower e = .ok e' → CompOk e → CompOk e'
  | .code c s sp, e', h, hp => by
    rw [optE] at h
    obtain ⟨c', hc, h⟩ := bind_ok h
    cases h
    simp only [CompOk] at hp ⊢
    exact optSs_comp c c' hc hp
  | .arr es sp, e', h, hp => by
    rw [optE] at h
    obtain ⟨c', hc, h⟩ := bind_ok h
    cases h
    simp only [CompOk] at hp ⊢
    exact ⟨by rw [optEs_length es c' hc]; exact hp.1, optEs_comp es c' hc hp.2⟩
  | .un c r sp, e', h, hp => by
    rw [optE] at h
    obtain ⟨r', hc, h⟩ := bind_ok h
    simp only [CompOk] at hp
    exact optUn_comp h hp.1 (optE_comp r r' hc hp.2)
  | .bin c l r sp, e', h, hp => by
    rw [optE] at h
    obtain ⟨l', hl, h⟩ := bind_ok h
    obtain ⟨r', hr, h⟩ := bind_ok h
    simp only [CompOk] at hp
    exact optBin_comp h hp.1 (optE_comp l l' hl hp.2.1) (optE_comp r r' hr hp.2.2)
  | .str _ _ _, e', h, hp => by simp [optE] at h; rw [← h]; exact hp
  | .num _ _, e', h, hp => by simp [optE] at h; rw [← h]; exact hp
  | .bool _ _, e', h, hp => by simp [optE] at h; rw [← h]; exact hp
  | .carr _ _, e', h, hp => by simp [optE] at h; rw [← h]; exact hp
  | .nular _ _, e', h, hp => by simp [optE] at h; rw [← h]; exact hp
  | .var _ _, e', h, hp => by simp [optE] at h; rw [← h]; exact hp
theorem optEs_comp : ∀ (es es' : List Expr), optEs F lower es = .ok es' → CompOks es → CompOks es'
  | [], es', h, _ => by simp [optEs] at h; simp [h, CompOks]
  | e :: es, es', h, hp => by
    rw [optEs] at h
    obtain ⟨a, ha, h⟩ := bind_ok h
    obtain ⟨b, hb, h⟩ := bind_ok h
    cases h
    simp only [CompOks] at hp ⊢
    exact ⟨optE_comp e a ha hp.1, optEs_comp es b hb hp.2⟩
theorem optS_comp : ∀ (s s' : Stmt), optS F lower s = .ok s' → CompOkS s → CompOkS s'
  | .assignGlobal n e sp, s', h, hp => by
    rw [optS] at h
    obtain ⟨a, ha, h⟩ := bind_ok h
    cases h
    simp only [CompOkS] at hp ⊢
    exact ⟨hp.1, optE_comp e a ha hp.2⟩
  | .assignLocal n e sp, s', h, hp => by
    rw [optS] at h
    obtain ⟨a, ha, h⟩ := bind_ok h
    cases h
    simp only [CompOkS] at hp ⊢
    exact ⟨hp.1, optE_comp e a ha hp.2⟩
  | .expr e sp, s', h, hp => by
    rw [optS] at h
    obtain ⟨a, ha, h⟩ := bind_ok h
    cases h
    simp only [CompOkS] at hp ⊢
    exact optE_comp e a ha hp
theorem optSs_comp : ∀ (ss ss' : List Stmt), optSs F lower ss = .ok ss' → CompOkSs ss → CompOkSs ss'
  | [], ss', h, _ => by simp [optSs] at h; simp [h, CompOkSs]
  | s :: ss, ss', h, hp => by
    rw [optSs] at h
    obtain ⟨a, ha, h⟩ := bind_ok h
    obtain ⟨b, hb, h⟩ := bind_ok h
    cases h
    simp only [CompOkSs] at hp ⊢
    exact ⟨optS_comp s a ha hp.1, optSs_comp ss b hb hp.2⟩
end


/-! ### The compiler -/

/-- Nothing but a table that is too long is reported. -/
def TooLong {α : Type} (r : R α) : Prop := ∀ e, r = .error e → e = .listTooLong

theorem TooLong.ok {α : Type} (a : α) : TooLong (.ok a : R α) := fun _ h => by cases h

theorem TooLong.bind {α β : Type} {r : R α} {k : α → R β} (h : TooLong r) (hk : ∀ a, r = .ok a → TooLong (k a)) :
    TooLong (r >>= k) := by
  intro e he
  cases r with
  | error e' => cases he; exact h _ rfl
  | ok a => exact hk a rfl e he

theorem toU16_tl (n : Nat) : TooLong (toU16 n) := by
  intro e h
  unfold toU16 at h
  split at h
  · cases h
  · cases h; rfl

theorem addOrGet_tl {α : Type} (eq : α → α → Bool) (l : List α) (v : α) : TooLong (addOrGet eq l v) := by
  unfold addOrGet
  split
  · exact (toU16_tl _).bind fun _ _ => TooLong.ok _
  · exact (toU16_tl _).bind fun _ _ => TooLong.ok _

theorem addConst_tl (c : Const) (ctx : Ctx) : TooLong (addConst c ctx) :=
  (addOrGet_tl _ _ _).bind fun _ _ => TooLong.ok _

theorem normName_ok {n : Bytes} (h : ValidN n) : normName n = .ok (asciiLower n) := if_pos h

theorem addName_tl {n : Bytes} (h : ValidN n) (ctx : Ctx) : TooLong (addName n ctx) := by
  unfold addName
  rw [normName_ok h]
  exact (addOrGet_tl _ _ _).bind fun _ _ => TooLong.ok _

variable {P : Proc}

theorem locOf_tl (hP : ∀ sp, (P.loc sp).isSome) (sp : Span) : TooLong (locOf P sp) := by
  obtain ⟨s, hs⟩ := Option.isSome_iff_exists.1 (hP sp)
  rw [locOf, hs]
  exact TooLong.ok _

theorem emitName_tl (hP : ∀ sp, (P.loc sp).isSome) (mk : UInt16 → SourceInfo → Instr) {n : Bytes} (h : ValidN n) (sp : Span)
    (ctx : Ctx) : TooLong (emitName P mk n sp ctx) := by
  unfold emitName
  exact (addName_tl h ctx).bind fun _ _ => (locOf_tl hP sp).bind fun _ _ => TooLong.ok _

mutual
/-- Array constants that can be put together by an instruction. -/
def SmallC : Const → Prop
  | .arr cs => cs.length < 65536 ∧ SmallCs cs
  | _ => True
def SmallCs : List Const → Prop
  | [] => True
  | c :: cs => SmallC c ∧ SmallCs cs
end

mutual
theorem pushConst_tl : ∀ (c : Const) (ctx : Ctx), SmallC c → TooLong (pushConst c ctx)
  | .arr cs, ctx, h => by
    simp only [SmallC] at h
    rw [pushConst]
    refine (pushConsts_tl cs ctx h.2).bind fun ⟨is, ctx1⟩ _ => ?_
    dsimp only
    rw [if_pos h.1]
    exact TooLong.ok _
  | .carr cs, ctx, _ => by rw [pushConst_atom (by simp)]; exact (addConst_tl _ _).bind fun _ _ => TooLong.ok _
  | .code _, ctx, _ => by rw [pushConst_atom (by simp)]; exact (addConst_tl _ _).bind fun _ _ => TooLong.ok _
  | .str _, ctx, _ => by rw [pushConst_atom (by simp)]; exact (addConst_tl _ _).bind fun _ _ => TooLong.ok _
  | .num _, ctx, _ => by rw [pushConst_atom (by simp)]; exact (addConst_tl _ _).bind fun _ _ => TooLong.ok _
  | .bool _, ctx, _ => by rw [pushConst_atom (by simp)]; exact (addConst_tl _ _).bind fun _ _ => TooLong.ok _
  | .nular _, ctx, _ => by rw [pushConst_atom (by simp)]; exact (addConst_tl _ _).bind fun _ _ => TooLong.ok _
theorem pushConsts_tl : ∀ (cs : List Const) (ctx : Ctx), SmallCs cs → TooLong (pushConsts cs ctx)
  | [], ctx, _ => by rw [pushConsts]; exact TooLong.ok _
  | c :: cs, ctx, h => by
    simp only [SmallCs] at h
    rw [pushConsts]
    exact (pushConst_tl c ctx h.1).bind fun _ _ => (pushConsts_tl cs _ h.2).bind fun _ _ => TooLong.ok _
end

mutual
theorem compConst_small (P : Proc) : ∀ (e : Expr) (ctx ctx' : Ctx) (r : Option Const), compConst P e ctx = .ok (r, ctx') →
    CompOk e → (∀ c, r = some c → SmallC c) ∧ (Constant e → r ≠ none)
  | .code c s sp, ctx, ctx', r, h, hf => by
    rw [compConst] at h
    obtain ⟨⟨is, ctx1⟩, h1, h⟩ := rbind h
    cases h
    exact ⟨fun c hc => by cases hc; simp [SmallC], fun _ => by simp⟩
  | .str s _ _, ctx, ctx', r, h, _ => by
    rw [compConst] at h; cases h
    exact ⟨fun c hc => by cases hc; simp [SmallC], fun _ => by simp⟩
  | .num s _, ctx, ctx', r, h, _ => by
    rw [compConst] at h; cases h
    exact ⟨fun c hc => by cases hc; simp [SmallC], fun _ => by simp⟩
  | .bool s _, ctx, ctx', r, h, _ => by
    rw [compConst] at h; cases h
    exact ⟨fun c hc => by cases hc; simp [SmallC], fun _ => by simp⟩
  | .arr es _, ctx, ctx', r, h, hf => by
    rw [compConst] at h
    obtain ⟨⟨cs, ctx1⟩, h1, h⟩ := rbind h
    cases h
    simp only [CompOk] at hf
    obtain ⟨k1, k2⟩ := compConsts_small P es _ _ _ h1 hf.2
    constructor
    · intro c hc
      obtain ⟨cs', rfl, rfl⟩ := Option.map_eq_some_iff.1 hc
      obtain ⟨k3, k4⟩ := k1 _ rfl
      simp only [SmallC]
      exact ⟨by omega, k4⟩
    · intro hc
      cases hc with
      | arr _ _ hc =>
        have := k2 hc
        cases cs with
        | none => exact absurd rfl this
        | some cs => simp
  | .carr es _, ctx, ctx', r, h, hf => by
    rw [compConst] at h
    obtain ⟨⟨cs, ctx1⟩, h1, h⟩ := rbind h
    cases h
    constructor
    · intro c hc
      obtain ⟨cs', rfl, rfl⟩ := Option.map_eq_some_iff.1 hc
      simp [SmallC]
    · intro hc; cases hc
  | .nular n _, ctx, ctx', r, h, _ => by
    rw [compConst] at h
    split at h
    · obtain ⟨m, _, h⟩ := rbind h
      cases h
      exact ⟨fun c hc => by cases hc; simp [SmallC], fun _ => by simp⟩
    · rename_i hn
      cases h
      refine ⟨fun c hc => by (cases hc), fun hc => ?_⟩
      cases hc with
      | nular _ _ hc => exact absurd hc hn
  | .un _ _ _, ctx, ctx', r, h, _ => by
    rw [compConst] at h
    · cases h; exact ⟨fun c hc => by (cases hc), fun hc => by (cases hc)⟩
    all_goals simp
  | .bin _ _ _ _, ctx, ctx', r, h, _ => by
    rw [compConst] at h
    · cases h; exact ⟨fun c hc => by (cases hc), fun hc => by (cases hc)⟩
    all_goals simp
  | .var _ _, ctx, ctx', r, h, _ => by
    rw [compConst] at h
    · cases h; exact ⟨fun c hc => by (cases hc), fun hc => by (cases hc)⟩
    all_goals simp
theorem compConsts_small (P : Proc) : ∀ (es : List Expr) (ctx ctx' : Ctx) (r : Option (List Const)),
    compConsts P es ctx = .ok (r, ctx') → CompOks es →
    (∀ cs, r = some cs → cs.length = es.length ∧ SmallCs cs) ∧ ((∀ e ∈ es, Constant e) → r ≠ none)
  | [], ctx, ctx', r, h, _ => by
    rw [compConsts] at h; cases h
    exact ⟨fun cs hc => by cases hc; exact ⟨rfl, by simp [SmallCs]⟩, fun _ => by simp⟩
  | e :: es, ctx, ctx', r, h, hf => by
    rw [compConsts] at h
    obtain ⟨⟨c, ctx1⟩, h1, h⟩ := rbind h
    simp only [CompOks] at hf
    obtain ⟨k1, k2⟩ := compConst_small P e _ _ _ h1 hf.1
    cases c with
    | none =>
      cases h
      exact ⟨fun c hc => by (cases hc), fun hc => absurd rfl (k2 (hc e (by simp)))⟩
    | some c =>
      dsimp only at h
      obtain ⟨⟨cs, ctx2⟩, h2, h⟩ := rbind h
      cases h
      obtain ⟨k3, k4⟩ := compConsts_small P es _ _ _ h2 hf.2
      constructor
      · intro cs' hc
        obtain ⟨ds, rfl, rfl⟩ := Option.map_eq_some_iff.1 hc
        obtain ⟨b1, b2⟩ := k3 _ rfl
        exact ⟨by simp [b1], by simp only [SmallCs]; exact ⟨k1 _ rfl, b2⟩⟩
      · intro hc
        have := k4 fun e he => hc e (by simp [he])
        cases cs with
        | none => exact absurd rfl this
        | some cs => simp
end

mutual
theorem compConst_tl (hP : ∀ sp, (P.loc sp).isSome) : ∀ (e : Expr) (ctx : Ctx), CompOk e → TooLong (compConst P e ctx)
  | .code c s sp, ctx, h => by
    simp only [CompOk] at h
    rw [compConst]
    exact (compSs_tl hP c ctx h).bind fun _ _ => TooLong.ok _
  | .str s _ _, ctx, _ => by rw [compConst]; exact TooLong.ok _
  | .num s _, ctx, _ => by rw [compConst]; exact TooLong.ok _
  | .bool s _, ctx, _ => by rw [compConst]; exact TooLong.ok _
  | .arr es _, ctx, h => by
    simp only [CompOk] at h
    rw [compConst]
    exact (compConsts_tl hP es ctx h.2).bind fun _ _ => TooLong.ok _
  | .carr es _, ctx, h => by
    simp only [CompOk] at h
    rw [compConst]
    exact (compConsts_tl hP es ctx h.1).bind fun _ _ => TooLong.ok _
  | .nular n _, ctx, h => by
    simp only [CompOk] at h
    rw [compConst]
    split
    · rw [normName_ok h]; exact TooLong.ok _
    · exact TooLong.ok _
  | .un _ _ _, ctx, _ => by
    rw [compConst]
    · exact TooLong.ok _
    all_goals simp
  | .bin _ _ _ _, ctx, _ => by
    rw [compConst]
    · exact TooLong.ok _
    all_goals simp
  | .var _ _, ctx, _ => by
    rw [compConst]
    · exact TooLong.ok _
    all_goals simp
theorem compConsts_tl (hP : ∀ sp, (P.loc sp).isSome) : ∀ (es : List Expr) (ctx : Ctx), CompOks es → TooLong (compConsts P es ctx)
  | [], ctx, _ => by rw [compConsts]; exact TooLong.ok _
  | e :: es, ctx, h => by
    simp only [CompOks] at h
    rw [compConsts]
    refine (compConst_tl hP e ctx h.1).bind fun ⟨c, ctx1⟩ _ => ?_
    cases c with
    | none => exact TooLong.ok _
    | some c => exact (compConsts_tl hP es ctx1 h.2).bind fun _ _ => TooLong.ok _
theorem compInstr_tl (hP : ∀ sp, (P.loc sp).isSome) : ∀ (e : Expr) (ctx : Ctx), CompOk e → TooLong (compInstr P e ctx)
  | .code c s sp, ctx, h => by
    simp only [CompOk] at h
    rw [compInstr]
    exact (compSs_tl hP c ctx h).bind fun _ _ => pushConst_tl _ _ (by simp [SmallC])
  | .str s _ _, ctx, _ => by rw [compInstr]; exact pushConst_tl _ _ (by simp [SmallC])
  | .num s _, ctx, _ => by rw [compInstr]; exact pushConst_tl _ _ (by simp [SmallC])
  | .bool s _, ctx, _ => by rw [compInstr]; exact pushConst_tl _ _ (by simp [SmallC])
  | .arr es sp, ctx, h => by
    simp only [CompOk] at h
    rw [compInstr]
    refine (compConsts_tl hP es ctx h.2).bind fun ⟨cs, ctx1⟩ hcs => ?_
    cases cs with
    | some cs =>
      obtain ⟨k1, k2⟩ := (compConsts_small P es _ _ _ hcs h.2).1 _ rfl
      exact pushConst_tl _ _ (by simp only [SmallC]; exact ⟨by omega, k2⟩)
    | none =>
      exact (toU16_tl _).bind fun _ _ => (compInstrs_tl hP es ctx1 h.2).bind fun _ _ =>
        (locOf_tl hP sp).bind fun _ _ => TooLong.ok _
  | .carr es _, ctx, h => by
    simp only [CompOk] at h
    rw [compInstr]
    refine (compConsts_tl hP es ctx h.1).bind fun ⟨cs, ctx1⟩ hcs => ?_
    cases cs with
    | some cs => exact pushConst_tl _ _ (by simp [SmallC])
    | none => exact absurd rfl ((compConsts_small P es _ _ _ hcs h.1).2 h.2)
  | .nular n sp, ctx, h => by
    simp only [CompOk] at h
    rw [compInstr]
    split
    · rw [normName_ok h]; exact pushConst_tl _ _ (by simp [SmallC])
    · exact emitName_tl hP _ h _ _
  | .un c e sp, ctx, h => by
    simp only [CompOk] at h
    rw [compInstr]
    exact (compInstr_tl hP e ctx h.2).bind fun _ _ => (emitName_tl hP _ h.1 _ _).bind fun _ _ => TooLong.ok _
  | .bin c l r sp, ctx, h => by
    simp only [CompOk] at h
    rw [compInstr]
    exact (compInstr_tl hP l ctx h.2.1).bind fun _ _ => (compInstr_tl hP r _ h.2.2).bind fun _ _ =>
      (emitName_tl hP _ h.1 _ _).bind fun _ _ => TooLong.ok _
  | .var n sp, ctx, h => by
    simp only [CompOk] at h
    rw [compInstr]
    exact emitName_tl hP _ h _ _
theorem compInstrs_tl (hP : ∀ sp, (P.loc sp).isSome) : ∀ (es : List Expr) (ctx : Ctx), CompOks es → TooLong (compInstrs P es ctx)
  | [], ctx, _ => by rw [compInstrs]; exact TooLong.ok _
  | e :: es, ctx, h => by
    simp only [CompOks] at h
    rw [compInstrs]
    exact (compInstr_tl hP e ctx h.1).bind fun _ _ => (compInstrs_tl hP es _ h.2).bind fun _ _ => TooLong.ok _
theorem compS_tl (hP : ∀ sp, (P.loc sp).isSome) : ∀ (s : Stmt) (ctx : Ctx), CompOkS s → TooLong (compS P s ctx)
  | .assignGlobal n e sp, ctx, h => by
    simp only [CompOkS] at h
    rw [compS]
    exact (compInstr_tl hP e ctx h.2).bind fun _ _ => (emitName_tl hP _ h.1 _ _).bind fun _ _ => TooLong.ok _
  | .assignLocal n e sp, ctx, h => by
    simp only [CompOkS] at h
    rw [compS]
    exact (compInstr_tl hP e ctx h.2).bind fun _ _ => (emitName_tl hP _ h.1 _ _).bind fun _ _ => TooLong.ok _
  | .expr e sp, ctx, h => by
    simp only [CompOkS] at h
    rw [compS]
    exact (compInstr_tl hP e ctx h).bind fun _ _ => TooLong.ok _
theorem compSs_tl (hP : ∀ sp, (P.loc sp).isSome) : ∀ (ss : List Stmt) (ctx : Ctx), CompOkSs ss → TooLong (compSs P ss ctx)
  | [], ctx, _ => by rw [compSs]; exact TooLong.ok _
  | s :: ss, ctx, h => by
    simp only [CompOkSs] at h
    rw [compSs]
    exact (compS_tl hP s ctx h.1).bind fun _ _ => (compSs_tl hP ss _ h.2).bind fun _ _ => TooLong.ok _
end

theorem compile_tl (hP : ∀ sp, (P.loc sp).isSome) {b : Block} (files : List Bytes) (h : CompOkSs b.content) :
    TooLong (b.compile P files) := by
  unfold Block.compile
  exact (compSs_tl hP _ _ h).bind fun _ _ => (addConst_tl _ _).bind fun _ _ => TooLong.ok _

end Verif.Sqf

namespace Verif.SqfParse
open Verif.Sqf Verif.SqfLex

/-! ### Names -/

theorem char_lower {c : Char} (h : isName c = true) :
    isValidName (asciiLower (String.utf8EncodeChar c)) = true := by
  have hb : c.val.toNat < 128 := by
    simp only [isName, isAlpha, isDigit, Bool.or_eq_true, Bool.and_eq_true, decide_eq_true_eq, Char.le_def, UInt32.le_iff_toNat_le] at h
    rcases h with (h | h) | h
    · rcases h with h | h
      · have := h.2; have e : 'z'.val.toNat = 122 := rfl; omega
      · have := h.2; have e : 'Z'.val.toNat = 90 := rfl; omega
    · have := h.2; have e : '9'.val.toNat = 57 := rfl; omega
    · subst h; decide
  have key : ∀ i : Fin 128, isName (Char.ofNat i) = true →
      isValidName (asciiLower (String.utf8EncodeChar (Char.ofNat i))) = true := by decide +kernel
  have := key ⟨c.toNat, hb⟩
  simp only [Char.ofNat_toNat] at this
  exact this h

theorem validName_append {a b : Bytes} : isValidName (a ++ b) = (isValidName a && isValidName b) := by
  simp [isValidName, List.all_append]

theorem word_valid {s : Text} (h : ∀ x ∈ s, isName x = true) : ValidN (enc s) := by
  unfold ValidN isValidCommand
  rw [Bool.or_eq_true]
  left
  induction s with
  | nil => rfl
  | cons c s ih =>
    have e : asciiLower (enc (c :: s)) = asciiLower (String.utf8EncodeChar c) ++ asciiLower (enc s) := by
      simp [enc, asciiLower]
    rw [e, validName_append, char_lower (h c (by simp)), ih fun x hx => h x (by simp [hx])]
    rfl

theorem first_name {c : Char} (h : isFirst c = true) : isName c = true := by
  simp only [isFirst, isName, Bool.or_eq_true] at *
  tauto

/-- Every name among the tokens of a text is one the compiler takes. -/
theorem layout_names {F : F32} {n : Nat} {ts : List Tok} {s : Text} (h : Layout F n ts s) :
    ∀ m sp, (Token.ident m, sp) ∈ ts → ValidN m := by
  induction h with
  | done _ => intro m sp hm; cases hm
  | tok _ hs _ _ ih =>
    intro m sp hm
    rcases List.mem_cons.1 hm with hm | hm
    · simp only [Prod.mk.injEq] at hm
      obtain ⟨rfl, -⟩ := hm
      cases hs with
      | name h1 h2 =>
        refine word_valid fun x hx => ?_
        rcases List.mem_cons.1 hx with rfl | hx
        · exact first_name h1
        · exact h2 x hx
    · exact ih m sp hm

theorem unOf_valid {db : Db} {t : Token} {c : UnCmd} (h : unOf db t = some c) (ht : ∀ n, t = .ident n → ValidN n) :
    ValidN c.asStr := by
  cases c with
  | named n =>
    unfold unOf at h
    split at h <;> try (cases h)
    split at h
    · cases h; exact ht _ rfl
    · cases h
  | _ => unfold ValidN; decide +kernel

theorem binOf_valid {db : Db} {t : Token} {c : BinCmd} (h : binOf db t = some c) (ht : ∀ n, t = .ident n → ValidN n) :
    ValidN c.asStr := by
  cases c with
  | named n =>
    unfold binOf at h
    split at h <;> try (cases h)
    repeat (split at h; · cases h)
    split at h
    · cases h; exact ht _ rfl
    · cases h
  | _ => unfold ValidN; decide +kernel

mutual
theorem Der.comp {db : Db} {flex : Bool} {p : Nat} {e : Expr} {ts : List Tok} (h : Der db flex p e ts)
    (hv : ∀ m sp, (Token.ident m, sp) ∈ ts → ValidN m) (hs : Small e) : CompOk e := by
  match h with
  | .num => simp [CompOk]
  | .str => simp [CompOk]
  | .tru _ => simp [CompOk]
  | .fls _ => simp [CompOk]
  | .nular _ _ _ => simp only [CompOk]; exact hv _ _ (List.mem_singleton.2 rfl)
  | .var _ => simp only [CompOk]; exact hv _ _ (List.mem_singleton.2 rfl)
  | .paren h => exact Der.comp h (fun m sp hm => hv m sp (by simp [hm])) hs
  | .arr0 => simp [CompOk, CompOks]
  | .arr h =>
    simp only [Small] at hs
    simp only [CompOk]
    exact ⟨hs.1, DerList.comp h (fun m sp hm => hv m sp (by simp [hm])) hs.2⟩
  | .code h =>
    simp only [Small] at hs
    simp only [CompOk]
    exact DerBlock.comp h (fun m sp hm => hv m sp (by simp [hm])) hs
  | .un hc h =>
    simp only [Small] at hs
    simp only [CompOk]
    exact ⟨unOf_valid hc fun n hn => hv n _ (by subst hn; exact List.mem_cons_self ..), Der.comp h (fun m sp hm => hv m sp (by simp [hm])) hs⟩
  | .bin hc _ h1 h2 =>
    simp only [Small] at hs
    simp only [CompOk]
    exact ⟨binOf_valid hc fun n hn => hv n _ (by subst hn; exact List.mem_append_right _ (List.mem_cons_self ..)), Der.comp h1 (fun m sp hm => hv m sp (by simp [hm])) hs.1,
      Der.comp h2 (fun m sp hm => hv m sp (by simp [hm])) hs.2⟩
  | .weaken _ h => exact Der.comp h hv hs
theorem DerList.comp {db : Db} {flex : Bool} {es : List Expr} {ts : List Tok} (h : DerList db flex es ts)
    (hv : ∀ m sp, (Token.ident m, sp) ∈ ts → ValidN m) (hs : Smalls es) : CompOks es := by
  match h with
  | .one h =>
    simp only [Smalls] at hs
    simp only [CompOks]
    exact ⟨Der.comp h hv hs.1, trivial⟩
  | .cons h h' =>
    simp only [Smalls] at hs
    simp only [CompOks]
    exact ⟨Der.comp h (fun m sp hm => hv m sp (by simp [hm])) hs.1, DerList.comp h' (fun m sp hm => hv m sp (by simp [hm])) hs.2⟩
theorem DerStmt.comp {db : Db} {flex : Bool} {s : Stmt} {ts : List Tok} (h : DerStmt db flex s ts)
    (hv : ∀ m sp, (Token.ident m, sp) ∈ ts → ValidN m) (hs : SmallS s) : CompOkS s := by
  match h with
  | .expr h =>
    simp only [SmallS] at hs
    simp only [CompOkS]
    exact Der.comp h hv hs
  | .global _ h =>
    simp only [SmallS] at hs
    simp only [CompOkS]
    exact ⟨hv _ _ (List.mem_cons_self ..), Der.comp h (fun m sp hm => hv m sp (by simp [hm])) hs⟩
  | .priv _ _ h =>
    simp only [SmallS] at hs
    simp only [CompOkS]
    exact ⟨hv _ _ (List.mem_cons_of_mem _ (List.mem_cons_self ..)), Der.comp h (fun m sp hm => hv m sp (by simp [hm])) hs⟩
theorem DerBlock.comp {db : Db} {flex : Bool} {ss : List Stmt} {ts : List Tok} (h : DerBlock db flex ss ts)
    (hv : ∀ m sp, (Token.ident m, sp) ∈ ts → ValidN m) (hs : SmallSs ss) : CompOkSs ss := by
  match h with
  | .nil => simp [CompOkSs]
  | .last h =>
    simp only [SmallSs] at hs
    simp only [CompOkSs]
    exact ⟨DerStmt.comp h hv hs.1, trivial⟩
  | .cons h h' =>
    simp only [SmallSs] at hs
    simp only [CompOkSs]
    exact ⟨DerStmt.comp h (fun m sp hm => hv m sp (by simp [hm])) hs.1,
      DerBlock.comp h' (fun m sp hm => hv m sp (by simp [hm])) hs.2⟩
  | .skip _ h => exact DerBlock.comp h (fun m sp hm => hv m sp (by simp [hm])) hs
end

end Verif.SqfParse
