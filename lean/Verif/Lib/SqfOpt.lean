import Verif.Spec.SqfSem
/-! Lemmas about the optimiser model. -/
namespace Verif.Sqf
variable {E S B : Type} {F : FloatOps} {lower : Bytes → Bytes} {M : Sem E S B}

mutual
theorem isConst_sound : ∀ e : Expr, isConst e = .ok true → Constant e
  | .code c s sp, _ => .code c s sp
  | .str s sp w, _ => .str s sp w
  | .num x sp, _ => .num x sp
  | .bool b sp, _ => .bool b sp
  | .nular n sp, h => .nular n sp (by simpa [isConst] using h)
  | .arr es sp, h => .arr es sp (isConstAll_sound es (by simpa [isConst] using h))
  | .carr _ _, h => by simp [isConst] at h
  | .un _ _ _, h => by simp [isConst] at h
  | .bin _ _ _ _, h => by simp [isConst] at h
  | .var _ _, h => by simp [isConst] at h
theorem isConstAll_sound : ∀ es : List Expr, isConstAll es = .ok true → ∀ e ∈ es, Constant e
  | [], _ => by simp
  | e :: es, h => by
    rw [isConstAll] at h
    cases hc : isConst e with
    | error x => simp [hc, bind, Except.bind] at h
    | ok b =>
      cases b with
      | false => simp [hc, bind, Except.bind, pure, Except.pure] at h
      | true =>
        simp only [hc, bind, Except.bind, if_true] at h
        intro x hx
        rcases List.mem_cons.1 hx with hx | hx
        · exact hx ▸ isConst_sound e hc
        · exact isConstAll_sound es h x hx
end

/-- What `consume` can return. -/
theorem consume_cases {d : Bool} {e e' : Expr} (h : consume d e = .ok e') :
    e' = e ∨ ∃ es sp, e = .arr es sp ∧ (∀ x ∈ es, Constant x) ∧
      (d = true ∧ e' = .carr es sp ∨ d = false ∧ e' = .un .plus (.carr es sp) sp) := by
  cases e with
  | arr es sp =>
    simp only [consume] at h
    cases hc : isConst (.arr es sp) with
    | error x => simp [hc, bind, Except.bind] at h
    | ok b =>
      cases b with
      | false => simp [hc, bind, Except.bind, pure, Except.pure] at h; exact .inl h.symm
      | true =>
        have hk : ∀ x ∈ es, Constant x := by
          have := isConst_sound _ hc
          cases this with
          | arr _ _ hh => exact hh
        simp only [hc, bind, Except.bind, pure, Except.pure, Bool.not_true, Bool.false_eq_true, if_false] at h
        split at h
        · exact .inl (by cases h; rfl)
        · split at h
          · rename_i hd; exact .inr ⟨es, sp, rfl, hk, .inl ⟨hd, by cases h; rfl⟩⟩
          · rename_i hd; exact .inr ⟨es, sp, rfl, hk, .inr ⟨by simpa using hd, by cases h; rfl⟩⟩
  | _ => simp [consume] at h; exact .inl h.symm

theorem isNotArrayDefault_spec {e : Expr} (h : isNotArrayDefault e = true) : ¬ ArrayDefault e := by
  rintro ⟨es, sp, ds, sp', rfl, h1⟩
  simp [isNotArrayDefault, h1, isArray] at h

theorem consumeParams_cases {e e' : Expr} (h : consumeParams e = .ok e') :
    e' = e ∨ ∃ es sp, e = .arr es sp ∧ (∀ x ∈ es, Constant x) ∧
      ((∀ x ∈ es, ¬ ArrayDefault x) ∧ e' = .carr es sp ∨ e' = .un .plus (.carr es sp) sp) := by
  cases e with
  | arr es sp =>
    rcases consume_cases (e := .arr es sp) h with h | ⟨es', sp', he, hk, h | h⟩
    · exact .inl h
    · cases he
      refine .inr ⟨es, sp, rfl, hk, .inl ⟨fun x hx => ?_, h.2⟩⟩
      exact isNotArrayDefault_spec (List.all_eq_true.1 h.1 x hx)
    · cases he
      exact .inr ⟨es, sp, rfl, hk, .inr h.2⟩
  | _ => simp [consumeParams] at h; exact .inl h.symm

theorem knownUn_spec (n : Bytes) : match knownUn n with
    | .toLower => n = ascii "tolower" ∨ n = ascii "toloweransi"
    | .toUpper => n = ascii "toupper" ∨ n = ascii "toupperansi"
    | .sqrt => n = ascii "sqrt"
    | .params => n = ascii "params"
    | .param => n = ascii "param"
    | .consumeUn => n = ascii "positioncameratoworld" ∨ n = ascii "random"
    | _ => True := by
  unfold knownUn
  split_ifs <;> simp_all

theorem knownBin_spec (n : Bytes) : match knownBin n with
    | .params => n = ascii "params"
    | .dflt => n = ascii "param" ∨ n = ascii "getvariable" ∨ n = ascii "setvariable" ∨ n = ascii "getordefault"
    | .consumeBin => n = ascii "vectoradd" ∨ n = ascii "vectordiff" ∨ n = ascii "vectorcrossproduct" ∨
        n = ascii "vectordotproduct"
    | .call => n = ascii "call"
    | _ => True := by
  unfold knownBin
  split_ifs <;> simp_all

/-! ### Meaning -/

theorem opUniFloat_cases {op sp r} : (∃ x p, r = .num x p ∧ F.finite (op x) = true ∧
    opUniFloat F op sp r = some (.num (op x) sp)) ∨ opUniFloat F op sp r = none := by
  cases r <;> simp [opUniFloat]

theorem opUniString_cases {op sp r} : (∃ s p w, r = .str s p w ∧ isAscii s = true ∧
    opUniString op sp r = some (.str (op s) sp w)) ∨ opUniString op sp r = none := by
  cases r <;> simp [opUniString]

theorem opBinFloat_cases {op sp l r} : (∃ x p y q, l = .num x p ∧ r = .num y q ∧ F.finite (op x y) = true ∧
    opBinFloat F op sp l r = some (.num (op x y) sp)) ∨ opBinFloat F op sp l r = none := by
  cases l <;> cases r <;> simp [opBinFloat]

theorem opBinString_cases {op sp l r} : (∃ s p w t q v, l = .str s p w ∧ r = .str t q v ∧ isAscii s = true ∧
    isAscii t = true ∧ opBinString op sp l r = some (.str (op s t) sp v)) ∨ opBinString op sp l r = none := by
  cases l <;> cases r <;> simp [opBinString]
  rename_i s _ _ t _ _
  by_cases h : isAscii s = true <;> by_cases h' : isAscii t = true <;> simp [h, h']

theorem consume_unop (L : Laws F lower M) {d : Bool} {r r' : Expr} (f : E → E)
    (h : consume d r = .ok r') (hd : ∀ es sp, r = .arr es sp → d = true → (∀ e ∈ es, Constant e) →
      f (M.shared (M.es es)) = f (M.arr (M.es es))) : f (M.e r') = f (M.e r) := by
  rcases consume_cases h with rfl | ⟨es, sp, rfl, hk, ⟨hd', rfl⟩ | ⟨_, rfl⟩⟩
  · rfl
  · simp only [Sem.e]; exact hd es sp rfl hd' hk
  · simp only [Sem.e, UnCmd.asStr, L.copy es hk]

theorem consumeParams_unop (L : Laws F lower M) {r r' : Expr} (f : E → E)
    (h : consumeParams r = .ok r') (hd : ∀ es, (∀ e ∈ es, Constant e) → (∀ e ∈ es, ¬ ArrayDefault e) →
      f (M.shared (M.es es)) = f (M.arr (M.es es))) : f (M.e r') = f (M.e r) := by
  rcases consumeParams_cases h with rfl | ⟨es, sp, rfl, hk, ⟨hd', rfl⟩ | rfl⟩
  · rfl
  · simp only [Sem.e]; exact hd es hk hd'
  · simp only [Sem.e, UnCmd.asStr, L.copy es hk]

theorem bind_ok {α β : Type} {x : Except Err α} {f : α → Except Err β} {b : β} (h : (x >>= f) = .ok b) :
    ∃ a, x = .ok a ∧ f a = .ok b := by
  cases x with
  | error e => simp [bind, Except.bind] at h
  | ok a => exact ⟨a, rfl, h⟩

theorem optUn_sem (L : Laws F lower M) {c : UnCmd} {r e' : Expr} {sp : Span}
    (h : optUn F lower c r sp = .ok e') : M.e e' = M.un c.asStr (M.e r) := by
  have keep : ∀ {e' : Expr}, (Except.ok (Expr.un c r sp) : Except Err Expr) = .ok e' → M.e e' = M.un c.asStr (M.e r) := by
    rintro e' h; cases h; rfl
  cases c with
  | plus => exact keep h
  | not => exact keep h
  | minus =>
    simp only [optUn] at h
    rcases opUniFloat_cases (F := F) (op := F.neg) (sp := sp) (r := r) with ⟨x, p, rfl, hf, ho⟩ | ho
    · rw [ho] at h; cases h; simp only [Sem.e, UnCmd.asStr]; exact (L.neg x hf).symm
    · rw [ho] at h; exact keep h
  | named n =>
    have hk := knownUn_spec (lower n)
    simp only [optUn] at h
    cases hn : knownUn (lower n) with
    | toLower =>
      rw [hn] at h hk; simp only at h hk
      rcases opUniString_cases (op := asciiLower) (sp := sp) (r := r) with ⟨s, p, w, rfl, hf, ho⟩ | ho
      · rw [ho] at h; cases h; simp only [Sem.e, UnCmd.asStr]; exact (L.toLower n s hk hf).symm
      · rw [ho] at h; exact keep h
    | toUpper =>
      rw [hn] at h hk; simp only at h hk
      rcases opUniString_cases (op := asciiUpper) (sp := sp) (r := r) with ⟨s, p, w, rfl, hf, ho⟩ | ho
      · rw [ho] at h; cases h; simp only [Sem.e, UnCmd.asStr]; exact (L.toUpper n s hk hf).symm
      · rw [ho] at h; exact keep h
    | sqrt =>
      rw [hn] at h hk; simp only at h hk
      rcases opUniFloat_cases (F := F) (op := F.sqrt) (sp := sp) (r := r) with ⟨x, p, rfl, hf, ho⟩ | ho
      · rw [ho] at h; cases h; simp only [Sem.e, UnCmd.asStr]; exact (L.sqrt n x hk hf).symm
      · rw [ho] at h; exact keep h
    | params =>
      rw [hn] at h hk; simp only at h hk
      obtain ⟨r', hr, h⟩ := bind_ok h
      cases h
      exact consumeParams_unop L (M.un n) hr fun es => L.paramsUn n es hk
    | param =>
      rw [hn] at h hk; simp only at h hk
      obtain ⟨r', hr, h⟩ := bind_ok h
      cases h
      exact consume_unop L (M.un n) hr fun es sp he hd hc =>
        L.paramUn n es sp hk hc (he ▸ isNotArrayDefault_spec hd)
    | consumeUn =>
      rw [hn] at h hk; simp only at h hk
      obtain ⟨r', hr, h⟩ := bind_ok h
      cases h
      exact consume_unop L (M.un n) hr fun es sp he hd hc => L.consumeUn n es hk hc
    | consumeBin => rw [hn] at h; exact keep h
    | dflt => rw [hn] at h; exact keep h
    | call => rw [hn] at h; exact keep h
    | other => rw [hn] at h; exact keep h

theorem optBin_sem (L : Laws F lower M) {c : BinCmd} {l r e' : Expr} {sp : Span}
    (h : optBin F lower c l r sp = .ok e') : M.e e' = M.bin c.asStr (M.e l) (M.e r) := by
  have keep : ∀ {e' : Expr}, (Except.ok (Expr.bin c l r sp) : Except Err Expr) = .ok e' →
      M.e e' = M.bin c.asStr (M.e l) (M.e r) := by
    rintro e' h; cases h; rfl
  have fold : ∀ {op : UInt32 → UInt32 → UInt32} {d : Expr},
      (∀ x y, F.finite (op x y) = true → M.bin c.asStr (M.num x) (M.num y) = M.num (op x y)) →
      M.e d = M.bin c.asStr (M.e l) (M.e r) →
      M.e ((opBinFloat F op sp l r).getD d) = M.bin c.asStr (M.e l) (M.e r) := by
    intro op d hop hd
    rcases opBinFloat_cases (F := F) (op := op) (sp := sp) (l := l) (r := r) with ⟨x, p, y, q, rfl, rfl, hf, ho⟩ | ho
    · rw [ho]; simp only [Option.getD, Sem.e]; exact (hop x y hf).symm
    · rw [ho]; exact hd
  cases c with
  | named n =>
    have hk := knownBin_spec (lower n)
    simp only [optBin] at h
    cases hn : knownBin (lower n) with
    | params =>
      rw [hn] at h hk; simp only at h hk
      obtain ⟨r', hr, h⟩ := bind_ok h
      cases h
      exact consumeParams_unop L (M.bin n (M.e l)) hr fun es h1 h2 => L.paramsBin n es _ hk h1 h2
    | dflt =>
      rw [hn] at h hk; simp only at h hk
      obtain ⟨r', hr, h⟩ := bind_ok h
      cases h
      exact consume_unop L (M.bin n (M.e l)) hr fun es sp he hd hc =>
        L.dfltBin n es sp _ hk hc (he ▸ isNotArrayDefault_spec hd)
    | consumeBin =>
      rw [hn] at h hk; simp only at h hk
      obtain ⟨r', hr, h⟩ := bind_ok h
      obtain ⟨l', hl, h⟩ := bind_ok h
      cases h
      simp only [Sem.e, BinCmd.asStr]
      rw [consume_unop L (M.bin n (M.e l')) hr fun es sp he hd hc => L.consumeRight n es _ hk hc]
      exact consume_unop L (fun x => M.bin n x (M.e r)) hl fun es sp he hd hc => L.consumeLeft n es _ hk hc
    | call =>
      rw [hn] at h hk; simp only at h hk
      cases hl : isThis l with
      | false => rw [hl] at h; exact keep h
      | true =>
        rw [hl] at h; cases h
        cases l <;> simp [isThis] at hl
        subst hl
        simp only [Sem.e, BinCmd.asStr]
        exact (L.call n _ hk).symm
    | toLower => rw [hn] at h; exact keep h
    | toUpper => rw [hn] at h; exact keep h
    | sqrt => rw [hn] at h; exact keep h
    | param => rw [hn] at h; exact keep h
    | consumeUn => rw [hn] at h; exact keep h
    | other => rw [hn] at h; exact keep h
  | add =>
    simp only [optBin] at h
    cases h
    refine fold L.add ?_
    rcases opBinString_cases (op := (· ++ ·)) (sp := sp) (l := l) (r := r) with ⟨s, p, w, t, q, v, rfl, rfl, hs, ht, ho⟩ | ho
    · rw [ho]; simp only [Option.getD, Sem.e]; exact (L.append s t hs ht).symm
    · rw [ho]; rfl
  | sub => simp only [optBin] at h; cases h; exact fold L.sub rfl
  | mul => simp only [optBin] at h; cases h; exact fold L.mul rfl
  | div => simp only [optBin] at h; cases h; exact fold L.div rfl
  | rem => simp only [optBin] at h; cases h; exact fold L.rem rfl
  | mod => simp only [optBin] at h; cases h; exact fold L.mod rfl
  | els =>
    simp only [optBin] at h
    cases hc : (isCode l && isCode r) with
    | false => rw [hc] at h; exact keep h
    | true =>
      rw [hc] at h; cases h
      cases l <;> cases r <;> simp [isCode] at hc
      simp only [Sem.e, BinCmd.asStr]
      exact (L.els _ _ _ _).symm
  | _ => exact keep h

mutual
theorem optE_sem (L : Laws F lower M) : ∀ (e e' : Expr), optE F lower e = .ok e' → M.e e' = M.e e
  | .code c s sp, e', h => by
    rw [optE] at h
    obtain ⟨c', hc, h⟩ := bind_ok h
    cases h
    simp only [Sem.e, optSs_sem L c c' hc]
  | .arr es sp, e', h => by
    rw [optE] at h
    obtain ⟨c', hc, h⟩ := bind_ok h
    cases h
    simp only [Sem.e, optEs_sem L es c' hc]
  | .un c r sp, e', h => by
    rw [optE] at h
    obtain ⟨r', hc, h⟩ := bind_ok h
    rw [optUn_sem L h, optE_sem L r r' hc, Sem.e]
  | .bin c l r sp, e', h => by
    rw [optE] at h
    obtain ⟨l', hl, h⟩ := bind_ok h
    obtain ⟨r', hr, h⟩ := bind_ok h
    rw [optBin_sem L h, optE_sem L l l' hl, optE_sem L r r' hr, Sem.e]
  | .str _ _ _, e', h => by simp [optE] at h; rw [← h]
  | .num _ _, e', h => by simp [optE] at h; rw [← h]
  | .bool _ _, e', h => by simp [optE] at h; rw [← h]
  | .carr _ _, e', h => by simp [optE] at h; rw [← h]
  | .nular _ _, e', h => by simp [optE] at h; rw [← h]
  | .var _ _, e', h => by simp [optE] at h; rw [← h]
theorem optEs_sem (L : Laws F lower M) : ∀ (es es' : List Expr), optEs F lower es = .ok es' → M.es es' = M.es es
  | [], es', h => by simp [optEs] at h; rw [h]
  | e :: es, es', h => by
    rw [optEs] at h
    obtain ⟨a, ha, h⟩ := bind_ok h
    obtain ⟨b, hb, h⟩ := bind_ok h
    cases h
    simp only [Sem.es, optE_sem L e a ha, optEs_sem L es b hb]
theorem optS_sem (L : Laws F lower M) : ∀ (s s' : Stmt), optS F lower s = .ok s' → M.s s' = M.s s
  | .assignGlobal n e sp, s', h => by
    rw [optS] at h
    obtain ⟨a, ha, h⟩ := bind_ok h
    cases h
    simp only [Sem.s, optE_sem L e a ha]
  | .assignLocal n e sp, s', h => by
    rw [optS] at h
    obtain ⟨a, ha, h⟩ := bind_ok h
    cases h
    simp only [Sem.s, optE_sem L e a ha]
  | .expr e sp, s', h => by
    rw [optS] at h
    obtain ⟨a, ha, h⟩ := bind_ok h
    cases h
    simp only [Sem.s, optE_sem L e a ha]
theorem optSs_sem (L : Laws F lower M) : ∀ (ss ss' : List Stmt), optSs F lower ss = .ok ss' → M.ss ss' = M.ss ss
  | [], ss', h => by simp [optSs] at h; rw [h]
  | s :: ss, ss', h => by
    rw [optSs] at h
    obtain ⟨a, ha, h⟩ := bind_ok h
    obtain ⟨b, hb, h⟩ := bind_ok h
    cases h
    simp only [Sem.ss, optS_sem L s a ha, optSs_sem L ss b hb]
end

/-! ### Where shared arrays end up -/

theorem SharedOk.mono {here here' : List Expr → Prop} {e : Expr} (h : SharedOk lower here e)
    (hh : ∀ es, here es → here' es) : SharedOk lower here' e := by
  cases e with
  | carr es sp =>
    simp only [SharedOk] at h ⊢
    exact ⟨h.1.imp id fun x => ⟨hh _ x.1, x.2⟩, h.2⟩
  | _ => revert h; simp only [SharedOk]; exact id

theorem consume_shared {d : Bool} {r r' : Expr} {here : List Expr → Prop} (h : consume d r = .ok r')
    (hr : SharedOk lower (fun _ => False) r) (hd : ∀ es sp, r = .arr es sp → d = true → here es) :
    SharedOk lower here r' := by
  rcases consume_cases h with rfl | ⟨es, sp, rfl, hk, ⟨hd', rfl⟩ | ⟨_, rfl⟩⟩
  · exact hr.mono (by simp)
  · simp only [SharedOk] at hr ⊢
    exact ⟨.inr ⟨hd es sp rfl hd', hk⟩, hr⟩
  · simp only [SharedOk] at hr ⊢
    exact ⟨.inr ⟨.inl rfl, hk⟩, hr⟩

theorem consumeParams_shared {r r' : Expr} {here : List Expr → Prop} (h : consumeParams r = .ok r')
    (hr : SharedOk lower (fun _ => False) r) (hd : ∀ es, (∀ e ∈ es, ¬ ArrayDefault e) → here es) :
    SharedOk lower here r' := by
  rcases consumeParams_cases h with rfl | ⟨es, sp, rfl, hk, ⟨hd', rfl⟩ | rfl⟩
  · exact hr.mono (by simp)
  · simp only [SharedOk] at hr ⊢
    exact ⟨.inr ⟨hd es hd', hk⟩, hr⟩
  · simp only [SharedOk] at hr ⊢
    exact ⟨.inr ⟨.inl rfl, hk⟩, hr⟩

theorem arrayDefault_span {es : List Expr} {sp sp' : Span} (h : ¬ ArrayDefault (.arr es sp)) :
    ¬ ArrayDefault (.arr es sp') := by
  rintro ⟨es', p, ds, q, he, h1⟩
  cases he
  exact h ⟨es, sp, ds, q, rfl, h1⟩

theorem optUn_shared {c : UnCmd} {r e' : Expr} {sp : Span} (h : optUn F lower c r sp = .ok e')
    (hr : SharedOk lower (fun _ => False) r) : SharedOk lower (fun _ => False) e' := by
  have keep : ∀ {e' : Expr}, (Except.ok (Expr.un c r sp) : Except Err Expr) = .ok e' →
      SharedOk lower (fun _ => False) e' := by
    rintro e' h; cases h; simp only [SharedOk]; exact hr.mono (by simp)
  cases c with
  | plus => exact keep h
  | not => exact keep h
  | minus =>
    simp only [optUn] at h
    rcases opUniFloat_cases (F := F) (op := F.neg) (sp := sp) (r := r) with ⟨x, p, rfl, hf, ho⟩ | ho
    · rw [ho] at h; cases h; simp [SharedOk]
    · rw [ho] at h; exact keep h
  | named n =>
    have hk := knownUn_spec (lower n)
    simp only [optUn] at h
    cases hn : knownUn (lower n) with
    | toLower =>
      rw [hn] at h hk; simp only at h hk
      rcases opUniString_cases (op := asciiLower) (sp := sp) (r := r) with ⟨s, p, w, rfl, hf, ho⟩ | ho
      · rw [ho] at h; cases h; simp [SharedOk]
      · rw [ho] at h; exact keep h
    | toUpper =>
      rw [hn] at h hk; simp only at h hk
      rcases opUniString_cases (op := asciiUpper) (sp := sp) (r := r) with ⟨s, p, w, rfl, hf, ho⟩ | ho
      · rw [ho] at h; cases h; simp [SharedOk]
      · rw [ho] at h; exact keep h
    | sqrt =>
      rw [hn] at h hk; simp only at h hk
      rcases opUniFloat_cases (F := F) (op := F.sqrt) (sp := sp) (r := r) with ⟨x, p, rfl, hf, ho⟩ | ho
      · rw [ho] at h; cases h; simp [SharedOk]
      · rw [ho] at h; exact keep h
    | params =>
      rw [hn] at h hk; simp only at h hk
      obtain ⟨r', hr', h⟩ := bind_ok h
      cases h
      simp only [SharedOk]
      exact consumeParams_shared hr' hr fun es hd => .inr ⟨n, rfl, .inr (.inr (.inl ⟨hk, hd⟩))⟩
    | param =>
      rw [hn] at h hk; simp only at h hk
      obtain ⟨r', hr', h⟩ := bind_ok h
      cases h
      simp only [SharedOk]
      exact consume_shared hr' hr fun es sp he hd =>
        .inr ⟨n, rfl, .inr (.inr (.inr ⟨hk, arrayDefault_span (he ▸ isNotArrayDefault_spec hd)⟩))⟩
    | consumeUn =>
      rw [hn] at h hk; simp only at h hk
      obtain ⟨r', hr', h⟩ := bind_ok h
      cases h
      simp only [SharedOk]
      exact consume_shared hr' hr fun es sp he hd =>
        .inr ⟨n, rfl, hk.elim .inl fun h => .inr (.inl h)⟩
    | consumeBin => rw [hn] at h; exact keep h
    | dflt => rw [hn] at h; exact keep h
    | call => rw [hn] at h; exact keep h
    | other => rw [hn] at h; exact keep h

theorem optBin_shared {c : BinCmd} {l r e' : Expr} {sp : Span} (h : optBin F lower c l r sp = .ok e')
    (hl : SharedOk lower (fun _ => False) l) (hr : SharedOk lower (fun _ => False) r) :
    SharedOk lower (fun _ => False) e' := by
  have keep' : SharedOk lower (fun _ => False) (Expr.bin c l r sp) := by
    simp only [SharedOk]; exact ⟨hl.mono (by simp), hr.mono (by simp)⟩
  have keep : ∀ {e' : Expr}, (Except.ok (Expr.bin c l r sp) : Except Err Expr) = .ok e' →
      SharedOk lower (fun _ => False) e' := by
    rintro e' h; cases h; exact keep'
  have fold : ∀ {op : UInt32 → UInt32 → UInt32} {d : Expr}, SharedOk lower (fun _ => False) d →
      SharedOk lower (fun _ => False) ((opBinFloat F op sp l r).getD d) := by
    intro op d hd
    rcases opBinFloat_cases (F := F) (op := op) (sp := sp) (l := l) (r := r) with ⟨x, p, y, q, rfl, rfl, hf, ho⟩ | ho
    · rw [ho]; simp [SharedOk]
    · rw [ho]; exact hd
  cases c with
  | named n =>
    have hk := knownBin_spec (lower n)
    simp only [optBin] at h
    cases hn : knownBin (lower n) with
    | params =>
      rw [hn] at h hk; simp only at h hk
      obtain ⟨r', hr', h⟩ := bind_ok h
      cases h
      simp only [SharedOk]
      exact ⟨hl.mono (by simp), consumeParams_shared hr' hr fun es hd => .inr ⟨n, rfl, .inl ⟨hk, hd⟩⟩⟩
    | dflt =>
      rw [hn] at h hk; simp only at h hk
      obtain ⟨r', hr', h⟩ := bind_ok h
      cases h
      simp only [SharedOk]
      exact ⟨hl.mono (by simp), consume_shared hr' hr fun es sp he hd =>
        .inr ⟨n, rfl, .inr ⟨hk, arrayDefault_span (he ▸ isNotArrayDefault_spec hd)⟩⟩⟩
    | consumeBin =>
      rw [hn] at h hk; simp only at h hk
      obtain ⟨r', hr', h⟩ := bind_ok h
      obtain ⟨l', hl', h⟩ := bind_ok h
      cases h
      simp only [SharedOk]
      exact ⟨consume_shared hl' hl fun _ _ _ _ => ⟨n, rfl, hk⟩, consume_shared hr' hr fun _ _ _ _ => .inl ⟨n, rfl, hk⟩⟩
    | call =>
      rw [hn] at h hk; simp only at h hk
      cases hl : isThis l with
      | false => rw [hl] at h; exact keep h
      | true =>
        rw [hl] at h; cases h
        unfold SharedOk
        exact hr.mono (by simp)
    | toLower => rw [hn] at h; exact keep h
    | toUpper => rw [hn] at h; exact keep h
    | sqrt => rw [hn] at h; exact keep h
    | param => rw [hn] at h; exact keep h
    | consumeUn => rw [hn] at h; exact keep h
    | other => rw [hn] at h; exact keep h
  | add =>
    simp only [optBin] at h
    cases h
    refine fold ?_
    rcases opBinString_cases (op := (· ++ ·)) (sp := sp) (l := l) (r := r) with ⟨s, p, w, t, q, v, rfl, rfl, hs, ht, ho⟩ | ho
    · rw [ho]; simp [SharedOk]
    · rw [ho]; exact keep'
  | sub => simp only [optBin] at h; cases h; exact fold keep'
  | mul => simp only [optBin] at h; cases h; exact fold keep'
  | div => simp only [optBin] at h; cases h; exact fold keep'
  | rem => simp only [optBin] at h; cases h; exact fold keep'
  | mod => simp only [optBin] at h; cases h; exact fold keep'
  | els =>
    simp only [optBin] at h
    cases hc : (isCode l && isCode r) with
    | false => rw [hc] at h; exact keep h
    | true =>
      rw [hc] at h; cases h
      cases l <;> cases r <;> simp [isCode] at hc
      simp only [SharedOk] at hl hr ⊢
      exact ⟨.inl ⟨_, _, _, _, _, _, rfl⟩, hl, hr, trivial⟩
  | _ => exact keep h

mutual
theorem optE_shared : ∀ (e e' : Expr), optE F lower e = .ok e' → Plain e → SharedOk lower (fun _ => False) e'
  | .code c s sp, e', h, hp => by
    rw [optE] at h
    obtain ⟨c', hc, h⟩ := bind_ok h
    cases h
    simp only [Plain, SharedOk] at hp ⊢
    exact optSs_shared c c' hc hp
  | .arr es sp, e', h, hp => by
    rw [optE] at h
    obtain ⟨c', hc, h⟩ := bind_ok h
    cases h
    simp only [Plain, SharedOk] at hp ⊢
    exact optEs_shared es c' hc hp
  | .un c r sp, e', h, hp => by
    rw [optE] at h
    obtain ⟨r', hc, h⟩ := bind_ok h
    simp only [Plain] at hp
    exact optUn_shared h (optE_shared r r' hc hp)
  | .bin c l r sp, e', h, hp => by
    rw [optE] at h
    obtain ⟨l', hl, h⟩ := bind_ok h
    obtain ⟨r', hr, h⟩ := bind_ok h
    simp only [Plain] at hp
    exact optBin_shared h (optE_shared l l' hl hp.1) (optE_shared r r' hr hp.2)
  | .str _ _ _, e', h, _ => by simp [optE] at h; simp [← h, SharedOk]
  | .num _ _, e', h, _ => by simp [optE] at h; simp [← h, SharedOk]
  | .bool _ _, e', h, _ => by simp [optE] at h; simp [← h, SharedOk]
  | .carr _ _, e', h, hp => by simp [Plain] at hp
  | .nular _ _, e', h, _ => by simp [optE] at h; simp [← h, SharedOk]
  | .var _ _, e', h, _ => by simp [optE] at h; simp [← h, SharedOk]
theorem optEs_shared : ∀ (es es' : List Expr), optEs F lower es = .ok es' → Plains es → SharedOks lower es'
  | [], es', h, _ => by simp [optEs] at h; simp [h, SharedOks]
  | e :: es, es', h, hp => by
    rw [optEs] at h
    obtain ⟨a, ha, h⟩ := bind_ok h
    obtain ⟨b, hb, h⟩ := bind_ok h
    cases h
    simp only [Plains, SharedOks] at hp ⊢
    exact ⟨optE_shared e a ha hp.1, optEs_shared es b hb hp.2⟩
theorem optS_shared : ∀ (s s' : Stmt), optS F lower s = .ok s' → PlainS s → SharedOkS lower s'
  | .assignGlobal n e sp, s', h, hp => by
    rw [optS] at h
    obtain ⟨a, ha, h⟩ := bind_ok h
    cases h
    simp only [PlainS, SharedOkS] at hp ⊢
    exact optE_shared e a ha hp
  | .assignLocal n e sp, s', h, hp => by
    rw [optS] at h
    obtain ⟨a, ha, h⟩ := bind_ok h
    cases h
    simp only [PlainS, SharedOkS] at hp ⊢
    exact optE_shared e a ha hp
  | .expr e sp, s', h, hp => by
    rw [optS] at h
    obtain ⟨a, ha, h⟩ := bind_ok h
    cases h
    simp only [PlainS, SharedOkS] at hp ⊢
    exact optE_shared e a ha hp
theorem optSs_shared : ∀ (ss ss' : List Stmt), optSs F lower ss = .ok ss' → PlainSs ss → SharedOkSs lower ss'
  | [], ss', h, _ => by simp [optSs] at h; simp [h, SharedOkSs]
  | s :: ss, ss', h, hp => by
    rw [optSs] at h
    obtain ⟨a, ha, h⟩ := bind_ok h
    obtain ⟨b, hb, h⟩ := bind_ok h
    cases h
    simp only [PlainSs, SharedOkSs] at hp ⊢
    exact ⟨optS_shared s a ha hp.1, optSs_shared ss b hb hp.2⟩
end

/-! ### Absence of panics -/

/-- Asking whether the expression is constant does not panic. -/
def CSafe (e : Expr) : Prop := ∃ b, isConst e = .ok b

/-- The same for an expression that may itself be a shared array. -/
def Arg (e : Expr) : Prop := CSafe e ∨ ∃ es sp, e = .carr es sp

theorem consume_safe {d : Bool} {e : Expr} (h : Arg e) : ∃ e', consume d e = .ok e' := by
  rcases h with ⟨b, hb⟩ | ⟨es, sp, rfl⟩
  · cases e with
    | arr es sp =>
      simp only [consume, hb, bind, Except.bind, pure, Except.pure]
      cases b <;> simp
      split
      · exact ⟨_, rfl⟩
      · split <;> exact ⟨_, rfl⟩
    | _ => exact ⟨_, rfl⟩
  · exact ⟨_, rfl⟩

theorem consumeParams_safe {e : Expr} (h : Arg e) : ∃ e', consumeParams e = .ok e' := by
  cases e with
  | arr es sp => exact consume_safe h
  | _ => exact ⟨_, rfl⟩

theorem optUn_safe {c : UnCmd} {r : Expr} {sp : Span} (h : Arg r) :
    ∃ e', optUn F lower c r sp = .ok e' ∧ CSafe e' ∧ isCode e' = false := by
  have keep : CSafe (Expr.un c r sp) := ⟨false, by simp [isConst]⟩
  have fold : ∀ {op}, CSafe ((opUniFloat F op sp r).getD (.un c r sp)) ∧ isCode ((opUniFloat F op sp r).getD (.un c r sp)) = false := by
    intro op
    rcases opUniFloat_cases (F := F) (op := op) (sp := sp) (r := r) with ⟨x, p, rfl, hf, ho⟩ | ho
    · rw [ho]; exact ⟨⟨true, by simp [isConst]⟩, rfl⟩
    · rw [ho]; exact ⟨keep, rfl⟩
  have folds : ∀ {op}, CSafe ((opUniString op sp r).getD (.un c r sp)) ∧ isCode ((opUniString op sp r).getD (.un c r sp)) = false := by
    intro op
    rcases opUniString_cases (op := op) (sp := sp) (r := r) with ⟨x, p, w, rfl, hf, ho⟩ | ho
    · rw [ho]; exact ⟨⟨true, by simp [isConst]⟩, rfl⟩
    · rw [ho]; exact ⟨keep, rfl⟩
  cases c with
  | plus => exact ⟨_, rfl, keep, rfl⟩
  | not => exact ⟨_, rfl, keep, rfl⟩
  | minus => exact ⟨_, rfl, fold⟩
  | named n =>
    simp only [optUn]
    obtain ⟨a, ha⟩ := consumeParams_safe h
    obtain ⟨b, hb⟩ := consume_safe (d := isNotArrayDefault r) h
    obtain ⟨d, hd⟩ := consume_safe (d := true) h
    cases knownUn (lower n) with
    | toLower => exact ⟨_, rfl, folds⟩
    | toUpper => exact ⟨_, rfl, folds⟩
    | sqrt => exact ⟨_, rfl, fold⟩
    | params => exact ⟨.un (.named n) a sp, by simp [ha, bind, Except.bind, pure, Except.pure], ⟨false, by simp [isConst]⟩, rfl⟩
    | param => exact ⟨.un (.named n) b sp, by simp [hb, bind, Except.bind, pure, Except.pure], ⟨false, by simp [isConst]⟩, rfl⟩
    | consumeUn => exact ⟨.un (.named n) d sp, by simp [hd, bind, Except.bind, pure, Except.pure], ⟨false, by simp [isConst]⟩, rfl⟩
    | _ => exact ⟨_, rfl, keep, rfl⟩

theorem optBin_safe {c : BinCmd} {l r : Expr} {sp : Span} (hl : Arg l) (hr : Arg r) :
    ∃ e', optBin F lower c l r sp = .ok e' ∧ isCode e' = false ∧
      (CSafe e' ∨ (c = .els ∧ isCode l = true ∧ isCode r = true ∧ ∃ es sp, e' = .carr es sp)) := by
  have keep : CSafe (Expr.bin c l r sp) := ⟨false, by simp [isConst]⟩
  have fold : ∀ {op d}, CSafe d → isCode d = false → isCode ((opBinFloat F op sp l r).getD d) = false ∧
      CSafe ((opBinFloat F op sp l r).getD d) := by
    intro op d h1 h2
    rcases opBinFloat_cases (F := F) (op := op) (sp := sp) (l := l) (r := r) with ⟨x, p, y, q, rfl, rfl, hf, ho⟩ | ho
    · rw [ho]; exact ⟨rfl, ⟨true, by simp [isConst]⟩⟩
    · rw [ho]; exact ⟨h2, h1⟩
  have folds : ∀ {op}, isCode ((opBinString op sp l r).getD (.bin c l r sp)) = false ∧
      CSafe ((opBinString op sp l r).getD (.bin c l r sp)) := by
    intro op
    rcases opBinString_cases (op := op) (sp := sp) (l := l) (r := r) with ⟨s, p, w, t, q, v, rfl, rfl, hs, ht, ho⟩ | ho
    · rw [ho]; exact ⟨rfl, ⟨true, by simp [isConst]⟩⟩
    · rw [ho]; exact ⟨rfl, keep⟩
  have num : ∀ {op}, ∃ e', (Except.ok ((opBinFloat F op sp l r).getD (.bin c l r sp)) : Except Err Expr) = .ok e' ∧
      isCode e' = false ∧ (CSafe e' ∨ (c = .els ∧ isCode l = true ∧ isCode r = true ∧ ∃ es sp, e' = .carr es sp)) :=
    fun {op} => ⟨_, rfl, (fold keep rfl).1, .inl (fold keep rfl).2⟩
  cases c with
  | named n =>
    simp only [optBin]
    obtain ⟨a, ha⟩ := consumeParams_safe hr
    obtain ⟨b, hb⟩ := consume_safe (d := isNotArrayDefault r) hr
    obtain ⟨d, hd⟩ := consume_safe (d := true) hr
    obtain ⟨f, hf⟩ := consume_safe (d := true) hl
    cases knownBin (lower n) with
    | params => exact ⟨.bin (.named n) l a sp, by simp [ha, bind, Except.bind, pure, Except.pure], rfl, .inl ⟨false, by simp [isConst]⟩⟩
    | dflt => exact ⟨.bin (.named n) l b sp, by simp [hb, bind, Except.bind, pure, Except.pure], rfl, .inl ⟨false, by simp [isConst]⟩⟩
    | consumeBin => exact ⟨.bin (.named n) f d sp, by simp [hd, hf, bind, Except.bind, pure, Except.pure], rfl, .inl ⟨false, by simp [isConst]⟩⟩
    | call =>
      refine ⟨_, rfl, ?_⟩
      split
      · exact ⟨rfl, .inl ⟨false, by simp [isConst]⟩⟩
      · exact ⟨rfl, .inl keep⟩
    | _ => exact ⟨_, rfl, rfl, .inl keep⟩
  | add => exact ⟨_, rfl, (fold folds.2 folds.1).1, .inl (fold folds.2 folds.1).2⟩
  | sub => exact num
  | mul => exact num
  | div => exact num
  | rem => exact num
  | mod => exact num
  | els =>
    simp only [optBin]
    cases hc : (isCode l && isCode r) with
    | false => exact ⟨_, rfl, rfl, .inl keep⟩
    | true =>
      simp only [Bool.and_eq_true] at hc
      exact ⟨_, rfl, rfl, .inr ⟨trivial, hc.1, hc.2, _, _, rfl⟩⟩
  | _ => exact ⟨_, rfl, rfl, .inl keep⟩

mutual
theorem optE_safe (a : Bool) : ∀ (e : Expr), NoElseInArray a e →
    ∃ e', optE F lower e = .ok e' ∧ Arg e' ∧ (a = true → CSafe e') ∧ (isCode e' = true → isCode e = true)
  | .code c s sp, h => by
    simp only [NoElseInArray] at h
    obtain ⟨c', hc⟩ := optSs_safe c h
    refine ⟨.code c' s sp, by simp [optE, hc, bind, Except.bind, pure, Except.pure], ?_, fun _ => ?_, fun _ => rfl⟩
    · exact .inl ⟨true, by simp [isConst]⟩
    · exact ⟨true, by simp [isConst]⟩
  | .arr es sp, h => by
    simp only [NoElseInArray] at h
    obtain ⟨c', hc, b, hb⟩ := optEs_safe es h
    have hs : CSafe (.arr c' sp) := ⟨b, by simp [isConst, hb]⟩
    exact ⟨.arr c' sp, by simp [optE, hc, bind, Except.bind, pure, Except.pure], .inl hs, fun _ => hs, fun h => h⟩
  | .un c r sp, h => by
    simp only [NoElseInArray] at h
    obtain ⟨r', hr, h1, _⟩ := optE_safe false r h
    obtain ⟨e', he, h2, h3⟩ := optUn_safe (F := F) (lower := lower) (c := c) (sp := sp) h1
    exact ⟨e', by simp [optE, hr, he, bind, Except.bind], .inl h2, fun _ => h2, by simp [h3]⟩
  | .bin c l r sp, h => by
    simp only [NoElseInArray] at h
    obtain ⟨l', hl, h1, _, hcl⟩ := optE_safe false l h.1
    obtain ⟨r', hr, h2, _, hcr⟩ := optE_safe false r h.2.1
    obtain ⟨e', he, h3, h4⟩ := optBin_safe (F := F) (lower := lower) (c := c) (sp := sp) h1 h2
    refine ⟨e', by simp [optE, hl, hr, he, bind, Except.bind], ?_, fun ha => ?_, by simp [h3]⟩
    · exact h4.imp id fun x => x.2.2.2
    · rcases h4 with h4 | ⟨rfl, ha', hb', _⟩
      · exact h4
      · exfalso
        have la := hcl ha'
        have ra := hcr hb'
        refine h.2.2 ha ⟨rfl, ?_, ?_⟩
        · cases l <;> simp [isCode] at la
          exact ⟨_, _, _, rfl⟩
        · cases r <;> simp [isCode] at ra
          exact ⟨_, _, _, rfl⟩
  | .str _ _ _, _ => ⟨_, by simp only [optE], .inl ⟨true, by simp [isConst]⟩, fun _ => ⟨true, by simp [isConst]⟩, fun h => h⟩
  | .num _ _, _ => ⟨_, by simp only [optE], .inl ⟨true, by simp [isConst]⟩, fun _ => ⟨true, by simp [isConst]⟩, fun h => h⟩
  | .bool _ _, _ => ⟨_, by simp only [optE], .inl ⟨true, by simp [isConst]⟩, fun _ => ⟨true, by simp [isConst]⟩, fun h => h⟩
  | .carr _ _, h => by simp [NoElseInArray] at h
  | .nular n _, _ => ⟨_, by simp only [optE], .inl ⟨_, by simp [isConst]; rfl⟩, fun _ => ⟨_, by simp [isConst]; rfl⟩, fun h => h⟩
  | .var _ _, _ => ⟨_, by simp only [optE], .inl ⟨false, by simp [isConst]⟩, fun _ => ⟨false, by simp [isConst]⟩, fun h => h⟩
theorem optEs_safe : ∀ (es : List Expr), NoElseInArrays es →
    ∃ es', optEs F lower es = .ok es' ∧ ∃ b, isConstAll es' = .ok b
  | [], _ => ⟨[], by simp [optEs], true, by simp [isConstAll]⟩
  | e :: es, h => by
    simp only [NoElseInArrays] at h
    obtain ⟨e', he, _, h1, _⟩ := optE_safe true e h.1
    obtain ⟨es', hes, b, hb⟩ := optEs_safe es h.2
    obtain ⟨b', hb'⟩ := h1 rfl
    refine ⟨e' :: es', by simp [optEs, he, hes, bind, Except.bind, pure, Except.pure], ?_⟩
    cases b' with
    | true => exact ⟨b, by simp [isConstAll, hb', hb, bind, Except.bind]⟩
    | false => exact ⟨false, by simp [isConstAll, hb', bind, Except.bind, pure, Except.pure]⟩
theorem optS_safe : ∀ (s : Stmt), NoElseInArrayS s → ∃ s', optS F lower s = .ok s'
  | .assignGlobal n e sp, h => by
    simp only [NoElseInArrayS] at h
    obtain ⟨e', he, _⟩ := optE_safe false e h
    exact ⟨.assignGlobal n e' sp, by simp [optS, he, bind, Except.bind, pure, Except.pure]⟩
  | .assignLocal n e sp, h => by
    simp only [NoElseInArrayS] at h
    obtain ⟨e', he, _⟩ := optE_safe false e h
    exact ⟨.assignLocal n e' sp, by simp [optS, he, bind, Except.bind, pure, Except.pure]⟩
  | .expr e sp, h => by
    simp only [NoElseInArrayS] at h
    obtain ⟨e', he, _⟩ := optE_safe false e h
    exact ⟨.expr e' sp, by simp [optS, he, bind, Except.bind, pure, Except.pure]⟩
theorem optSs_safe : ∀ (ss : List Stmt), NoElseInArraySs ss → ∃ ss', optSs F lower ss = .ok ss'
  | [], _ => ⟨[], by simp [optSs]⟩
  | s :: ss, h => by
    simp only [NoElseInArraySs] at h
    obtain ⟨s', hs⟩ := optS_safe s h.1
    obtain ⟨ss', hss⟩ := optSs_safe ss h.2
    exact ⟨s' :: ss', by simp [optSs, hs, hss, bind, Except.bind, pure, Except.pure]⟩
end

end Verif.Sqf
