import Verif.Lib.SqfComplete
/-!
Superfluous terminators; lemmas.
-/
namespace Verif.SqfParse
open Verif.Sqf

/-- After a terminator or an opening brace further terminators go. -/
def opens (t : Token) : Bool := t = .ctl .terminator || t = .ctl .curlyOpen

theorem strip_keep {f : Bool} {t : Token} {sp : Span} {ts : List Tok} (h : t ≠ .ctl .terminator ∨ f = false) :
    strip f ((t, sp) :: ts) = (t, sp) :: strip (opens t) ts := by
  rw [strip]
  rcases h with h | h
  · simp [h, opens]
  · simp [h, opens]

theorem strip_drop {sp : Span} {ts : List Tok} : strip true ((.ctl .terminator, sp) :: ts) = strip true ts := by
  rw [strip]; simp

theorem opens_un {db : Db} {t : Token} {c : UnCmd} (h : unOf db t = some c) : t ≠ .ctl .terminator ∧ opens t = false := by
  cases t <;> simp_all [unOf, opens]

theorem opens_bin {db : Db} {t : Token} {c : BinCmd} (h : binOf db t = some c) : t ≠ .ctl .terminator ∧ opens t = false := by
  cases t <;> simp_all [binOf, opens]

theorem cons_append_append' {α : Type} {x y : α} {l r : List α} : x :: l ++ [y] ++ r = x :: (l ++ y :: r) := by simp

/-! ### What the removal leaves of a program with superfluous terminators -/

section
variable {db : Db}

theorem strip_one {t : Token} {sp : Span} (ht : t ≠ .ctl .terminator) (ho : opens t = false) (f : Bool) (r : List Tok) :
    strip f ([(t, sp)] ++ r) = [(t, sp)] ++ strip false r := by
  rw [List.singleton_append, strip_keep (Or.inl ht), ho]; rfl

mutual
theorem strip_der : ∀ {p e ts}, Der db true p e ts → ∃ ts', Der db false p e ts' ∧
    ∀ f r, strip f (ts ++ r) = ts' ++ strip false r
  | _, _, _, .num => ⟨_, .num, strip_one (by simp) rfl⟩
  | _, _, _, .str => ⟨_, .str, strip_one (by simp) rfl⟩
  | _, _, _, .tru h => ⟨_, .tru h, strip_one (by simp) rfl⟩
  | _, _, _, .fls h => ⟨_, .fls h, strip_one (by simp) rfl⟩
  | _, _, _, .nular h h1 h2 => ⟨_, .nular h h1 h2, strip_one (by simp) rfl⟩
  | _, _, _, .var h => ⟨_, .var h, strip_one (by simp) rfl⟩
  | _, _, _, .paren (s1 := s1) (s2 := s2) h => by
    obtain ⟨ts', hd, hs⟩ := strip_der h
    refine ⟨_, .paren (s1 := s1) (s2 := s2) hd, fun f r => ?_⟩
    rw [cons_append_append', strip_keep (Or.inl (by simp)), show opens _ = false from rfl, hs, strip_keep (Or.inl (by simp)),
      show opens _ = false from rfl]
    simp
  | _, _, _, .arr0 => ⟨_, .arr0, fun f r => by
    rw [List.cons_append, strip_keep (Or.inl (by simp)), strip_one (by simp) rfl]; rfl⟩
  | _, _, _, .arr (s1 := s1) (s2 := s2) h => by
    obtain ⟨ts', hd, hs⟩ := strip_list h
    refine ⟨_, .arr (s1 := s1) (s2 := s2) hd, fun f r => ?_⟩
    rw [cons_append_append', strip_keep (Or.inl (by simp)), show opens _ = false from rfl, hs, strip_keep (Or.inl (by simp)),
      show opens _ = false from rfl]
    simp
  | _, _, _, .code (s1 := s1) (s2 := s2) h => by
    obtain ⟨ts', hd, hs⟩ := strip_block h
    refine ⟨_, .code (s1 := s1) (s2 := s2) hd, fun f r => ?_⟩
    obtain ⟨g, hs⟩ := hs ((.ctl .curlyClose, s2) :: r)
    rw [cons_append_append', strip_keep (Or.inl (by simp)), show opens _ = true from rfl, hs, strip_keep (Or.inl (by simp)),
      show opens _ = false from rfl]
    simp
  | _, _, _, .un hu h => by
    obtain ⟨ts', hd, hs⟩ := strip_der h
    refine ⟨_, .un hu hd, fun f r => ?_⟩
    rw [List.cons_append, strip_keep (Or.inl (opens_un hu).1), (opens_un hu).2, hs]
    rfl
  | _, _, _, .bin hb hp hl hr => by
    obtain ⟨tl', hl, hsl⟩ := strip_der hl
    obtain ⟨tr', hr, hsr⟩ := strip_der hr
    refine ⟨_, .bin hb hp hl hr, fun f r => ?_⟩
    rw [List.append_assoc, hsl, List.cons_append, strip_keep (Or.inr rfl), (opens_bin hb).2, hsr]
    simp
  | _, _, _, .weaken hp h => by
    obtain ⟨ts', hd, hs⟩ := strip_der h
    exact ⟨ts', .weaken hp hd, hs⟩

theorem strip_list : ∀ {es ts}, DerList db true es ts → ∃ ts', DerList db false es ts' ∧
    ∀ f r, strip f (ts ++ r) = ts' ++ strip false r
  | _, _, .one h => by
    obtain ⟨ts', hd, hs⟩ := strip_der h
    exact ⟨ts', .one hd, hs⟩
  | _, _, .cons (sp := sp) h hl => by
    obtain ⟨ts', hd, hs⟩ := strip_der h
    obtain ⟨us', hdl, hsl⟩ := strip_list hl
    refine ⟨_, .cons (sp := sp) hd hdl, fun f r => ?_⟩
    rw [List.append_assoc, hs, List.cons_append, strip_keep (Or.inr rfl), hsl]
    simp

theorem strip_stmt : ∀ {s ts}, DerStmt db true s ts → ∃ ts', DerStmt db false s ts' ∧
    ∀ f r, strip f (ts ++ r) = ts' ++ strip false r
  | _, _, .expr h => by
    obtain ⟨ts', hd, hs⟩ := strip_der h
    exact ⟨ts', .expr hd, hs⟩
  | _, _, .global (s1 := s1) (s2 := s2) hv h => by
    obtain ⟨ts', hd, hs⟩ := strip_der h
    refine ⟨_, .global (s1 := s1) (s2 := s2) hv hd, fun f r => ?_⟩
    rw [List.cons_append, List.cons_append, strip_keep (Or.inl (by simp)), strip_keep (Or.inl (by simp)), hs]
    rfl
  | _, _, .priv (s0 := s0) (s1 := s1) (s2 := s2) hm hv h => by
    obtain ⟨ts', hd, hs⟩ := strip_der h
    refine ⟨_, .priv (s0 := s0) (s1 := s1) (s2 := s2) hm hv hd, fun f r => ?_⟩
    rw [List.cons_append, List.cons_append, List.cons_append, strip_keep (Or.inl (by simp)), strip_keep (Or.inl (by simp)),
      strip_keep (Or.inl (by simp)), hs]
    rfl

theorem strip_block : ∀ {ss ts}, DerBlock db true ss ts → ∃ ts', DerBlock db false ss ts' ∧
    ∀ r, ∃ g, strip true (ts ++ r) = ts' ++ strip g r
  | _, _, .nil => ⟨[], .nil, fun r => ⟨true, rfl⟩⟩
  | _, _, .last h => by
    obtain ⟨ts', hd, hs⟩ := strip_stmt h
    exact ⟨ts', .last hd, fun r => ⟨false, hs _ _⟩⟩
  | _, _, .cons (sp := sp) h hl => by
    obtain ⟨ts', hd, hs⟩ := strip_stmt h
    obtain ⟨us', hdl, hsl⟩ := strip_block hl
    refine ⟨_, .cons (sp := sp) hd hdl, fun r => ?_⟩
    obtain ⟨g, hsl⟩ := hsl r
    refine ⟨g, ?_⟩
    rw [List.append_assoc, hs, List.cons_append, strip_keep (Or.inr rfl), show opens _ = true from rfl, hsl]
    simp
  | _, _, .skip _ h => by
    obtain ⟨ts', hd, hs⟩ := strip_block h
    refine ⟨ts', hd, fun r => ?_⟩
    obtain ⟨g, hs⟩ := hs r
    exact ⟨g, by rw [List.cons_append, strip_drop, hs]⟩
end

/-! ### What was there before the removal -/

theorem unstrip {t : Token} {sp : Span} {ts r : List Tok} (h : strip false ts = (t, sp) :: r) :
    ∃ ts', ts = (t, sp) :: ts' ∧ strip (opens t) ts' = r := by
  match ts with
  | [] => rw [strip] at h; cases h
  | (t', sp') :: ts =>
    rw [strip_keep (Or.inr rfl)] at h
    simp only [List.cons.injEq, Prod.mk.injEq] at h
    obtain ⟨⟨rfl, rfl⟩, rfl⟩ := h
    exact ⟨ts, rfl, rfl⟩

theorem unstrip' {t : Token} {sp : Span} {ts r : List Tok} (ho : opens t = false) (h : strip false ts = (t, sp) :: r) :
    ∃ ts', ts = [(t, sp)] ++ ts' ∧ strip false ts' = r := by
  obtain ⟨ts', h1, h2⟩ := unstrip h
  rw [ho] at h2
  exact ⟨ts', h1, h2⟩

/-- Without the superfluous terminators at the beginning. -/
theorem unstrip_true {ss : List Stmt} : ∀ ts : List Tok, ∃ T ts2, ts = T ++ ts2 ∧ strip true ts = strip false ts2 ∧
    ∀ us, DerBlock db true ss us → DerBlock db true ss (T ++ us)
  | [] => ⟨[], [], rfl, rfl, fun _ h => h⟩
  | (t, sp) :: ts => by
    by_cases ht : t = .ctl .terminator
    · subst ht
      obtain ⟨T, ts2, rfl, hs, hd⟩ := unstrip_true ts
      exact ⟨(.ctl .terminator, sp) :: T, ts2, rfl, by rw [strip_drop, hs], fun us h => .skip rfl (hd us h)⟩
    · exact ⟨[], (t, sp) :: ts, rfl, by rw [strip_keep (Or.inl ht), strip_keep (Or.inr rfl)], fun _ h => h⟩

mutual
theorem unstrip_der : ∀ {p e us}, Der db false p e us → ∀ ts r, strip false ts = us ++ r →
    ∃ ts1 ts2, ts = ts1 ++ ts2 ∧ Der db true p e ts1 ∧ strip false ts2 = r
  | _, _, _, .num, ts, r, h => by
    obtain ⟨ts', rfl, hx⟩ := unstrip' rfl h; clear h; rename' hx => h
    exact ⟨_, ts', rfl, .num, h⟩
  | _, _, _, .str, ts, r, h => by
    obtain ⟨ts', rfl, hx⟩ := unstrip' rfl h; clear h; rename' hx => h
    exact ⟨_, ts', rfl, .str, h⟩
  | _, _, _, .tru h0, ts, r, h => by
    obtain ⟨ts', rfl, hx⟩ := unstrip' rfl h; clear h; rename' hx => h
    exact ⟨_, ts', rfl, .tru h0, h⟩
  | _, _, _, .fls h0, ts, r, h => by
    obtain ⟨ts', rfl, hx⟩ := unstrip' rfl h; clear h; rename' hx => h
    exact ⟨_, ts', rfl, .fls h0, h⟩
  | _, _, _, .nular h0 h1 h2, ts, r, h => by
    obtain ⟨ts', rfl, hx⟩ := unstrip' rfl h; clear h; rename' hx => h
    exact ⟨_, ts', rfl, .nular h0 h1 h2, h⟩
  | _, _, _, .var h0, ts, r, h => by
    obtain ⟨ts', rfl, hx⟩ := unstrip' rfl h; clear h; rename' hx => h
    exact ⟨_, ts', rfl, .var h0, h⟩
  | _, _, _, .paren (s1 := s1) (s2 := s2) hd, ts, r, h => by
    rw [cons_append_append'] at h
    obtain ⟨ts', rfl, hx⟩ := unstrip' rfl h; clear h; rename' hx => h
    obtain ⟨ts1, ts2, rfl, hd, hx⟩ := unstrip_der hd _ _ h; clear h; rename' hx => h
    obtain ⟨ts3, rfl, hx⟩ := unstrip' rfl h; clear h; rename' hx => h
    exact ⟨_, ts3, by simp, .paren (s1 := s1) (s2 := s2) hd, h⟩
  | _, _, _, .arr0, ts, r, h => by
    obtain ⟨ts', rfl, hx⟩ := unstrip' rfl h; clear h; rename' hx => h
    obtain ⟨ts3, rfl, hx⟩ := unstrip' rfl h; clear h; rename' hx => h
    exact ⟨_, ts3, rfl, .arr0, h⟩
  | _, _, _, .arr (s1 := s1) (s2 := s2) hd, ts, r, h => by
    rw [cons_append_append'] at h
    obtain ⟨ts', rfl, hx⟩ := unstrip' rfl h; clear h; rename' hx => h
    obtain ⟨ts1, ts2, rfl, hd, hx⟩ := unstrip_list hd _ _ h; clear h; rename' hx => h
    obtain ⟨ts3, rfl, hx⟩ := unstrip' rfl h; clear h; rename' hx => h
    exact ⟨_, ts3, by simp, .arr (s1 := s1) (s2 := s2) hd, h⟩
  | _, _, _, .code (s1 := s1) (s2 := s2) hd, ts, r, h => by
    rw [cons_append_append'] at h
    obtain ⟨ts', rfl, hx⟩ := unstrip h; clear h; rename' hx => h
    obtain ⟨ts1, ts2, rfl, hd, hx⟩ := unstrip_block hd _ _ h; clear h; rename' hx => h
    obtain ⟨ts3, rfl, hx⟩ := unstrip' rfl h; clear h; rename' hx => h
    exact ⟨_, ts3, by simp, .code (s1 := s1) (s2 := s2) hd, h⟩
  | _, _, _, .un hu hd, ts, r, h => by
    obtain ⟨ts', rfl, hx⟩ := unstrip' (opens_un hu).2 h; clear h; rename' hx => h
    obtain ⟨ts1, ts2, rfl, hd, hx⟩ := unstrip_der hd _ _ h; clear h; rename' hx => h
    exact ⟨_, ts2, rfl, .un hu hd, h⟩
  | _, _, _, .bin (sp := sp) hb hp hl hr, ts, r, h => by
    rw [List.append_assoc] at h
    obtain ⟨ts1, ts2, rfl, hl, hx⟩ := unstrip_der hl _ _ h; clear h; rename' hx => h
    obtain ⟨ts3, rfl, hx⟩ := unstrip' (opens_bin hb).2 h; clear h; rename' hx => h
    obtain ⟨ts4, ts5, rfl, hr, hx⟩ := unstrip_der hr _ _ h; clear h; rename' hx => h
    exact ⟨_, ts5, by simp, .bin (sp := sp) hb hp hl hr, h⟩
  | _, _, _, .weaken hp hd, ts, r, h => by
    obtain ⟨ts1, ts2, rfl, hd, hx⟩ := unstrip_der hd _ _ h; clear h; rename' hx => h
    exact ⟨ts1, ts2, rfl, .weaken hp hd, h⟩

theorem unstrip_list : ∀ {es us}, DerList db false es us → ∀ ts r, strip false ts = us ++ r →
    ∃ ts1 ts2, ts = ts1 ++ ts2 ∧ DerList db true es ts1 ∧ strip false ts2 = r
  | _, _, .one hd, ts, r, h => by
    obtain ⟨ts1, ts2, rfl, hd, hx⟩ := unstrip_der hd _ _ h; clear h; rename' hx => h
    exact ⟨ts1, ts2, rfl, .one hd, h⟩
  | _, _, .cons (sp := sp) hd hl, ts, r, h => by
    rw [List.append_assoc] at h
    obtain ⟨ts1, ts2, rfl, hd, hx⟩ := unstrip_der hd _ _ h; clear h; rename' hx => h
    obtain ⟨ts3, rfl, hx⟩ := unstrip' rfl h; clear h; rename' hx => h
    obtain ⟨ts4, ts5, rfl, hl, hx⟩ := unstrip_list hl _ _ h; clear h; rename' hx => h
    exact ⟨_, ts5, by simp, .cons (sp := sp) hd hl, h⟩

theorem unstrip_stmt : ∀ {s us}, DerStmt db false s us → ∀ ts r, strip false ts = us ++ r →
    ∃ ts1 ts2, ts = ts1 ++ ts2 ∧ DerStmt db true s ts1 ∧ strip false ts2 = r
  | _, _, .expr hd, ts, r, h => by
    obtain ⟨ts1, ts2, rfl, hd, hx⟩ := unstrip_der hd _ _ h; clear h; rename' hx => h
    exact ⟨ts1, ts2, rfl, .expr hd, h⟩
  | _, _, .global hv hd, ts, r, h => by
    obtain ⟨ts1, rfl, hx⟩ := unstrip' rfl h; clear h; rename' hx => h
    obtain ⟨ts2, rfl, hx⟩ := unstrip' rfl h; clear h; rename' hx => h
    obtain ⟨ts3, ts4, rfl, hd, hx⟩ := unstrip_der hd _ _ h; clear h; rename' hx => h
    exact ⟨_, ts4, rfl, .global hv hd, h⟩
  | _, _, .priv hm hv hd, ts, r, h => by
    obtain ⟨ts1, rfl, hx⟩ := unstrip' rfl h; clear h; rename' hx => h
    obtain ⟨ts2, rfl, hx⟩ := unstrip' rfl h; clear h; rename' hx => h
    obtain ⟨ts5, rfl, hx⟩ := unstrip' rfl h; clear h; rename' hx => h
    obtain ⟨ts3, ts4, rfl, hd, hx⟩ := unstrip_der hd _ _ h; clear h; rename' hx => h
    exact ⟨_, ts4, rfl, .priv hm hv hd, h⟩

theorem unstrip_block : ∀ {ss us}, DerBlock db false ss us → ∀ ts r, strip true ts = us ++ r →
    ∃ ts1 ts2, ts = ts1 ++ ts2 ∧ DerBlock db true ss ts1 ∧ strip false ts2 = r
  | _, _, .nil, ts, r, h => by
    obtain ⟨T, ts2, rfl, hs, hd⟩ := unstrip_true (db := db) (ss := []) ts
    exact ⟨T, ts2, rfl, by simpa using hd [] .nil, by rw [← hs, h]; rfl⟩
  | _, _, .last (s := s) hst, ts, r, h => by
    obtain ⟨T, ts2, rfl, hs, hd⟩ := unstrip_true (db := db) (ss := [s]) ts
    rw [hs] at h
    obtain ⟨ts3, ts4, rfl, hst, hx⟩ := unstrip_stmt hst _ _ h; clear h; rename' hx => h
    exact ⟨T ++ ts3, ts4, by simp, hd _ (.last hst), h⟩
  | _, _, .cons (s := s) (ss := ss) (sp := sp) hst hl, ts, r, h => by
    obtain ⟨T, ts2, rfl, hs, hd⟩ := unstrip_true (db := db) (ss := s :: ss) ts
    rw [hs, List.append_assoc] at h
    obtain ⟨ts3, ts4, rfl, hst, hx⟩ := unstrip_stmt hst _ _ h; clear h; rename' hx => h
    obtain ⟨ts5, rfl, hx⟩ := unstrip h; clear h; rename' hx => h
    obtain ⟨ts6, ts7, rfl, hl, hx⟩ := unstrip_block hl _ _ h; clear h; rename' hx => h
    exact ⟨_, ts7, by simp, hd _ (.cons (sp := sp) hst hl), h⟩
  | _, _, .skip h _, _, _, _ => by cases h
end

end

theorem strip_nil : ∀ {ts : List Tok}, strip false ts = [] → ts = []
  | [], _ => rfl
  | (t, sp) :: ts, h => by rw [strip_keep (Or.inr rfl)] at h; cases h

/-! ### The whole parser -/

theorem run_complete {env : Env} (hdb : env.db.Plain) {ts : List Tok} {ss : List Stmt}
    (h : DerBlock env.db true ss (stripComments ts)) : ∃ ss', run env ts = some ss' ∧ eraseSs ss' = eraseSs ss := by
  obtain ⟨us, hd, hs⟩ := strip_block h
  obtain ⟨g, hs⟩ := hs []
  rw [List.append_nil] at hs
  obtain ⟨ss', he, ⟨k, hk⟩, _⟩ := block_complete hdb hd [] (Or.inl rfl)
  refine ⟨ss', ?_, he⟩
  have e : stripNoop (stripComments ts) = us ++ [] := by rw [stripNoop, hs, strip]
  have hk : statements env (max k (fuel (us ++ []))) (us ++ []) = .ok ss' [] := hk _ (by omega)
  rw [mono_le (Nat.le_max_right _ _) (parse_total env _)] at hk
  rw [run, e, parse, hk]

theorem run_sound {env : Env} (hs : ∀ n, asciiLower n ∈ reserved → env.db.hasBinary n = false) {ts : List Tok}
    {ss : List Stmt} (h : run env ts = some ss) : DerBlock env.db true ss (stripComments ts) := by
  rw [run, parse] at h
  split at h
  · rename_i ss' heq
    cases h
    obtain ⟨us, hu, hd⟩ := (sound hs _).statements _ _ _ heq
    obtain ⟨ts1, ts2, ht, hd, h2⟩ := unstrip_block hd _ _ hu
    rw [ht, strip_nil h2, List.append_nil]
    exact hd
  · cases h

end Verif.SqfParse
