import Verif.Model.SqfBlockLint
import Verif.Spec.SqfBlocks
/-! Lemmas for the claims about the lints of whole blocks. -/
namespace Verif.SqfLint
open Verif.Sqf Verif.SqfLex

/-! ### Parts of scripts -/

/-- What is reported at one place. -/
def atExpr {C : Type} (run : Target → List C) (e : Expr) : List C :=
  run (.expr e) ++ match e with
  | .nular n _ => run (.nular n)
  | .un c _ _ => run (.unary c)
  | .bin c _ _ _ => run (.binary c)
  | .code ss _ _ => run (.stmts ss) ++ ss.flatMap fun s => run (.stmt s)
  | _ => []

mutual
theorem mem_analyzeE {C : Type} (run : Target → List C) (x : C) : ∀ e : Expr,
    x ∈ analyzeE run e ↔ ∃ y, Within y e ∧ x ∈ atExpr run y
  | .arr es sp => by
    rw [analyzeE, List.mem_append, mem_analyzeEs run x es]
    constructor
    · rintro (h | ⟨e, he, y, hy, h⟩)
      · exact ⟨_, .here, by simp [atExpr, h]⟩
      · exact ⟨y, .item he hy, h⟩
    · rintro ⟨y, hy, h⟩
      cases hy with
      | here => exact .inl (by simpa [atExpr] using h)
      | item he hy => exact .inr ⟨_, he, y, hy, h⟩
  | .code ss src sp => by
    rw [analyzeE, List.mem_append, List.mem_append, mem_analyzeSs run x ss]
    constructor
    · rintro (h | h | ⟨s, hs, h | ⟨y, hy, h⟩⟩)
      · exact ⟨_, .here, by simp [atExpr, h]⟩
      · exact ⟨_, .here, by simp [atExpr, h]⟩
      · exact ⟨_, .here, by simp only [atExpr, List.mem_append, List.mem_flatMap]; exact .inr (.inr ⟨s, hs, h⟩)⟩
      · exact ⟨y, .code hs hy, h⟩
    · rintro ⟨y, hy, h⟩
      cases hy with
      | here =>
        simp only [atExpr, List.mem_append, List.mem_flatMap] at h
        rcases h with h | h | ⟨s, hs, h⟩
        · exact .inl h
        · exact .inr (.inl h)
        · exact .inr (.inr ⟨s, hs, .inl h⟩)
      | code hs hy => exact .inr (.inr ⟨_, hs, .inr ⟨y, hy, h⟩⟩)
  | .nular n sp => by
    rw [analyzeE, List.mem_append]
    constructor
    · exact fun h => ⟨_, .here, by simpa [atExpr] using h⟩
    · rintro ⟨y, hy, h⟩
      cases hy
      simpa [atExpr] using h
  | .un c e sp => by
    rw [analyzeE, List.mem_append, mem_analyzeE run x e]
    constructor
    · rintro (h | ⟨y, hy, h⟩)
      · exact ⟨_, .here, by simpa [atExpr] using h⟩
      · exact ⟨y, .un hy, h⟩
    · rintro ⟨y, hy, h⟩
      cases hy with
      | here => exact .inl (by simpa [atExpr] using h)
      | un hy => exact .inr ⟨y, hy, h⟩
  | .bin c l r sp => by
    rw [analyzeE, List.mem_append, List.mem_append, mem_analyzeE run x l, mem_analyzeE run x r]
    constructor
    · rintro ((h | ⟨y, hy, h⟩) | ⟨y, hy, h⟩)
      · exact ⟨_, .here, by simpa [atExpr] using h⟩
      · exact ⟨y, .left hy, h⟩
      · exact ⟨y, .right hy, h⟩
    · rintro ⟨y, hy, h⟩
      cases hy with
      | here => exact .inl (.inl (by simpa [atExpr] using h))
      | left hy => exact .inl (.inr ⟨y, hy, h⟩)
      | right hy => exact .inr ⟨y, hy, h⟩
  | .str .. | .num .. | .bool .. | .carr .. | .var .. => by
    rw [analyzeE]
    constructor
    · exact fun h => ⟨_, .here, by simpa [atExpr] using h⟩
    · rintro ⟨y, hy, h⟩
      cases hy
      simpa [atExpr] using h
theorem mem_analyzeEs {C : Type} (run : Target → List C) (x : C) : ∀ es : List Expr,
    x ∈ analyzeEs run es ↔ ∃ e ∈ es, ∃ y, Within y e ∧ x ∈ atExpr run y
  | [] => by simp [analyzeEs]
  | e :: es => by
    rw [analyzeEs, List.mem_append, mem_analyzeE run x e, mem_analyzeEs run x es]
    simp
theorem mem_analyzeS {C : Type} (run : Target → List C) (x : C) : ∀ s : Stmt,
    x ∈ analyzeS run s ↔ (x ∈ run (.stmt s) ∨ ∃ y, Within y (body s) ∧ x ∈ atExpr run y)
  | .assignGlobal n e sp => by rw [analyzeS, List.mem_append, mem_analyzeE run x e]; rfl
  | .assignLocal n e sp => by rw [analyzeS, List.mem_append, mem_analyzeE run x e]; rfl
  | .expr e sp => by rw [analyzeS, List.mem_append, mem_analyzeE run x e]; rfl
theorem mem_analyzeSs {C : Type} (run : Target → List C) (x : C) : ∀ ss : List Stmt,
    x ∈ analyzeSs run ss ↔ ∃ s ∈ ss, (x ∈ run (.stmt s) ∨ ∃ y, Within y (body s) ∧ x ∈ atExpr run y)
  | [] => by simp [analyzeSs]
  | s :: ss => by
    rw [analyzeSs, List.mem_append, mem_analyzeS run x s, mem_analyzeSs run x ss]
    simp
end

mutual
theorem mem_walkE (x : Expr) : ∀ e : Expr, x ∈ walkE e ↔ Within x e
  | .arr es sp => by
    rw [walkE, List.mem_cons, mem_walkEs x es]
    constructor
    · rintro (rfl | ⟨e, he, hy⟩)
      · exact .here
      · exact .item he hy
    · intro h
      cases h with
      | here => exact .inl rfl
      | item he hy => exact .inr ⟨_, he, hy⟩
  | .code ss src sp => by
    rw [walkE, List.mem_cons, mem_walkSs x ss]
    constructor
    · rintro (rfl | ⟨s, hs, hy⟩)
      · exact .here
      · exact .code hs hy
    · intro h
      cases h with
      | here => exact .inl rfl
      | code hs hy => exact .inr ⟨_, hs, hy⟩
  | .un c e sp => by
    rw [walkE, List.mem_cons, mem_walkE x e]
    constructor
    · rintro (rfl | h)
      · exact .here
      · exact .un h
    · rintro (_ | _) <;> simp_all
  | .bin c l r sp => by
    rw [walkE, List.mem_cons, List.mem_append, mem_walkE x l, mem_walkE x r]
    constructor
    · rintro (rfl | h | h)
      · exact .here
      · exact .left h
      · exact .right h
    · rintro (_ | _) <;> simp_all
  | .str .. | .num .. | .bool .. | .carr .. | .var .. | .nular .. => by
    rw [walkE, List.mem_singleton]
    constructor
    · rintro rfl
      exact .here
    · intro h
      cases h
      rfl
theorem mem_walkEs (x : Expr) : ∀ es : List Expr, x ∈ walkEs es ↔ ∃ e ∈ es, Within x e
  | [] => by simp [walkEs]
  | e :: es => by
    rw [walkEs, List.mem_append, mem_walkE x e, mem_walkEs x es]
    simp
theorem mem_walkSs (x : Expr) : ∀ ss : List Stmt, x ∈ walkSs ss ↔ ∃ s ∈ ss, Within x (body s)
  | [] => by simp [walkSs]
  | .assignGlobal n e sp :: ss | .assignLocal n e sp :: ss | .expr e sp :: ss => by
    rw [walkSs, List.mem_append, walkS, mem_walkE x e, mem_walkSs x ss]
    simp [body]
end

theorem Within.trans {x y z : Expr} (h : Within x y) (h' : Within y z) : Within x z := by
  induction h' with
  | here => exact h
  | un _ ih => exact .un ih
  | left _ ih => exact .left ih
  | right _ ih => exact .right ih
  | item he _ ih => exact .item he ih
  | code hs _ ih => exact .code hs ih

/-! ### Versions -/

theorem versionSs_cons (since : Bytes → Option Nat) (acc : Bytes × Nat × Span) (s : Stmt) (ss : List Stmt) :
    versionSs since acc (s :: ss) = versionSs since (match versionE since (body s) with
      | some u => if u.2.1 > acc.2.1 then u else acc
      | none => acc) ss := by
  rw [versionSs]
  cases s <;> rfl

/-- Something found is a use in the expression. -/
def Found (since : Bytes → Option Nat) (P : Expr → Prop) (u : Bytes × Nat × Span) : Prop :=
  u.2.1 = 0 ∨ since u.1 = some u.2.1 ∧ ∃ x, P x ∧ UseOf u.1 u.2.2 x

theorem Found.mono {since : Bytes → Option Nat} {P Q : Expr → Prop} {u : Bytes × Nat × Span} (h : Found since P u) (hPQ : ∀ x, P x → Q x) :
    Found since Q u := h.imp_right fun ⟨h, x, hx, hu⟩ => ⟨h, x, hPQ x hx, hu⟩

mutual
theorem versionE_sound (since : Bytes → Option Nat) : ∀ (e : Expr) u, versionE since e = some u → Found since (Within · e) u
  | .nular n sp, u, h => by
    rw [versionE] at h
    split at h
    · rename_i v hv
      cases h
      exact .inr ⟨hv, _, .here, .nular n sp⟩
    · cases h
  | .un c e sp, u, h => by
    rw [versionE] at h
    split at h
    · cases h
    rename_i v hv
    split at h
    · cases h
    rename_i l hl
    split at h
    · cases h
    split at h <;> cases h
    · exact .inr ⟨hv, _, .here, .un c e sp⟩
    · exact (versionE_sound since e _ hl).mono fun x hx => .un hx
  | .bin c l r sp, u, h => by
    rw [versionE] at h
    split at h
    · cases h
    rename_i v hv
    split at h
    · cases h
    rename_i l' hl
    split at h
    · cases h
    split at h
    · cases h
    rename_i r' hr
    split at h
    · cases h
    split at h
    · cases h
      exact .inr ⟨hv, _, .here, .bin c l r sp⟩
    split at h <;> cases h
    · exact (versionE_sound since l _ hl).mono fun x hx => .left hx
    · exact (versionE_sound since r _ hr).mono fun x hx => .right hx
  | .code ss src sp, u, h => by
    rw [versionE] at h
    cases h
    exact versionSs_sound since ss (Within · (.code ss src sp)) _ (.inl rfl) fun s hs x hx => .code hs hx
  | .str .., u, h | .num .., u, h | .bool .., u, h | .arr .., u, h | .carr .., u, h | .var .., u, h => by
    rw [versionE] at h; cases h
theorem versionSs_sound (since : Bytes → Option Nat) : ∀ (ss : List Stmt) (P : Expr → Prop) acc, Found since P acc →
    (∀ s ∈ ss, ∀ x, Within x (body s) → P x) → Found since P (versionSs since acc ss)
  | [], P, acc, h, _ => h
  | s :: ss, P, acc, h, hP => by
    rw [versionSs]
    refine versionSs_sound since ss P _ ?_ fun s hs => hP s (List.mem_cons_of_mem _ hs)
    have key : ∀ u, versionS since s = some u → Found since P u := fun u hu =>
      (versionS_sound since s u hu).mono (hP s (by simp))
    split
    · rename_i u hu
      split
      · exact key u hu
      · exact h
    · exact h
theorem versionS_sound (since : Bytes → Option Nat) : ∀ (s : Stmt) u, versionS since s = some u → Found since (Within · (body s)) u
  | .assignGlobal n e sp, u, h | .assignLocal n e sp, u, h | .expr e sp, u, h => by
    rw [versionS] at h
    exact versionE_sound since e u h
end

/-- The loop finds at least what it has found already, and at least what any statement gives. -/
theorem versionSs_ge (since : Bytes → Option Nat) : ∀ (ss : List Stmt) acc, acc.2.1 ≤ (versionSs since acc ss).2.1 ∧
    ∀ s ∈ ss, ∀ u, versionE since (body s) = some u → u.2.1 ≤ (versionSs since acc ss).2.1
  | [], acc => by simp [versionSs]
  | s :: ss, acc => by
    rw [versionSs_cons]
    obtain ⟨h1, h2⟩ := versionSs_ge since ss (match versionE since (body s) with
      | some u => if u.2.1 > acc.2.1 then u else acc
      | none => acc)
    constructor
    · refine le_trans ?_ h1
      split
      · split <;> omega
      · exact le_rfl
    · intro t ht u hu
      rcases List.mem_cons.1 ht with rfl | ht
      · refine le_trans ?_ h1
        rw [hu]
        dsimp only
        split <;> omega
      · exact h2 t ht u hu

/-- What is found in a covered expression is a maximum. -/
theorem covered_max {since : Bytes → Option Nat} {e : Expr} (h : Covered since e) : ∃ u, versionE since e = some u ∧
    since u.1 = some u.2.1 ∧ u.2.1 ≠ 0 ∧ ∀ x c sp w, Within x e → UseOf c sp x → since c = some w → w ≤ u.2.1 := by
  induction h with
  | @nular n sp v hv h0 =>
    refine ⟨(n, v, sp), by rw [versionE, hv], hv, h0, ?_⟩
    intro x c sp' w hx hu hw
    cases hx
    cases hu
    rw [hv] at hw
    cases hw
    exact le_rfl
  | @un c e sp v hv _ ih =>
    obtain ⟨u, hu, hs, h0, hm⟩ := ih
    rw [versionE, hv, hu]
    dsimp only
    rw [hs]
    dsimp only
    refine ⟨_, (apply_ite some ..).symm, ?_, ?_, ?_⟩
    · split <;> assumption
    · split <;> (try dsimp only) <;> omega
    · intro x c' sp' w hx hu' hw
      have : w ≤ max v u.2.1 := by
        cases hx with
        | here =>
          cases hu'
          rw [hv] at hw
          cases hw
          omega
        | un hx => have := hm x c' sp' w hx hu' hw; omega
      split <;> (try dsimp only) <;> omega
  | @bin c l r sp v hv _ _ ihl ihr =>
    obtain ⟨u, hu, hs, h0, hm⟩ := ihl
    obtain ⟨u', hu1, hs', h0', hm'⟩ := ihr
    rw [versionE, hv, hu]
    dsimp only
    rw [hs, hu1]
    dsimp only
    rw [hs']
    dsimp only
    refine ⟨if v > u.2.1 ∧ v > u'.2.1 then (c.asStr, v, sp) else if u.2.1 > u'.2.1 then u else u', by split_ifs <;> rfl, ?_, ?_, ?_⟩
    · split_ifs <;> assumption
    · split_ifs <;> (try dsimp only) <;> omega
    · intro x c' sp' w hx hu' hw
      have : w ≤ max v (max u.2.1 u'.2.1) := by
        cases hx with
        | here =>
          cases hu'
          rw [hv] at hw
          cases hw
          omega
        | left hx => have := hm x c' sp' w hx hu' hw; omega
        | right hx => have := hm' x c' sp' w hx hu' hw; omega
      split_ifs <;> (try dsimp only) <;> omega
  | @code ss src sp hne hall ih =>
    rw [versionE]
    refine ⟨_, rfl, ?_⟩
    obtain ⟨s, ss', rfl⟩ := List.exists_cons_of_ne_nil hne
    have hge := (versionSs_ge since (s :: ss') ([], 0, (0, 0))).2
    obtain ⟨u, hu, _, h0, _⟩ := ih s (by simp)
    have hpos := hge s (by simp) u hu
    have hf := versionSs_sound since (s :: ss') (fun _ => True) ([], 0, (0, 0)) (.inl rfl) fun _ _ _ _ => trivial
    have hne0 : (versionSs since ([], 0, (0, 0)) (s :: ss')).2.1 ≠ 0 := by omega
    refine ⟨(hf.resolve_left hne0).1, hne0, ?_⟩
    intro x c sp' w hx hu' hw
    cases hx with
    | here => cases hu'
    | code hs hx =>
      rename_i t
      obtain ⟨u2, hu2, _, _, hm2⟩ := ih t hs
      exact le_trans (hm2 x c sp' w hx hu' hw) (hge t hs u2 hu2)

end Verif.SqfLint
