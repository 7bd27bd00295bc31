import Verif.Lib.SqfBlocks
import Mathlib.Logic.Function.Basic
/-! C72: reserved variables (S23). -/
namespace Verif.SqfLint
open Verif.Sqf Verif.SqfLex

theorem assignment_some {s : Stmt} {x : Bytes} {e : Expr} {sp : Span} (h : assignment s = some (x, e, sp)) : Assigns s x e := by
  cases s <;> cases h
  · exact .global ..
  · exact .local_ ..

theorem Assigns.assignment {s : Stmt} {x : Bytes} {e : Expr} (h : Assigns s x e) : ∃ sp, assignment s = some (x, e, sp) := by
  cases h <;> exact ⟨_, rfl⟩

theorem Reserved.get_none {st : Reserved} {h : Bytes} : st.get h = none ↔ ∀ p ∈ st.need, p.1 ≠ h := by
  simp [Reserved.get]

theorem Reserved.get_some {st : Reserved} {h : Bytes} (hs : (st.get h).isSome = true) : ∃ r sp, (h, r, sp) ∈ st.need := by
  simp only [Reserved.get, Option.isSome_map, List.find?_isSome] at hs
  obtain ⟨⟨a, r, sp⟩, hm, he⟩ := hs
  exact ⟨r, sp, by have : a = h := by simpa using he
                   rwa [this] at hm⟩

/-- What holds in the loop: `σ₀` are the values before the block, `σ` the ones now. -/
structure Safe {V : Type} (keeps : Bytes → Option Bytes) (σ₀ σ : Bytes → V) (st : Reserved) : Prop where
  need : ∀ h r sp, (h, r, sp) ∈ st.need → keeps h = some r ∧ σ h = σ₀ r
  just : ∀ r h, st.justSaved = some (r, h) → keeps h = some r ∧ σ h = σ₀ r
  value : ∀ r ∈ reservedVars, (∃ h sp, (h, r, sp) ∈ st.need) ∨ σ r = σ₀ r

/-- One assignment of the value `v` that is not reported. -/
theorem safe_step {V : Type} {keeps : Bytes → Option Bytes} {σ₀ σ : Bytes → V} {st : Reserved} {s : Stmt} {ss : List Stmt} {x : Bytes} {e : Expr}
    {v : V} (ht : Tidy reservedVars keeps (s :: ss)) (ha : Assigns s x e) (hv : ∀ w sp, e = .var w sp → v = σ w)
    (hs : Safe keeps σ₀ σ st) (hr : (reservedStep st s).1 = []) : Safe keeps σ₀ (Function.update σ x v) (reservedStep st s).2 := by
  obtain ⟨sp, hsp⟩ := ha.assignment
  have hmem : s ∈ s :: ss := by simp
  -- a variable that keeps something is only assigned what it keeps
  have keep : ∀ h r, keeps h = some r → ¬(x = h) ∨ (x = h ∧ ∃ sp, e = .var r sp) := by
    intro h r hk
    by_cases hx : x = h
    · obtain ⟨sp, hsp⟩ := ht.kept s hmem h r e (hx ▸ ha) hk
      exact .inr ⟨hx, sp, hsp⟩
    · exact .inl hx
  unfold reservedStep at hr ⊢
  rw [hsp] at hr ⊢
  dsimp only at hr ⊢
  split at hr
  · -- overwriting what has just been saved
    rename_i hj
    rw [if_pos hj]
    cases hjs : st.justSaved with
    | none => rw [hjs] at hj; cases hj
    | some p =>
      obtain ⟨r, h⟩ := p
      have hrx : r = x := by simpa [hjs] using hj
      subst hrx
      obtain ⟨hk, hval⟩ := hs.just _ _ hjs
      have hres := ht.unreserved h r hk
      have other : ∀ h' r', keeps h' = some r' → Function.update σ r v h' = σ h' := by
        intro h' r' hk'
        refine Function.update_of_ne ?_ _ _
        rintro rfl
        exact (ht.unreserved _ _ hk').1 hres.2
      refine ⟨?_, fun _ _ h => (nomatch h), ?_⟩
      · intro h' r' sp' hm
        dsimp only at hm
        rcases List.mem_cons.1 hm with heq | hm
        · cases heq
          exact ⟨hk, (other _ _ hk).trans hval⟩
        · obtain ⟨hk', hv'⟩ := hs.need h' r' sp' (List.mem_filter.1 hm).1
          exact ⟨hk', (other _ _ hk').trans hv'⟩
      · intro r' hr'
        dsimp only
        by_cases hrr : r' = r
        · exact .inl ⟨h, sp, by simp [hrr]⟩
        · rcases hs.value r' hr' with ⟨h', sp', hm⟩ | hv'
          · refine .inl ⟨h', sp', List.mem_cons_of_mem _ (List.mem_filter.2 ⟨hm, ?_⟩)⟩
            have hk' := (hs.need h' r' sp' hm).1
            simp only [bne_iff_ne, ne_eq]
            rintro rfl
            rw [hk] at hk'
            exact hrr (by cases hk'; rfl)
          · exact .inr (by rw [Function.update_of_ne hrr]; exact hv')
  · rename_i hj
    rw [if_neg hj]
    have hget : st.get x = none := by
      cases hg : st.get x with
      | none => rfl
      | some p =>
        obtain ⟨r, sp'⟩ := p
        simp only [hg] at hr
        repeat' split at hr
        all_goals simp at hr
    simp only [hget] at hr ⊢
    have hnot : ∀ r sp', (x, r, sp') ∉ st.need := fun r sp' hm => Reserved.get_none.1 hget _ hm rfl
    split at hr
    · rename_i w hw
      have he : ∃ sp', e = .var w sp' := by
        cases e <;> cases hw
        exact ⟨_, rfl⟩
      obtain ⟨spw, rfl⟩ := he
      have hval : v = σ w := hv w spw rfl
      subst hval
      split at hr
      · -- restoring
        rename_i hg
        rw [if_pos hg]
        obtain ⟨r, sp', hm⟩ := Reserved.get_some hg
        obtain ⟨hk, hvw⟩ := hs.need _ _ _ hm
        have hx : x = r := ht.back s hmem x w r spw ha hk
        subst hx
        have hres := ht.unreserved w x hk
        have other : ∀ h' r', keeps h' = some r' → Function.update σ x (σ w) h' = σ h' := by
          intro h' r' hk'
          refine Function.update_of_ne ?_ _ _
          rintro rfl
          exact (ht.unreserved _ _ hk').1 hres.2
        refine ⟨?_, ?_, ?_⟩
        · intro h' r' sp'' hm'
          obtain ⟨hk', hv'⟩ := hs.need h' r' sp'' (List.mem_filter.1 hm').1
          exact ⟨hk', (other _ _ hk').trans hv'⟩
        · intro r' h' hj'
          obtain ⟨hk', hv'⟩ := hs.just r' h' hj'
          exact ⟨hk', (other _ _ hk').trans hv'⟩
        · intro r' hr'
          by_cases hrr : r' = x
          · right
            subst hrr
            rw [Function.update_self, hvw]
          · rcases hs.value r' hr' with ⟨h', sp'', hm'⟩ | hv'
            · refine .inl ⟨h', sp'', List.mem_filter.2 ⟨hm', ?_⟩⟩
              have hk' := (hs.need h' r' sp'' hm').1
              simp only [bne_iff_ne, ne_eq]
              rintro rfl
              rw [hk] at hk'
              exact hrr (by cases hk'; rfl)
            · exact .inr (by rw [Function.update_of_ne hrr]; exact hv')
      · rename_i hg
        rw [if_neg hg]
        split at hr
        · simp at hr
        rename_i hxr
        rw [if_neg hxr]
        have hxr' : x ∉ reservedVars := by simpa using hxr
        split at hr
        · -- saving
          rename_i hwr
          rw [if_pos hwr]
          have hwr' : w ∈ reservedVars := by simpa using hwr
          have hk := ht.saved s hmem x w spw ha hwr' hxr'
          have hcur : σ w = σ₀ w := by
            rcases hs.value w hwr' with ⟨h', sp'', hm'⟩ | hv'
            · have hk' := (hs.need h' w sp'' hm').1
              have := ht.one _ _ _ hk hk'
              subst this
              exact absurd hm' (hnot _ _)
            · exact hv'
          refine ⟨?_, ?_, ?_⟩
          · intro h' r' sp'' hm'
            obtain ⟨hk', hv'⟩ := hs.need h' r' sp'' hm'
            refine ⟨hk', ?_⟩
            rw [Function.update_of_ne]
            · exact hv'
            · rintro rfl
              exact hnot _ _ hm'
          · intro r' h' hj'
            cases hj'
            exact ⟨hk, by rw [Function.update_self, hcur]⟩
          · intro r' hr'
            rcases hs.value r' hr' with hl | hv'
            · exact .inl hl
            · right
              rw [Function.update_of_ne]
              · exact hv'
              · rintro rfl
                exact hxr' hr'
        · rename_i hwr
          rw [if_neg hwr]
          have hwr' : w ∉ reservedVars := by simpa using hwr
          have hxk : ∀ r, keeps x ≠ some r := by
            intro r hk
            rcases keep x r hk with h | ⟨_, sp', h⟩
            · exact h rfl
            · cases h
              exact hwr' (ht.unreserved _ _ hk).2
          refine ⟨?_, ?_, ?_⟩
          · intro h' r' sp'' hm'
            obtain ⟨hk', hv'⟩ := hs.need h' r' sp'' hm'
            refine ⟨hk', ?_⟩
            rw [Function.update_of_ne]
            · exact hv'
            · rintro rfl
              exact hxk _ hk'
          · intro r' h' hj'
            obtain ⟨hk', hv'⟩ := hs.just r' h' hj'
            refine ⟨hk', ?_⟩
            rw [Function.update_of_ne]
            · exact hv'
            · rintro rfl
              exact hxk _ hk'
          · intro r' hr'
            rcases hs.value r' hr' with hl | hv'
            · exact .inl hl
            · right
              rw [Function.update_of_ne]
              · exact hv'
              · rintro rfl
                exact hxr' hr'
    · rename_i hw
      have hnv : ∀ w sp', e ≠ .var w sp' := by
        rintro w sp' rfl
        cases hw
      split at hr
      · simp at hr
      rename_i hxr
      simp only [if_neg hxr]
      have hxr' : x ∉ reservedVars := by simpa using hxr
      have hxk : ∀ r, keeps x ≠ some r := by
        intro r hk
        rcases keep x r hk with h | ⟨_, sp', h⟩
        · exact h rfl
        · exact hnv _ _ h
      refine ⟨?_, ?_, ?_⟩
      · intro h' r' sp'' hm'
        obtain ⟨hk', hv'⟩ := hs.need h' r' sp'' hm'
        refine ⟨hk', ?_⟩
        rw [Function.update_of_ne]
        · exact hv'
        · rintro rfl
          exact hxk _ hk'
      · intro r' h' hj'
        obtain ⟨hk', hv'⟩ := hs.just r' h' hj'
        refine ⟨hk', ?_⟩
        rw [Function.update_of_ne]
        · exact hv'
        · rintro rfl
          exact hxk _ hk'
      · intro r' hr'
        rcases hs.value r' hr' with hl | hv'
        · exact .inl hl
        · right
          rw [Function.update_of_ne]
          · exact hv'
          · rintro rfl
            exact hxr' hr'

theorem Tidy.tail {reserved : List Bytes} {keeps : Bytes → Option Bytes} {s : Stmt} {ss : List Stmt} (h : Tidy reserved keeps (s :: ss)) :
    Tidy reserved keeps ss :=
  ⟨h.unreserved, h.one, fun t ht => h.saved t (by simp [ht]), fun t ht => h.kept t (by simp [ht]), fun t ht => h.back t (by simp [ht])⟩

theorem safe_loop {V : Type} {keeps : Bytes → Option Bytes} {σ₀ σ σ' : Bytes → V} {ss : List Stmt} (hr : Runs ss σ σ') : ∀ {st : Reserved},
    Tidy reservedVars keeps ss → Safe keeps σ₀ σ st → (reservedLoop st ss).1 = [] → Safe keeps σ₀ σ' (reservedLoop st ss).2 := by
  induction hr with
  | done σ => intro st _ hs _; exact hs
  | @expr e sp ss σ σ' _ ih =>
    intro st ht hs h
    unfold reservedLoop at h ⊢
    refine ih ht.tail (st := (reservedStep st (.expr e sp)).2) ?_ (List.append_eq_nil_iff.1 h).2
    exact ⟨hs.need, fun _ _ h => (nomatch h), hs.value⟩
  | @copy s x w sp ss σ σ' ha _ ih =>
    intro st ht hs h
    unfold reservedLoop at h ⊢
    have h' := List.append_eq_nil_iff.1 h
    exact ih ht.tail (safe_step ht ha (fun w' sp' he => by cases he; rfl) hs h'.1) h'.2
  | @set s x e ss σ σ' v ha hn _ ih =>
    intro st ht hs h
    unfold reservedLoop at h ⊢
    have h' := List.append_eq_nil_iff.1 h
    exact ih ht.tail (safe_step ht ha (fun w' sp' he => absurd he (hn _ _)) hs h'.1) h'.2

/-- C72: if nothing is reported for a block that uses the variables it saves reserved ones in for nothing else, then after every
run of the block the reserved variables have the values they had before. It is false of blocks that use them for something else,
see `C72_violated`. -/
theorem C72_restored {V : Type} {keeps : Bytes → Option Bytes} {ss : List Stmt} {σ σ' : Bytes → V} (ht : Tidy reservedVars keeps ss)
    (h : ReservedRun ss []) (hr : Runs ss σ σ') : ∀ r ∈ reservedVars, σ' r = σ r := by
  obtain ⟨l, hp, hl⟩ := h
  have h1 := List.append_eq_nil_iff.1 hl.symm
  have hn : (reservedLoop {} ss).2.need = [] := by
    have : l = [] := by simpa using h1.2
    subst this
    exact List.nil_perm.1 hp
  have := safe_loop (keeps := keeps) (σ₀ := σ) hr (st := {}) ht ⟨fun _ _ _ h => (nomatch h), fun _ _ h => (nomatch h), fun r _ => .inr rfl⟩ h1.1
  intro r hr
  rcases this.value r hr with ⟨h, sp, hm⟩ | h
  · rw [hn] at hm; cases hm
  · exact h

/-! ### What is reported -/

theorem reservedLoop_append (st : Reserved) : ∀ (pre post : List Stmt), reservedLoop st (pre ++ post) =
    ((reservedLoop st pre).1 ++ (reservedLoop (reservedLoop st pre).2 post).1, (reservedLoop (reservedLoop st pre).2 post).2)
  | [], post => rfl
  | s :: pre, post => by
    simp only [List.cons_append, reservedLoop, reservedLoop_append (reservedStep st s).2 pre post, List.append_assoc]

/-- Everything the loop knows as saved has been assigned. -/
def Known (pre : List Stmt) (st : Reserved) : Prop :=
  (∀ r h, st.justSaved = some (r, h) → r ∈ reservedVars ∧ ∃ t ∈ pre, ∃ sp, Assigns t h (.var r sp)) ∧
  ∀ h r sp, (h, r, sp) ∈ st.need → r ∈ reservedVars ∧ ∃ t ∈ pre, ∃ sp, Assigns t h (.var r sp)

theorem known_step {pre : List Stmt} {st : Reserved} (s : Stmt) (h : Known pre st) : Known (pre ++ [s]) (reservedStep st s).2 := by
  have old : Known (pre ++ [s]) st :=
    ⟨fun r h' hj => (h.1 r h' hj).imp_right fun ⟨t, ht, hx⟩ => ⟨t, List.mem_append_left _ ht, hx⟩,
     fun h' r sp hm => (h.2 h' r sp hm).imp_right fun ⟨t, ht, hx⟩ => ⟨t, List.mem_append_left _ ht, hx⟩⟩
  unfold reservedStep
  cases ha : assignment s with
  | none => exact ⟨fun _ _ h => (nomatch h), old.2⟩
  | some p =>
    obtain ⟨x, e, sp⟩ := p
    have hx := assignment_some ha
    dsimp only
    split
    · refine ⟨fun _ _ h => (nomatch h), ?_⟩
      cases hj : st.justSaved with
      | none => exact old.2
      | some p =>
        obtain ⟨r, k⟩ := p
        intro h' r' sp' hm
        dsimp only at hm
        rcases List.mem_cons.1 hm with heq | hm
        · cases heq
          exact old.1 _ _ hj
        · exact old.2 _ _ _ (List.mem_filter.1 hm).1
    · split
      · rename_i w hw
        split
        · exact ⟨old.1, fun h' r' sp' hm => old.2 _ _ _ (List.mem_filter.1 hm).1⟩
        split
        · exact old
        split
        · rename_i hwr
          refine ⟨?_, old.2⟩
          intro r h' hj
          cases hj
          refine ⟨by simpa using hwr, s, by simp, ?_⟩
          cases e <;> cases hw
          exact ⟨_, hx⟩
        · exact old
      · split <;> exact old

theorem known_loop : ∀ (ss pre : List Stmt) (st : Reserved), Known pre st → Known (pre ++ ss) (reservedLoop st ss).2
  | [], pre, st, h => by simpa [reservedLoop] using h
  | s :: ss, pre, st, h => by
    have := known_loop ss (pre ++ [s]) _ (known_step s h)
    simpa [reservedLoop] using this

/-- C72: an assignment to a reserved variable is reported if the variable has not been saved before in the block and what is
assigned is no variable one of them has been saved in. -/
theorem C72_overwritten {pre post : List Stmt} {s : Stmt} {r : Bytes} {e : Expr} {sp : Span} {reports : List ReservedReport}
    (hr : r ∈ reservedVars) (hs : s = .assignGlobal r e sp ∨ s = .assignLocal r e sp)
    (h1 : ∀ t ∈ pre, ∀ x sp', ¬Assigns t x (.var r sp'))
    (h2 : ∀ w sp', e = .var w sp' → ∀ t ∈ pre, ∀ r' ∈ reservedVars, ∀ sp'', ¬Assigns t w (.var r' sp''))
    (h : ReservedRun (pre ++ s :: post) reports) : .overwrite r sp ∈ reports := by
  obtain ⟨l, _, rfl⟩ := h
  refine List.mem_append_left _ ?_
  rw [reservedLoop_append]
  refine List.mem_append_right _ ?_
  have hk := known_loop pre [] {} ⟨fun _ _ h => (nomatch h), fun _ _ _ h => (nomatch h)⟩
  rw [List.nil_append] at hk
  rw [reservedLoop]
  refine List.mem_append_left _ ?_
  have ha : assignment s = some (r, e, sp) := by rcases hs with rfl | rfl <;> rfl
  unfold reservedStep
  rw [ha]
  dsimp only
  have hj : ¬((reservedLoop {} pre).2.justSaved.any fun p => p.1 == r) = true := by
    cases hjs : (reservedLoop {} pre).2.justSaved with
    | none => simp
    | some p =>
      obtain ⟨r', k⟩ := p
      obtain ⟨_, t, ht, sp', hx⟩ := hk.1 _ _ hjs
      simp only [Option.any_some, beq_iff_eq]
      rintro rfl
      exact h1 t ht _ _ hx
  rw [if_neg hj]
  have hc : reservedVars.contains r = true := by simpa using hr
  cases hv : asVar e with
  | none =>
    dsimp only
    rw [if_pos hc]
    simp
  | some w =>
    dsimp only
    have he : ∃ sp', e = .var w sp' := by
      cases e <;> cases hv
      exact ⟨_, rfl⟩
    obtain ⟨spw, rfl⟩ := he
    rw [if_neg, if_pos hc]
    · simp
    · intro hg
      obtain ⟨r', sp', hm⟩ := Reserved.get_some hg
      obtain ⟨hr', t, ht, sp'', hx⟩ := hk.2 _ _ _ hm
      exact h2 w spw rfl t ht r' hr' sp'' hx

/-- How a parameter is named. -/
inductive NamesParam : Expr → Bytes → Span → Prop where
  | plain (n : Bytes) (sp : Span) (w : Wrapper) : NamesParam (.str n sp w) n sp
  | array (n : Bytes) (sp : Span) (w : Wrapper) (es : List Expr) (sp' : Span) : NamesParam (.arr (.str n sp w :: es) sp') n sp

theorem paramName_iff {e : Expr} {n : Bytes} {sp : Span} : paramName e = some (n, sp) ↔ NamesParam e n sp := by
  constructor
  · intro h
    unfold paramName at h
    split at h <;> cases h
    · exact .plain ..
    · exact .array ..
  · rintro (_ | _) <;> rfl

/-- C72: `params` is reported exactly if it names a reserved variable (spelled as the game does), for the first it names. -/
theorem C72_params {lower : Bytes → Bytes} {c : Bytes} {l : Option Expr} {vs : List Expr} {sp sp' : Span} {report : ReservedReport}
    (hc : lower c = ascii "params") :
    reservedParams lower (match l with
      | none => .un (.named c) (.arr vs sp) sp'
      | some l => .bin (.named c) l (.arr vs sp) sp') = some report ↔
    ∃ pre e post n s, vs = pre ++ e :: post ∧ NamesParam e n s ∧ n ∈ reservedVars ∧ report = .overwrite n s ∧
      ∀ x ∈ pre, ∀ m s', NamesParam x m s' → m ∉ reservedVars := by
  have red : reservedParams lower (match l with
      | none => .un (.named c) (.arr vs sp) sp'
      | some l => .bin (.named c) l (.arr vs sp) sp') =
      ((vs.filterMap paramName).find? fun p => reservedVars.contains p.1).map fun p => .overwrite p.1 p.2 := by
    cases l <;> simp [reservedParams, hc]
  rw [red]
  clear red
  induction vs with
  | nil => simp
  | cons e vs ih =>
    cases hp : paramName e with
    | none =>
      rw [List.filterMap_cons_none hp]
      refine Iff.trans ih ?_
      constructor
      · rintro ⟨pre, e', post, n, s, rfl, h1, h2, h3, h4⟩
        refine ⟨e :: pre, e', post, n, s, rfl, h1, h2, h3, ?_⟩
        intro x hx m s' hm
        rcases List.mem_cons.1 hx with rfl | hx
        · rw [paramName_iff.2 hm] at hp; cases hp
        · exact h4 x hx m s' hm
      · rintro ⟨pre, e', post, n, s, heq, h1, h2, h3, h4⟩
        cases pre with
        | nil =>
          cases heq
          rw [paramName_iff.2 h1] at hp; cases hp
        | cons x pre =>
          cases heq
          exact ⟨pre, e', post, n, s, rfl, h1, h2, h3, fun x hx => h4 x (List.mem_cons_of_mem _ hx)⟩
    | some p =>
      obtain ⟨n0, s0⟩ := p
      rw [List.filterMap_cons_some hp, List.find?_cons]
      have hn := paramName_iff.1 hp
      have uniq : ∀ m s', NamesParam e m s' → m = n0 ∧ s' = s0 := by
        intro m s' h
        have := paramName_iff.2 h
        rw [hp] at this
        cases this
        exact ⟨rfl, rfl⟩
      by_cases hm : n0 ∈ reservedVars
      · rw [show reservedVars.contains (n0, s0).1 = true by simpa using hm]
        simp only [Option.map_some, Option.some.injEq]
        constructor
        · rintro rfl
          exact ⟨[], e, vs, n0, s0, rfl, hn, hm, rfl, by simp⟩
        · rintro ⟨pre, e', post, n, s, heq, h1, h2, h3, h4⟩
          cases pre with
          | nil =>
            cases heq
            obtain ⟨rfl, rfl⟩ := uniq _ _ h1
            exact h3.symm
          | cons x pre =>
            cases heq
            exact absurd hm (h4 e (by simp) _ _ hn)
      · rw [show reservedVars.contains (n0, s0).1 = false by simpa using hm]
        dsimp only
        refine Iff.trans ih ?_
        constructor
        · rintro ⟨pre, e', post, n, s, rfl, h1, h2, h3, h4⟩
          refine ⟨e :: pre, e', post, n, s, rfl, h1, h2, h3, ?_⟩
          intro x hx m s' hx'
          rcases List.mem_cons.1 hx with rfl | hx
          · obtain ⟨rfl, rfl⟩ := uniq _ _ hx'
            exact hm
          · exact h4 x hx m s' hx'
        · rintro ⟨pre, e', post, n, s, heq, h1, h2, h3, h4⟩
          cases pre with
          | nil =>
            cases heq
            obtain ⟨rfl, rfl⟩ := uniq _ _ h1
            exact absurd h2 hm
          | cons x pre =>
            cases heq
            exact ⟨pre, e', post, n, s, rfl, h1, h2, h3, fun x hx => h4 x (List.mem_cons_of_mem _ hx)⟩

/-! ### Examples -/

/-- `x = y`, `x = 5` -/
def copies (x y : String) : Stmt := .assignGlobal (ascii x) (.var (ascii y) (0, 0)) (0, 0)
def sets (x : String) : Stmt := .assignGlobal (ascii x) (.num 0x40a00000 (0, 0)) (0, 0)

theorem runs_copies {V : Type} {x y : String} {ss : List Stmt} {σ σ' : Bytes → V}
    (h : Runs ss (Function.update σ (ascii x) (σ (ascii y))) σ') : Runs (copies x y :: ss) σ σ' := .copy (.global ..) h
theorem runs_sets {V : Type} {x : String} {ss : List Stmt} {σ σ' : Bytes → V} (v : V)
    (h : Runs ss (Function.update σ (ascii x) v) σ') : Runs (sets x :: ss) σ σ' := .set v (.global ..) (by intro _ _ h; cases h) h

/-- `_old = _this; _this = 5; _this = _old` -/
def tidyBlock : List Stmt := [copies "_old" "_this", sets "_this", copies "_this" "_old"]

theorem tidyBlock_tidy : Tidy reservedVars (fun h => if h = ascii "_old" then some (ascii "_this") else none) tidyBlock where
  unreserved := by
    intro h r hk
    split at hk
    · rename_i hh
      cases hk
      subst hh
      decide +kernel
    · cases hk
  one := by
    intro h h' r hk hk'
    split at hk <;> split at hk' <;> simp_all
  saved := by
    intro s hs h r sp ha hr hh
    simp only [tidyBlock, copies, sets, List.mem_cons, List.not_mem_nil, or_false] at hs
    rcases hs with rfl | rfl | rfl <;> cases ha
    · decide +kernel
    · exact absurd hr (by decide +kernel)
  kept := by
    intro s hs h r e ha hk
    simp only [tidyBlock, copies, sets, List.mem_cons, List.not_mem_nil, or_false] at hs
    rcases hs with rfl | rfl | rfl <;> cases ha
    · simp only [if_true] at hk
      cases hk
      exact ⟨_, rfl⟩
    · rw [if_neg (by decide +kernel)] at hk; cases hk
    · rw [if_neg (by decide +kernel)] at hk; cases hk
  back := by
    intro s hs x h r sp ha hk
    simp only [tidyBlock, copies, sets, List.mem_cons, List.not_mem_nil, or_false] at hs
    rcases hs with rfl | rfl | rfl <;> cases ha
    · rw [if_neg (by decide +kernel)] at hk; cases hk
    · simpa using hk

theorem reservedRun_nil {ss : List Stmt} (h : reservedLoop {} ss = ([], ⟨(reservedLoop {} ss).2.justSaved, []⟩)) : ReservedRun ss [] :=
  ⟨[], by rw [h], by rw [h]; rfl⟩

example {σ σ' : Bytes → Nat} (h : Runs tidyBlock σ σ') : σ' (ascii "_this") = σ (ascii "_this") :=
  C72_restored tidyBlock_tidy (reservedRun_nil rfl) h _ (by decide +kernel)

example (reports : List ReservedReport) (h : ReservedRun ([copies "_a" "_b"] ++ sets "_this" :: []) reports) :
    .overwrite (ascii "_this") (0, 0) ∈ reports :=
  C72_overwritten (by decide +kernel) (.inl rfl) (by
    intro t ht x sp ha
    cases List.mem_singleton.1 ht
    have : (Expr.var (ascii "_b") (0, 0)) = .var (ascii "_this") sp := by cases ha
    have h2 : ascii "_b" = ascii "_this" := by injection this
    exact absurd h2 (by decide +kernel)) (by intro w sp h; cases h) h

/-- C72: blocks that leave a reserved variable changed without a report: restoring something else, changing what was saved,
saving twice, other letter case. -/
theorem C72_violated :
    (∀ ss ∈ [[copies "_old" "_this", sets "_this", copies "_x" "_old"],
        [copies "_old" "_this", sets "_old", sets "_this", copies "_this" "_old"],
        [copies "_a" "_this", sets "_this", copies "_b" "_this", sets "_this", copies "_this" "_a", copies "_this" "_b"]],
      ReservedRun ss [] ∧ ∃ σ σ' : Bytes → Nat, Runs ss σ σ' ∧ σ' (ascii "_this") ≠ σ (ascii "_this")) ∧
    ReservedRun [sets "_THIS"] [] ∧
    reservedParams id (.un (.named (ascii "params")) (.arr [.str (ascii "_THIS") (0, 0) .double] (0, 0)) (0, 0)) = none := by
  refine ⟨?_, reservedRun_nil rfl, by decide +kernel⟩
  intro ss hss
  simp only [List.mem_cons, List.not_mem_nil, or_false] at hss
  rcases hss with rfl | rfl | rfl
  · exact ⟨reservedRun_nil rfl, fun _ => 0, _, runs_copies (runs_sets 1 (runs_copies (.done _))), by decide +kernel⟩
  · exact ⟨reservedRun_nil rfl, fun _ => 0, _, runs_copies (runs_sets 1 (runs_sets 1 (runs_copies (.done _)))), by decide +kernel⟩
  · exact ⟨reservedRun_nil rfl, fun _ => 0, _, runs_copies (runs_sets 1 (runs_copies (runs_sets 2 (runs_copies (runs_copies (.done _)))))),
      by decide +kernel⟩

end Verif.SqfLint
