import Verif.Lib.SqfBlocks
import Mathlib.Data.List.Dedup
import Mathlib.Data.List.Nodup
import Mathlib.Data.List.Perm.Basic
/-! C73: updates of markers (S24). -/
namespace Verif.SqfLint
open Verif.Sqf Verif.SqfLex

/-- A statement updates the marker called `n`, or the one in the variable `n`, for everyone: with the command `c` at `sp`. -/
inductive Sends : Stmt → Bytes → Bytes × Span → Prop where
  | variable (c n : Bytes) (e : Expr) (sp s1 s2 : Span) : ascii "setMarker" <+: c → ¬ascii "Local" <:+ c →
      Sends (.expr (.bin (.named c) (.var n s1) e sp) s2) n (c, sp)
  | name (c n : Bytes) (e : Expr) (sp s1 s2 : Span) (w : Wrapper) : ascii "setMarker" <+: c → ¬ascii "Local" <:+ c →
      Sends (.expr (.bin (.named c) (.str n s1 w) e sp) s2) n (c, sp)

/-- The updates of `n` in a block, those between two assignments to `n` together; `cur` are those since the last one. -/
inductive Updates (n : Bytes) : List Stmt → List (Bytes × Span) → List (List (Bytes × Span)) → Prop where
  | done (cur : List (Bytes × Span)) : Updates n [] cur [cur]
  | call {s : Stmt} {ss : List Stmt} {c : Bytes × Span} {cur gs} : Sends s n c → Updates n ss (cur ++ [c]) gs → Updates n (s :: ss) cur gs
  | assign {s : Stmt} {ss : List Stmt} {e : Expr} {cur gs} : Assigns s n e → Updates n ss [] gs → Updates n (s :: ss) cur (cur :: gs)
  | other {s : Stmt} {ss : List Stmt} {cur gs} : (∀ c, ¬Sends s n c) → (∀ e, ¬Assigns s n e) → Updates n ss cur gs →
      Updates n (s :: ss) cur gs

theorem markerCall_iff {s : Stmt} {n : Bytes} {c : Bytes × Span} : markerCall s = some (n, c) ↔ Sends s n c := by
  constructor
  · intro h
    unfold markerCall at h
    split at h
    · rename_i cmd name e sp s2
      split at h
      · rename_i hg
        simp only [isMarkerGlobal, Bool.and_eq_true, Bool.not_eq_true', List.isPrefixOf_iff_prefix] at hg
        have hl : ¬ascii "Local" <:+ cmd := by
          rw [← List.isSuffixOf_iff_suffix, hg.2]
          simp
        unfold markerName at h
        split at h <;> cases h
        · exact .variable _ _ _ _ _ _ hg.1 hl
        · exact .name _ _ _ _ _ _ _ hg.1 hl
      · cases h
    · cases h
  · have key : ∀ c : Bytes, ascii "setMarker" <+: c → ¬ascii "Local" <:+ c → isMarkerGlobal c = true := by
      intro c h1 h2
      simp only [isMarkerGlobal, Bool.and_eq_true, Bool.not_eq_true', List.isPrefixOf_iff_prefix]
      refine ⟨h1, ?_⟩
      rw [← List.isSuffixOf_iff_suffix] at h2
      exact Bool.eq_false_iff.2 h2
    rintro (⟨_, _, _, _, _, _, h1, h2⟩ | ⟨_, _, _, _, _, _, _, h1, h2⟩) <;> simp [markerCall, key _ h1 h2, markerName]

theorem assignment_iff {s : Stmt} {n : Bytes} {e : Expr} : (∃ sp, assignment s = some (n, e, sp)) ↔ Assigns s n e := by
  constructor
  · rintro ⟨sp, h⟩
    cases s <;> cases h
    · exact .global ..
    · exact .local_ ..
  · rintro (_ | _) <;> exact ⟨_, rfl⟩

/-- The same as a function. -/
def updates (n : Bytes) : List Stmt → List (Bytes × Span) → List (List (Bytes × Span))
  | [], cur => [cur]
  | s :: ss, cur => match markerCall s with
    | some (m, c) => if m = n then updates n ss (cur ++ [c]) else updates n ss cur
    | none => match assignment s with
      | some (m, _, _) => if m = n then cur :: updates n ss [] else updates n ss cur
      | none => updates n ss cur

theorem no_assign {s : Stmt} {m : Bytes × Bytes × Span} (h : markerCall s = some m) : assignment s = none := by
  obtain ⟨n, c⟩ := m
  cases markerCall_iff.1 h <;> rfl

theorem updates_iff (n : Bytes) : ∀ (ss : List Stmt) cur gs, Updates n ss cur gs ↔ gs = updates n ss cur
  | [], cur, gs => by
    rw [updates]
    constructor
    · rintro (_ | _); rfl
    · rintro rfl; exact .done cur
  | s :: ss, cur, gs => by
    have ih := updates_iff n ss
    rw [updates]
    cases hm : markerCall s with
    | some p =>
      obtain ⟨m, c⟩ := p
      have hna := no_assign hm
      have hna' : ∀ e, ¬Assigns s n e := fun e he => by
        obtain ⟨sp, h⟩ := assignment_iff.2 he
        rw [hna] at h; cases h
      dsimp only
      split
      · rename_i hmn
        subst hmn
        constructor
        · rintro (_ | ⟨hs, h⟩ | ⟨ha, _⟩ | ⟨hn, _, _⟩)
          · rw [markerCall_iff.2 hs] at hm
            cases hm
            exact (ih _ _).1 h
          · exact absurd ha (hna' _)
          · exact absurd (markerCall_iff.1 hm) (hn _)
        · rintro rfl
          exact .call (markerCall_iff.1 hm) ((ih _ _).2 rfl)
      · rename_i hmn
        have hns : ∀ c, ¬Sends s n c := fun c' hc => by
          rw [markerCall_iff.2 hc] at hm
          cases hm
          exact hmn rfl
        constructor
        · rintro (_ | ⟨hs, h⟩ | ⟨ha, _⟩ | ⟨_, _, h⟩)
          · exact absurd hs (hns _)
          · exact absurd ha (hna' _)
          · exact (ih _ _).1 h
        · rintro rfl
          exact .other hns hna' ((ih _ _).2 rfl)
    | none =>
      have hns : ∀ c, ¬Sends s n c := fun c hc => by
        rw [markerCall_iff.2 hc] at hm; cases hm
      dsimp only
      cases ha : assignment s with
      | none =>
        have hna : ∀ e, ¬Assigns s n e := fun e he => by
          obtain ⟨sp, h⟩ := assignment_iff.2 he
          rw [ha] at h; cases h
        constructor
        · rintro (_ | ⟨hs, h⟩ | ⟨ha, _⟩ | ⟨_, _, h⟩)
          · exact absurd hs (hns _)
          · exact absurd ha (hna _)
          · exact (ih _ _).1 h
        · rintro rfl
          exact .other hns hna ((ih _ _).2 rfl)
      | some q =>
        obtain ⟨m, e, sp⟩ := q
        dsimp only
        split
        · rename_i hmn
          subst hmn
          constructor
          · rintro (_ | ⟨hs, h⟩ | ⟨_, h⟩ | ⟨_, hn, h⟩)
            · exact absurd hs (hns _)
            · rw [(ih _ _).1 h]
            · exact absurd (assignment_iff.1 ⟨sp, ha⟩) (hn _)
          · rintro rfl
            exact .assign (assignment_iff.1 ⟨sp, ha⟩) ((ih _ _).2 rfl)
        · rename_i hmn
          have hna : ∀ e, ¬Assigns s n e := fun e' he => by
            obtain ⟨sp', h⟩ := assignment_iff.2 he
            rw [ha] at h
            cases h
            exact hmn rfl
          constructor
          · rintro (_ | ⟨hs, h⟩ | ⟨ha, _⟩ | ⟨_, _, h⟩)
            · exact absurd hs (hns _)
            · exact absurd ha (hna _)
            · exact (ih _ _).1 h
          · rintro rfl
            exact .other hns hna ((ih _ _).2 rfl)

/-! ### The map -/

def curOf (p : Pending) (n : Bytes) : List (Bytes × Span) := ((p.find? fun q => q.1 == n).map (·.2)).getD []

theorem curOf_cons (m : Bytes) (cs : List (Bytes × Span)) (p : Pending) (n : Bytes) :
    curOf ((m, cs) :: p) n = if m = n then cs else curOf p n := by
  unfold curOf
  by_cases h : m = n
  · simp [h]
  · rw [List.find?_cons_of_neg (by simpa using h), if_neg h]

theorem curOf_pend (n : Bytes) (c : Bytes × Span) (m : Bytes) : ∀ p : Pending, curOf (pend n c p) m = if m = n then curOf p n ++ [c] else curOf p m
  | [] => by
    rw [pend, curOf_cons]
    by_cases h : n = m
    · subst h; simp [curOf]
    · rw [if_neg h, if_neg (Ne.symm h)]
  | (k, cs) :: p => by
    rw [pend]
    split
    · rename_i hk
      subst hk
      rw [curOf_cons, curOf_cons, curOf_cons, if_pos rfl]
      by_cases h : k = m
      · subst h; simp
      · rw [if_neg h, if_neg (Ne.symm h), if_neg h]
    · rename_i hk
      rw [curOf_cons, curOf_cons, curOf_cons, if_neg hk, curOf_pend n c m p]
      by_cases h : k = m
      · subst h; rw [if_pos rfl, if_neg hk, if_pos rfl]
      · rw [if_neg h, if_neg h]

theorem keys_pend (n : Bytes) (c : Bytes × Span) : ∀ (p : Pending) m, m ∈ (pend n c p).map (·.1) ↔ m = n ∨ m ∈ p.map (·.1)
  | [], m => by simp [pend]
  | (k, cs) :: p, m => by
    rw [pend]
    split
    · rename_i hk
      subst hk
      simp
    · simp only [List.map_cons, List.mem_cons, keys_pend n c p m]
      tauto

theorem nodup_pend (n : Bytes) (c : Bytes × Span) : ∀ p : Pending, (p.map (·.1)).Nodup → ((pend n c p).map (·.1)).Nodup
  | [], _ => by simp [pend]
  | (k, cs) :: p, h => by
    rw [pend]
    split
    · simpa using h
    · rename_i hk
      rw [List.map_cons, List.nodup_cons] at h ⊢
      refine ⟨?_, nodup_pend n c p h.2⟩
      rw [keys_pend]
      rintro (rfl | hm)
      · exact hk rfl
      · exact h.1 hm

theorem curOf_filter (p : Pending) (n m : Bytes) : curOf (p.filter fun q => q.1 != n) m = if m = n then [] else curOf p m := by
  induction p with
  | nil => simp [curOf]
  | cons q p ih =>
    obtain ⟨k, cs⟩ := q
    rw [List.filter_cons]
    split
    · rename_i hk
      have hk : k ≠ n := by simpa using hk
      rw [curOf_cons, curOf_cons, ih]
      by_cases h : k = m
      · subst h; simp [hk]
      · rw [if_neg h, if_neg h]
    · rename_i hk
      have hk : k = n := by simpa using hk
      subst hk
      rw [ih, curOf_cons]
      by_cases h : m = k
      · rw [if_pos h, if_pos h]
      · rw [if_neg h, if_neg h, if_neg (Ne.symm h)]

theorem curOf_none {p : Pending} {n : Bytes} (h : n ∉ p.map (·.1)) : curOf p n = [] := by
  induction p with
  | nil => rfl
  | cons q p ih =>
    obtain ⟨k, cs⟩ := q
    simp only [List.map_cons, List.mem_cons, not_or] at h
    rw [curOf_cons, if_neg (Ne.symm h.1), ih h.2]

theorem flatMap_single {α : Type} {names : List Bytes} (hn : names.Nodup) {n : Bytes} (h : n ∈ names) (A : List α) :
    names.flatMap (fun m => if m = n then A else []) = A := by
  induction names with
  | nil => cases h
  | cons k names ih =>
    rw [List.nodup_cons] at hn
    rw [List.flatMap_cons]
    by_cases hk : k = n
    · subst hk
      rw [if_pos rfl]
      have : names.flatMap (fun m => if m = k then A else []) = [] := by
        rw [List.flatMap_eq_nil_iff]
        intro m hm
        rw [if_neg]
        rintro rfl
        exact hn.1 hm
      rw [this, List.append_nil]
    · rw [if_neg hk, List.nil_append, ih hn.2 ((List.mem_cons.1 h).resolve_left (Ne.symm hk))]

/-- At the end of the block. -/
theorem final_perm {names : List Bytes} (hn : names.Nodup) : ∀ p : Pending, (p.map (·.1)).Nodup → (∀ m ∈ p.map (·.1), m ∈ names) →
    ((p.map (·.2)).filter fun c => decide (c.length > 1)).Perm (names.flatMap fun n => [curOf p n].filter fun c => decide (c.length > 1))
  | [], _, _ => by
    rw [show (names.flatMap fun n => [curOf [] n].filter fun c => decide (c.length > 1)) = [] by
      rw [List.flatMap_eq_nil_iff]; intro m _; simp [curOf]]
    simp
  | (k, cs) :: p, hp, hk => by
    rw [List.map_cons, List.nodup_cons] at hp
    have ih := final_perm hn p hp.2 fun m hm => hk m (by simp only [List.map_cons, List.mem_cons]; exact .inr hm)
    have hsplit : (fun n => [curOf ((k, cs) :: p) n].filter fun c => decide (c.length > 1)) = fun n =>
        (if n = k then [cs].filter (fun c => decide (c.length > 1)) else []) ++ [curOf p n].filter (fun c => decide (c.length > 1)) := by
      funext n
      rw [curOf_cons]
      by_cases h : n = k
      · subst h
        rw [if_pos rfl, if_pos rfl, curOf_none hp.1]
        simp
      · rw [if_neg (Ne.symm h), if_neg h, List.nil_append]
    rw [hsplit]
    refine List.Perm.trans ?_ (List.flatMap_append_perm names _ _)
    rw [flatMap_single hn (hk k (by simp))]
    rw [List.map_cons, List.filter_cons]
    split
    · rename_i h
      rw [List.filter_cons_of_pos (p := fun c : List (Bytes × Span) => decide (c.length > 1)) (l := []) h]
      exact ih.cons _
    · rename_i h
      rw [List.filter_cons_of_neg (p := fun c : List (Bytes × Span) => decide (c.length > 1)) (l := []) h]
      exact ih

theorem loop_perm {names : List Bytes} (hn : names.Nodup) : ∀ (ss : List Stmt) (p : Pending), (p.map (·.1)).Nodup →
    (∀ m ∈ p.map (·.1), m ∈ names) → (∀ s ∈ ss, ∀ n c, markerCall s = some (n, c) → n ∈ names) →
    ((markerLoop p ss).1 ++ ((markerLoop p ss).2.map (·.2)).filter fun c => decide (c.length > 1)).Perm
      (names.flatMap fun n => (updates n ss (curOf p n)).filter fun c => decide (c.length > 1))
  | [], p, hp, hk, _ => by
    simp only [markerLoop, List.nil_append, updates]
    exact final_perm hn p hp hk
  | s :: ss, p, hp, hk, hs => by
    have hs' : ∀ t ∈ ss, ∀ n c, markerCall t = some (n, c) → n ∈ names := fun t ht => hs t (by simp [ht])
    rw [markerLoop]
    cases hm : markerCall s with
    | some q =>
      obtain ⟨n, c⟩ := q
      dsimp only
      have ih := loop_perm hn ss (pend n c p) (nodup_pend n c p hp) (by
        intro m hm'
        rcases (keys_pend n c p m).1 hm' with rfl | h
        · exact hs s (by simp) _ _ hm
        · exact hk m h) hs'
      refine ih.trans (List.Perm.of_eq ?_)
      congr 1
      funext m
      rw [updates, hm, curOf_pend]
      dsimp only
      by_cases h : m = n
      · subst h; simp
      · rw [if_neg h, if_neg (Ne.symm h)]
    | none =>
      dsimp only
      cases ha : assignment s with
      | none =>
        dsimp only
        refine (loop_perm hn ss p hp hk hs').trans (List.Perm.of_eq ?_)
        congr 1
        funext m
        rw [updates, hm, ha]
      | some q =>
        obtain ⟨n, e, sp⟩ := q
        dsimp only
        have ih := loop_perm hn ss (p.filter fun q => q.1 != n) (hp.sublist (List.filter_sublist.map _)) (by
          intro m hm'
          obtain ⟨q, hq, rfl⟩ := List.mem_map.1 hm'
          exact hk _ (List.mem_map.2 ⟨q, (List.mem_filter.1 hq).1, rfl⟩)) hs'
        have hsplit : (fun m => (updates m (s :: ss) (curOf p m)).filter fun c => decide (c.length > 1)) = fun m =>
            (if m = n then [curOf p n].filter (fun c => decide (c.length > 1)) else []) ++
              (updates m ss (curOf (p.filter fun q => q.1 != n) m)).filter (fun c => decide (c.length > 1)) := by
          funext m
          rw [updates, hm, ha, curOf_filter]
          dsimp only
          by_cases h : m = n
          · subst h
            rw [if_pos rfl, if_pos rfl, if_pos rfl, List.filter_cons, List.filter_cons]
            split <;> simp
          · rw [if_neg h, if_neg (Ne.symm h), if_neg h, List.nil_append]
        rw [hsplit]
        refine List.Perm.trans ?_ (List.flatMap_append_perm names _ _)
        have hhead : (match p.find? fun q => q.1 == n with
            | some (_, c) => if c.length > 1 then [c] else []
            | none => []) = [curOf p n].filter fun c => decide (c.length > 1) := by
          unfold curOf
          cases p.find? fun q => q.1 == n with
          | none => simp
          | some q => simp [List.filter_cons]
        by_cases hnn : n ∈ names
        · rw [flatMap_single hn hnn, List.append_assoc]
          refine List.Perm.append (List.Perm.of_eq hhead) ih
        · have hc : curOf p n = [] := curOf_none fun h => hnn (hk n h)
          have : (names.flatMap fun m => if m = n then [curOf p n].filter (fun c => decide (c.length > 1)) else []) = [] := by
            rw [List.flatMap_eq_nil_iff]
            intro m hm'
            rw [if_neg]
            rintro rfl
            exact hnn hm'
          rw [this, List.append_assoc]
          refine List.Perm.append (List.Perm.of_eq (hhead.trans ?_)) ih
          rw [hc]
          rfl

/-- C73: which updates belong together is settled by the block. -/
theorem C73_groups (n : Bytes) (ss : List Stmt) : ∃! gs, Updates n ss [] gs :=
  ⟨updates n ss [], (updates_iff n ss [] _).2 rfl, fun gs h => (updates_iff n ss [] gs).1 h⟩

/-- C73: whatever the order of the map, the reports are exactly the groups of more than one update between assignments to the
name, each reported once. -/
theorem C73_exact {ss : List Stmt} {reports : List (List (Bytes × Span))} (h : MarkerRun ss reports) {G : Bytes → List (List (Bytes × Span))}
    (hG : ∀ n, Updates n ss [] (G n)) {names : List Bytes} (hn : names.Nodup) (hs : ∀ s ∈ ss, ∀ n c, Sends s n c → n ∈ names) :
    reports.Perm (names.flatMap fun n => (G n).filter fun g => decide (1 < g.length)) := by
  obtain ⟨l, hl, rfl⟩ := h
  have hG' : G = fun n => updates n ss [] := funext fun n => (updates_iff n ss [] _).1 (hG n)
  subst hG'
  refine List.Perm.trans ?_ (loop_perm hn ss [] (by simp) (by simp) fun s h n c hc => hs s h n c (markerCall_iff.1 hc))
  exact List.Perm.append_left _ ((hl.map _).filter _)

/-- C73: an update alone is never reported, two in a row always. -/
theorem C73_pair {s s' : Stmt} {n : Bytes} {c c' : Bytes × Span} {pre post : List Stmt} {reports : List (List (Bytes × Span))} (h1 : Sends s n c)
    (h2 : Sends s' n c') (h : MarkerRun (pre ++ s :: s' :: post) reports) : ∃ g ∈ reports, c ∈ g ∧ c' ∈ g := by
  have aux : ∀ ss cur, c ∈ cur → c' ∈ cur → ∃ g ∈ updates n ss cur, c ∈ g ∧ c' ∈ g ∧ ∃ x, g = cur ++ x := by
    intro ss
    induction ss with
    | nil => intro cur h h'; exact ⟨cur, by simp [updates], h, h', [], by simp⟩
    | cons t ss ih =>
      intro cur h h'
      rw [updates]
      split
      · rename_i m k _
        split
        · obtain ⟨g, hg, h3, h4, x, rfl⟩ := ih (cur ++ [k]) (by simp [h]) (by simp [h'])
          exact ⟨_, hg, h3, h4, [k] ++ x, by simp⟩
        · exact ih cur h h'
      · split
        · split
          · exact ⟨cur, by simp, h, h', [], by simp⟩
          · exact ih cur h h'
        · exact ih cur h h'
  have pre_ : ∀ pre cur, ∃ g ∈ updates n (pre ++ s :: s' :: post) cur, c ∈ g ∧ c' ∈ g ∧ 1 < g.length := by
    intro pre
    induction pre with
    | nil =>
      intro cur
      simp only [List.nil_append, updates, markerCall_iff.2 h1, markerCall_iff.2 h2, if_true]
      obtain ⟨g, hg, h3, h4, x, rfl⟩ := aux post (cur ++ [c] ++ [c']) (by simp) (by simp)
      exact ⟨_, hg, h3, h4, by simp; omega⟩
    | cons t pre ih =>
      intro cur
      rw [List.cons_append, updates]
      split
      · split <;> exact ih _
      · split
        · split
          · obtain ⟨g, hg, h⟩ := ih []
            exact ⟨g, List.mem_cons_of_mem _ hg, h⟩
          · exact ih _
        · exact ih _
  obtain ⟨g, hg, h3, h4, h5⟩ := pre_ pre []
  have hp := C73_exact h (G := fun n => updates n (pre ++ s :: s' :: post) []) (fun n => (updates_iff n _ _ _).2 rfl)
    (names := (((pre ++ s :: s' :: post).filterMap markerCall).map (·.1)).dedup) (List.nodup_dedup _) (by
      intro s hs n c hc
      rw [List.mem_dedup, List.mem_map]
      exact ⟨(n, c), List.mem_filterMap.2 ⟨s, hs, markerCall_iff.2 hc⟩, rfl⟩)
  refine ⟨g, hp.mem_iff.2 (List.mem_flatMap.2 ⟨n, ?_, List.mem_filter.2 ⟨hg, by simpa using h5⟩⟩), h3, h4⟩
  rw [List.mem_dedup, List.mem_map]
  exact ⟨(n, c), List.mem_filterMap.2 ⟨s, by simp, markerCall_iff.2 h1⟩, rfl⟩

/-! ### Examples -/

/-- `_m setMarker… 5`, `"m" setMarker… 5` -/
def upd (m c : String) (i : Nat) : Stmt := .expr (.bin (.named (ascii c)) (.var (ascii m) (0, 0)) (.num 0 (0, 0)) (i, i)) (0, 0)
def updName (m c : String) (i : Nat) : Stmt := .expr (.bin (.named (ascii c)) (.str (ascii m) (0, 0) .double) (.num 0 (0, 0)) (i, i)) (0, 0)
def newMarker (m : String) : Stmt := .assignLocal (ascii m) (.num 0 (0, 0)) (0, 0)

def markerBlock : List Stmt :=
  [newMarker "_m", upd "_m" "setMarkerType" 1, upd "_m" "setMarkerColorLocal" 2, upd "_k" "setMarkerPos" 3, upd "_m" "setMarkerSize" 4,
   newMarker "_m", upd "_m" "setMarkerText" 5]

example : MarkerRun markerBlock [[(ascii "setMarkerType", 1, 1), (ascii "setMarkerSize", 4, 4)]] :=
  ⟨_, List.Perm.refl _, by decide +kernel⟩

example : ∃ gs, Updates (ascii "_m") markerBlock [] gs ∧ gs.length = 3 := ⟨_, (updates_iff _ _ _ _).2 rfl, by decide +kernel⟩

/-- C73: other letter case is not noticed, and a variable `m` counts as the marker `"m"`. -/
theorem C73_violated : MarkerRun [upd "_m" "setmarkertype" 1, upd "_m" "setmarkersize" 2] [] ∧
    MarkerRun [upd "m" "setMarkerType" 1, updName "m" "setMarkerSize" 2] [[(ascii "setMarkerType", 1, 1), (ascii "setMarkerSize", 2, 2)]] :=
  ⟨⟨_, List.Perm.refl _, by decide +kernel⟩, ⟨_, List.Perm.refl _, by decide +kernel⟩⟩

end Verif.SqfLint
