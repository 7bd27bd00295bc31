import Verif.Spec.Launcher
import Mathlib.Data.List.Induction
/-!
Reading presets: links do not overlap, so the search from left to right finds them all.
-/
namespace Verif.Launcher
open Verif.Launch

theorem strip_eq {p s r : Bytes} : strip p s = some r ↔ s = p ++ r := by
  induction p generalizing s with
  | nil => simp [strip, eq_comm]
  | cons c p ih =>
    cases s with
    | nil => simp [strip]
    | cons d s =>
      rw [strip]
      split
      · rename_i h; subst h; simp [ih]
      · rename_i h; simp [Ne.symm h]

theorem isDigit_iff {c : UInt8} : isDigit c = true ↔ 48 ≤ c ∧ c ≤ 57 := by simp [isDigit]

/-- The text of a link. -/
def linkText (tail s id : Bytes) : Bytes :=
  ascii "href=\"http" ++ s ++ ascii "://" ++ tail ++ id ++ ascii "\""

theorem takeWhile_number {id : Bytes} (h : Number id) (c : UInt8) (b : Bytes) (hc : isDigit c = false) :
    (id ++ c :: b).takeWhile isDigit = id ∧ (id ++ c :: b).dropWhile isDigit = c :: b := by
  have h1 : ∀ x ∈ id, isDigit x = true := fun x hx => isDigit_iff.2 (h.2 x hx)
  constructor
  · rw [List.takeWhile_append_of_pos h1]; simp [hc]
  · rw [List.dropWhile_append_of_pos h1]; simp [hc]

theorem linkAt_iff {tail t id r : Bytes} :
    linkAt tail t = some (id, r) ↔ ∃ s, (s = [] ∨ s = ascii "s") ∧ Number id ∧ t = linkText tail s id ++ r := by
  constructor
  · intro h
    rw [linkAt] at h
    split at h
    · simp at h
    rename_i u hu
    rw [strip_eq] at hu
    dsimp only at h
    have key : ∀ (u' : Bytes), (match strip (ascii "://" ++ tail) u' with
        | none => none
        | some s => match List.takeWhile isDigit s, List.dropWhile isDigit s with
          | _ :: _, 34 :: rest => some (List.takeWhile isDigit s, rest)
          | _, _ => none) = some (id, r) → Number id ∧ u' = ascii "://" ++ tail ++ id ++ ascii "\"" ++ r := by
      intro u' h
      split at h
      · simp at h
      rename_i v hv
      rw [strip_eq] at hv
      split at h
      · rename_i c ds rest h1 h2
        simp only [Option.some.injEq, Prod.mk.injEq] at h
        obtain ⟨rfl, rfl⟩ := h
        refine ⟨⟨by rw [h1]; simp, fun c hc => isDigit_iff.1 (List.all_eq_true.1 (List.all_takeWhile (p := isDigit) (l := v)) c hc)⟩, ?_⟩
        have h3 := List.takeWhile_append_dropWhile (p := isDigit) (l := v)
        rw [h2] at h3
        rw [hv]
        conv_lhs => rw [← h3]
        simp only [List.append_assoc]
        rfl
      · simp at h
    cases hs : strip (ascii "s") u with
    | none =>
      rw [hs] at h
      obtain ⟨h1, h2⟩ := key u h
      exact ⟨[], .inl rfl, h1, by rw [hu, h2]; simp only [linkText, List.append_assoc, List.nil_append]⟩
    | some u' =>
      rw [hs] at h
      obtain ⟨h1, h2⟩ := key u' h
      rw [strip_eq] at hs
      exact ⟨ascii "s", .inr rfl, h1, by rw [hu, hs, h2]; simp only [linkText, List.append_assoc]⟩
  · rintro ⟨s, hs, hn, rfl⟩
    have h1 : strip (ascii "href=\"http") (linkText tail s id ++ r) =
        some (s ++ (ascii "://" ++ tail ++ (id ++ 34 :: r))) := by
      rw [strip_eq]; simp only [linkText, List.append_assoc]; rfl
    have h2 := takeWhile_number hn 34 r (by decide)
    have h3 : strip (ascii "://" ++ tail) (ascii "://" ++ tail ++ (id ++ 34 :: r)) = some (id ++ 34 :: r) := strip_eq.2 rfl
    obtain ⟨c, ds, hid⟩ : ∃ c ds, id = c :: ds := by
      cases id with
      | nil => exact absurd rfl hn.1
      | cons c ds => exact ⟨c, ds, rfl⟩
    rw [linkAt, h1]
    rcases hs with rfl | rfl
    · have h4 : strip (ascii "s") ([] ++ (ascii "://" ++ tail ++ (id ++ 34 :: r))) = none := by
        simp [ascii, strip]
      dsimp only
      rw [h4]
      dsimp only [List.nil_append]
      rw [h3]
      dsimp only
      rw [h2.1, h2.2, hid]
      rfl
    · have h4 : strip (ascii "s") (ascii "s" ++ (ascii "://" ++ tail ++ (id ++ 34 :: r))) =
          some (ascii "://" ++ tail ++ (id ++ 34 :: r)) := strip_eq.2 rfl
      dsimp only
      rw [h4]
      dsimp only
      rw [h3]
      dsimp only
      rw [h2.1, h2.2, hid]
      rfl

/-- `hr` stands nowhere in the text. -/
def noHr : Bytes → Bool
  | [] => true
  | [_] => true
  | c :: d :: l => !(c = 104 && d = 114) && noHr (d :: l)

theorem noHr_append {l m : Bytes} (h : noHr l = true) (hm : ∀ c ∈ m, c ≠ 104 ∧ c ≠ 114) : noHr (l ++ m) = true := by
  induction l with
  | nil =>
    simp only [List.nil_append]
    induction m with
    | nil => rfl
    | cons c m ih =>
      cases m with
      | nil => rfl
      | cons d m =>
        rw [noHr, ih fun c hc => hm c (List.mem_cons_of_mem _ hc)]
        simp [(hm c (List.mem_cons_self ..)).1]
  | cons c l ih =>
    cases l with
    | nil =>
      cases m with
      | nil => rfl
      | cons d m =>
        have := ih rfl
        simp only [List.nil_append] at this
        simp only [List.cons_append, List.nil_append, noHr, this]
        simp [(hm d (List.mem_cons_self ..)).2]
    | cons d l =>
      rw [noHr, Bool.and_eq_true] at h
      have := ih h.2
      simp only [List.cons_append] at this ⊢
      rw [noHr, this, h.1]; rfl

/-- The links at all positions. -/
def allLinks (tail : Bytes) : Bytes → List Bytes
  | [] => []
  | c :: s => match linkAt tail (c :: s) with
    | some (ds, _) => ds :: allLinks tail s
    | none => allLinks tail s

theorem linkAt_none {tail : Bytes} {c : UInt8} {s : Bytes} (h : ∀ s', c :: s ≠ 104 :: 114 :: s') :
    linkAt tail (c :: s) = none := by
  cases hl : linkAt tail (c :: s) with
  | none => rfl
  | some x =>
    obtain ⟨id, r⟩ := x
    obtain ⟨u, -, -, hu⟩ := linkAt_iff.1 hl
    exact absurd hu (h _)

theorem allLinks_skip {tail u rest : Bytes} (h1 : noHr u = true) (h2 : u.getLast? ≠ some 104) :
    allLinks tail (u ++ rest) = allLinks tail rest := by
  induction u with
  | nil => rfl
  | cons c u ih =>
    have hn : linkAt tail (c :: (u ++ rest)) = none := by
      apply linkAt_none
      intro s' he
      cases u with
      | nil =>
        simp only [List.nil_append, List.cons.injEq] at he
        exact h2 (by rw [he.1]; rfl)
      | cons d u =>
        simp only [List.cons_append, List.cons.injEq] at he
        rw [noHr, he.1, he.2.1] at h1
        simp at h1
    rw [List.cons_append, allLinks, hn]
    apply ih
    · cases u with
      | nil => rfl
      | cons d u => rw [noHr, Bool.and_eq_true] at h1; exact h1.2
    · cases u with
      | nil => simp
      | cons d u => rw [List.getLast?_cons_cons] at h2; exact h2

/-- The part of a link before the number has `hr` only at its start. -/
def GoodTail (tail : Bytes) : Prop :=
  ∀ s, s = [] ∨ s = ascii "s" → ∃ l, ascii "href=\"http" ++ s ++ ascii "://" ++ tail = 104 :: l ∧ noHr l = true

theorem good_mod : GoodTail modTail := by
  rintro s (rfl | rfl)
  · exact ⟨_, rfl, by decide +kernel⟩
  · exact ⟨_, rfl, by decide +kernel⟩

theorem good_dlc : GoodTail dlcTail := by
  rintro s (rfl | rfl)
  · exact ⟨_, rfl, by decide +kernel⟩
  · exact ⟨_, rfl, by decide +kernel⟩

theorem captures_eq {tail : Bytes} (ht : GoodTail tail) (n : Nat) (s : Bytes) (h : s.length ≤ n) :
    captures tail n s = allLinks tail s := by
  induction n generalizing s with
  | zero => cases s with
    | nil => rfl
    | cons => simp at h
  | succ n ih =>
    cases s with
    | nil => rfl
    | cons c s =>
      rw [captures, allLinks]
      cases hl : linkAt tail (c :: s) with
      | none => dsimp only; exact ih s (by simpa using h)
      | some x =>
        obtain ⟨id, r⟩ := x
        dsimp only
        obtain ⟨u, hu, hn, he⟩ := linkAt_iff.1 hl
        obtain ⟨l, hl, hg⟩ := ht u hu
        have he2 : c :: s = 104 :: (l ++ (id ++ [34])) ++ r := by
          rw [he, linkText, hl]
          simp only [List.append_assoc, List.cons_append, List.nil_append]
          rfl
        simp only [List.cons_append, List.cons.injEq] at he2
        rw [he2.2, allLinks_skip, ih]
        · have := congrArg List.length he2.2
          simp only [List.length_append, List.length_cons] at this h
          omega
        · apply noHr_append hg
          intro d hd
          rcases List.mem_append.1 hd with hd | hd
          · have := hn.2 d hd
            constructor <;> rintro rfl <;> exact absurd this.2 (by decide)
          · simp only [List.mem_singleton] at hd
            subst hd; decide
        · rw [← List.append_assoc, List.getLast?_append]
          simp

theorem linkAt_cons {tail : Bytes} {c : UInt8} {s : Bytes} {n : Nat} {id : Bytes} :
    LinkAt tail (c :: s) (n + 1) id ↔ LinkAt tail s n id := by
  constructor
  · rintro ⟨a, u, b, ha, hu, hn, he⟩
    cases a with
    | nil => simp at ha
    | cons d a =>
      simp only [List.cons_append, List.cons.injEq] at he
      exact ⟨a, u, b, by simpa using ha, hu, hn, he.2⟩
  · rintro ⟨a, u, b, ha, hu, hn, he⟩
    exact ⟨c :: a, u, b, by simp [ha], hu, hn, by rw [he]; rfl⟩

theorem linkAt_zero {tail s id : Bytes} : LinkAt tail s 0 id ↔ ∃ r, linkAt tail s = some (id, r) := by
  constructor
  · rintro ⟨a, u, b, ha, hu, hn, he⟩
    cases a with
    | nil => exact ⟨b, linkAt_iff.2 ⟨u, hu, hn, by rw [he]; rfl⟩⟩
    | cons => simp at ha
  · rintro ⟨r, hr⟩
    obtain ⟨u, hu, hn, he⟩ := linkAt_iff.1 hr
    exact ⟨[], u, r, rfl, hu, hn, by rw [he]; rfl⟩

theorem not_linkAt_nil {tail : Bytes} {n : Nat} {id : Bytes} : ¬ LinkAt tail [] n id := by
  rintro ⟨a, u, b, ha, hu, hn, he⟩
  have := congrArg List.length he
  simp only [List.length_append, List.length_nil] at this
  have h1 : (ascii "\"").length = 1 := rfl
  omega

/-- Every link is in the list, behind links at earlier positions only. -/
theorem allLinks_of_linkAt {tail s : Bytes} {n : Nat} {id : Bytes} (h : LinkAt tail s n id) :
    ∃ x y, allLinks tail s = x ++ id :: y ∧ ∀ a ∈ x, ∃ m, m < n ∧ LinkAt tail s m a := by
  induction s generalizing n with
  | nil => exact absurd h not_linkAt_nil
  | cons c s ih =>
    rw [allLinks]
    cases n with
    | zero =>
      obtain ⟨r, hr⟩ := linkAt_zero.1 h
      rw [hr]
      exact ⟨[], _, rfl, by simp⟩
    | succ n =>
      obtain ⟨x, y, hx, hm⟩ := ih (linkAt_cons.1 h)
      cases hl : linkAt tail (c :: s) with
      | none =>
        dsimp only
        refine ⟨x, y, hx, fun a ha => ?_⟩
        obtain ⟨m, h1, h2⟩ := hm a ha
        exact ⟨m + 1, by omega, linkAt_cons.2 h2⟩
      | some z =>
        obtain ⟨id', r⟩ := z
        dsimp only
        refine ⟨id' :: x, y, by rw [hx]; rfl, fun a ha => ?_⟩
        rcases List.mem_cons.1 ha with rfl | ha
        · exact ⟨0, by omega, linkAt_zero.2 ⟨r, hl⟩⟩
        · obtain ⟨m, h1, h2⟩ := hm a ha
          exact ⟨m + 1, by omega, linkAt_cons.2 h2⟩

theorem mem_allLinks {tail s id : Bytes} : id ∈ allLinks tail s ↔ ∃ n, LinkAt tail s n id := by
  constructor
  · intro h
    induction s with
    | nil => simp [allLinks] at h
    | cons c s ih =>
      rw [allLinks] at h
      cases hl : linkAt tail (c :: s) with
      | none =>
        rw [hl] at h
        obtain ⟨n, hn⟩ := ih h
        exact ⟨n + 1, linkAt_cons.2 hn⟩
      | some z =>
        obtain ⟨id', r⟩ := z
        rw [hl] at h
        rcases List.mem_cons.1 h with rfl | h
        · exact ⟨0, linkAt_zero.2 ⟨r, hl⟩⟩
        · obtain ⟨n, hn⟩ := ih h
          exact ⟨n + 1, linkAt_cons.2 hn⟩
  · rintro ⟨n, hn⟩
    obtain ⟨x, y, h, -⟩ := allLinks_of_linkAt hn
    rw [h]; simp

/-! ### First occurrences -/

theorem mem_pushNew {α : Type} [DecidableEq α] {v : List α} {x y : α} : y ∈ pushNew v x ↔ y ∈ v ∨ y = x := by
  rw [pushNew]
  split
  · rename_i h
    constructor
    · exact .inl
    · rintro (h' | rfl) <;> assumption
  · simp

theorem mem_foldl_pushNew {α : Type} [DecidableEq α] {l v : List α} {y : α} :
    y ∈ l.foldl pushNew v ↔ y ∈ v ∨ y ∈ l := by
  induction l generalizing v with
  | nil => simp
  | cons a l ih => rw [List.foldl_cons, ih, mem_pushNew, List.mem_cons, or_assoc]

theorem firsts {α : Type} [DecidableEq α] (l : List α) :
    (l.foldl pushNew []).Nodup ∧
      (l.foldl pushNew []).Pairwise fun a b => ∀ x y, l = x ++ b :: y → a ∈ x := by
  induction l using List.reverseRecOn with
  | nil => simp
  | append_singleton l c ih =>
    rw [List.foldl_append, List.foldl_cons, List.foldl_nil, pushNew]
    have old : ∀ a b, a ∈ l → (∀ x y, l = x ++ b :: y → a ∈ x) → ∀ x y, l ++ [c] = x ++ b :: y → a ∈ x := by
      intro a b ha h x y he
      rcases List.eq_nil_or_concat y with rfl | ⟨y', d, rfl⟩
      · obtain ⟨rfl, -⟩ := List.append_inj' he rfl
        exact ha
      · have he : l ++ [c] = (x ++ b :: y') ++ [d] := by rw [he]; simp
        obtain ⟨h1, -⟩ := List.append_inj' he rfl
        exact h x y' h1
    have hm : ∀ a, a ∈ l.foldl pushNew [] → a ∈ l := fun a ha => by simpa using mem_foldl_pushNew.1 ha
    split
    · refine ⟨ih.1, ih.2.imp_of_mem ?_⟩
      intro a b ha _ h
      exact old a b (hm a ha) h
    · rename_i hc
      have hc : c ∉ l := fun h => hc (mem_foldl_pushNew.2 (.inr h))
      constructor
      · rw [List.nodup_append]
        refine ⟨ih.1, by simp, ?_⟩
        rintro a ha b hb rfl
        simp only [List.mem_singleton] at hb
        exact hc (hb ▸ hm a ha)
      · rw [List.pairwise_append]
        refine ⟨ih.2.imp_of_mem fun ha _ h => old _ _ (hm _ ha) h, by simp, ?_⟩
        intro a ha b hb
        simp only [List.mem_singleton] at hb
        subst hb
        apply old a b (hm a ha)
        intro x y he
        exact absurd (by rw [he]; simp) hc

theorem dlcOfId_iff {s : Bytes} {d : Nat} : dlcOfId s = some d ↔ appIds[d]? = some s := by
  constructor
  · intro h
    rw [dlcOfId] at h
    repeat' split at h
    all_goals first
      | (simp only [Option.some.injEq] at h; subst h; subst s; rfl)
      | simp at h
  · intro h
    have hall : ∀ d < 8, dlcOfId (appIds.getD d []) = some d := by decide +kernel
    have hd : d < 8 := by
      obtain ⟨hd, -⟩ := List.getElem?_eq_some_iff.1 h
      exact hd
    have := hall d hd
    rwa [List.getD_eq_getElem?_getD, h] at this

theorem preset_mods {html id : Bytes} : id ∈ (readPreset html).1 ↔ ∃ n, LinkAt modPage html n id := by
  rw [readPreset]
  dsimp only
  rw [mem_foldl_pushNew, captures_eq good_mod _ _ (Nat.le_refl _), mem_allLinks]
  simp only [List.not_mem_nil, false_or]
  rfl

theorem preset_dlcs {html : Bytes} {d : Nat} :
    d ∈ (readPreset html).2 ↔ ∃ n id, LinkAt dlcPage html n id ∧ appIds[d]? = some id := by
  rw [readPreset]
  dsimp only
  rw [mem_foldl_pushNew, captures_eq good_dlc _ _ (Nat.le_refl _), List.mem_filterMap]
  simp only [List.not_mem_nil, false_or, mem_allLinks, dlcOfId_iff]
  constructor
  · rintro ⟨id, ⟨n, h⟩, h'⟩; exact ⟨n, id, h, h'⟩
  · rintro ⟨n, id, h, h'⟩; exact ⟨id, ⟨n, h⟩, h'⟩

end Verif.Launcher
