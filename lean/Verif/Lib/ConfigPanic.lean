import Verif.Lib.ConfigSound
/-! When the config parser aborts. -/
namespace Verif.ConfigParse
open Verif.Prefix (isWs)
open Verif.Rap (Num)

/-- Each `__EVAL` of the text is followed by a bracket. -/
def Bracketed (s : Text) : Prop := ∀ a b : Text, s = a ++ ['_', '_', 'E', 'V', 'A', 'L'] ++ b → b.head? = some '('

/-- The outcome is no abort, and the text left is the end of the text. -/
def Safe {β : Type} (s : Text) (x : R β) : Prop := x ≠ .halt .panic ∧ ∀ a r, x = .ok a r → r <:+ s

theorem Bracketed.suffix {s r : Text} (h : Bracketed s) (hr : r <:+ s) : Bracketed r := by
  obtain ⟨t, rfl⟩ := hr
  intro a b e
  exact h (t ++ a) b (by rw [e]; simp)

section
variable {β γ : Type}

theorem Safe.ok {s r : Text} {a : β} (h : r <:+ s) : Safe s (.ok a r) :=
  ⟨by simp, fun _ _ e => by cases e; exact h⟩
theorem Safe.fail {s : Text} : Safe (β := β) s .fail := ⟨by simp, fun _ _ e => by cases e⟩
theorem Safe.mono {s t : Text} {x : R β} (h : Safe s x) (ht : s <:+ t) : Safe t x := ⟨h.1, fun a r e => (h.2 a r e).trans ht⟩
theorem Safe.bind {s : Text} {x : R β} {f : β → Text → R γ} (h : Safe s x) (hf : ∀ a r, x = .ok a r → r <:+ s → Safe r (f a r)) :
    Safe s (x.bind f) := by
  cases x with
  | fail => exact .fail
  | halt k => exact ⟨fun e => h.1 (by cases e; rfl), fun _ _ e => by cases e⟩
  | ok a r => exact (hf a r rfl (h.2 a r rfl)).mono (h.2 a r rfl)
theorem Safe.or {s : Text} {x y : R β} (h : Safe s x) (h' : Safe s y) : Safe s (x.or y) := by
  cases x with
  | fail => exact h'
  | halt k => exact h
  | ok a r => exact h
theorem Safe.map {s : Text} {x : R β} {f : β → γ} (h : Safe s x) : Safe s (x.map f) :=
  h.bind fun _ _ _ _ => .ok (List.suffix_refl _)
theorem Safe.lift {s : Text} {x : Option (β × Text)} (h : ∀ a r, x = some (a, r) → r <:+ s) : Safe s (lift x) := by
  cases x with
  | none => exact .fail
  | some m => exact .ok (h m.1 m.2 rfl)
theorem ws_suffix (s : Text) : ws s <:+ s := List.dropWhile_suffix _
theorem Safe.tok {p s : Text} : Safe s (tok p s) := by
  refine ⟨?_, fun a r e => ⟨p, (tok_ok e).symm⟩⟩
  rw [ConfigParse.tok]; split <;> simp
theorem Safe.tokP {p s : Text} : Safe s (tokP p s) :=
  (Safe.tok.mono (ws_suffix s)).bind fun _ r _ _ => .ok (ws_suffix r)
theorem Safe.padded {p : Text → R β} {s : Text} (h : Safe (ws s) (p (ws s))) : Safe s (padded p s) :=
  (h.mono (ws_suffix s)).bind fun _ r _ _ => .ok (ws_suffix r)
theorem Safe.orSkip {s t : Text} {x : R β} (h : Safe s x) : Safe s (orSkip x t) := by
  cases x with
  | ok a r => exact h
  | halt k => exact h
  | fail => rw [ConfigParse.orSkip]; split <;> exact ⟨by simp, fun _ _ e => by cases e⟩
theorem Safe.orSkipItem {s t : Text} {x : R Item} (h : Safe s x) : Safe s (orSkipItem x t) := by
  cases x with
  | ok a r => exact h
  | halt k => exact h
  | fail =>
    rw [ConfigParse.orSkipItem]
    split
    · exact .fail
    · split <;> exact ⟨by simp, fun _ _ e => by cases e⟩
theorem Safe.orNot {p : Text → R β} {s : Text} (h : Safe s (p s)) : Safe s (orNot p s) := h.map.or (.ok (List.suffix_refl s))
end

theorem Safe.ident {s : Text} : Safe s (ident s) :=
  .lift fun a _ e => ⟨a, (ident_sound (s := s) (lift_ok.2 e)).2.symm⟩
theorem Safe.parent {s : Text} : Safe s (parent s) := Safe.tokP.bind fun _ _ _ _ => .padded .ident
theorem Safe.className {s : Text} : Safe s (className s) := Safe.tokP.bind fun _ _ _ _ => .padded .ident
theorem Safe.delete {s : Text} : Safe s (delete s) := Safe.tokP.bind fun _ _ _ _ => Safe.ident.bind fun _ _ _ _ => .ok (List.suffix_refl _)
theorem Safe.classExternal {s : Text} : Safe s (classExternal s) := Safe.className.bind fun _ r _ _ => .ok (ws_suffix r)
theorem Safe.classMissing {s : Text} : Safe s (classMissing s) :=
  Safe.className.bind fun _ _ _ _ => Safe.parent.bind fun _ r _ _ => .ok (ws_suffix r)
theorem Safe.semicolon {p : Prp} {r : Text} : Safe r (semicolon p r) := by
  rw [ConfigParse.semicolon]
  split
  · rename_i h; exact .ok (Safe.tokP.2 _ _ h)
  · exact .ok (List.suffix_refl r)

theorem Safe.eval {s : Text} (h : Bracketed s) : Safe s (eval s) := by
  refine ⟨?_, fun a r e => ⟨_, (eval_sound e).1.symm⟩⟩
  rw [ConfigParse.eval]
  cases ht : ConfigParse.tok ['_', '_', 'E', 'V', 'A', 'L'] s with
  | fail => simp [R.bind]
  | halt k => rw [ConfigParse.tok] at ht; split at ht <;> cases ht
  | ok u r =>
    have hb := h [] r (by rw [tok_ok ht]; rfl)
    simp only [R.bind]
    cases hg : (group (2 * r.length + 1) r).or (plain r) with
    | none => simp [ConfigParse.lift]
    | some m =>
      obtain ⟨t, e⟩ := m
      simp only [ConfigParse.lift]
      rcases Option.or_eq_some_iff.1 hg with hp | ⟨-, hp⟩
      · obtain ⟨-, x, rfl, -⟩ := group_sound _ _ _ _ hp
        rw [show (['('] ++ x ++ [')'] : Text) = '(' :: (x ++ [')']) by simp, unwrap, List.getLast?_concat, if_pos rfl]
        simp
      · obtain ⟨a, b, c⟩ := plain_sound hp
        cases t with
        | nil => exact absurd rfl b
        | cons z t =>
          rw [a] at hb
          cases hb
          exact absurd rfl (c '(' (by simp)).1

section
variable {α : Type} {F : Fl α}

theorem Safe.string {s : Text} : Safe s (ConfigParse.lift (ConfigParse.string s)) := .lift fun v r e => by
  obtain ⟨t, -, e⟩ := string_sound e
  exact ⟨t, e.symm⟩
theorem numeric_suffix {s r : Text} {n : Num} (e : numeric F s = some (n, r)) : r <:+ s := by
  rcases numeric_sound e with ⟨l, -, e⟩ | ⟨_, _, t, _, -, -, e, -⟩
  · exact ⟨l, e.symm⟩
  · exact ⟨t, e.symm⟩
theorem Safe.arrayValue {s : Text} : Safe s (ConfigParse.lift (ConfigParse.arrayValue F s)) := .lift fun v r e => by
  rw [ConfigParse.arrayValue] at e
  rcases Option.or_eq_some_iff.1 e with e | ⟨-, e⟩
  · obtain ⟨m, em, h⟩ := Option.map_eq_some_iff.1 e
    cases h
    obtain ⟨t, -, e⟩ := string_sound (v := m.1) (r := m.2) em
    exact ⟨t, e.symm⟩
  · obtain ⟨m, em, h⟩ := Option.map_eq_some_iff.1 e
    cases h
    exact numeric_suffix (n := m.1) em

mutual
theorem Safe.array : ∀ (f : Nat) (s : Text), Safe s (array F f s)
  | 0, _ => by rw [ConfigParse.array]; exact .fail
  | f + 1, s => by
    rw [ConfigParse.array]
    exact Safe.tokP.bind fun _ r _ _ => (Safe.items f r).bind fun _ e _ _ => Safe.tokP.bind fun _ e _ _ => .ok (List.suffix_refl e)
theorem Safe.item : ∀ (f : Nat) (s : Text), Safe s (item F f s)
  | 0, _ => by rw [ConfigParse.item]; exact .fail
  | f + 1, s => by
    rw [ConfigParse.item]
    exact (((Safe.array f (ws s)).map.or Safe.arrayValue.orSkipItem).mono (ws_suffix s)).bind fun _ r _ _ => .ok (ws_suffix r)
theorem Safe.items : ∀ (f : Nat) (s : Text), Safe s (items F f s)
  | 0, _ => by rw [ConfigParse.items]; exact .ok (List.suffix_refl _)
  | f + 1, s => by
    rw [ConfigParse.items]
    have h := Safe.item f s
    split
    · rename_i k hk
      rw [hk] at h
      exact ⟨fun e => h.1 (by cases e; rfl), fun _ _ e => by cases e⟩
    · exact .ok (List.suffix_refl _)
    · rename_i i r hi
      have hr := h.2 _ _ hi
      split
      · rename_i e he
        exact ((Safe.items f e).map).mono ((Safe.tokP.2 _ _ he).trans hr)
      · exact .ok hr
end

theorem Safe.value {s : Text} (h : Bracketed s) : Safe s (value F s) :=
  (((Safe.eval h).map.or (Safe.array _ s).map).or Safe.string.map).or (Safe.lift fun _ _ e => numeric_suffix e).map

theorem Safe.arrayRhs {s : Text} (h : Bracketed s) : Safe s (arrayRhs F s) :=
  Safe.tokP.bind fun _ r _ hr => by
    have hb := h.suffix hr
    refine Safe.orSkip (Safe.or ?_ ?_)
    · refine Safe.tokP.bind fun _ e _ he => .orSkip (.padded ?_)
      exact (Safe.array _ _).map.or (.value ((hb.suffix he).suffix (ws_suffix e)))
    · refine .padded (.or ?_ (.value (hb.suffix (ws_suffix r))))
      exact Safe.tokP.bind fun _ e _ _ => (Safe.array _ e).map
theorem Safe.plainRhs {s : Text} (h : Bracketed s) : Safe s (plainRhs F s) :=
  Safe.tokP.bind fun _ r _ hr => .padded (.orSkip (.value ((h.suffix hr).suffix (ws_suffix r))))
theorem Safe.entry {s : Text} (h : Bracketed s) : Safe s (entry F s) :=
  (Safe.padded .ident).bind fun _ _ _ hr =>
    ((Safe.arrayRhs (h.suffix hr)).map.or (Safe.plainRhs (h.suffix hr)).map).bind fun _ e _ _ => .ok (List.suffix_refl e)

theorem Safe.classLocal {body : Text → R (List Prp)} {s : Text} (hb : ∀ r, r <:+ s → Safe r (body r)) : Safe s (classLocal body s) :=
  Safe.className.bind fun _ _ _ h1 => (Safe.orNot .parent).bind fun _ r2 _ h2 =>
    (Safe.tok.mono (ws_suffix r2)).bind fun _ r3 _ h3 =>
      (Safe.padded (hb _ ((ws_suffix r3).trans (h3.trans (h2.trans h1))))).bind fun _ _ _ _ =>
        Safe.tok.bind fun _ r5 _ _ => .ok (List.suffix_refl r5)

mutual
theorem Safe.property : ∀ (f : Nat) (s : Text), Bracketed s → Safe s (property F f s)
  | 0, _, _ => by rw [ConfigParse.property]; exact .fail
  | f + 1, s, h => by
    rw [ConfigParse.property]
    refine Safe.bind ?_ fun _ r _ _ => .semicolon
    exact ((((Safe.classLocal fun r hr => Safe.properties f r (h.suffix hr)).or .classMissing).or .classExternal).or .delete).or (.entry h)
theorem Safe.properties : ∀ (f : Nat) (s : Text), Bracketed s → Safe s (properties F f s)
  | 0, _, _ => by rw [ConfigParse.properties]; exact .ok (List.suffix_refl _)
  | f + 1, s, h => by
    rw [ConfigParse.properties]
    have hp := (Safe.property f (ws s) (h.suffix (ws_suffix s))).mono (ws_suffix s)
    split
    · rename_i k hk
      rw [hk] at hp
      exact ⟨fun e => hp.1 (by cases e; rfl), fun _ _ e => by cases e⟩
    · exact .ok (List.suffix_refl _)
    · rename_i p r hi
      have hr := (ws_suffix r).trans (hp.2 _ _ hi)
      exact (Safe.properties f (ws r) (h.suffix hr)).map.mono hr
end

theorem config_safe {s : Text} (h : Bracketed s) : config F s ≠ .halt .panic := by
  refine Safe.or (s := s) ?_ ?_ |>.1
  · refine (Safe.properties _ s h).bind fun _ r _ _ => ?_
    split
    · rename_i hr; subst hr; exact .ok (List.suffix_refl _)
    · exact .fail
  · split
    · exact .ok (List.nil_suffix)
    · exact .fail
end

end Verif.ConfigParse
