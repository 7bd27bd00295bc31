import Verif.Lib.Release
/-! Where things are written in the build folder, and signing. -/
namespace Verif.Release
open Verif.Io Verif.Pbo Verif.Sign
open Verif.Workspace (Location Addon FILES)
open Verif.SqfLex (enc enc_inj)

/-! ### Names of files -/

theorem stem_of_no_dot {s : Text} (h : '.' ∉ s) : stem s = s := by
  unfold stem
  have : s.reverse.dropWhile (· ≠ '.') = [] := by
    rw [← List.append_nil s.reverse, List.dropWhile_append_of_pos, List.dropWhile_nil]
    intro c hc
    have : c ≠ '.' := fun e => h (e ▸ List.mem_reverse.1 hc)
    simpa using this
  rw [this]

theorem stem_append {s e : Text} (hs : s ≠ []) (he : '.' ∉ e) : stem (s ++ '.' :: e) = s := by
  unfold stem
  have : (s ++ '.' :: e).reverse.dropWhile (· ≠ '.') = '.' :: s.reverse := by
    have h1 : (s ++ '.' :: e).reverse = e.reverse ++ '.' :: s.reverse := by simp
    rw [h1, List.dropWhile_append_of_pos]
    · simp
    · intro c hc
      have : c ≠ '.' := fun h => he (h ▸ List.mem_reverse.1 hc)
      simpa using this
  rw [this]
  cases h : s.reverse with
  | nil => exact absurd (List.reverse_eq_nil_iff.1 h) hs
  | cons a l =>
    dsimp only
    rw [← h, List.reverse_reverse]

theorem stem_ne_nil {s : Text} (hs : s ≠ []) : stem s ≠ [] := by
  unfold stem
  cases s.reverse.dropWhile (· ≠ '.') with
  | nil => exact hs
  | cons a r =>
    cases r with
    | nil => exact hs
    | cons b r => simp

theorem pboName_ne_nil (a : Addon) (p : Text) : pboName a p ≠ [] := by simp [pboName]

/-- The name of the PBO of an addon. -/
theorem target_last (s : Settings) (b : Bool) (a : Addon) :
    (target s b a).getLast? = some (stem (pboName a s.pfx) ++ ".pbo".toList) := by
  unfold target withExtension
  cases b <;> cases a.location <;> cases s.optionalFolders <;> rfl

theorem signing_path (env : Env) (s : Settings) (k : Keys) (a : Addon) : (signing env s k a).1 = target s false a := by
  unfold signing target
  cases a.location <;> cases s.optionalFolders <;> rfl

theorem sigPath_target (s : Settings) (a : Addon) (au : Text) : sigPath (target s false a) au =
    (target s false a).dropLast ++ [stem (pboName a s.pfx) ++ ".pbo.".toList ++ au ++ ".bisign".toList] := by
  unfold sigPath
  congr 2
  have h := target_last s false a
  rw [List.getLastD_eq_getLast?, h]
  unfold withExtension
  simp only [Option.getD_some]
  have : stem (pboName a s.pfx) ++ ".pbo".toList = stem (pboName a s.pfx) ++ '.' :: "pbo".toList := rfl
  rw [this, stem_append (stem_ne_nil (pboName_ne_nil a s.pfx)) (by decide +kernel)]
  simp only [List.append_assoc]
  rfl

/-- The last character of the last name of a path. -/
def lastChar (p : Path) : Option Char := (p.getLastD []).getLast?

theorem lastChar_append (p : Path) (t : Text) (c : Char) : lastChar (p ++ [t ++ [c]]) = some c := by
  simp [lastChar, List.getLastD_eq_getLast?]

theorem lastChar_target (s : Settings) (b : Bool) (a : Addon) : lastChar (target s b a) = some 'o' := by
  have := target_last s b a
  rw [lastChar, List.getLastD_eq_getLast?, this]
  have e : stem (pboName a s.pfx) ++ ".pbo".toList = (stem (pboName a s.pfx) ++ ".pb".toList) ++ ['o'] := by
    rw [List.append_assoc]; rfl
  simp only [Option.getD_some]
  rw [e, List.getLast?_append]
  rfl

/-- The authority that an addon's PBO is signed with. -/
def authorityOf (env : Env) (s : Settings) (k : Keys) (a : Addon) : Text := (signing env s k a).2.2.1
/-- The key that an addon's PBO is signed with. -/
def keyOf (env : Env) (s : Settings) (k : Keys) (a : Addon) : PrivKey := (signing env s k a).2.1
/-- Where the addon's own key goes, if it has one. -/
def ownKey (env : Env) (s : Settings) (k : Keys) (a : Addon) : Option Path := (signing env s k a).2.2.2
/-- Where an addon's signature goes. -/
def sigOf (env : Env) (s : Settings) (k : Keys) (a : Addon) : Path := sigPath (target s false a) (authorityOf env s k a)

theorem lastChar_sigOf (env : Env) (s : Settings) (k : Keys) (a : Addon) : lastChar (sigOf env s k a) = some 'n' := by
  rw [sigOf, sigPath_target]
  have : ∀ t : Text, t ++ ".bisign".toList = (t ++ ".bisig".toList) ++ ['n'] := by
    intro t; rw [List.append_assoc]; rfl
  rw [this]
  exact lastChar_append _ _ _

theorem lastChar_ownKey {env : Env} {s : Settings} {k : Keys} {a : Addon} {q : Path}
    (h : ownKey env s k a = some q) : lastChar q = some 'y' := by
  unfold ownKey signing at h
  have : ∀ t : Text, t ++ ".bikey".toList = (t ++ ".bike".toList) ++ ['y'] := by
    intro t; rw [List.append_assoc]; rfl
  cases hl : a.location <;> simp only [hl] at h
  · simp at h
  · by_cases ho : s.optionalFolders = true
    · simp only [ho, if_true, Option.some.injEq] at h
      rw [← h, this]
      exact lastChar_append (["optionals".toList, '@' :: pboName a s.release] ++ ["keys".toList]) _ _
    · simp [ho] at h

theorem pboName_inj {a b : Addon} {p : Text} (h : pboName a p = pboName b p) : a.name = b.name := by
  unfold pboName at h
  have := List.append_cancel_left h
  simpa using this

theorem target_congr {s : Settings} {c : Bool} {a b : Addon} (hn : a.name = b.name) (hl : a.location = b.location) :
    target s c a = target s c b := by
  simp only [target, pboName, hn, hl]

theorem ownKey_inj {env : Env} {s : Settings} {k : Keys} {a b : Addon} {q : Path}
    (h : ownKey env s k a = some q) (h' : ownKey env s k b = some q) : target s false a = target s false b := by
  unfold ownKey signing at h h'
  cases hl : a.location <;> simp only [hl] at h
  · simp at h
  cases hl' : b.location <;> simp only [hl'] at h'
  · simp at h'
  by_cases ho : s.optionalFolders = true
  · simp only [ho, if_true, Option.some.injEq] at h h'
    rw [← h'] at h
    simp only [List.cons_append, List.nil_append, List.cons.injEq, true_and] at h
    exact target_congr (pboName_inj h.1) (hl.trans hl'.symm)
  · simp [ho] at h

theorem target_split (s : Settings) (a : Addon) : target s false a =
    (target s false a).dropLast ++ [stem (pboName a s.pfx) ++ ".pbo".toList] := by
  unfold target withExtension
  cases a.location <;> cases s.optionalFolders <;> rfl

theorem sigOf_inj {env : Env} {s : Settings} {k : Keys} {a b : Addon} (h : sigOf env s k a = sigOf env s k b) :
    target s false a = target s false b := by
  unfold sigOf at h
  rw [sigPath_target, sigPath_target] at h
  obtain ⟨h1, h2⟩ := List.append_inj' h rfl
  rw [List.cons.injEq] at h2
  have h2 := h2.1
  by_cases hn : a.name = b.name
  · have hp : ∀ p, pboName a p = pboName b p := by intro p; simp [pboName, hn]
    rw [target_split s a, target_split s b, h1, hp]
  · have hau : authorityOf env s k a = authorityOf env s k b := by
      unfold authorityOf signing
      unfold target at h1
      cases hl : a.location <;> cases hl' : b.location <;> simp only [hl, hl'] at h1 ⊢
      · by_cases ho : s.optionalFolders = true
        · simp [ho] at h1
        · simp [ho]
      · by_cases ho : s.optionalFolders = true
        · simp [ho] at h1
        · simp [ho]
      · by_cases ho : s.optionalFolders = true
        · simp only [ho, if_true, Bool.false_eq_true, if_false] at h1
          have := congrArg (fun l => l[1]?) h1
          simp only [List.dropLast, List.getElem?_cons_succ, List.getElem?_cons_zero, Option.some.injEq,
            List.cons.injEq, true_and] at this
          exact absurd (pboName_inj this) hn
        · simp [ho]
    rw [hau] at h2
    have h3 := List.append_cancel_right (List.append_cancel_right (List.append_cancel_right h2))
    rw [target_split s a, target_split s b, h1, h3]

/-! ### Signing -/

/-- The signing of an addon writes there. -/
def Touches (env : Env) (s : Settings) (k : Keys) (a : Addon) (q : Path) : Prop :=
  ownKey env s k a = some q ∨ q = sigOf env s k a

/-- The world after signing an addon. -/
def afterSign (env : Env) (s : Settings) (k : Keys) (a : Addon) (sig : Sig) (w : World) : World :=
  let w := match ownKey env s k a with
    | none => w
    | some q => w.put q (keyOf env s k a).toPublic.write
  w.put (sigOf env s k a) sig.write

theorem afterSign_other {env : Env} {s : Settings} {k : Keys} {a : Addon} {sig : Sig} {w : World} {q : Path}
    (h : ¬ Touches env s k a q) : afterSign env s k a sig w q = w q := by
  unfold Touches at h
  rw [not_or] at h
  unfold afterSign World.put
  cases ho : ownKey env s k a with
  | none => simp [h.2]
  | some p =>
    have : q ≠ p := by rintro rfl; exact h.1 ho
    simp [h.2, this]

theorem afterSign_sig (env : Env) (s : Settings) (k : Keys) (a : Addon) (sig : Sig) (w : World) :
    afterSign env s k a sig w (sigOf env s k a) = some sig.write := by
  simp [afterSign, World.put]

theorem afterSign_key {env : Env} {s : Settings} {k : Keys} {a : Addon} (sig : Sig) (w : World) {q : Path}
    (h : ownKey env s k a = some q) : afterSign env s k a sig w q = some (keyOf env s k a).toPublic.write := by
  have hne : q ≠ sigOf env s k a := by
    intro e
    have h1 := lastChar_ownKey h
    rw [e, lastChar_sigOf] at h1
    simp at h1
  simp [afterSign, World.put, h, hne]

theorem target_not_touched (env : Env) (s : Settings) (k : Keys) (a b : Addon) :
    ¬ Touches env s k b (target s false a) := by
  rintro (h | h)
  · have := lastChar_ownKey h
    rw [lastChar_target] at this
    simp at this
  · have := lastChar_sigOf env s k b
    rw [← h, lastChar_target] at this
    simp at this

theorem touches_disjoint {env : Env} {s : Settings} {k : Keys} {a b : Addon} {q : Path}
    (h : Touches env s k a q) (h' : Touches env s k b q) : target s false a = target s false b := by
  rcases h with h | h <;> rcases h' with h' | h'
  · exact ownKey_inj h h'
  · have := lastChar_ownKey h
    rw [h', lastChar_sigOf] at this
    simp at this
  · have := lastChar_ownKey h'
    rw [h, lastChar_sigOf] at this
    simp at this
  · exact sigOf_inj (h.symm.trans h')

theorem main_not_touched (env : Env) (s : Settings) (k : Keys) (a : Addon) (n : Text) :
    ¬ Touches env s k a ["keys".toList, n] := by
  rintro (h | h)
  · unfold ownKey signing at h
    cases hl : a.location <;> simp only [hl] at h
    · simp at h
    · by_cases ho : s.optionalFolders = true
      · simp [ho] at h
      · simp [ho] at h
  · rw [sigOf, sigPath_target] at h
    unfold target at h
    have d1 : ("keys".toList) ≠ "addons".toList := by decide +kernel
    have d2 : ("keys".toList) ≠ "optionals".toList := by decide +kernel
    cases hl : a.location <;> simp only [hl] at h
    · have := congrArg List.head? h
      simp only [List.head?_cons] at this
      exact d1 (Option.some.inj this)
    · by_cases ho : s.optionalFolders = true
      · simp only [ho, Bool.false_eq_true, if_false, if_true] at h
        have := congrArg List.head? h
        exact d2 (Option.some.inj this)
      · simp only [ho, Bool.false_eq_true, if_false] at h
        have := congrArg List.head? h
        exact d2 (Option.some.inj this)

theorem signOne_ok {d : Digest} {env : Env} {s : Settings} {k : Keys} {a : Addon} {w : World} {out : Bytes} {r : RPbo}
    {sig : Sig} (h1 : w (target s false a) = some out) (h2 : RPbo.from out = .ok r)
    (h3 : (keyOf env s k a).sign d.H d.lower r s.sigVersion = .ok sig) :
    signOne d env s k a w = .ok (afterSign env s k a sig w) := by
  have hp := signing_path env s k a
  have hx : signing env s k a = (target s false a, keyOf env s k a, authorityOf env s k a, ownKey env s k a) := by
    rw [← hp]; rfl
  unfold signOne afterSign
  rw [hx]
  dsimp only
  cases ho : ownKey env s k a with
  | none =>
    dsimp only
    rw [h1]
    dsimp only
    rw [h2]
    dsimp only
    rw [h3]
    rfl
  | some q =>
    have : target s false a ≠ q := fun e => target_not_touched env s k a a (.inl (e ▸ ho))
    have hq : (w.put q (keyOf env s k a).toPublic.write) (target s false a) = some out := by
      simp only [World.put, this, if_false]
      exact h1
    dsimp only
    rw [hq]
    dsimp only
    rw [h2]
    dsimp only
    rw [h3]
    rfl

theorem signAll_ok {d : Digest} {env : Env} {s : Settings} {k : Keys} : ∀ (as : List Addon) (w : World),
    as.Pairwise (fun a b => target s false a ≠ target s false b) →
    (∀ a ∈ as, ∃ out r sig, w (target s false a) = some out ∧ RPbo.from out = .ok r ∧
      (keyOf env s k a).sign d.H d.lower r s.sigVersion = .ok sig) →
    ∃ w', signAll d env s k as w = .ok w' ∧ (∀ q, (∀ a ∈ as, ¬ Touches env s k a q) → w' q = w q) ∧
      ∀ a ∈ as, ∃ out r sig, w (target s false a) = some out ∧ RPbo.from out = .ok r ∧
        (keyOf env s k a).sign d.H d.lower r s.sigVersion = .ok sig ∧ w' (sigOf env s k a) = some sig.write ∧
        ∀ q, ownKey env s k a = some q → w' q = some (keyOf env s k a).toPublic.write := by
  intro as
  induction as with
  | nil => intro w _ _; exact ⟨w, rfl, fun _ _ => rfl, by simp⟩
  | cons a as ih =>
    intro w hp hs
    rw [List.pairwise_cons] at hp
    obtain ⟨out, r, sig, h1, h2, h3⟩ := hs a (by simp)
    have hkeep : ∀ b, afterSign env s k a sig w (target s false b) = w (target s false b) := fun b =>
      afterSign_other (target_not_touched env s k b a)
    obtain ⟨w', e1, e2, e3⟩ := ih (afterSign env s k a sig w) hp.2 (by
      intro b hb
      rw [hkeep]
      exact hs b (by simp [hb]))
    refine ⟨w', ?_, ?_, ?_⟩
    · rw [signAll, signOne_ok h1 h2 h3]
      exact e1
    · intro q hq
      rw [e2 q fun b hb => hq b (by simp [hb])]
      exact afterSign_other (hq a (by simp))
    · intro b hb
      rcases List.mem_cons.1 hb with rfl | hb
      · have hnot : ∀ q, Touches env s k b q → ∀ c ∈ as, ¬ Touches env s k c q := fun q hq c hc hq' =>
          hp.1 c hc (touches_disjoint hq hq')
        refine ⟨out, r, sig, h1, h2, h3, ?_, ?_⟩
        · rw [e2 _ (hnot _ (.inr rfl)), afterSign_sig]
        · intro q hq
          rw [e2 _ (hnot _ (.inl hq)), afterSign_key sig w hq]
      · obtain ⟨out', r', sig', f1, f2⟩ := e3 b hb
        rw [hkeep] at f1
        exact ⟨out', r', sig', f1, f2⟩

/-! ### Building -/

theorem build_ok {d : Digest} {env : Env} {s : Settings} {c : Bool} : ∀ (xs : List Source) (w w' : World),
    build d env s c xs w = .ok w' →
    (∀ q, (∀ x ∈ xs, q ≠ target s c x.addon) → w' q = w q) ∧
    ∀ xs1 x xs2, xs = xs1 ++ x :: xs2 → (∀ y ∈ xs2, target s c y.addon ≠ target s c x.addon) →
      ∃ pbo out sum, pack env s x.addon x.toml x.tree = .ok pbo ∧
        pbo.write d.H d.lower (d.order pbo.files) true = .ok (out, sum) ∧ w' (target s c x.addon) = some out := by
  intro xs
  induction xs with
  | nil =>
    intro w w' h
    simp only [build, Except.ok.injEq] at h
    exact ⟨fun _ _ => by rw [h], by simp⟩
  | cons x xs ih =>
    intro w w' h
    rw [build] at h
    cases h1 : internalBuild d env s c x w with
    | error e => rw [h1] at h; simp at h
    | ok w1 =>
      rw [h1] at h
      obtain ⟨i1, i2⟩ := ih w1 w' h
      unfold internalBuild at h1
      cases hp : pack env s x.addon x.toml x.tree with
      | error e => rw [hp] at h1; simp at h1
      | ok pbo =>
        rw [hp] at h1
        dsimp only at h1
        cases hw : pbo.write d.H d.lower (d.order pbo.files) true with
        | error e => rw [hw] at h1; simp at h1
        | ok o =>
          obtain ⟨out, sum⟩ := o
          rw [hw] at h1
          simp only [Except.ok.injEq] at h1
          subst h1
          refine ⟨?_, ?_⟩
          · intro q hq
            rw [i1 q fun y hy => hq y (by simp [hy])]
            simp [World.put, hq x (by simp)]
          · intro xs1 y xs2 he hy
            cases xs1 with
            | nil =>
              simp only [List.nil_append, List.cons.injEq] at he
              obtain ⟨rfl, rfl⟩ := he
              refine ⟨pbo, out, sum, hp, hw, ?_⟩
              rw [i1 _ fun y' hy' => (hy y' hy').symm]
              simp [World.put]
            | cons z xs1 =>
              simp only [List.cons_append, List.cons.injEq] at he
              exact i2 xs1 y xs2 he.2 hy

end Verif.Release
