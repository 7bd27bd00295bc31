import Verif.Spec.PreprocAcyclic
import Verif.Lib.PreprocFuel
import Mathlib.Data.List.Chain
/-!
Termination of the preprocessor on worlds without circular macros or includes.
-/
namespace Verif.Preproc
open Spec

/-- A fuelled computation ends, and if it ends well the result satisfies `P`. -/
def Stops {α} (f : Nat → Except PErr α) (P : α → Prop) : Prop :=
  ∃ n, f n ≠ .error .fuel ∧ ∀ x, f n = .ok x → P x

theorem Stops.mono {α} {f : Nat → Except PErr α} {P Q : α → Prop} (h : Stops f P) (hpq : ∀ x, P x → Q x) :
    Stops f Q := by
  obtain ⟨n, h1, h2⟩ := h
  exact ⟨n, h1, fun x hx => hpq x (h2 x hx)⟩

/-- Sequencing: `F k` is the program with fuel `k + 1`. -/
theorem Stops.bind {α β} {a : Nat → Except PErr α} {F : Nat → Except PErr β} {P : α → Prop} {Q : β → Prop}
    (ha : Stops a P) (ha' : ∀ n m, n ≤ m → a n ≠ .error .fuel → a m = a n)
    (g : Nat → α → Except PErr β)
    (hF : ∀ k, F (k + 1) = match a k with
      | .error e => .error e
      | .ok x => g k x)
    (hg : ∀ x, P x → ∃ n, ∀ m, n ≤ m → g m x = g n x ∧ g n x ≠ .error .fuel ∧ ∀ y, g n x = .ok y → Q y) :
    Stops F Q := by
  obtain ⟨n, h1, h2⟩ := ha
  cases hn : a n with
  | error e =>
    refine ⟨n + 1, ?_, ?_⟩
    · rw [hF, hn]; intro h; exact h1 (by rw [hn]; simpa using h)
    · rw [hF, hn]; simp
  | ok x =>
    obtain ⟨m, hm⟩ := hg x (h2 x hn)
    obtain ⟨e1, e2, e3⟩ := hm (max n m) (le_max_right n m)
    have hx : a (max n m) = .ok x := by rw [ha' n _ (le_max_left n m) h1, hn]
    refine ⟨max n m + 1, ?_, ?_⟩
    · rw [hF, hx]; simp only; rw [e1]; exact e2
    · rw [hF, hx]; simp only; rw [e1]; exact e3

theorem Stops.stable {α} {f : Nat → Except PErr α} {P : α → Prop} (h : Stops f P)
    (hf : ∀ n m, n ≤ m → f n ≠ .error .fuel → f m = f n) :
    ∃ n, ∀ m, n ≤ m → f m = f n ∧ f n ≠ .error .fuel ∧ ∀ y, f n = .ok y → P y := by
  obtain ⟨n, h1, h2⟩ := h
  exact ⟨n, fun m hm => ⟨hf n m hm h1, h1, h2⟩⟩

/-! ### Every function returns the end of its stream -/

theorem skipWs_suffix (l : List Tok) : ∃ a, l = a ++ skipWs l ∧ blank (a.map Tok.sym) = true := by
  induction l with
  | nil => exact ⟨[], rfl, rfl⟩
  | cons t l ih =>
    rw [skipWs]
    split
    · rename_i h
      obtain ⟨a, h1, h2⟩ := ih
      refine ⟨t :: a, by rw [List.cons_append, ← h1], ?_⟩
      simpa [blank, h] using h2
    · exact ⟨[], rfl, rfl⟩

theorem skipWs_suf (l : List Tok) : skipWs l <:+ l := by
  obtain ⟨a, h, _⟩ := skipWs_suffix l
  exact ⟨a, h.symm⟩

theorem skipWsOut_suf (st : St) (l : List Tok) : ∀ buf, (skipWsOut st l buf).1 = skipWs l := by
  induction l with
  | nil => intro _; rfl
  | cons t l ih =>
    intro buf
    rw [skipWsOut, skipWs]
    split
    · exact ih _
    · rfl

theorem skipLine_suf (l : List Tok) : skipLine l <:+ l := by
  induction l with
  | nil => exact List.suffix_rfl
  | cons t l ih =>
    rw [skipLine]
    split
    · exact List.suffix_cons t l
    · exact ih.trans (List.suffix_cons t l)

theorem skipLine_cons_suf (t : Tok) (l : List Tok) : skipLine (t :: l) <:+ l := by
  rw [skipLine]
  split
  · exact List.suffix_rfl
  · exact skipLine_suf l

theorem expectNothing_suf {l l' : List Tok} (h : expectNothing l = .ok l') : l' <:+ l := by
  induction l with
  | nil => simp only [expectNothing, Except.ok.injEq] at h; subst h; exact List.suffix_rfl
  | cons t l ih =>
    rw [expectNothing] at h
    split at h
    · simp only [Except.ok.injEq] at h; subst h; exact List.suffix_cons t l
    · split at h
      · exact (ih h).trans (List.suffix_cons t l)
      · simp at h

theorem nextWord_eq {l l' : List Tok} {t : Tok} (h : nextWord l = .ok (t, l')) :
    ∃ a w, l = a ++ t :: l' ∧ blank (a.map Tok.sym) = true ∧ t.sym = .word w := by
  obtain ⟨a, ha, hb⟩ := skipWs_suffix l
  rw [nextWord] at h
  split at h
  · rename_i t' l'' hc
    simp only [Except.ok.injEq, Prod.mk.injEq] at h
    obtain ⟨rfl, rfl⟩ := h
    revert hc ha
    generalize skipWs l = s
    intro ha hc
    cases s with
    | nil => simp [currentWord] at hc
    | cons x s =>
      rw [currentWord] at hc
      split at hc
      · rename_i hw
        simp only [Prod.mk.injEq, Except.ok.injEq] at hc
        obtain ⟨rfl, rfl⟩ := hc
        obtain ⟨sy, p⟩ := x
        cases sy <;> simp [Sym.isWord] at hw
        rename_i w
        exact ⟨a, w, ha, hb, rfl⟩
      · split at hc <;> simp at hc
  · simp at h

theorem nextWord_suf {l l' : List Tok} {t : Tok} (h : nextWord l = .ok (t, l')) : l' <:+ l := by
  obtain ⟨a, w, h, _⟩ := nextWord_eq h
  exact ⟨a ++ [t], by rw [h]; simp⟩

theorem currentWord_suf (l : List Tok) : (currentWord l).2 <:+ l := by
  cases l with
  | nil => exact List.suffix_rfl
  | cons t l =>
    rw [currentWord]
    split
    · exact List.suffix_cons t l
    · split
      · exact List.suffix_rfl
      · exact List.suffix_cons t l

theorem readValue_suf (l : List Tok) : (readValue l).2 <:+ l := by
  induction l with
  | nil => exact List.suffix_rfl
  | cons t l ih =>
    rw [readValue]
    split
    · exact List.suffix_rfl
    · exact ih.trans (List.suffix_cons t l)

theorem readParams_suf {l : List Tok} : ∀ {c args args' l'}, readParams l c args = .ok (args', l') → l' <:+ l := by
  induction l with
  | nil =>
    intro c args args' l' h
    simp only [readParams, Except.ok.injEq, Prod.mk.injEq] at h
    obtain ⟨_, rfl⟩ := h; exact List.suffix_rfl
  | cons t l ih =>
    intro c args args' l' h
    rw [readParams] at h
    split at h
    · split at h
      · simp at h
      · exact (ih h).trans (List.suffix_cons t l)
    · split at h
      · split at h
        · exact (ih h).trans (List.suffix_cons t l)
        · simp at h
      · split at h
        · simp only [Except.ok.injEq, Prod.mk.injEq] at h
          obtain ⟨_, rfl⟩ := h; exact List.suffix_cons t l
        · split at h
          · exact (ih h).trans (List.suffix_cons t l)
          · simp at h

theorem readBody_suf (l : List Tok) : ∀ b, (readBody l b).2 <:+ l := by
  induction l with
  | nil => intro b; exact List.suffix_rfl
  | cons t l ih =>
    intro b
    rw [readBody]
    split
    · split
      · exact (ih _).trans (List.suffix_cons t l)
      · exact List.suffix_cons t l
    · split
      · exact (ih _).trans (List.suffix_cons t l)
      · exact (ih _).trans (List.suffix_cons t l)

theorem readPath_eq {close : Sym} {o : Tok} {l : List Tok} : ∀ {path path' l'},
    readPath close o l path = .ok (path', l') →
      ∃ a tail, l = a ++ tail ∧ path' = path ++ a ∧ (∀ t ∈ a, t.sym ≠ close ∧ t.sym ≠ .newline) ∧
        (tail = [] ∧ l' = [] ∨ ∃ c, tail = c :: l' ∧ c.sym = close) := by
  induction l with
  | nil =>
    intro path path' l' h
    simp only [readPath, Except.ok.injEq, Prod.mk.injEq] at h
    exact ⟨[], [], rfl, by simp [h.1], by simp, .inl ⟨rfl, h.2.symm⟩⟩
  | cons t l ih =>
    intro path path' l' h
    rw [readPath] at h
    split at h
    · rename_i hc
      simp only [Except.ok.injEq, Prod.mk.injEq] at h
      obtain ⟨rfl, rfl⟩ := h
      exact ⟨[], t :: l, rfl, by simp, by simp, .inr ⟨t, rfl, hc⟩⟩
    · rename_i hc
      split at h
      · simp at h
      · rename_i hn
        split at h
        · simp at h
        · obtain ⟨a, tail, h1, h2, h3, h4⟩ := ih h
          refine ⟨t :: a, tail, by rw [h1]; rfl, by rw [h2]; simp, ?_, h4⟩
          rintro x (_ | ⟨_, hx⟩)
          · exact ⟨hc, hn⟩
          · exact h3 x hx

/-! ### Stability in the fuel -/

section
variable {env : Env}

theorem walk_stable {site im q jw quote st toks buf} : ∀ n m, n ≤ m →
    walk n env site im q jw quote st toks buf ≠ .error .fuel →
    walk m env site im q jw quote st toks buf = walk n env site im q jw quote st toks buf :=
  fun _ _ h hne => walk_more h rfl hne

theorem defineUse_stable {site st toks buf} : ∀ n m, n ≤ m →
    defineUse n env site st toks buf ≠ .error .fuel →
    defineUse m env site st toks buf = defineUse n env site st toks buf :=
  fun _ _ h hne => defineUse_more h rfl hne

theorem readArgs_stable {site q depth st toks args arg} : ∀ n m, n ≤ m →
    readArgs n env site q depth st toks args arg ≠ .error .fuel →
    readArgs m env site q depth st toks args arg = readArgs n env site q depth st toks args arg :=
  fun _ _ h hne => readArgs_more h rfl hne

theorem file_stable {st toks buf} : ∀ n m, n ≤ m →
    file n env st toks buf ≠ .error .fuel → file m env st toks buf = file n env st toks buf :=
  fun _ _ h hne => file_more h rfl hne

theorem line_stable {st toks buf} : ∀ n m, n ≤ m →
    line n env st toks buf ≠ .error .fuel → line m env st toks buf = line n env st toks buf :=
  fun _ _ h hne => line_more h rfl hne

theorem command_stable {st cmd toks buf} : ∀ n m, n ≤ m →
    command n env st cmd toks buf ≠ .error .fuel → command m env st cmd toks buf = command n env st cmd toks buf :=
  fun _ _ h hne => command_more h rfl hne

/-! ### Macro bodies -/

/-- The words of a stream rank below `r`. -/
def Below (rank : Text → Nat) (r : Nat) (l : List Tok) : Prop := ∀ t ∈ l, ∀ w, t.sym = .word w → rank w < r

/-- A macro whose body ranks below its name and holds no directive. -/
def EntryGood (rank : Text → Nat) (k : Text) : Definition → Prop
  | .value b => Below rank (rank k) b ∧ NoDir b
  | .function f => Below rank (rank k) f.body ∧ NoDir f.body
  | .unit | .void => True

/-- Every global macro is good, every local one an argument. -/
structure Good (rank : Text → Nat) (d : Defines) : Prop where
  global : ∀ k e, d.global k = some e → EntryGood rank k e.defn
  stack : ∀ f ∈ d.stack, ∀ k e, f.2 k = some e → e.src = .argument ∧ ∃ v, e.defn = .value v

/-- What walking over a macro body leaves alone. -/
structure Same (st st' : St) : Prop where
  global : st'.defs.global = st.defs.global
  stack : st'.defs.stack = st.defs.stack
  files : st'.files = st.files

theorem Same.refl (st : St) : Same st st := ⟨rfl, rfl, rfl⟩

theorem Same.trans {a b c : St} (h : Same a b) (k : Same b c) : Same a c :=
  ⟨k.global.trans h.global, k.stack.trans h.stack, k.files.trans h.files⟩

theorem Same.good {rank} {a b : St} (h : Same a b) (hg : Good rank a.defs) : Good rank b.defs :=
  ⟨by rw [h.global]; exact hg.global, by rw [h.stack]; exact hg.stack⟩

theorem Below.suffix {rank r} {a b : List Tok} (h : Below rank r b) (hs : a <:+ b) : Below rank r a :=
  fun t ht => h t (hs.subset ht)

theorem Below.noJoin {rank r} {b : List Tok} (h : Below rank r b) : Below rank r (noJoin b) :=
  fun t ht => h t (List.mem_filter.1 ht).1

/-- `getWithGen` changes only the counter. -/
theorem builtin_same (d : Defines) (key : Tok) (site : Pos) (w : Text) :
    (d.builtin env key site w).2.global = d.global ∧ (d.builtin env key site w).2.stack = d.stack := by
  rw [Defines.builtin]
  dsimp only
  split_ifs <;> exact ⟨rfl, rfl⟩

theorem getWithGen_same (d : Defines) (key : Tok) (site : Pos) :
    (d.getWithGen env key site).2.global = d.global ∧ (d.getWithGen env key site).2.stack = d.stack := by
  rw [Defines.getWithGen]
  dsimp only
  split
  · exact builtin_same d key site _
  · split
    · split
      · split <;> exact ⟨rfl, rfl⟩
      · exact ⟨rfl, rfl⟩
    · exact ⟨rfl, rfl⟩

theorem noDir_single (t : Tok) : NoDir [t] := by
  rw [NoDir, List.filter_cons]
  split <;> simp

theorem getWithGen_good {rank frank} (hac : Acyclic env rank frank) {d : Defines} (hg : Good rank d) {key : Tok}
    {w : Text} (hw : key.sym = .word w) {site : Pos} {e : Entry} {d' : Defines}
    (hre : Real env site.path)
    (h : d.getWithGen env key site = (some e, d')) :
    (e.src = .argument ∧ ∃ v, e.defn = .value v) ∨ EntryGood rank w e.defn := by
  rw [Defines.getWithGen] at h
  dsimp only at h
  simp only [hw, Sym.text] at h
  split at h
  · rename_i hb
    simp only [Prod.mk.injEq, Option.some.injEq] at h
    obtain ⟨rfl, _⟩ := h
    right
    simp only
    rw [Defines.builtin]
    dsimp only
    split_ifs with h1 h2 h3 h4 h5
    · exact ⟨by simp [Below], noDir_single _⟩
    · trivial
    · subst h3
      refine ⟨?_, ?_⟩
      · intro t ht v hv
        simp only [List.mem_cons, List.not_mem_nil, or_false] at ht
        rcases ht with rfl | rfl | rfl
        · simp at hv
        · cases hv; exact (hac.names _ hre).1
        · simp at hv
      · simp [NoDir, NotDir]
    · subst h4
      exact ⟨by simp only [Below, List.mem_singleton]; rintro t rfl v hv; cases hv; exact (hac.names _ hre).2.1, noDir_single _⟩
    · subst h5
      exact ⟨by simp only [Below, List.mem_singleton]; rintro t rfl v hv; cases hv; exact (hac.names _ hre).2.2, noDir_single _⟩
    · exact ⟨by simp [Below], noDir_single _⟩
  · have key : ∀ e', d.getReadonly w = some e' → (e'.src = .argument ∧ ∃ v, e'.defn = .value v) ∨
        EntryGood rank w e'.defn := by
      intro e' he
      rw [Defines.getReadonly] at he
      split at he
      · exact .inr (hg.global _ _ he)
      · rename_i n m s hs
        split at he
        · rename_i e'' hm
          simp only [Option.some.injEq] at he
          subst he
          exact .inl (hg.stack (n, m) (by rw [hs]; simp) w e'' hm)
        · exact .inr (hg.global _ _ he)
    split at h
    · rename_i e' he
      have := key e' he
      split at h
      · split at h
        · simp only [Prod.mk.injEq, Option.some.injEq] at h
          rw [← h.1]; exact this
        · simp at h
      · simp only [Prod.mk.injEq, Option.some.injEq] at h
        rw [← h.1]; exact this
    · simp at h

/-- Statement about macro use below rank `r`. -/
def UseStops (env : Env) (rank : Text → Nat) (r : Nat) (toks : List Tok) : Prop :=
  ∀ site, Real env site.path → ∀ st buf t rest w, toks = t :: rest → t.sym = .word w → Good rank st.defs → Below rank r toks →
    Stops (fun n => defineUse n env site st toks buf) fun x => Same st x.1 ∧ x.2.1 <:+ rest

/-- Statement about macro arguments below rank `r`. -/
def ArgsStop (env : Env) (rank : Text → Nat) (r : Nat) (toks : List Tok) : Prop :=
  ∀ site, Real env site.path → ∀ q depth st args arg, Good rank st.defs → Below rank r toks →
    Stops (fun n => readArgs n env site q depth st toks args arg) fun x => Same st x.1 ∧ x.2.1 <:+ toks

/-- Statement about macro bodies below rank `r`. -/
def BodyStops (env : Env) (rank : Text → Nat) (r : Nat) : Prop :=
  ∀ site, Real env site.path → ∀ im q jw quote st toks buf, Good rank st.defs → Below rank r toks → List.IsChain NotDir toks →
    Stops (fun n => walk n env (some site) (some im) q jw quote st toks buf) fun x => Same st x.1

theorem Stops.one {α} {f : Nat → Except PErr α} {P : α → Prop} (r : Except PErr α) (h : f 1 = r)
    (hne : r ≠ .error .fuel) (hp : ∀ x, r = .ok x → P x) : Stops f P :=
  ⟨1, by rw [h]; exact hne, by rw [h]; exact hp⟩

/-- A step that only uses up fuel. -/
theorem Stops.succ {α} {f g : Nat → Except PErr α} {P Q : α → Prop} (h : Stops g P) (hf : ∀ n, f (n + 1) = g n)
    (hpq : ∀ x, P x → Q x) : Stops f Q := by
  obtain ⟨n, h1, h2⟩ := h
  exact ⟨n + 1, by rw [hf]; exact h1, fun x hx => hpq x (h2 x (by rw [← hf]; exact hx))⟩

theorem argsStop {rank : Text → Nat} {r : Nat} (toks : List Tok)
    (ih : ∀ l : List Tok, l.length ≤ toks.length → UseStops env rank r l) : ArgsStop env rank r toks := by
  generalize hk : toks.length = k
  rw [hk] at ih
  induction k using Nat.strong_induction_on generalizing toks with
  | _ k ihk =>
  intro site hre q depth st args arg hg hb
  cases toks with
  | nil =>
    refine Stops.one (.ok (st, [], if arg = [] then args else args ++ [arg])) ?_ (by simp) ?_
    · rw [readArgs.eq_def]
    · rintro x h; cases h; exact ⟨.refl _, List.suffix_rfl⟩
  | cons t rest =>
    have hlt : rest.length < k := by rw [← hk]; simp
    have hbr : Below rank r rest := hb.suffix (List.suffix_cons t rest)
    have next : ∀ q depth args arg, Stops (fun n => readArgs n env site q depth st rest args arg)
        fun x => Same st x.1 ∧ x.2.1 <:+ t :: rest := fun q depth args arg =>
      (ihk rest.length hlt rest (fun l hl => ih l (by omega)) rfl site hre q depth st args arg hg hbr).mono
        fun x h => ⟨h.1, h.2.trans (List.suffix_cons t rest)⟩
    by_cases hq : q = true
    · subst hq
      refine (next (decide (t.sym ≠ .dquote)) depth args (arg ++ [t])).succ (fun n => ?_) fun x h => h
      conv => lhs; rw [readArgs.eq_def]
      dsimp only
      rw [if_pos rfl]
    · simp only [Bool.not_eq_true] at hq
      subst hq
      cases hs : t.sym with
      | word w =>
        by_cases hc : st.defs.containsKey w = true
        · refine Stops.bind (ih (t :: rest) (by omega) site hre st [] t rest w rfl hs hg hb) defineUse_stable
            (fun k x => readArgs k env site false depth x.1 x.2.1 args (arg ++ Out.toksL x.2.2)) ?_ ?_
          · intro k
            rw [readArgs.eq_def]
            dsimp only
            rw [if_neg (by simp)]
            simp only [hs, hc, if_true]
            generalize defineUse k env site st (t :: rest) [] = z
            rcases z with e | ⟨a, b, c⟩ <;> rfl
          · rintro ⟨st', toks', inner⟩ ⟨h1, h2⟩
            have hl := h2.length_le
            simp only at hl h1
            exact ((ihk toks'.length (by omega) toks' (fun l hl => ih l (by omega)) rfl site hre false depth st' args
              _ (h1.good hg) (hbr.suffix h2)).mono
                fun x h => ⟨h1.trans h.1, h.2.trans (h2.trans (List.suffix_cons t rest))⟩).stable readArgs_stable
        · refine (next false depth args (arg ++ [t])).succ (fun n => ?_) fun x h => h
          conv => lhs; rw [readArgs.eq_def]
          dsimp only
          rw [if_neg (by simp)]
          simp only [hs, hc]
          rfl
      | rparen =>
        by_cases hd : depth = 0
        · refine Stops.one (.ok (st, rest, if arg = [] then args else args ++ [arg])) ?_ (by simp) ?_
          · rw [readArgs.eq_def]
            dsimp only
            rw [if_neg (by simp)]
            simp only [hs, if_pos hd]
          · rintro x h; cases h; exact ⟨.refl _, List.suffix_cons t rest⟩
        · refine (next false (depth - 1) args (arg ++ [t])).succ (fun n => ?_) fun x h => h
          conv => lhs; rw [readArgs.eq_def]
          dsimp only
          rw [if_neg (by simp)]
          simp only [hs, if_neg hd]
      | lparen =>
        refine (next false (depth + 1) args (arg ++ [t])).succ (fun n => ?_) fun x h => h
        conv => lhs; rw [readArgs.eq_def]
        dsimp only
        rw [if_neg (by simp)]
        simp only [hs]
      | comma =>
        refine (next false depth (args ++ [arg]) []).succ (fun n => ?_) fun x h => h
        conv => lhs; rw [readArgs.eq_def]
        dsimp only
        rw [if_neg (by simp)]
        simp only [hs]
      | dquote =>
        refine (next true depth args (arg ++ [t])).succ (fun n => ?_) fun x h => h
        conv => lhs; rw [readArgs.eq_def]
        dsimp only
        rw [if_neg (by simp)]
        simp only [hs]
      | _ =>
        refine (next false depth args (arg ++ [t])).succ (fun n => ?_) fun x h => h
        conv => lhs; rw [readArgs.eq_def]
        dsimp only
        rw [if_neg (by simp)]
        simp only [hs]

theorem bindArgs_good (p : Pragma) (name : Text) (l : List (Tok × List Tok)) : ∀ (m : Inner) (ws : List Warn),
    (∀ k e, m k = some e → e.src = .argument ∧ ∃ v, e.defn = .value v) →
    ∀ k e, (bindArgs p name l m ws).1 k = some e → e.src = .argument ∧ ∃ v, e.defn = .value v := by
  induction l with
  | nil => intro m ws h; exact h
  | cons a l ih =>
    obtain ⟨a, v⟩ := a
    intro m ws h
    rw [bindArgs]
    refine ih _ _ fun k e he => ?_
    rw [Inner.insert] at he
    split at he
    · simp only [Option.some.injEq] at he
      subst he
      exact ⟨rfl, v, rfl⟩
    · exact h k e he

/-- `defineUse` once the name has been looked up. -/
def useWith (n : Nat) (env : Env) (site : Pos) (buf : List Out) (t : Tok) (rest : List Tok) (st : St) :
    Option Entry → R
  | none => .ok (st, rest, buf ++ [.direct t])
  | some e =>
    match e.defn with
    | .function f => match rest with
      | [] => .error .panic
      | p :: toks =>
        if p.sym ≠ .lparen then .error (.code 10 t (.toks [e.tok]))
        else match readArgs n env site false 0 st toks [] [] with
          | .error e => .error e
          | .ok (st, toks, args) =>
            if args.length ≠ f.args.length then .error (.code 9 t (.toks [e.tok]))
            else
              match walk n env (some site) (some t.sym.text) false true none
                  { st with
                    warns := (bindArgs st.pragma t.sym.text (f.args.zip args) (fun _ => none) st.warns).2
                    defs := st.defs.push t.sym.text
                      (bindArgs st.pragma t.sym.text (f.args.zip args) (fun _ => none) st.warns).1 }
                  (noJoin f.body) [] with
              | .error e => .error e
              | .ok (st, _, layer) =>
                .ok ({ st with defs := st.defs.pop }, toks, buf ++ [.mac t layer])
    | .value body =>
      if e.src = .argument then .ok (st, rest, buf ++ [.mac t (body.map .direct)])
      else
        match walk n env (some site) (some t.sym.text) false true none st (noJoin body) [] with
        | .error e => .error e
        | .ok (st, _, layer) => .ok (st, rest, buf ++ [.mac t layer])
    | .void => .ok (st, rest, buf)
    | .unit => match rest with
      | [] => .error .panic
      | _ :: _ => .error (.code 11 t (.toks [e.tok]))

theorem defineUse_eq {n site st buf d oe} {t : Tok} {rest : List Tok} {w : Text} (hw : t.sym = .word w)
    (hge : st.defs.getWithGen env t site = (oe, d)) :
    defineUse (n + 1) env site st (t :: rest) buf = useWith n env site buf t rest { st with defs := d } oe := by
  have hcur : currentWord (t :: rest) = (.ok t, rest) := by simp [currentWord, hw, Sym.isWord]
  rw [defineUse.eq_def]
  dsimp only
  rw [hcur]
  dsimp only
  rw [hge]
  cases oe with
  | none => rfl
  | some e =>
    simp only [useWith]
    cases e.defn <;> rfl

theorem useStops {rank frank : Text → Nat} (hac : Acyclic env rank frank) {r : Nat}
    (hbody : ∀ r' < r, BodyStops env rank r') (toks : List Tok) : UseStops env rank r toks := by
  generalize hk : toks.length = k
  induction k using Nat.strong_induction_on generalizing toks with
  | _ k ihk =>
  rintro site hre st buf t rest w rfl hw hg hb
  have hargs : ArgsStop env rank r rest.tail := argsStop rest.tail fun l hl =>
    ihk l.length (by simp only [List.length_cons] at hk; simp only [List.length_tail] at hl; omega) l rfl
  have hsame := getWithGen_same (env := env) st.defs t site
  cases hge : st.defs.getWithGen env t site with
  | mk oe d =>
  rw [hge] at hsame
  simp only at hsame
  have hs : Same st { st with defs := d } := ⟨hsame.1, hsame.2, rfl⟩
  have hf : ∀ n, defineUse (n + 1) env site st (t :: rest) buf =
      useWith n env site buf t rest { st with defs := d } oe := fun n => defineUse_eq hw hge
  cases oe with
  | none =>
    refine Stops.one (.ok ({ st with defs := d }, rest, buf ++ [.direct t])) ((hf 0).trans rfl) (by simp) ?_
    rintro x h; cases h; exact ⟨hs, List.suffix_rfl⟩
  | some e =>
    have hgood := getWithGen_good hac hg hw hre hge
    cases hdef : e.defn with
    | void =>
      refine Stops.one (.ok ({ st with defs := d }, rest, buf)) ((hf 0).trans ?_) (by simp) ?_
      · simp only [useWith, hdef]
      · rintro x h; cases h; exact ⟨hs, List.suffix_rfl⟩
    | unit =>
      cases rest with
      | nil => exact Stops.one (.error .panic) ((hf 0).trans (by simp only [useWith, hdef])) (by simp) (by simp)
      | cons a l => exact Stops.one (.error (.code 11 t (.toks [e.tok]))) ((hf 0).trans (by simp only [useWith, hdef])) (by simp) (by simp)
    | value body =>
      by_cases harg : e.src = .argument
      · refine Stops.one (.ok ({ st with defs := d }, rest, buf ++ [.mac t (body.map .direct)]))
          ((hf 0).trans ?_) (by simp) ?_
        · simp only [useWith, hdef, if_pos harg]
        · rintro x h; cases h; exact ⟨hs, List.suffix_rfl⟩
      · have hbd : EntryGood rank w (.value body) := by
          rcases hgood with h | h
          · exact absurd h.1 harg
          · rwa [hdef] at h
        have hr : rank w < r := hb t (by simp) w hw
        refine Stops.bind (hbody _ hr site hre t.sym.text false true none { st with defs := d } (noJoin body) []
          (hs.good hg) hbd.1.noJoin hbd.2) walk_stable
          (fun _ x => .ok (x.1, rest, buf ++ [.mac t x.2.2])) (fun k => (hf k).trans ?_) ?_
        · simp only [useWith, hdef, if_neg harg]
          generalize walk k env _ _ _ _ _ _ _ _ = z
          rcases z with e | ⟨a, b, c⟩ <;> rfl
        · rintro ⟨st', toks', layer⟩ h
          exact ⟨0, fun m _ => ⟨rfl, by simp, fun y hy => by
            cases hy; exact ⟨hs.trans h, List.suffix_rfl⟩⟩⟩
    | function f =>
      have hbd : EntryGood rank w (.function f) := by
        rcases hgood with h | h
        · obtain ⟨v, hv⟩ := h.2; rw [hdef] at hv; cases hv
        · rwa [hdef] at h
      have hr : rank w < r := hb t (by simp) w hw
      cases rest with
      | nil => exact Stops.one (.error .panic) ((hf 0).trans (by simp only [useWith, hdef])) (by simp) (by simp)
      | cons p toks =>
        by_cases hp : p.sym = .lparen
        · refine Stops.bind (hargs site hre false 0 { st with defs := d } [] [] (hs.good hg)
            (hb.suffix ((List.suffix_cons p toks).trans (List.suffix_cons t _)))) readArgs_stable
            (fun n x => if x.2.2.length ≠ f.args.length then .error (.code 9 t (.toks [e.tok]))
                else
                  match walk n env (some site) (some t.sym.text) false true none
                      { x.1 with
                        warns := (bindArgs x.1.pragma t.sym.text (f.args.zip x.2.2) (fun _ => none) x.1.warns).2
                        defs := x.1.defs.push t.sym.text
                          (bindArgs x.1.pragma t.sym.text (f.args.zip x.2.2) (fun _ => none) x.1.warns).1 }
                      (noJoin f.body) [] with
                  | .error e => .error e
                  | .ok (st, _, layer) =>
                    .ok ({ st with defs := st.defs.pop }, x.2.1, buf ++ [.mac t layer]))
            (fun k => (hf k).trans ?_) ?_
          · simp only [useWith, hdef, hp]
            rw [if_neg (by simp), List.tail_cons]
            generalize readArgs k env _ _ _ _ _ _ _ = z
            rcases z with e | ⟨a, b, c⟩ <;> rfl
          · rintro ⟨st', toks', args⟩ ⟨h1, h2⟩
            simp only at h1 h2 ⊢
            by_cases hl : args.length ≠ f.args.length
            · exact ⟨0, fun m _ => by simp [hl]⟩
            · simp only [if_neg hl]
              have hgp : Good rank (st'.defs.push t.sym.text
                  (bindArgs st'.pragma t.sym.text (f.args.zip args) (fun _ => none) st'.warns).1) := by
                have hg' := h1.good (hs.good hg)
                refine ⟨hg'.global, ?_⟩
                rintro f (_ | ⟨_, hf⟩)
                · exact bindArgs_good _ _ _ _ _ (by simp)
                · exact hg'.stack f hf
              obtain ⟨n, hn⟩ := (hbody _ hr site hre t.sym.text false true none
                { st' with
                  warns := (bindArgs st'.pragma t.sym.text (f.args.zip args) (fun _ => none) st'.warns).2
                  defs := st'.defs.push t.sym.text
                    (bindArgs st'.pragma t.sym.text (f.args.zip args) (fun _ => none) st'.warns).1 }
                (noJoin f.body) [] hgp
                hbd.1.noJoin hbd.2).stable walk_stable
              refine ⟨n, fun m hm => ?_⟩
              obtain ⟨k1, k2, k3⟩ := hn m hm
              rw [k1]
              refine ⟨rfl, ?_, ?_⟩
              · split
                · rename_i e' he'
                  intro hc
                  apply k2
                  rw [he']; simpa using hc
                · simp
              · intro y hy
                split at hy
                · simp at hy
                · rename_i st2 l2 layer2 he2
                  have := k3 _ he2
                  cases hy
                  refine ⟨?_, h2.trans (List.suffix_cons p toks)⟩
                  refine hs.trans (h1.trans ⟨this.global, ?_, this.files⟩)
                  have hh := this.stack
                  simp only [Defines.push] at hh
                  simp only [Defines.pop, hh, List.tail_cons]
        · refine Stops.one (.error (.code 10 t (.toks [e.tok]))) ((hf 0).trans ?_) (by simp) (by simp)
          simp only [useWith, hdef, ne_eq, hp, not_false_eq_true, if_true]

theorem bodyStops {rank frank : Text → Nat} (hac : Acyclic env rank frank) (r : Nat) : BodyStops env rank r := by
  induction r using Nat.strong_induction_on with
  | _ r ihr =>
  intro site hre im q jw quote st toks buf hg hb hch
  generalize hk : toks.length = k
  induction k using Nat.strong_induction_on generalizing toks q jw quote st buf with
  | _ k ihk =>
  cases toks with
  | nil =>
    refine Stops.one (.ok (st, [], buf)) ?_ (by simp) ?_
    · rw [walk.eq_def]
    · rintro x h; cases h; exact .refl _
  | cons t rest =>
    have hlt : rest.length < k := by rw [← hk]; simp
    have hbr : Below rank r rest := hb.suffix (List.suffix_cons t rest)
    have hchr : List.IsChain NotDir rest := hch.suffix (List.suffix_cons t rest)
    have next : ∀ q jw quote buf, Stops (fun n => walk n env (some site) (some im) q jw quote st rest buf)
        fun x => Same st x.1 := fun q jw quote buf =>
      ihk rest.length hlt q jw quote st rest buf hg hbr hchr rfl
    obtain ⟨s, p⟩ := t
    have stop : ∀ (l : List Tok), (∀ n, walk (n + 1) env (some site) (some im) q jw quote st (⟨s, p⟩ :: rest) buf =
        .ok (st, l, buf)) → Stops (fun n => walk n env (some site) (some im) q jw quote st (⟨s, p⟩ :: rest) buf)
        fun x => Same st x.1 := fun l h => Stops.one _ (h 0) (by simp) (by rintro x h; cases h; exact .refl _)
    have err : ∀ (e : PErr), e ≠ .fuel → (∀ n, walk (n + 1) env (some site) (some im) q jw quote st (⟨s, p⟩ :: rest) buf =
        .error e) → Stops (fun n => walk n env (some site) (some im) q jw quote st (⟨s, p⟩ :: rest) buf)
        fun x => Same st x.1 := fun e he h => Stops.one _ (h 0) (by simpa using he) (by simp)
    have step : ∀ q' jw' quote' buf', (∀ n, walk (n + 1) env (some site) (some im) q jw quote st (⟨s, p⟩ :: rest) buf =
        walk n env (some site) (some im) q' jw' quote' st rest buf') →
        Stops (fun n => walk n env (some site) (some im) q jw quote st (⟨s, p⟩ :: rest) buf)
        fun x => Same st x.1 := fun q' jw' quote' buf' h => (next q' jw' quote' buf').succ h fun x h => h
    cases q with
    | true =>
      cases s
      case eoi => exact stop (⟨.eoi, p⟩ :: rest) fun n => by rw [walk.eq_def]
      all_goals
        apply step
        · intro n; rw [walk.eq_def]
    | false =>
      cases s
      case eoi => exact stop (⟨.eoi, p⟩ :: rest) fun n => by rw [walk.eq_def]
      case word w =>
        by_cases h1 : w = kw "__EXEC"
        · refine err (.code 25 ⟨.word w, p⟩) (by simp) fun n => ?_
          rw [walk.eq_def]; dsimp only; rw [if_pos h1]
        · by_cases h2 : isUnsupportedBuiltin w = true
          · refine err (.code 26 ⟨.word w, p⟩) (by simp) fun n => ?_
            rw [walk.eq_def]; dsimp only; rw [if_neg h1, if_pos h2]
          · by_cases h3 : some im ≠ some w ∧ st.defs.containsKey w = true
            · refine Stops.bind (useStops hac (r := r) ihr (⟨.word w, p⟩ :: rest) site hre st buf _ rest w rfl rfl hg hb)
                defineUse_stable
                (fun n x => walk n env (some site) (some im) false false none x.1 x.2.1 (closeQuote x.1 quote x.2.2))
                (fun n => ?_) ?_
              · rw [walk.eq_def]; dsimp only; rw [if_neg h1, if_neg h2, if_pos h3, Option.getD_some]
                generalize defineUse n env _ _ _ _ = z
                rcases z with e | ⟨a, b, c⟩ <;> rfl
              · rintro ⟨st', toks', b'⟩ ⟨k1, k2⟩
                simp only at k1 k2 ⊢
                have hl := k2.length_le
                exact ((ihk toks'.length (by omega) false false none st' toks' _ (k1.good hg) (hbr.suffix k2)
                  (hchr.suffix k2) rfl).mono fun x h => k1.trans h).stable walk_stable
            · apply step
              intro n; rw [walk.eq_def]
              dsimp only; rw [if_neg h1, if_neg h2, if_neg h3]
      case directive =>
        have h1 : ¬ (jw = true ∧ (rest.head?.any fun c => directiveWords.contains c.sym.text) = true) := by
          rintro ⟨_, h⟩
          cases rest with
          | nil => simp at h
          | cons c rest =>
            simp only [List.head?_cons, Option.any_some, List.contains_iff_mem] at h
            have := (List.isChain_cons_cons.1 hch).1 rfl
            exact this h
        by_cases h2 : (some im).isSome = true ∧ ((some site).any fun s => quotes st ⟨.directive, p⟩ rest s) = true
        · apply step
          intro n; rw [walk.eq_def]
          dsimp only; rw [if_neg h1, if_pos h2]
        · apply step
          intro n; rw [walk.eq_def]
          dsimp only; rw [if_neg h1, if_neg h2]
      case newline =>
        apply step
        intro n; rw [walk.eq_def]
        dsimp only; rw [if_neg (by simp)]
      all_goals
        apply step
        · intro n; rw [walk.eq_def]

end

end Verif.Preproc
