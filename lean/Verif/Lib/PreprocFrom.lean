import Verif.Lib.PreprocStopFile
import Verif.Spec.PreprocFrom
/-!
Where the tokens of the preprocessor come from: every position it handles is that of a token of a file it has read, and every stream it
reads is a part of one file in order.
-/
namespace Verif.Preproc
open Spec

variable {env : Env} {root : Text}

/-- The position of a token of a file that was read. -/
def From (env : Env) (root : Text) (p : Pos) : Prop :=
  ∃ f all t, Read env root f ∧ env.load f = .ok all ∧ t ∈ all ∧ t.pos = p

/-- Tokens of one file in their order. -/
def Src1 (env : Env) (root : Text) (l : List Tok) : Prop :=
  ∃ f all, Read env root f ∧ env.load f = .ok all ∧ (l.map Tok.pos).Sublist (all.map Tok.pos)

theorem Src1.sub {l l' : List Tok} (h : Src1 env root l) (hs : l'.Sublist l) : Src1 env root l' := by
  obtain ⟨f, all, h1, h2, h3⟩ := h
  exact ⟨f, all, h1, h2, (hs.map _).trans h3⟩

/-- Tokens of one file in their order, or made up for one token (and then no parenthesis). -/
def Src (env : Env) (root : Text) (l : List Tok) : Prop :=
  Src1 env root l ∨ ∃ p, From env root p ∧ ∀ t ∈ l, t.pos = p ∧ t.sym ≠ .lparen

theorem Src1.src {l : List Tok} (h : Src1 env root l) : Src env root l := .inl h

theorem Src.one {l : List Tok} (h : Src env root l) {o : Tok} (ho : o ∈ l) (hs : o.sym = .lparen) : Src1 env root l := by
  rcases h with h | ⟨p, _, h2⟩
  · exact h
  · exact absurd hs (h2 o ho).2

theorem Src.sub {l l' : List Tok} (h : Src env root l) (hs : l'.Sublist l) : Src env root l' := by
  rcases h with ⟨f, all, h1, h2, h3⟩ | ⟨p, h1, h2⟩
  · exact .inl ⟨f, all, h1, h2, (hs.map _).trans h3⟩
  · exact .inr ⟨p, h1, fun t ht => h2 t (hs.subset ht)⟩

theorem Src.suf {l l' : List Tok} (h : Src env root l) (hs : l' <:+ l) : Src env root l' := h.sub hs.sublist

theorem Src.from {l : List Tok} (h : Src env root l) {t : Tok} (ht : t ∈ l) : From env root t.pos := by
  rcases h with ⟨f, all, h1, h2, h3⟩ | ⟨p, h1, h2⟩
  · obtain ⟨u, hu, hp⟩ := List.mem_map.1 (h3.subset (List.mem_map.2 ⟨t, ht, rfl⟩))
    exact ⟨f, all, u, h1, h2, hu, hp⟩
  · exact (h2 t ht).1 ▸ h1

theorem Src.tail {t : Tok} {l : List Tok} (h : Src env root (t :: l)) : Src env root l := h.suf (List.suffix_cons t l)

theorem From.src {t : Tok} (h : From env root t.pos) : Src env root [t] := by
  obtain ⟨f, all, u, h1, h2, h3, h4⟩ := h
  refine .inl ⟨f, all, h1, h2, ?_⟩
  rw [List.map_singleton, List.singleton_sublist, ← h4]
  exact List.mem_map.2 ⟨u, h3, rfl⟩

theorem Src.nil (h : From env root p) : Src env root [] := .inr ⟨p, h, by simp⟩

/-- All positions of a list. -/
def Froms (env : Env) (root : Text) (l : List Tok) : Prop := ∀ t ∈ l, From env root t.pos

theorem Src.froms {l : List Tok} (h : Src env root l) : Froms env root l := fun _ ht => h.from ht

theorem Froms.append {a b : List Tok} (ha : Froms env root a) (hb : Froms env root b) : Froms env root (a ++ b) := by
  intro t ht
  rcases List.mem_append.1 ht with h | h
  · exact ha t h
  · exact hb t h

theorem Froms.mono_left {a b : List Tok} (h : Froms env root (a ++ b)) : Froms env root a := fun t ht => h t (by simp [ht])

theorem Froms.one {t : Tok} (h : From env root t.pos) : Froms env root [t] := by
  intro u hu
  rw [List.mem_singleton.1 hu]
  exact h

theorem Froms.nil : Froms env root [] := by intro t ht; simp at ht

/-! ### The state -/

def EntryFrom (env : Env) (root : Text) (e : Entry) : Prop :=
  From env root e.tok.pos ∧
  match e.defn with
  | .function f => Src env root f.body ∧ Froms env root f.args
  | .value b => if e.src = .argument then Froms env root b else Src env root b
  | _ => True

def InnerFrom (env : Env) (root : Text) (m : Inner) : Prop := ∀ k e, m k = some e → EntryFrom env root e

def DefsFrom (env : Env) (root : Text) (d : Defines) : Prop :=
  InnerFrom env root d.global ∧ ∀ x ∈ d.stack, InnerFrom env root x.2

def WarnFrom (env : Env) (root : Text) : Warn → Prop
  | .redefine a b => From env root a.pos ∧ From env root b.pos
  | .padded t _ => From env root t.pos
  | .includeCase p => Src env root p

structure StFrom (env : Env) (root : Text) (st : St) : Prop where
  ifs : ∀ i ∈ st.ifs.stack, From env root i.token.pos
  els : ∀ t, st.ifs.didElse = some t → From env root t.pos
  defs : DefsFrom env root st.defs
  files : ∀ f ∈ st.files, Read env root f
  incl : ∀ f ∈ st.included, Read env root f
  warns : ∀ w ∈ st.warns, WarnFrom env root w

mutual
/-- All tokens of an output, also those of macros that were replaced. -/
def Out.every : Out → List Tok
  | .direct t => [t]
  | .mac t l => t :: Out.everyL l
def Out.everyL : List Out → List Tok
  | [] => []
  | o :: l => o.every ++ Out.everyL l
end

theorem Out.everyL_append (a b : List Out) : Out.everyL (a ++ b) = Out.everyL a ++ Out.everyL b := by
  induction a with
  | nil => rfl
  | cons o a ih => simp [Out.everyL, ih]

mutual
theorem Out.toks_sub : ∀ o : Out, o.toks ⊆ o.every
  | .direct t => by simp [Out.toks, Out.every]
  | .mac t l => by
    rw [Out.toks, Out.every]
    exact fun u hu => List.mem_cons_of_mem t (Out.toksL_sub l hu)
theorem Out.toksL_sub : ∀ l : List Out, Out.toksL l ⊆ Out.everyL l
  | [] => by simp [Out.toksL]
  | o :: l => by
    rw [Out.toksL, Out.everyL]
    intro t ht
    rcases List.mem_append.1 ht with h | h
    · exact List.mem_append_left _ (Out.toks_sub o h)
    · exact List.mem_append_right _ (Out.toksL_sub l h)
end

/-- All tokens of a buffer. -/
def OutFrom (env : Env) (root : Text) (buf : List Out) : Prop := Froms env root (Out.everyL buf)

theorem OutFrom.append {a b : List Out} (ha : OutFrom env root a) (hb : OutFrom env root b) : OutFrom env root (a ++ b) := by
  rw [OutFrom, Out.everyL_append]
  exact Froms.append ha hb

theorem OutFrom.direct {t : Tok} (h : From env root t.pos) : OutFrom env root [.direct t] := by
  simpa [OutFrom, Out.everyL, Out.every] using Froms.one h

theorem OutFrom.mac {t : Tok} {l : List Out} (h : From env root t.pos) (hl : OutFrom env root l) : OutFrom env root [.mac t l] := by
  simp only [OutFrom, Out.everyL, Out.every, List.append_nil]
  exact Froms.append (a := [t]) (Froms.one h) hl

theorem OutFrom.map {l : List Tok} (h : Froms env root l) : OutFrom env root (l.map .direct) := by
  induction l with
  | nil => exact Froms.nil
  | cons t l ih =>
    exact OutFrom.append (a := [.direct t]) (OutFrom.direct (h t (by simp))) (ih fun u hu => h u (by simp [hu]))

theorem OutFrom.dropLast {l : List Out} (h : OutFrom env root l) : OutFrom env root l.dropLast := by
  rcases List.eq_nil_or_concat' l with rfl | ⟨a, o, rfl⟩
  · exact h
  · rw [List.dropLast_concat]
    intro t ht
    exact h t (by rw [Out.everyL_append]; exact List.mem_append_left _ ht)

theorem OutFrom.nil : OutFrom env root [] := Froms.nil

theorem output_from {st : St} {t : Tok} {buf : List Out} (ht : From env root t.pos) (hb : OutFrom env root buf) :
    OutFrom env root (output st t buf) := by
  rw [output.eq_def]
  split
  · split
    · exact hb
    · split
      · exact hb.dropLast
      · exact hb.append (OutFrom.direct ht)
    · exact hb.append (OutFrom.direct ht)
  · exact hb

theorem skipWsOut_from {st : St} (l : List Tok) : ∀ {buf}, Froms env root l → OutFrom env root buf →
    OutFrom env root (skipWsOut st l buf).2 := by
  induction l with
  | nil => intro buf _ hb; exact hb
  | cons t l ih =>
    intro buf hl hb
    rw [skipWsOut]
    split
    · exact ih (fun u hu => hl u (by simp [hu])) (output_from (hl t (by simp)) hb)
    · exact hb

theorem closeQuote_from {st : St} {q : Option Pos} {buf : List Out} (hq : ∀ p, q = some p → From env root p)
    (hb : OutFrom env root buf) : OutFrom env root (closeQuote st q buf) := by
  rw [closeQuote.eq_def]
  split
  · rename_i p
    exact output_from (t := ⟨.dquote, p⟩) (hq p rfl) hb
  · exact hb

/-! ### Errors -/

/-- What is known of the further tokens of a code. -/
def MoreFrom (env : Env) (root : Text) (n : Nat) (t : Tok) (m : More) : Prop :=
  (n = 5 → ∃ p, m = .toks [p] ∧ Src1 env root [p, t]) ∧
  (n = 7 ∨ n = 9 ∨ n = 10 ∨ n = 11 → ∃ d, m = .toks [d] ∧ From env root d.pos) ∧
  (n = 12 → ∃ l, m = .toks l ∧ Src env root l) ∧
  (n = 13 → (t.sym.isWord = true ∧ m = .toks []) ∨ (t.sym.isWord = false ∧ ∃ s, m = .toks [s] ∧ (s = t ∨ Src env root [s, t]))) ∧
  (n = 15 → ∃ op, m = .toks op ∧ op ≠ [] ∧ Src env root op) ∧
  (n = 16 → ∃ l op r, m = .sides l op r ∧ op ≠ [] ∧ Src env root op ∧ l.1 ≠ [] ∧ Froms env root l.1 ∧ Froms env root r.1) ∧
  (n = 17 → ∃ p i, m = .toks [p, i] ∧ From env root p.pos ∧ From env root i.pos)

/-- What is known of an error. -/
def ErrFrom (env : Env) (root : Text) : PErr → Prop
  | .code n t m => (n = 24 ∧ Read env root t.pos.path) ∨ (n ≠ 24 ∧ From env root t.pos ∧ MoreFrom env root n t m)
  | _ => True

/-- The codes that have no further tokens. -/
def plainCode (n : Nat) : Bool := !([5, 7, 9, 10, 11, 12, 13, 15, 16, 17, 24].contains n)

theorem ErrFrom.plain {n : Nat} {t : Tok} {m : More} (hn : plainCode n = true) (h : From env root t.pos) : ErrFrom env root (.code n t m) := by
  simp only [plainCode, Bool.not_eq_true', List.contains_eq_mem, decide_eq_false_iff_not, List.mem_cons, not_or] at hn
  refine .inr ⟨by omega, h, ?_⟩
  refine ⟨?_, ?_, ?_, ?_, ?_, ?_, ?_⟩ <;> intro h0 <;> omega

/-- A result with known errors. -/
def Tells {α} (env : Env) (root : Text) (r : Except PErr α) (P : α → Prop) : Prop :=
  match r with
  | .ok x => P x
  | .error e => ErrFrom env root e

theorem Tells.mono {α} {r : Except PErr α} {P Q : α → Prop} (h : Tells env root r P) (hpq : ∀ x, P x → Q x) : Tells env root r Q := by
  cases r with
  | ok x => exact hpq x h
  | error e => exact h

/-! ### Reading tokens -/

theorem expectNothing_from {l : List Tok} (h : Froms env root l) : Tells env root (expectNothing l) fun l' => l' <:+ l := by
  induction l with
  | nil => exact List.suffix_rfl
  | cons t l ih =>
    rw [expectNothing]
    split_ifs
    · exact List.suffix_cons t l
    · exact (ih fun u hu => h u (by simp [hu])).mono fun x hx => hx.trans (List.suffix_cons t l)
    · exact ErrFrom.plain rfl (h t (by simp))

theorem currentWord_from {l : List Tok} (h : Froms env root l) : Tells env root (currentWord l).1 fun t => From env root t.pos := by
  cases l with
  | nil => trivial
  | cons t l =>
    rw [currentWord]
    split_ifs
    · exact h t (by simp)
    · exact ErrFrom.plain rfl (h t (by simp))
    · exact ErrFrom.plain rfl (h t (by simp))

theorem nextWord_from {l : List Tok} (h : Froms env root l) :
    Tells env root (nextWord l) fun x => From env root x.1.pos ∧ x.2 <:+ l := by
  have h1 := currentWord_from (l := skipWs l) (fun t ht => h t ((skipWs_suf l).subset ht))
  cases hn : nextWord l with
  | ok x =>
    obtain ⟨t, l'⟩ := x
    refine ⟨?_, nextWord_suf hn⟩
    obtain ⟨a, w, rfl, _⟩ := nextWord_eq hn
    exact h t (by simp)
  | error e =>
    rw [nextWord] at hn
    split at hn
    · simp at hn
    · rename_i e' l' hc
      rw [hc] at h1
      simp only [Except.error.injEq] at hn
      exact hn ▸ h1

theorem readValue_eq (l : List Tok) : (readValue l).1 ++ (readValue l).2 = l := by
  induction l with
  | nil => rfl
  | cons t l ih =>
    rw [readValue]
    split
    · rfl
    · simpa using ih

theorem readValue_sub (l : List Tok) : (readValue l).1.Sublist l := by
  conv => rhs; rw [← readValue_eq l]
  exact List.sublist_append_left _ _

theorem readBody_sub (l : List Tok) : ∀ b, (readBody l b).1.Sublist (b ++ l) := by
  induction l with
  | nil => intro b; simp [readBody]
  | cons t l ih =>
    intro b
    rw [readBody]
    split
    · split
      · refine (ih _).trans ?_
        rw [List.append_assoc]
        exact (List.dropLast_sublist b).append (List.Sublist.refl _)
      · simp
    · split
      · exact (ih _).trans ((List.Sublist.refl b).append (List.sublist_cons_self t l))
      · simpa using ih (b ++ [t])

theorem readParams_from : ∀ {l : List Tok} {c : Bool} {args : List Tok}, Src1 env root (args ++ l) → (c = true → args ≠ []) →
    Tells env root (readParams l c args) fun x => Froms env root x.1 ∧ x.2 <:+ l := by
  intro l
  induction l with
  | nil =>
    intro c args h _
    rw [readParams]
    exact ⟨h.src.froms.mono_left, List.suffix_rfl⟩
  | cons t l ih =>
    intro c args h hc
    have ht : From env root t.pos := h.src.from (by simp)
    rw [readParams]
    split_ifs with h1 h2 h3 h4 h5 h6
    · refine .inr ⟨by simp, ht, ?_, ?_, ?_, ?_, ?_, ?_, ?_⟩ <;> intro h0 <;> try omega
      obtain ⟨a, p, rfl⟩ := (List.eq_nil_or_concat' args).resolve_left (hc h2)
      refine ⟨p, by simp, h.sub ?_⟩
      rw [List.append_assoc]
      refine List.Sublist.trans ?_ (List.sublist_append_right a _)
      simp
    · exact (ih (c := true) (args := args ++ [t]) (by simpa using h) (by simp)).mono fun x hx => ⟨hx.1, hx.2.trans (List.suffix_cons t l)⟩
    · exact (ih (c := false) (args := args) (h.sub ((List.Sublist.refl _).append (List.sublist_cons_self t l))) (by simp)).mono
        fun x hx => ⟨hx.1, hx.2.trans (List.suffix_cons t l)⟩
    · exact ErrFrom.plain rfl ht
    · exact ⟨h.src.froms.mono_left, List.suffix_cons t l⟩
    · exact (ih (c := c) (args := args) (h.sub ((List.Sublist.refl _).append (List.sublist_cons_self t l))) hc).mono
        fun x hx => ⟨hx.1, hx.2.trans (List.suffix_cons t l)⟩
    · exact ErrFrom.plain rfl ht

/-! ### Macros -/

theorem DefsFrom.of_same {d d' : Defines} (h : DefsFrom env root d) (h1 : d'.global = d.global) (h2 : d'.stack = d.stack) :
    DefsFrom env root d' := by
  refine ⟨h1 ▸ h.1, ?_⟩
  rw [h2]
  exact h.2

theorem DefsFrom.getReadonly {d : Defines} (h : DefsFrom env root d) {k : Text} {e : Entry} (he : d.getReadonly k = some e) :
    EntryFrom env root e := by
  rw [Defines.getReadonly] at he
  split at he
  · exact h.1 k e he
  · rename_i x m s hs
    split at he
    · rename_i e' hm
      simp only [Option.some.injEq] at he
      exact he ▸ h.2 _ (by rw [hs]; exact List.mem_cons_self) k e' hm
    · exact h.1 k e he

theorem builtin_from {d : Defines} {key : Tok} {site : Pos} {w : Text} (hk : From env root key.pos) :
    EntryFrom env root { tok := key, defn := (d.builtin env key site w).1, src := .generated } := by
  have hs : ∀ l : List Tok, (∀ t ∈ l, t.pos = key.pos ∧ t.sym ≠ .lparen) → Src env root l := fun l hl => .inr ⟨_, hk, hl⟩
  refine ⟨hk, ?_⟩
  rw [Defines.builtin]
  dsimp only
  split_ifs <;> first | trivial | (refine hs _ ?_; simp)

theorem DefsFrom.getWithGen {d d' : Defines} (h : DefsFrom env root d) {key : Tok} {site : Pos} {e : Entry} (hk : From env root key.pos)
    (he : d.getWithGen env key site = (some e, d')) : EntryFrom env root e := by
  rw [Defines.getWithGen] at he
  dsimp only at he
  split at he
  · simp only [Prod.mk.injEq, Option.some.injEq] at he
    rw [← he.1]
    exact builtin_from hk
  · split at he
    · rename_i e' hr
      have := h.getReadonly hr
      split at he
      · split at he
        · simp only [Prod.mk.injEq, Option.some.injEq] at he
          exact he.1 ▸ this
        · simp at he
      · simp only [Prod.mk.injEq, Option.some.injEq] at he
        exact he.1 ▸ this
    · simp at he

theorem InnerFrom.insert {m : Inner} (h : InnerFrom env root m) {k : Text} {e : Entry} (he : EntryFrom env root e) :
    InnerFrom env root (m.insert k e) := by
  intro k' e' h'
  rw [Inner.insert] at h'
  split at h'
  · simp only [Option.some.injEq] at h'
    exact h' ▸ he
  · exact h k' e' h'

theorem InnerFrom.remove {m : Inner} (h : InnerFrom env root m) {k : Text} : InnerFrom env root (m.remove k) := by
  intro k' e' h'
  rw [Inner.remove] at h'
  split at h'
  · simp at h'
  · exact h k' e' h'

theorem DefsFrom.insert {d : Defines} (h : DefsFrom env root d) {k : Text} {e : Entry} (he : EntryFrom env root e) :
    DefsFrom env root (d.insert k e) := by
  rw [Defines.insert]
  split
  · exact ⟨h.1.insert he, h.2⟩
  · rename_i n m s hs
    refine ⟨h.1, fun x hx => ?_⟩
    simp only [List.mem_cons] at hx
    rcases hx with rfl | hx
    · exact (h.2 (n, m) (by rw [hs]; exact List.mem_cons_self)).insert he
    · exact h.2 x (by rw [hs]; exact List.mem_cons_of_mem _ hx)

theorem DefsFrom.remove {d : Defines} (h : DefsFrom env root d) {k : Text} :
    DefsFrom env root (d.remove k).2 ∧ ∀ e, (d.remove k).1 = some e → EntryFrom env root e := by
  rw [Defines.remove]
  split
  · exact ⟨⟨h.1.remove, h.2⟩, fun e he => h.1 k e he⟩
  · rename_i n m s hs
    have hm := h.2 (n, m) (by rw [hs]; exact List.mem_cons_self)
    refine ⟨⟨h.1, fun x hx => ?_⟩, fun e he => hm k e he⟩
    simp only [List.mem_cons] at hx
    rcases hx with rfl | hx
    · exact hm.remove
    · exact h.2 x (by rw [hs]; exact List.mem_cons_of_mem _ hx)

theorem DefsFrom.push {d : Defines} (h : DefsFrom env root d) {k : Text} {m : Inner} (hm : InnerFrom env root m) :
    DefsFrom env root (d.push k m) := by
  refine ⟨h.1, fun x hx => ?_⟩
  simp only [Defines.push, List.mem_cons] at hx
  rcases hx with rfl | hx
  · exact hm
  · exact h.2 x hx

theorem DefsFrom.pop {d : Defines} (h : DefsFrom env root d) : DefsFrom env root d.pop :=
  ⟨h.1, fun x hx => h.2 x (List.mem_of_mem_tail hx)⟩

theorem paddedWarns_from {name : Text} {v : List Tok} {ws : List Warn} (hv : Froms env root v) (hw : ∀ w ∈ ws, WarnFrom env root w) :
    ∀ w ∈ paddedWarns name v ws, WarnFrom env root w := by
  have step : ∀ (ws : List Warn) (o : Option Tok), (∀ w ∈ ws, WarnFrom env root w) → (∀ t, o = some t → From env root t.pos) →
      ∀ w ∈ (match o with
        | some t => if t.sym.isWs ∧ ¬ ws.any (fun w => match w with
            | .padded t' _ => t' == t
            | _ => false) then ws ++ [Warn.padded t name] else ws
        | none => ws), WarnFrom env root w := by
    intro ws o hw ho w hm
    split at hm
    · rename_i t
      split_ifs at hm
      · rcases List.mem_append.1 hm with h | h
        · exact hw w h
        · rw [List.mem_singleton.1 h]
          exact ho t rfl
      · exact hw w hm
    · exact hw w hm
  rw [paddedWarns]
  exact step _ _ (step _ _ hw fun t ht => hv t (List.mem_of_mem_head? ht)) fun t ht => hv t (List.mem_of_getLast? ht)

theorem bindArgs_from {p : Pragma} {name : Text} : ∀ (l : List (Tok × List Tok)) {m : Inner} {ws : List Warn},
    (∀ x ∈ l, From env root x.1.pos ∧ Froms env root x.2) → InnerFrom env root m → (∀ w ∈ ws, WarnFrom env root w) →
    InnerFrom env root (bindArgs p name l m ws).1 ∧ ∀ w ∈ (bindArgs p name l m ws).2, WarnFrom env root w := by
  intro l
  induction l with
  | nil => intro m ws _ hm hw; exact ⟨hm, hw⟩
  | cons x l ih =>
    obtain ⟨a, v⟩ := x
    intro m ws hl hm hw
    have hx := hl (a, v) (by simp)
    rw [bindArgs]
    refine ih (fun y hy => hl y (by simp [hy])) (hm.insert ⟨hx.1, ?_⟩) ?_
    · simpa using hx.2
    · split
      · exact paddedWarns_from hx.2 hw
      · exact hw

/-! ### Directives -/

/-- What a directive leaves behind. -/
def Left (env : Env) (root : Text) (toks : List Tok) (x : St × List Tok) : Prop := StFrom env root x.1 ∧ x.2 <:+ toks

theorem StFrom.defs' {st : St} (h : StFrom env root st) {d : Defines} (hd : DefsFrom env root d) : StFrom env root { st with defs := d } :=
  ⟨h.ifs, h.els, hd, h.files, h.incl, h.warns⟩

theorem StFrom.push {st : St} (h : StFrom env root st) {i : IfState} (hi : From env root i.token.pos) :
    StFrom env root { st with ifs := st.ifs.push i } := by
  refine ⟨?_, ?_, h.defs, h.files, h.incl, h.warns⟩
  · intro j hj
    simp only [IfStates.push, List.mem_cons] at hj
    rcases hj with rfl | hj
    · exact hi
    · exact h.ifs j hj
  · intro t ht
    simp [IfStates.push] at ht

theorem StFrom.pushIf {st : St} (h : StFrom env root st) {t : Tok} {b : Bool} (ht : From env root t.pos) :
    StFrom env root { st with ifs := st.ifs.pushIf t b } := by
  rw [IfStates.pushIf]
  exact h.push (by cases b <;> exact ht)

theorem resolveSide_from {d : Defines} {l : List Tok} (hd : DefsFrom env root d) (hl : Froms env root l) :
    Tells env root (resolveSide env d l) fun x => Froms env root x.1.1 ∧ x.2.global = d.global ∧ x.2.stack = d.stack := by
  rw [resolveSide.eq_def]
  split
  · rename_i t
    have ht := hl t (by simp)
    have hsame := getWithGen_same (env := env) d t t.pos
    rw [resolveValue]
    split
    · rename_i e d' hg
      rw [hg] at hsame
      have he := hd.getWithGen ht hg
      split
      · rename_i b hb
        obtain ⟨-, he⟩ := he
        rw [hb] at he
        dsimp only at he
        refine ⟨?_, hsame⟩
        split at he
        · exact he
        · exact he.froms
      · trivial
      · refine .inr ⟨by simp, ht, ?_, ?_, ?_, ?_, ?_, ?_, ?_⟩ <;> intro h0 <;> try omega
        exact ⟨e.tok, rfl, he.1⟩
    · rename_i d' hg
      rw [hg] at hsame
      exact ⟨Froms.one ht, hsame⟩
  · exact ⟨hl, rfl, rfl⟩

theorem ifRight_from {d : Defines} {left toks : List Tok} {b : Bool} (hd : DefsFrom env root d) (hne : left ≠ [])
    (hleft : Froms env root left) (ht : Src env root toks) (hw : ∀ t, toks.head? = some t → t.sym.isWs = false) :
    Tells env root (ifRight env d left b toks) fun x =>
      (toksText x.1 = kw "==" ∨ (x.1 ≠ [] ∧ Src env root x.1)) ∧ Froms env root x.2.1.1 ∧
      x.2.2.1.global = d.global ∧ x.2.2.1.stack = d.stack ∧ x.2.2.2 <:+ toks := by
  have hop : (∀ t, toks.head? = some t → t.sym ≠ .newline) → Tells env root (ifRight.ifRightOp env d toks) fun x =>
      (toksText x.1 = kw "==" ∨ (x.1 ≠ [] ∧ Src env root x.1)) ∧ Froms env root x.2.1.1 ∧
      x.2.2.1.global = d.global ∧ x.2.2.1.stack = d.stack ∧ x.2.2.2 <:+ toks := by
    intro hn
    rw [ifRight.ifRightOp]
    dsimp only
    have hs : (readValue (skipWs (readValue toks).2)).2 <:+ toks :=
      (readValue_suf _).trans ((skipWs_suf _).trans (readValue_suf _))
    have hr : Froms env root (readValue (skipWs (readValue toks).2)).1 := by
      refine (ht.sub ?_).froms
      exact (readValue_sub _).trans ((skipWs_suf _).trans (readValue_suf _)).sublist
    split
    · rename_i hnil
      split
      · rename_i t hl
        exact ErrFrom.plain rfl (ht.from ((readValue_sub toks).subset (List.mem_of_getLast? hl)))
      · trivial
    · rename_i a l hr'
      have h1 := resolveSide_from hd hr
      split
      · rename_i e he
        rw [he] at h1
        exact h1
      · rename_i r d' he
        rw [he] at h1
        refine ⟨.inr ⟨?_, ht.sub (readValue_sub toks)⟩, h1.1, h1.2.1, h1.2.2, hs⟩
        cases toks with
        | nil =>
          simp only [readValue, skipWs] at hr'
          simp at hr'
        | cons t l =>
          rw [readValue, if_neg]
          · simp
          · rintro (h | h)
            · rw [hw t rfl] at h; simp at h
            · exact hn t rfl h
  rw [ifRight.eq_def]
  split
  · rename_i t l
    split
    · have hft : From env root t.pos := ht.from (by simp)
      split
      · refine ⟨.inl (by simp [toksText, Sym.text, kw]), Froms.one hft, rfl, rfl, List.suffix_rfl⟩
      · cases left with
        | nil => exact absurd rfl hne
        | cons a l => exact ErrFrom.plain rfl (hleft a (by simp))
    · rename_i hn
      exact hop (by simpa using hn)
  · exact hop (by simp)

theorem ifCompare_from {l op r : List Tok} {ld rd : Bool} (hl : l ≠ []) (hfl : Froms env root l) (hfr : Froms env root r)
    (hop : toksText op = kw "==" ∨ (op ≠ [] ∧ Src env root op)) : Tells env root (ifCompare env l ld op r rd) fun _ => True := by
  rw [ifCompare.eq_def]
  dsimp only
  split_ifs with h1 h2 h3
  · trivial
  · trivial
  · obtain ⟨h5, h6⟩ := hop.resolve_left h1
    obtain ⟨a, op, rfl⟩ := List.exists_cons_of_ne_nil h5
    split
    · trivial
    · refine .inr ⟨by simp, h6.from (by simp), ?_, ?_, ?_, ?_, ?_, ?_, ?_⟩ <;> intro h0 <;> try omega
      exact ⟨_, _, _, rfl, h5, h6, hl, hfl, hfr⟩
  · obtain ⟨h5, h6⟩ := hop.resolve_left h1
    obtain ⟨a, op, rfl⟩ := List.exists_cons_of_ne_nil h5
    refine .inr ⟨by simp, h6.from (by simp), ?_, ?_, ?_, ?_, ?_, ?_, ?_⟩ <;> intro h0 <;> try omega
    exact ⟨_, rfl, h5, h6⟩

theorem skipWs_ahead (l : List Tok) : ∀ t, (skipWs l).head? = some t → t.sym.isWs = false := by
  induction l with
  | nil => simp [skipWs]
  | cons a l ih =>
    rw [skipWs]
    split
    · exact ih
    · rename_i h
      intro t ht
      simp only [List.head?_cons, Option.some.injEq] at ht
      subst ht
      simpa using h

theorem directiveIf_from {st : St} {cmd : Tok} {toks : List Tok} (hst : StFrom env root st) (hc : From env root cmd.pos)
    (ht : Src env root toks) : Tells env root (directiveIf env st cmd toks) (Left env root toks) := by
  have hlv : Froms env root (readValue (skipWs toks)).1 :=
    (ht.sub ((readValue_sub _).trans (skipWs_suf _).sublist)).froms
  have hsuf : (readValue (skipWs toks)).2 <:+ toks := (readValue_suf _).trans (skipWs_suf _)
  rw [directiveIf]
  dsimp only
  split
  · rename_i hh
    split
    · have := hst.pushIf (b := false) hc
      exact ⟨⟨this.ifs, this.els, this.defs, this.files, this.incl, this.warns⟩, (skipLine_suf _).trans hsuf⟩
    · cases hv : (readValue (skipWs toks)).1 with
      | nil => simp [hv] at hh
      | cons a l => exact ErrFrom.plain rfl (hlv a (by simp [hv]))
  · have h1 := resolveSide_from hst.defs hlv
    split
    · rename_i e he
      rw [he] at h1
      exact h1
    · rename_i l ldef d he
      rw [he] at h1
      obtain ⟨h1, h1a, h1b⟩ := h1
      have hd := hst.defs.of_same h1a h1b
      split
      · exact ErrFrom.plain rfl hc
      · rename_i hne
        have h2 := ifRight_from (b := ldef) (toks := skipWs (readValue (skipWs toks)).2) hd hne h1
          (ht.suf ((skipWs_suf _).trans hsuf)) (skipWs_ahead _)
        split
        · rename_i e he2
          rw [he2] at h2
          exact h2
        · rename_i op r d2 toks2 he2
          rw [he2] at h2
          obtain ⟨h2, h3, h4, h5, h6⟩ := h2
          have hcmp := ifCompare_from (ld := ldef) (rd := r.2) hne h1 h3 h2
          have h6 := h6.trans ((skipWs_suf _).trans hsuf)
          split
          · rename_i e he3
            rw [he3] at hcmp
            exact hcmp
          · rename_i b _
            have hex := expectNothing_from (ht.suf h6).froms
            split
            · rename_i e he4
              rw [he4] at hex
              exact hex
            · rename_i toks3 he4
              rw [he4] at hex
              exact ⟨(hst.defs' (hd.of_same h4 h5)).pushIf hc, List.IsSuffix.trans hex h6⟩

theorem directiveIfdef_from {st : St} {cmd : Tok} {o : Bool} {toks : List Tok} (hst : StFrom env root st) (hc : From env root cmd.pos)
    (ht : Src env root toks) : Tells env root (directiveIfdef st cmd o toks) (Left env root toks) := by
  have h1 := nextWord_from ht.froms
  rw [directiveIfdef]
  split
  · rename_i e he
    rw [he] at h1
    exact h1
  · rename_i t l he
    rw [he] at h1
    obtain ⟨h1, h2⟩ := h1
    have h3 := expectNothing_from (ht.suf h2).froms
    split
    · rename_i e he
      rw [he] at h3
      exact h3
    · rename_i l2 he
      rw [he] at h3
      exact ⟨hst.pushIf hc, List.IsSuffix.trans h3 h2⟩

theorem directiveUndef_from {st : St} {toks : List Tok} (hst : StFrom env root st) (ht : Src env root toks) :
    Tells env root (directiveUndef st toks) (Left env root toks) := by
  have h1 := nextWord_from ht.froms
  rw [directiveUndef]
  split
  · rename_i e he
    rw [he] at h1
    exact h1
  · rename_i t l he
    rw [he] at h1
    obtain ⟨h1, h2⟩ := h1
    have h3 := expectNothing_from (ht.suf h2).froms
    split
    · rename_i e he
      rw [he] at h3
      exact h3
    · rename_i l2 he
      rw [he] at h3
      exact ⟨hst.defs' hst.defs.remove.1, List.IsSuffix.trans h3 h2⟩

theorem directiveDefine_from {st : St} {toks : List Tok} (hst : StFrom env root st) (ht : Src env root toks) :
    Tells env root (directiveDefine st toks) (Left env root toks) := by
  have h1 := nextWord_from ht.froms
  rw [directiveDefine]
  split
  · rename_i e he
    rw [he] at h1
    exact h1
  · rename_i ident l he
    rw [he] at h1
    obtain ⟨h1, h2⟩ := h1
    dsimp only at h1 h2
    split
    · exact ErrFrom.plain rfl h1
    · rename_i next rest
      dsimp only
      split
      · exact ErrFrom.plain rfl h1
      · have hrm := hst.defs.remove (k := ident.sym.text)
        have hdone : ∀ (df : Definition) (l' : List Tok), l' <:+ toks →
            EntryFrom env root { tok := ident, defn := df, src := .source st.files } →
            Left env root toks ({ st with
              warns := match (st.defs.remove ident.sym.text).1 with
                | some ⟨o, _, .source _⟩ => st.warns ++ [.redefine ident o]
                | _ => st.warns
              defs := (st.defs.remove ident.sym.text).2.insert ident.sym.text { tok := ident, defn := df, src := .source st.files } }, l') := by
          intro df l' hl' he
          refine ⟨⟨hst.ifs, hst.els, hrm.1.insert he, hst.files, hst.incl, ?_⟩, hl'⟩
          intro w hw
          dsimp only at hw
          split at hw
          · rename_i o df' fs hr
            rcases List.mem_append.1 hw with h | h
            · exact hst.warns w h
            · rw [List.mem_singleton.1 h]
              exact ⟨h1, (hrm.2 _ hr).1⟩
          · exact hst.warns w hw
        have hrest : Src env root rest := ht.suf ((List.suffix_cons next rest).trans h2)
        have hb : ∀ l', l' <:+ toks → Src env root (readBody (skipWs l') []).1 ∧ (readBody (skipWs l') []).2 <:+ toks := by
          intro l' hl'
          refine ⟨ht.sub ?_, (readBody_suf _ _).trans ((skipWs_suf _).trans hl')⟩
          have := readBody_sub (skipWs l') []
          exact this.trans ((skipWs_suf _).trans hl').sublist
        split
        · have hp := readParams_from (l := rest) (c := false) (args := [])
              ((ht.suf h2).one (o := next) (by simp) (by assumption) |>.sub (List.sublist_cons_self next rest)) (by simp)
          split
          · rename_i e he
            rw [he] at hp
            exact hp
          · rename_i args l2 he
            rw [he] at hp
            obtain ⟨hb1, hb2⟩ := hb l2 (List.IsSuffix.trans hp.2 ((List.suffix_cons next rest).trans h2))
            exact hdone _ _ hb2 ⟨h1, hb1, hp.1⟩
        · exact hdone _ _ h2 ⟨h1, trivial⟩
        · exact hdone _ _ h2 ⟨h1, trivial⟩
        · obtain ⟨hb1, hb2⟩ := hb (next :: rest) h2
          refine hdone _ _ hb2 ⟨h1, ?_⟩
          simpa using hb1

theorem readPragma_from {cmd : Tok} {toks : List Tok} (ht : Src env root toks) :
    Tells env root (readPragma cmd toks) fun x => From env root x.1.pos ∧ x.2.2 <:+ toks := by
  cases hr : readPragma cmd toks with
  | ok x =>
    obtain ⟨a, b, l⟩ := x
    refine ⟨?_, readPragma_suf hr⟩
    rw [readPragma] at hr
    have h1 := nextWord_from ht.froms
    split at hr
    · simp at hr
    · rename_i code l he
      rw [he] at h1
      split at hr
      · split at hr
        · simp at hr
        · split at hr
          · simp at hr
          · simp only [Except.ok.injEq, Prod.mk.injEq] at hr
            exact hr.1 ▸ h1.1
      · simp at hr
      · simp only [Except.ok.injEq, Prod.mk.injEq] at hr
        exact hr.1 ▸ h1.1
  | error e =>
    rw [readPragma] at hr
    have h1 := nextWord_from ht.froms
    split at hr
    · rename_i e' he
      rw [he] at h1
      simp only [Except.error.injEq] at hr
      exact hr ▸ h1
    · rename_i code l he
      rw [he] at h1
      have hs : Src env root (skipWs l) := ht.suf ((skipWs_suf _).trans h1.2)
      have h2 := currentWord_from hs.froms
      have h3 := (currentWord_suf (skipWs l)).trans ((skipWs_suf _).trans h1.2)
      split at hr
      · rename_i t l2 hc
        rw [hc] at h2 h3
        split at hr
        · simp only [Except.error.injEq] at hr
          exact hr ▸ ErrFrom.plain rfl h2
        · have h4 := expectNothing_from (ht.suf h3).froms
          split at hr
          · rename_i e' he'
            rw [he'] at h4
            simp only [Except.error.injEq] at hr
            exact hr ▸ h4
          · simp at hr
      · simp only [Except.error.injEq] at hr
        exact hr ▸ trivial
      · simp at hr

theorem directivePragma_from {st : St} {toks : List Tok} (hst : StFrom env root st) (ht : Src env root toks) :
    Tells env root (directivePragma st toks) (Left env root toks) := by
  have hp : ∀ p, StFrom env root { st with pragma := p } := fun p =>
    ⟨hst.ifs, hst.els, hst.defs, hst.files, hst.incl, hst.warns⟩
  have h1 := nextWord_from ht.froms
  rw [directivePragma]
  split
  · rename_i e he
    rw [he] at h1
    exact h1
  · rename_i h l he
    rw [he] at h1
    obtain ⟨-, h1⟩ := h1
    split
    · exact ⟨hst, (skipLine_suf _).trans h1⟩
    · have h2 := nextWord_from (ht.suf h1).froms
      split
      · rename_i e he
        rw [he] at h2
        exact h2
      · rename_i c l2 he
        rw [he] at h2
        obtain ⟨h2c, h2⟩ := h2
        have h2 := List.IsSuffix.trans h2 h1
        have h3 := readPragma_from (cmd := c) (ht.suf h2)
        split
        · split
          · rename_i e he
            rw [he] at h3
            exact h3
          · rename_i code s l3 he
            rw [he] at h3
            rw [Pragma.addSuppress]
            split
            · rename_i e he
              split at he
              · simp only [Except.error.injEq] at he
                exact he ▸ ErrFrom.plain rfl h3.1
              · simp at he
            · exact ⟨hp _, List.IsSuffix.trans h3.2 h2⟩
        · split
          · split
            · rename_i e he
              rw [he] at h3
              exact h3
            · rename_i code s l3 he
              rw [he] at h3
              rw [Pragma.addFlag]
              split
              · rename_i e he
                split at he
                · simp only [Except.error.injEq] at he
                  exact he ▸ ErrFrom.plain rfl h3.1
                · simp at he
              · exact ⟨hp _, List.IsSuffix.trans h3.2 h2⟩
          · exact ErrFrom.plain rfl h2c

theorem readPath_from {close : Sym} {opn : Tok} : ∀ (l : List Tok) (path : List Tok), Src env root (opn :: l) →
    Tells env root (readPath close opn l path) fun _ => True := by
  intro l
  induction l with
  | nil => intros; trivial
  | cons t l ih =>
    intro path h
    have ht : From env root t.pos := h.from (by simp)
    rw [readPath]
    split_ifs with h1 h2 h3
    · trivial
    · refine .inr ⟨by simp, ht, ?_, ?_, ?_, ?_, ?_, ?_, ?_⟩ <;> intro h0 <;> try omega
      refine .inr ⟨by rw [h2]; rfl, opn, rfl, .inr (h.sub ?_)⟩
      simp
    · exact ErrFrom.plain rfl ht
    · exact ih _ (h.sub ((List.sublist_cons_self t l).cons_cons opn))

theorem includeTarget_from (hp : OwnPlaces env) {st : St} {toks : List Tok} (hst : StFrom env root st) (ht : Src env root toks) :
    Tells env root (includeTarget env st toks) fun x =>
      Read env root x.1 ∧ env.load x.1 = .ok x.2.1 ∧ (∀ w ∈ x.2.2.1, WarnFrom env root w) ∧ x.2.2.2 <:+ toks := by
  have go : ∀ (opn : Tok) (l : List Tok) (close : Sym), opn :: l <:+ toks →
      Tells env root (match readPath close opn l [] with
      | .error e => .error e
      | .ok (path, toks) => match expectNothing toks with
        | .error (.code _ t _) => .error (.code 14 t)
        | .error e => .error e
        | .ok toks => match st.files with
          | [] => .error .panic
          | cur :: _ => match env.locate cur (toksText path) with
            | none => .error (.code 12 opn (.toks path))
            | some (found, mismatch) => match env.load found with
              | .error e => .error e
              | .ok inner =>
                .ok (found, inner, if mismatch then [Warn.includeCase path] else [], toks))
        (fun x : Text × List Tok × List Warn × List Tok =>
          Read env root x.1 ∧ env.load x.1 = .ok x.2.1 ∧ (∀ w ∈ x.2.2.1, WarnFrom env root w) ∧ x.2.2.2 <:+ toks) := by
    intro opn l close hl
    have hsrc := ht.suf hl
    have h1 := readPath_from (close := close) l [] hsrc
    split
    · rename_i e he
      rw [he] at h1
      exact h1
    · rename_i path l2 he
      obtain ⟨x, tail, rfl, hpath, -, hx⟩ := readPath_eq he
      have hl2 : l2 <:+ opn :: (x ++ tail) := by
        rcases hx with hx | ⟨c, rfl, -⟩
        · rw [hx.2]; exact List.nil_suffix
        · exact ⟨opn :: x ++ [c], by simp⟩
      have hps : Src env root path := by
        refine hsrc.sub ?_
        rw [hpath, List.nil_append]
        exact (List.sublist_append_left _ _).trans (List.sublist_cons_self _ _)
      have h2 := expectNothing_from (hsrc.suf hl2).froms
      split
      · rename_i n t m he2
        rw [he2] at h2
        refine ErrFrom.plain rfl ?_
        rcases h2 with ⟨rfl, -⟩ | h2
        · exfalso
          clear * - he2
          induction l2 with
          | nil => simp [expectNothing] at he2
          | cons a l ih =>
            rw [expectNothing] at he2
            split_ifs at he2
            · exact ih he2
            · simp at he2
        · exact h2.2.1
      · rename_i e _ he2
        rw [he2] at h2
        exact h2
      · rename_i l3 he3
        rw [he3] at h2
        split
        · trivial
        · rename_i cur fs hfs
          split
          · refine .inr ⟨by simp, hsrc.from (by simp), ?_, ?_, ?_, ?_, ?_, ?_, ?_⟩ <;> intro h0 <;> try omega
            exact ⟨path, rfl, hps⟩
          · rename_i found mm hloc
            have hread : Read env root found := .incl (hst.files cur (by rw [hfs]; exact List.mem_cons_self)) hloc
            split
            · rename_i e he4
              rcases hp.fails _ _ he4 with rfl | ⟨t, rfl, hpt⟩
              · trivial
              · exact .inl ⟨rfl, hpt ▸ hread⟩
            · rename_i inner he4
              refine ⟨hread, he4, ?_, List.IsSuffix.trans h2 (hl2.trans hl)⟩
              intro w hw
              dsimp only at hw
              split at hw
              · rw [List.mem_singleton.1 hw]
                exact hps
              · simp at hw
  rw [includeTarget]
  split
  · trivial
  · rename_i opn l ho
    have hl : opn :: l <:+ toks := ho ▸ skipWs_suf toks
    dsimp only
    split
    · exact go _ _ _ hl
    · exact go _ _ _ hl
    · refine .inr ⟨by simp, ht.from (hl.subset (by simp)), ?_, ?_, ?_, ?_, ?_, ?_, ?_⟩ <;> intro h0 <;> try omega
      by_cases hw : opn.sym.isWord = true
      · rw [if_pos hw]; exact .inl ⟨hw, rfl⟩
      · rw [if_neg hw]; exact .inr ⟨by simpa using hw, opn, rfl, .inl rfl⟩

theorem flip_from {st : St} {t : Tok} (hst : StFrom env root st) (ht : From env root t.pos) :
    Tells env root (st.ifs.flip t) fun i => StFrom env root { st with ifs := i } := by
  have hmk : ∀ i : IfStates, (∀ j ∈ i.stack, From env root j.token.pos) → i.didElse = some t → StFrom env root { st with ifs := i } :=
    fun i h1 h2 => ⟨h1, fun u hu => by rw [h2] at hu; simp only [Option.some.injEq] at hu; exact hu ▸ ht, hst.defs, hst.files, hst.incl, hst.warns⟩
  rw [IfStates.flip]
  split
  · rename_i p hp
    split
    · trivial
    · rename_i i l hl
      refine .inr ⟨by simp, ht, ?_, ?_, ?_, ?_, ?_, ?_, ?_⟩ <;> intro h0 <;> try omega
      exact ⟨p, i.token, rfl, hst.els p hp, hst.ifs i (by rw [hl]; exact List.mem_cons_self)⟩
  · have htail : ∀ j ∈ st.ifs.stack.tail, From env root j.token.pos := fun j hj => hst.ifs j (List.mem_of_mem_tail hj)
    split
    · split
      · rename_i i hi
        refine hmk _ ?_ rfl
        intro j hj
        simp only [List.mem_cons] at hj
        rcases hj with rfl | hj
        · cases hs : st.ifs.stack with
          | nil => simp [hs, IfStates.flipTop] at hi
          | cons k l =>
            have hk := hst.ifs k (by rw [hs]; exact List.mem_cons_self)
            simp only [hs, List.head?_cons] at hi
            cases k <;> simp only [IfStates.flipTop, Option.some.injEq, reduceCtorEq] at hi <;> subst hi <;> exact hk
        · exact htail j hj
      · exact hmk _ htail rfl
    · exact hmk _ hst.ifs rfl

/-! ### The processor -/

/-- What a step leaves behind. -/
def Step (env : Env) (root : Text) (toks : List Tok) (x : St × List Tok × List Out) : Prop :=
  StFrom env root x.1 ∧ x.2.1 <:+ toks ∧ OutFrom env root x.2.2

theorem Step.wider {toks toks' : List Tok} {x : St × List Tok × List Out} (h : Step env root toks x) (hs : toks <:+ toks') :
    Step env root toks' x := ⟨h.1, h.2.1.trans hs, h.2.2⟩

/-- With this much fuel every function keeps to known positions. -/
structure AllFrom (env : Env) (root : Text) (n : Nat) : Prop where
  walk : ∀ site im q jw quote st toks buf, (∀ p, quote = some p → From env root p) → StFrom env root st → Src env root toks →
    OutFrom env root buf → Tells env root (walk n env site im q jw quote st toks buf) (Step env root toks)
  use : ∀ site st toks buf, StFrom env root st → Src env root toks → OutFrom env root buf →
    Tells env root (defineUse n env site st toks buf) (Step env root toks)
  args : ∀ site q depth st toks args arg, StFrom env root st → Src env root toks → (∀ a ∈ args, Froms env root a) → Froms env root arg →
    Tells env root (readArgs n env site q depth st toks args arg) fun x =>
      StFrom env root x.1 ∧ x.2.1 <:+ toks ∧ ∀ a ∈ x.2.2, Froms env root a
  directive : ∀ st toks buf, StFrom env root st → Src env root toks → OutFrom env root buf →
    Tells env root (directive n env st toks buf) fun x => Step env root toks x.2
  command : ∀ st c toks buf, StFrom env root st → From env root c.pos → Src env root toks → OutFrom env root buf →
    Tells env root (command n env st c toks buf) (Step env root toks)
  file : ∀ st toks buf, StFrom env root st → Src env root toks → OutFrom env root buf →
    Tells env root (file n env st toks buf) (Step env root toks)
  line : ∀ st toks buf, StFrom env root st → Src env root toks → OutFrom env root buf →
    Tells env root (line n env st toks buf) (Step env root toks)

theorem noJoin_sub (l : List Tok) : (noJoin l).Sublist l := List.filter_sublist

theorem useWith_from {n : Nat} (ih : AllFrom env root n) {site : Pos} {st : St} {buf : List Out} {t : Tok} {rest : List Tok}
    {oe : Option Entry} (hst : StFrom env root st) (ht : From env root t.pos) (hs : Src env root rest) (hb : OutFrom env root buf)
    (he : ∀ e, oe = some e → EntryFrom env root e) :
    Tells env root (useWith n env site buf t rest st oe) (Step env root rest) := by
  cases oe with
  | none => exact ⟨hst, List.suffix_rfl, hb.append (OutFrom.direct ht)⟩
  | some e =>
    obtain ⟨he1, he⟩ := he e rfl
    have hmore : ∀ c, c = 9 ∨ c = 10 ∨ c = 11 → ErrFrom env root (.code c t (.toks [e.tok])) := by
      intro c hc
      refine .inr ⟨by omega, ht, ?_, ?_, ?_, ?_, ?_, ?_, ?_⟩ <;> intro h0 <;> try omega
      exact ⟨e.tok, rfl, he1⟩
    rw [useWith.eq_def]
    dsimp only
    split
    · rename_i f hf
      rw [hf] at he
      dsimp only at he
      split
      · trivial
      · rename_i p l
        split
        · exact hmore 10 (by simp)
        · have h1 := ih.args site false 0 st l [] [] hst hs.tail (by simp) Froms.nil
          split
          · rename_i e2 he2
            rw [he2] at h1
            exact h1
          · rename_i st2 l2 args he2
            rw [he2] at h1
            obtain ⟨h1, h2, h3⟩ := h1
            split
            · exact hmore 9 (by simp)
            · have hba := bindArgs_from (env := env) (root := root) (p := st2.pragma) (name := t.sym.text) (f.args.zip args)
                (m := fun _ => none) (ws := st2.warns) (fun x hx => ⟨he.2 _ (List.of_mem_zip hx).1, h3 _ (List.of_mem_zip hx).2⟩)
                (by intro k e h; simp at h) h1.warns
              have hw := ih.walk (some site) (some t.sym.text) false true none
                  { st2 with
                    warns := (bindArgs st2.pragma t.sym.text (f.args.zip args) (fun _ => none) st2.warns).2
                    defs := st2.defs.push t.sym.text
                      (bindArgs st2.pragma t.sym.text (f.args.zip args) (fun _ => none) st2.warns).1 }
                  (noJoin f.body) [] (by simp) ⟨h1.ifs, h1.els, h1.defs.push hba.1, h1.files, h1.incl, hba.2⟩
                  (he.1.sub (noJoin_sub _)) OutFrom.nil
              split
              · rename_i e3 he3
                rw [he3] at hw
                exact hw
              · rename_i st3 l3 layer he3
                rw [he3] at hw
                exact ⟨hw.1.defs' hw.1.defs.pop, h2.trans (List.suffix_cons p l), hb.append (OutFrom.mac ht hw.2.2)⟩
    · rename_i b hbd
      rw [hbd] at he
      dsimp only at he
      split
      · rename_i hsrc
        rw [if_pos hsrc] at he
        exact ⟨hst, List.suffix_rfl, hb.append (OutFrom.mac ht (OutFrom.map he))⟩
      · rename_i hsrc
        rw [if_neg hsrc] at he
        have hw := ih.walk (some site) (some t.sym.text) false true none st (noJoin b) [] (by simp) hst (he.sub (noJoin_sub _)) OutFrom.nil
        split
        · rename_i e3 he3
          rw [he3] at hw
          exact hw
        · rename_i st3 l3 layer he3
          rw [he3] at hw
          exact ⟨hw.1, List.suffix_rfl, hb.append (OutFrom.mac ht hw.2.2)⟩
    · exact ⟨hst, List.suffix_rfl, hb⟩
    · split
      · trivial
      · exact hmore 11 (by simp)

theorem allFrom (hp : OwnPlaces env) (n : Nat) : AllFrom env root n := by
  induction n with
  | zero =>
    constructor <;> intros
    · rw [walk.eq_def]; trivial
    · rw [defineUse.eq_def]; trivial
    · rw [readArgs.eq_def]; trivial
    · rw [directive.eq_def]; trivial
    · rw [command.eq_def]; trivial
    · rw [file.eq_def]; trivial
    · rw [line.eq_def]; trivial
  | succ n ih =>
    constructor
    · intro site im q jw quote st toks buf hq hst hs hb
      rw [walk.eq_def]
      dsimp only
      split
      · exact ⟨hst, List.suffix_rfl, hb⟩
      · rename_i t rest
        have ht : From env root t.pos := hs.from (by simp)
        have go : ∀ q jw quote buf, (∀ p, quote = some p → From env root p) → OutFrom env root buf →
            Tells env root (Preproc.walk n env site im q jw quote st rest buf) (Step env root (t :: rest)) := fun q jw quote buf h1 h2 =>
          (ih.walk site im q jw quote st rest buf h1 hst hs.tail h2).mono fun x hx => hx.wider (List.suffix_cons t rest)
        have hout := closeQuote_from (st := st) hq (output_from (st := st) ht hb)
        split
        · rename_i w hw
          split_ifs with h1 h2 h3
          · exact ErrFrom.plain rfl ht
          · exact ErrFrom.plain rfl ht
          · have hu := ih.use (site.getD t.pos) st (t :: rest) buf hst hs hb
            split
            · rename_i e he
              rw [he] at hu
              exact hu
            · rename_i st2 l2 b2 he
              rw [he] at hu
              obtain ⟨hu1, hu2, hu3⟩ := hu
              exact (ih.walk site im false false none st2 l2 _ (by simp) hu1 (hs.suf hu2) (closeQuote_from hq hu3)).mono
                fun x hx => hx.wider hu2
          · exact go _ _ _ _ (by simp) hout
        · split_ifs with h1 h2
          · have hd := ih.directive st (t :: rest) buf hst hs hb
            split
            · rename_i e he
              rw [he] at hd
              exact hd
            · rename_i b st2 l2 b2 he
              rw [he] at hd
              obtain ⟨hd1, hd2, hd3⟩ := hd
              exact (ih.walk site im false true quote st2 l2 _ hq hd1 (hs.suf hd2) hd3).mono fun x hx => hx.wider hd2
          · exact go _ _ _ _ (by rintro _ ⟨⟩; exact ht) (output_from (t := ⟨.dquote, t.pos⟩) ht hb)
          · exact go _ _ _ _ (by simp) hout
        · split_ifs
          · exact ⟨hst, List.suffix_cons t rest, output_from ht hb⟩
          · exact go _ _ _ _ (by simp) hout
        · exact go _ _ _ _ (by simp) hout
        · exact ⟨hst, List.suffix_rfl, hb⟩
        · exact go _ _ _ _ (by simp) hout
        · exact go _ _ _ _ (by simp) hout
        · exact go _ _ _ _ (by simp) hout
    · intro site st toks buf hst hs hb
      rw [defineUse.eq_def]
      dsimp only
      have h1 := currentWord_from hs.froms
      have h2 := currentWord_suf toks
      split
      · rename_i e l hc
        rw [hc] at h1
        exact h1
      · rename_i ident rest hc
        obtain ⟨w, hw⟩ : ∃ w, ident.sym = .word w := by
          cases toks with
          | nil => simp [currentWord] at hc
          | cons a l =>
            rw [currentWord] at hc
            split_ifs at hc with h
            · simp only [Prod.mk.injEq, Except.ok.injEq] at hc
              rw [← hc.1]
              cases hy : a.sym <;> simp [hy, Sym.isWord] at h
              exact ⟨_, rfl⟩
            · simp at hc
            · simp at hc
        rw [hc] at h1 h2
        obtain ⟨oe, d, hge⟩ : ∃ oe d, st.defs.getWithGen env ident site = (oe, d) := ⟨_, _, rfl⟩
        have hsame := getWithGen_same (env := env) st.defs ident site
        rw [hge] at hsame
        have hu := useWith_from (st := { st with defs := d }) (site := site) ih (hst.defs' (hst.defs.of_same hsame.1 hsame.2)) h1 (hs.suf h2) hb
          (oe := oe) (fun e he => by subst he; exact hst.defs.getWithGen h1 hge)
        have heq := defineUse_eq (env := env) (n := n) (site := site) (st := st) (buf := buf) (rest := rest) hw hge
        rw [defineUse.eq_def] at heq
        dsimp only at heq
        have hcur : currentWord (ident :: rest) = (.ok ident, rest) := by simp [currentWord, hw, Sym.isWord]
        rw [hcur] at heq
        dsimp only at heq
        rw [heq]
        exact hu.mono fun x hx => hx.wider h2
    · intro site q depth st toks args arg hst hs hargs harg
      rw [readArgs.eq_def]
      dsimp only
      have hfin : ∀ a ∈ (if arg = [] then args else args ++ [arg]), Froms env root a := by
        intro a ha
        split at ha
        · exact hargs a ha
        · rcases List.mem_append.1 ha with h | h
          · exact hargs a h
          · rw [List.mem_singleton.1 h]; exact harg
      split
      · exact ⟨hst, List.suffix_rfl, hfin⟩
      · rename_i t rest
        have ht : From env root t.pos := hs.from (by simp)
        have hat : Froms env root (arg ++ [t]) := harg.append (Froms.one ht)
        have go : ∀ q depth args arg, (∀ a ∈ args, Froms env root a) → Froms env root arg →
            Tells env root (readArgs n env site q depth st rest args arg) fun x =>
              StFrom env root x.1 ∧ x.2.1 <:+ t :: rest ∧ ∀ a ∈ x.2.2, Froms env root a := fun q depth args arg h1 h2 =>
          (ih.args site q depth st rest args arg hst hs.tail h1 h2).mono fun x hx =>
            ⟨hx.1, hx.2.1.trans (List.suffix_cons t rest), hx.2.2⟩
        split
        · exact go _ _ _ _ hargs hat
        · split
          · split
            · have hu := ih.use site st (t :: rest) [] hst hs OutFrom.nil
              split
              · rename_i e he
                rw [he] at hu
                exact hu
              · rename_i st2 l2 b2 he
                rw [he] at hu
                obtain ⟨hu1, hu2, hu3⟩ := hu
                exact (ih.args site false depth st2 l2 args _ hu1 (hs.suf hu2) hargs
                  (harg.append fun u hu => hu3 u (Out.toksL_sub _ hu))).mono fun x hx => ⟨hx.1, hx.2.1.trans hu2, hx.2.2⟩
            · exact go _ _ _ _ hargs hat
          · exact go _ _ _ _ hargs hat
          · split
            · exact ⟨hst, List.suffix_cons t rest, hfin⟩
            · exact go _ _ _ _ hargs hat
          · refine go _ _ _ _ ?_ Froms.nil
            intro a ha
            rcases List.mem_append.1 ha with h | h
            · exact hargs a h
            · rw [List.mem_singleton.1 h]; exact harg
          · exact go _ _ _ _ hargs hat
          · exact go _ _ _ _ hargs hat
    · intro st toks buf hst hs hb
      rw [directive.eq_def]
      dsimp only
      split
      · exact ⟨hst, List.suffix_rfl, hb⟩
      · rename_i h rest
        split
        · split
          · exact ⟨hst, List.suffix_cons _ _, hb⟩
          · rename_i c rest'
            split
            · have h1 := ih.command st c rest' buf hst (hs.from (by simp)) hs.tail.tail hb
              split
              · rename_i e he
                rw [he] at h1
                exact h1
              · rename_i st2 l2 b2 he
                rw [he] at h1
                exact Step.wider h1 ⟨[h, c], rfl⟩
            · exact ⟨hst, List.suffix_cons _ _, hb⟩
        · exact ⟨hst, List.suffix_rfl, hb⟩
    · intro st c toks buf hst hc hs hb
      have lift : ∀ r : Except PErr (St × List Tok), Tells env root r (Left env root toks) →
          Tells env root (liftR buf r) (Step env root toks) := by
        intro r hr
        rw [liftR.eq_def]
        split
        · exact hr
        · exact ⟨hr.1, hr.2, hb⟩
      have hen := expectNothing_from hs.froms
      rw [command.eq_def]
      dsimp only
      split_ifs with k1 k2 k3 k4 k5 k6 k7 k8 k9 k10 k11
      · have h1 := flip_from hst hc
        split
        · rename_i e he
          rw [he] at h1
          exact h1
        · rename_i i hi
          rw [hi] at h1
          split
          · rename_i e he
            rw [he] at hen
            exact hen
          · rename_i l he
            rw [he] at hen
            exact ⟨h1, hen, hb⟩
      · split
        · rename_i e he
          rw [he] at hen
          exact hen
        · rename_i l he
          rw [he] at hen
          refine ⟨⟨fun i hi => hst.ifs i (List.mem_of_mem_tail hi), fun t ht => ?_, hst.defs, hst.files, hst.incl, hst.warns⟩, hen, hb⟩
          simp [IfStates.pop] at ht
      · have h1 := includeTarget_from hp hst hs
        split
        · rename_i e he
          rw [he] at h1
          exact h1
        · rename_i found inner ws l2 he
          rw [he] at h1
          obtain ⟨h1, h2, h3, h4⟩ := h1
          dsimp only at h1 h2 h3 h4
          have h5 := ih.file { st with
              pragma := st.pragma.child, files := found :: st.files,
              included := st.included ++ [found], warns := st.warns ++ ws } inner buf
              ⟨hst.ifs, hst.els, hst.defs, by
                intro f hf
                rcases List.mem_cons.1 hf with rfl | hf
                · exact h1
                · exact hst.files f hf, by
                intro f hf
                rcases List.mem_append.1 hf with hf | hf
                · exact hst.incl f hf
                · rw [List.mem_singleton.1 hf]; exact h1, by
                intro w hw
                rcases List.mem_append.1 hw with hw | hw
                · exact hst.warns w hw
                · exact h3 w hw⟩ (.inl ⟨found, inner, h1, h2, List.Sublist.refl _⟩) hb
          split
          · rename_i e2 he2
            rw [he2] at h5
            exact h5
          · rename_i st2 l3 b2 he2
            rw [he2] at h5
            exact ⟨⟨h5.1.ifs, h5.1.els, h5.1.defs, hst.files, h5.1.incl, h5.1.warns⟩, h4, h5.2.2⟩
      · exact lift _ (directiveDefine_from hst hs)
      · exact lift _ (directiveUndef_from hst hs)
      · exact lift _ (directiveIf_from hst hc hs)
      · exact lift _ (directiveIfdef_from hst hc hs)
      · exact lift _ (directiveIfdef_from hst hc hs)
      · exact lift _ (directivePragma_from hst hs)
      · exact ErrFrom.plain rfl hc
      · exact ⟨hst.push hc, skipLine_suf _, hb⟩
      · exact ⟨hst, skipLine_suf _, hb⟩
    · intro st toks buf hst hs hb
      rw [file.eq_def]
      dsimp only
      split
      · exact ⟨hst, List.suffix_rfl, hb⟩
      · rename_i t rest
        split
        · exact ⟨hst, List.suffix_rfl, hb⟩
        · have h1 := ih.line st (t :: rest) buf hst hs hb
          split
          · rename_i e he
            rw [he] at h1
            exact h1
          · rename_i st2 l2 b2 he
            rw [he] at h1
            obtain ⟨h1, h2, h3⟩ := h1
            exact (ih.file st2 l2 b2 h1 (hs.suf h2) h3).mono fun x hx => hx.wider h2
    · intro st toks buf hst hs hb
      rw [line.eq_def]
      dsimp only
      have hsk : (skipWsOut st toks buf).1 <:+ toks := by rw [skipWsOut_suf]; exact skipWs_suf toks
      have hline : ∀ s : St, StFrom env root s → StFrom env root { s with pragma := s.pragma.clearLine } := fun s h =>
        ⟨h.ifs, h.els, h.defs, h.files, h.incl, h.warns⟩
      have h1 := ih.directive st (skipWsOut st toks buf).1 (skipWsOut st toks buf).2 hst (hs.suf hsk) (skipWsOut_from _ hs.froms hb)
      split
      · rename_i e he
        rw [he] at h1
        exact h1
      · rename_i st2 l2 b2 he
        rw [he] at h1
        exact Step.wider h1 hsk
      · rename_i st2 l2 b2 he
        rw [he] at h1
        obtain ⟨h1, h2, h3⟩ := h1
        have h2 := List.IsSuffix.trans h2 hsk
        split
        · have h4 := ih.walk none none false true none st2 l2 b2 (by simp) h1 (hs.suf h2) h3
          split
          · rename_i e he
            rw [he] at h4
            exact h4
          · rename_i st3 l3 b3 he
            rw [he] at h4
            obtain ⟨h4, h5, h6⟩ := h4
            exact ⟨hline _ h4, h5.trans h2, h6⟩
        · exact ⟨hline _ h1, (skipLine_suf _).trans h2, h3⟩

/-- A whole run keeps to known positions. -/
theorem run_from (hp : OwnPlaces env) (n : Nat) :
    Tells env root (run n env root) fun x => StFrom env root x.1 ∧ OutFrom env root x.2 := by
  rw [run]
  cases hl : env.load root with
  | error e =>
    rcases hp.fails _ _ hl with rfl | ⟨t, rfl, ht⟩
    · trivial
    · exact .inl ⟨rfl, ht ▸ .root⟩
  | ok toks =>
    have h1 := (allFrom (root := root) hp n).file { files := [root] } toks []
      ⟨by intro i hi; simp at hi, by intro t ht; simp at ht, ⟨by intro k e he; simp at he, by intro x hx; simp at hx⟩,
        by intro f hf; rw [List.mem_singleton.1 hf]; exact .root, by intro f hf; simp at hf, by intro w hw; simp at hw⟩
      (.inl ⟨root, toks, .root, hl, List.Sublist.refl _⟩) OutFrom.nil
    dsimp only
    split
    · rename_i e he
      rw [he] at h1
      exact h1
    · rename_i st l buf he
      rw [he] at h1
      split
      · rename_i i s hpop
        refine ErrFrom.plain rfl (h1.1.ifs i ?_)
        simp only [IfStates.pop, Prod.mk.injEq] at hpop
        exact List.mem_of_mem_head? hpop.1
      · exact ⟨h1.1, h1.2.2⟩

end Verif.Preproc
