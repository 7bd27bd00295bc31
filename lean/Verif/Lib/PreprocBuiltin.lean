import Verif.Lib.PreprocFrom
import Verif.Spec.PreprocBuiltin
/-!
What the built-in macros stand for, for whole runs (C132).
-/
namespace Verif.Preproc
open Spec

variable {env : Env} {root : Text} {s : Pos}

theorem placed_eq : placed = builtinGen := rfl

/-! ### The count -/

/-- The count goes from `a` to `b`, and the numbers of a buffer from `u` to `v`: some of the last are dropped, and further ones are added
that ascend. -/
def Adv (a b : Nat) (u v : List Nat) : Prop :=
  a ≤ b ∧ ∃ (p ns : List Nat), p <+: u ∧ v = p ++ ns.map (· % 65536) ∧ ns.Pairwise (· < ·) ∧ ∀ n ∈ ns, a ≤ n ∧ n < b

theorem Adv.refl (a : Nat) (u : List Nat) : Adv a a u u := ⟨le_rfl, u, [], List.prefix_rfl, by simp, by simp, by simp⟩

theorem Adv.drop {a : Nat} {u v : List Nat} (h : v <+: u) : Adv a a u v := ⟨le_rfl, v, [], h, by simp, by simp, by simp⟩

theorem Adv.trans {a b c : Nat} {u v w : List Nat} (h : Adv a b u v) (k : Adv b c v w) : Adv a c u w := by
  obtain ⟨h1, p, ns, h2, rfl, h3, h4⟩ := h
  obtain ⟨k1, q, ms, k2, rfl, k3, k4⟩ := k
  refine ⟨h1.trans k1, ?_⟩
  have hcut : q <+: p ∨ ∃ r, q = p ++ r ∧ r <+: ns.map (· % 65536) := by
    rcases List.prefix_or_prefix_of_prefix k2 (List.prefix_append p _) with h | ⟨r, rfl⟩
    · exact .inl h
    · exact .inr ⟨r, rfl, (List.prefix_append_right_inj p).1 k2⟩
  rcases hcut with hq | ⟨r, rfl, hr⟩
  · exact ⟨q, ms, hq.trans h2, rfl, k3, fun n hn => ⟨h1.trans (k4 n hn).1, (k4 n hn).2⟩⟩
  · obtain ⟨j, rfl⟩ : ∃ j, r = (ns.take j).map (· % 65536) := by
      refine ⟨r.length, ?_⟩
      rw [List.prefix_iff_eq_take.1 hr, List.length_take, List.map_take]
      congr 1
      have := hr.length_le
      simp at this ⊢
      exact this
    refine ⟨p, ns.take j ++ ms, h2, by simp, ?_, ?_⟩
    · rw [List.pairwise_append]
      refine ⟨h3.sublist (List.take_sublist _ _), k3, fun x hx y hy => ?_⟩
      exact lt_of_lt_of_le (h4 x (List.take_subset _ _ hx)).2 (k4 y hy).1
    · intro n hn
      rcases List.mem_append.1 hn with h | h
      · have := h4 n (List.take_subset _ _ h)
        exact ⟨this.1, lt_of_lt_of_le this.2 k1⟩
      · exact ⟨h1.trans (k4 n h).1, (k4 n h).2⟩

/-- The same before the whole buffer. -/
theorem Adv.after {a b : Nat} {v : List Nat} (h : Adv a b [] v) (u : List Nat) : Adv a b u (u ++ v) := by
  obtain ⟨h1, p, ns, h2, rfl, h3, h4⟩ := h
  obtain rfl := List.prefix_nil.1 h2
  exact ⟨h1, u, ns, List.prefix_rfl, by simp, h3, h4⟩

theorem numbersL_append (a b : List Out) : numbersL (a ++ b) = numbersL a ++ numbersL b := by
  induction a with
  | nil => simp [numbersL]
  | cons o a ih => simp [numbersL, ih]

theorem numbersL_dropLast (l : List Out) : numbersL l.dropLast <+: numbersL l := by
  rcases l.eq_nil_or_concat with rfl | ⟨a, x, rfl⟩
  · simp
  · simp [numbersL_append]

theorem outs_append (a b : List Out) : Out.toksL (a ++ b) = Out.toksL a ++ Out.toksL b := by
  induction a with
  | nil => simp [Out.toksL]
  | cons o a ih => simp [Out.toksL, ih]

theorem toksL_dropLast (l : List Out) : Out.toksL l.dropLast ⊆ Out.toksL l := by
  rcases l.eq_nil_or_concat with rfl | ⟨a, x, rfl⟩
  · simp
  · intro t ht
    simp only [List.concat_eq_append, List.dropLast_concat] at ht
    simp [outs_append, ht]

theorem outs_direct (l : List Tok) : Out.toksL (l.map .direct) = l := by
  induction l with
  | nil => rfl
  | cons t l ih => simp [Out.toksL, Out.toks, ih]

theorem numbersL_direct (l : List Tok) : numbersL (l.map .direct) = [] := by
  induction l with
  | nil => rfl
  | cons t l ih => simp [numbersL, numbers, ih]

theorem output_adv (a : Nat) (st : St) (t : Tok) (buf : List Out) : Adv a a (numbersL buf) (numbersL (output st t buf)) := by
  have hd : numbersL (buf ++ [.direct t]) = numbersL buf := by simp [numbersL_append, numbersL, numbers]
  rw [output]
  split
  · split
    · exact .refl _ _
    · split
      · exact .drop (numbersL_dropLast _)
      · rw [hd]; exact .refl _ _
    · rw [hd]; exact .refl _ _
  · exact .refl _ _

theorem closeQuote_adv (a : Nat) (st : St) (q : Option Pos) (buf : List Out) :
    Adv a a (numbersL buf) (numbersL (closeQuote st q buf)) := by
  rw [closeQuote.eq_def]
  split
  · exact output_adv _ _ _ _
  · exact .refl _ _

/-! ### Streams and tables -/

/-- Tokens of one file in their order. -/
def SrcL (env : Env) (root : Text) (l : List Tok) : Prop := ∃ f all, Read env root f ∧ env.load f = .ok all ∧ l.Sublist all

/-- What is read: tokens of one file in their order, or what a built-in macro stands for. -/
def Str (env : Env) (root : Text) (s : Pos) (l : List Tok) : Prop := SrcL env root l ∨ ∀ t ∈ l, Gen env root s t

theorem SrcL.sub {l l' : List Tok} (h : SrcL env root l) (hs : l'.Sublist l) : SrcL env root l' := by
  obtain ⟨f, all, h1, h2, h3⟩ := h
  exact ⟨f, all, h1, h2, hs.trans h3⟩

theorem SrcL.mem {l : List Tok} (h : SrcL env root l) {t : Tok} (ht : t ∈ l) : Source env root t := by
  obtain ⟨f, all, h1, h2, h3⟩ := h
  exact ⟨f, all, h1, h2, h3.subset ht⟩

theorem Str.sub {l l' : List Tok} (h : Str env root s l) (hs : l'.Sublist l) : Str env root s l' := by
  rcases h with h | h
  · exact .inl (h.sub hs)
  · exact .inr fun t ht => h t (hs.subset ht)

theorem Str.suf {l l' : List Tok} (h : Str env root s l) (hs : l' <:+ l) : Str env root s l' := h.sub hs.sublist

theorem Str.mem {l : List Tok} (h : Str env root s l) {t : Tok} (ht : t ∈ l) : Source env root t ∨ Gen env root s t := by
  rcases h with h | h
  · exact .inl (h.mem ht)
  · exact .inr (h t ht)

/-- Behind a quotation mark. -/
theorem Str.behind {d : Tok} {l : List Tok} (h : Str env root s (d :: l)) (hd : d.sym = .dquote) : ∀ t ∈ l, Shown env root s t := by
  intro t ht
  rcases h with ⟨f, all, h1, h2, h3⟩ | h
  · left
    refine ⟨⟨f, all, h1, h2, h3.subset (by simp [ht])⟩, fun w _ _ => ?_⟩
    obtain ⟨r1, r2, rfl, h4, h5⟩ := List.cons_sublist_iff.1 h3
    obtain ⟨x, z, rfl⟩ := List.append_of_mem (h5.subset ht)
    exact ⟨f, _, r1 ++ x, z, d, h1, h2, by simp, by simp [h4], hd⟩
  · exact .inr (h t (by simp [ht]))

/-- A place in a file that is read. -/
def Site (env : Env) (root : Text) (s : Pos) : Prop := ∃ t, Source env root t ∧ t.pos = s

theorem Site.read (hu : Usual env root) (h : Site env root s) : Read env root s.path := by
  obtain ⟨t, ⟨f, all, h1, h2, h3⟩, rfl⟩ := h
  rw [hu.places h1 h2 t h3]
  exact h1

theorem Spec.Gen.word (hu : Usual env root) (hs : Site env root s) {t : Tok} {w : Text} (h : Gen env root s t) (hw : t.sym = .word w) :
    w ∉ placed := by
  have hn := hu.names (hs.read hu)
  cases h <;> simp only [Sym.word.injEq, reduceCtorEq] at hw
  · rw [← hw]; exact hn.1
  · rw [← hw]; exact hn.2.1
  · rw [← hw]; exact hn.2.2

theorem Spec.Gen.directive {t : Tok} (h : Gen env root s t) : t.sym ≠ .directive := by cases h <;> simp

/-- A token that is no built-in macro. -/
theorem Str.shown {l : List Tok} (h : Str env root s l) {t : Tok} (ht : t ∈ l)
    (hw : ∀ w, t.sym = .word w → w ∉ placed) : Shown env root s t := by
  rcases h.mem ht with h | h
  · exact .inl ⟨h, fun w h1 h2 => absurd h1 (hw w h2)⟩
  · exact .inr h

/-- A macro of a file. -/
def Wrote (env : Env) (root : Text) (e : Entry) : Prop :=
  e.src ≠ .argument ∧ match e.defn with
    | .function f => SrcL env root f.body ∧ NoDir f.body
    | .value b => SrcL env root b ∧ NoDir b
    | _ => True

/-- An argument. -/
def Given (env : Env) (root : Text) (s : Pos) (e : Entry) : Prop :=
  e.src = .argument ∧ ∃ b, e.defn = .value b ∧ ∀ t ∈ b, Shown env root s t

/-- The table inside of a macro used at `s`. -/
structure Tab (env : Env) (root : Text) (s : Pos) (d : Defines) : Prop where
  global : ∀ k e, d.global k = some e → Wrote env root e
  stack : ∀ x ∈ d.stack, ∀ k e, x.2 k = some e → Given env root s e

theorem Tab.of_same {d d' : Defines} (h : Tab env root s d) (h1 : d'.global = d.global) (h2 : d'.stack = d.stack) : Tab env root s d' :=
  ⟨by rw [h1]; exact h.global, by rw [h2]; exact h.stack⟩

theorem Tab.read {d : Defines} (h : Tab env root s d) {k : Text} {e : Entry} (he : d.getReadonly k = some e) :
    Wrote env root e ∨ Given env root s e := by
  rw [Defines.getReadonly] at he
  split at he
  · exact .inl (h.global _ _ he)
  · rename_i n m l hst
    split at he
    · rename_i e' hm
      cases he
      exact .inr (h.stack (n, m) (by rw [hst]; simp) _ _ hm)
    · exact .inl (h.global _ _ he)

theorem noDir_gen {l : List Tok} (h : ∀ t ∈ l, Gen env root s t) : NoDir l := by
  rw [NoDir]
  refine List.Pairwise.isChain ?_
  refine List.pairwise_of_forall_mem_list fun a ha b _ hd => ?_
  exact absurd hd (h a (List.mem_filter.1 ha).1).directive

/-- What looking up a word gives. -/
theorem got (hu : Usual env root) (hs : Site env root s) {d d' : Defines} (h : Tab env root s d) {key : Tok} {w : Text} {oe : Option Entry}
    (hk : Source env root key ∨ Gen env root s key) (hw : key.sym = .word w) (hg : d.getWithGen env key s = (oe, d')) :
    (w ∈ placed ∧ ∃ e, oe = some e ∧ e.src = .generated ∧
      (e.defn = .void ∧ w = kw "__COUNTER_RESET__" ∧ Source env root key ∨
       ∃ b, e.defn = .value b ∧ (∀ t ∈ b, Gen env root s t) ∧
        (w = kw "__COUNTER__" ∧ b = [⟨.digit (d.counter % 65536), key.pos⟩] ∧ d'.counter = d.counter + 1 ∨
          w ≠ kw "__COUNTER__" ∧ d' = d))) ∨
    (w ∉ placed ∧ d' = d ∧ (oe = none ∨ ∃ e, oe = some e ∧ (Wrote env root e ∨ Given env root s e))) := by
  rw [Defines.getWithGen] at hg
  dsimp only at hg
  simp only [hw, Sym.text] at hg
  split at hg
  · rename_i hb
    have hb : w ∈ placed := by rw [placed_eq]; simpa using hb
    have hsrc : Source env root key := by
      rcases hk with hk | hk
      · exact hk
      · exact absurd hb (hk.word hu hs hw)
    left
    refine ⟨hb, ?_⟩
    simp only [Prod.mk.injEq] at hg
    obtain ⟨rfl, rfl⟩ := hg
    refine ⟨_, rfl, rfl, ?_⟩
    simp only
    rw [Defines.builtin]
    dsimp only
    split_ifs with h1 h2 h3 h4 h5
    · subst h1
      refine .inr ⟨_, rfl, ?_, .inl ⟨rfl, rfl, rfl⟩⟩
      intro t ht
      rw [List.mem_singleton.1 ht]
      exact .counter hsrc hw (Nat.mod_lt _ (by decide))
    · exact .inl ⟨rfl, h2, hsrc⟩
    · subst h3
      refine .inr ⟨_, rfl, ?_, .inr ⟨by decide +kernel, rfl⟩⟩
      intro t ht
      simp only [List.mem_cons, List.not_mem_nil, or_false] at ht
      rcases ht with rfl | rfl | rfl
      · exact .mark hsrc hw
      · exact .file hsrc hw
      · exact .mark hsrc hw
    · subst h4
      refine .inr ⟨_, rfl, ?_, .inr ⟨by decide +kernel, rfl⟩⟩
      intro t ht
      rw [List.mem_singleton.1 ht]
      exact .name hsrc hw
    · subst h5
      refine .inr ⟨_, rfl, ?_, .inr ⟨by decide +kernel, rfl⟩⟩
      intro t ht
      rw [List.mem_singleton.1 ht]
      exact .short hsrc hw
    · have h6 : w = kw "__LINE__" := by
        simp only [placed, List.mem_cons, List.not_mem_nil, or_false] at hb
        rcases hb with h | h | h | h | h | h
        · exact absurd h h1
        · exact absurd h h2
        · exact absurd h h3
        · exact absurd h h4
        · exact absurd h h5
        · exact h
      subst h6
      refine .inr ⟨_, rfl, ?_, .inr ⟨by decide +kernel, rfl⟩⟩
      intro t ht
      rw [List.mem_singleton.1 ht]
      exact .line hsrc hw
  · rename_i hb
    right
    refine ⟨by rw [placed_eq]; simpa using hb, ?_⟩
    split at hg
    · rename_i e he
      have := h.read he
      split at hg
      · split at hg
        · cases hg; exact ⟨rfl, .inr ⟨e, rfl, this⟩⟩
        · cases hg; exact ⟨rfl, .inl rfl⟩
      · cases hg; exact ⟨rfl, .inr ⟨e, rfl, this⟩⟩
    · cases hg; exact ⟨rfl, .inl rfl⟩

/-! ### Inside of macros -/

/-- If there is a result, it has the property. -/
def Yields {α} (r : Except PErr α) (P : α → Prop) : Prop :=
  match r with
  | .error _ => True
  | .ok x => P x

theorem Yields.mono {α} {r : Except PErr α} {P Q : α → Prop} (h : Yields r P) (hpq : ∀ x, P x → Q x) : Yields r Q := by
  cases r with
  | error e => trivial
  | ok x => exact hpq x h

/-- What reading inside of a macro leaves alone. -/
structure Passed (st : St) (toks : List Tok) (st' : St) (toks' : List Tok) : Prop where
  global : st'.defs.global = st.defs.global
  stack : st'.defs.stack = st.defs.stack
  ifs : st'.ifs = st.ifs
  files : st'.files = st.files
  suf : toks' <:+ toks

theorem Passed.refl (st : St) (l : List Tok) : Passed st l st l := ⟨rfl, rfl, rfl, rfl, List.suffix_rfl⟩

theorem Passed.trans {a b c : St} {l m k : List Tok} (h : Passed a l b m) (g : Passed b m c k) : Passed a l c k :=
  ⟨g.global.trans h.global, g.stack.trans h.stack, g.ifs.trans h.ifs, g.files.trans h.files, g.suf.trans h.suf⟩

theorem Passed.wider {a b : St} {l m k : List Tok} (h : Passed a l b m) (g : l <:+ k) : Passed a k b m := { h with suf := h.suf.trans g }

theorem Passed.tab {a b : St} {l m : List Tok} (h : Passed a l b m) (ht : Tab env root s a.defs) : Tab env root s b.defs :=
  ht.of_same h.global h.stack

theorem NoDir.suf {l l' : List Tok} (h : NoDir l) (hs : l' <:+ l) : NoDir l' := by
  obtain ⟨x, rfl⟩ := hs
  exact NoDir.append_right h

theorem NoDir.head {t : Tok} {l : List Tok} (h : NoDir (t :: l)) (ht : t.sym = .directive) :
    ¬ (l.head?.any fun c => directiveWords.contains c.sym.text) = true := by
  intro hc
  cases l with
  | nil => simp at hc
  | cons c l =>
    simp only [List.head?_cons, Option.any_some, List.contains_iff_mem] at hc
    have hj : c.sym ≠ .join := by
      intro e
      rw [e] at hc
      revert hc
      decide +kernel
    rw [NoDir, List.filter_cons_of_pos (by simp [ht]), List.filter_cons_of_pos (by simp [hj])] at h
    exact (List.isChain_cons_cons.1 h).1 ht hc

theorem output_shown {st : St} {t : Tok} {buf : List Out} (ht : Shown env root s t) (hb : ∀ u ∈ Out.toksL buf, Shown env root s u) :
    ∀ u ∈ Out.toksL (output st t buf), Shown env root s u := by
  have hd : ∀ u ∈ Out.toksL (buf ++ [.direct t]), Shown env root s u := by
    intro u hu
    rw [outs_append] at hu
    rcases List.mem_append.1 hu with h | h
    · exact hb u h
    · simp only [Out.toksL, Out.toks, List.append_nil, List.mem_singleton] at h
      rw [h]; exact ht
  rw [output]
  split
  · split
    · exact hb
    · split
      · exact fun u hu => hb u (toksL_dropLast _ hu)
      · exact hd
    · exact hd
  · exact hb

theorem closeQuote_shown {st : St} {q : Option Pos} {buf : List Out} (hq : ∀ p, q = some p → Gen env root s ⟨.dquote, p⟩)
    (hb : ∀ u ∈ Out.toksL buf, Shown env root s u) : ∀ u ∈ Out.toksL (closeQuote st q buf), Shown env root s u := by
  rw [closeQuote.eq_def]
  split
  · exact output_shown (.inr (hq _ rfl)) hb
  · exact hb

/-- What a use of `t` adds. -/
def Added (env : Env) (root : Text) (s : Pos) (t : Tok) (o : List Out) : Prop :=
  o = [] ∨ (o = [.direct t] ∧ Shown env root s t) ∨ ∃ l, o = [.mac t l] ∧ ∀ u ∈ Out.toksL l, Shown env root s u

theorem Added.shown {t : Tok} {o : List Out} (h : Added env root s t o) : ∀ u ∈ Out.toksL o, Shown env root s u := by
  rcases h with rfl | ⟨rfl, h⟩ | ⟨l, rfl, h⟩
  · simp [Out.toksL]
  · simpa [Out.toksL, Out.toks] using h
  · simpa [Out.toksL, Out.toks] using h

/-- With this much fuel macros used at `s` give what may be shown, and the count goes up. -/
structure AllMac (env : Env) (root : Text) (s : Pos) (n : Nat) : Prop where
  walk : ∀ im q jw quote st toks buf, (∀ p, quote = some p → Gen env root s ⟨.dquote, p⟩) → (q = true → ∀ t ∈ toks, Shown env root s t) →
    (∀ w, im = some w → w ∈ placed → ∀ t ∈ toks, Gen env root s t) → Tab env root s st.defs → Str env root s toks → NoDir toks →
    (∀ t ∈ Out.toksL buf, Shown env root s t) →
    Yields (walk n env (some s) im q jw quote st toks buf) fun x => Passed st toks x.1 x.2.1 ∧ (∀ t ∈ Out.toksL x.2.2, Shown env root s t) ∧
      (NoReset env root → Adv st.defs.counter x.1.defs.counter (numbersL buf) (numbersL x.2.2))
  use : ∀ st t rest buf w, t.sym = .word w → Tab env root s st.defs → Str env root s (t :: rest) →
    Yields (defineUse n env s st (t :: rest) buf) fun x => Passed st rest x.1 x.2.1 ∧ (∃ o, x.2.2 = buf ++ o ∧ Added env root s t o ∧
      (NoReset env root → Adv st.defs.counter x.1.defs.counter [] (numbersL o)))
  args : ∀ q depth st toks args arg, (q = true → ∀ t ∈ toks, Shown env root s t) → Tab env root s st.defs → Str env root s toks →
    (∀ a ∈ args, ∀ t ∈ a, Shown env root s t) → (∀ t ∈ arg, Shown env root s t) →
    Yields (readArgs n env s q depth st toks args arg) fun x => Passed st toks x.1 x.2.1 ∧ (∀ a ∈ x.2.2, ∀ t ∈ a, Shown env root s t) ∧
      (NoReset env root → st.defs.counter ≤ x.1.defs.counter)

theorem bindArgs_given {p : Pragma} {name : Text} : ∀ (l : List (Tok × List Tok)) {m : Inner} {ws : List Warn},
    (∀ x ∈ l, ∀ t ∈ x.2, Shown env root s t) → (∀ k e, m k = some e → Given env root s e) →
    ∀ k e, (bindArgs p name l m ws).1 k = some e → Given env root s e := by
  intro l
  induction l with
  | nil => intro m ws _ hm; simpa [bindArgs] using hm
  | cons x l ih =>
    intro m ws h hm
    obtain ⟨a, v⟩ := x
    rw [bindArgs]
    refine ih (fun y hy => h y (by simp [hy])) ?_
    intro k e he
    simp only [Inner.insert] at he
    split at he
    · cases he
      exact ⟨rfl, v, rfl, h (a, v) (by simp)⟩
    · exact hm k e he

/-- A number that was generated is shown as it is. -/
theorem walk_digit {n : Nat} {im : Option Text} {st : St} {c : Nat} {p : Pos} :
    Yields (walk n env (some s) im false true none st [⟨.digit c, p⟩] []) fun x =>
      x.1 = st ∧ (digits (Out.toksL x.2.2) = [c] ∨ digits (Out.toksL x.2.2) = []) := by
  cases n with
  | zero => rw [walk.eq_def]; trivial
  | succ n =>
    rw [walk.eq_def]
    dsimp only
    cases n with
    | zero => rw [walk.eq_def]; trivial
    | succ n =>
      rw [walk.eq_def]
      refine ⟨rfl, ?_⟩
      simp only [closeQuote, output]
      split
      · left; simp [Out.toksL, Out.toks, digits]
      · right; simp [Out.toksL, digits]

theorem useWith_mac (hu : Usual env root) (hs : Site env root s) {n : Nat} (ih : AllMac env root s n) {st : St} {d' : Defines}
    {buf : List Out} {t : Tok} {rest : List Tok} {w : Text} {oe : Option Entry} (hw : t.sym = .word w) (ht : Tab env root s st.defs)
    (hr : Str env root s (t :: rest)) (hg : st.defs.getWithGen env t s = (oe, d')) :
    Yields (useWith n env s buf t rest { st with defs := d' } oe) fun x => Passed st rest x.1 x.2.1 ∧ (∃ o, x.2.2 = buf ++ o ∧
      Added env root s t o ∧ (NoReset env root → Adv st.defs.counter x.1.defs.counter [] (numbersL o))) := by
  have hsame := getWithGen_same (env := env) st.defs t s
  rw [hg] at hsame
  have hran : Passed st rest { st with defs := d' } rest := ⟨hsame.1, hsame.2, rfl, rfl, List.suffix_rfl⟩
  have ht' : Tab env root s d' := ht.of_same hsame.1 hsame.2
  have htext : t.sym.text = w := by rw [hw]; rfl
  rcases got hu hs ht (hr.mem (by simp)) hw hg with ⟨hb, e, rfl, hsrc, h⟩ | ⟨hb, rfl, rfl | ⟨e, rfl, he⟩⟩
  · rcases h with ⟨hd, rfl, hk⟩ | ⟨b, hd, hgen, h⟩
    · rw [useWith.eq_def]
      simp only [hd]
      exact ⟨hran, [], by simp, .inl rfl, fun h => absurd hw (h t hk)⟩
    · rw [useWith.eq_def]
      simp only [hd]
      rw [if_neg (by rw [hsrc]; simp)]
      have hsub : ∀ u ∈ noJoin b, Gen env root s u := fun u hu => hgen u (List.mem_filter.1 hu).1
      have h1 := ih.walk (some t.sym.text) false true none { st with defs := d' } (noJoin b) [] (by simp) (by simp)
        (fun _ _ _ => hsub) ht' (.inr hsub) (noDir_gen hsub) (by simp [Out.toksL])
      rcases h with ⟨rfl, rfl, hc⟩ | ⟨hne, rfl⟩
      · have h2 := walk_digit (env := env) (s := s) (n := n) (im := some t.sym.text) (st := { st with defs := d' })
          (c := st.defs.counter % 65536) (p := t.pos)
        have hj : noJoin [(⟨.digit (st.defs.counter % 65536), t.pos⟩ : Tok)] = [⟨.digit (st.defs.counter % 65536), t.pos⟩] := by
          simp [noJoin]
        rw [hj] at h1 ⊢
        split
        · trivial
        · rename_i st3 l3 layer he3
          rw [he3] at h1 h2
          obtain ⟨h1a, h1b, -⟩ := h1
          obtain ⟨h2a, h2b⟩ := h2
          dsimp only at h2a h2b h1b
          subst h2a
          refine ⟨hran, [.mac t layer], rfl, .inr (.inr ⟨layer, rfl, h1b⟩), fun _ => ?_⟩
          have hn : numbersL [.mac t layer] = digits (Out.toksL layer) := by
            simp [numbersL, numbers, hw]
          rw [hn]
          dsimp only
          rw [hc]
          rcases h2b with h2b | h2b
          · exact ⟨by omega, [], [st.defs.counter], List.prefix_rfl, by rw [h2b]; rfl, by simp, by simp⟩
          · exact ⟨by omega, [], [], List.prefix_rfl, by rw [h2b]; rfl, by simp, by simp⟩
      · split
        · trivial
        · rename_i st3 l3 layer he3
          rw [he3] at h1
          obtain ⟨h1a, h1b, h1c⟩ := h1
          refine ⟨hran.trans ⟨h1a.global, h1a.stack, h1a.ifs, h1a.files, List.suffix_rfl⟩, [.mac t layer], rfl,
            .inr (.inr ⟨layer, rfl, h1b⟩), fun hnr => ?_⟩
          have hn : numbersL [.mac t layer] = numbersL layer := by
            simp only [numbersL, numbers, List.append_nil]
            rw [if_neg]
            rw [hw]
            simpa using hne
          rw [hn]
          exact h1c hnr
  · rw [useWith.eq_def]
    refine ⟨Passed.refl _ _, [.direct t], rfl, .inr (.inl ⟨rfl, hr.shown (by simp) ?_⟩), fun _ => ?_⟩
    · intro v hv
      rw [hw] at hv
      cases hv
      exact hb
    · simp only [numbersL, numbers]
      exact .refl _ _
  · have hmac : ∀ layer, numbersL [.mac t layer] = numbersL layer := by
      intro layer
      simp only [numbersL, numbers, List.append_nil]
      rw [if_neg]
      rw [hw]
      intro h
      cases h
      exact hb (by simp [placed])
    have him : ∀ v, some t.sym.text = some v → v ∈ placed → ∀ (l : List Tok), ∀ u ∈ l, Gen env root s u := by
      intro v hv hp
      rw [htext] at hv
      cases hv
      exact absurd hp hb
    rw [useWith.eq_def]
    dsimp only
    split
    · rename_i f hf
      obtain ⟨hbody, hnd⟩ : SrcL env root f.body ∧ NoDir f.body := by
        rcases he with ⟨-, he⟩ | ⟨-, b, he, -⟩
        · rw [hf] at he; exact he
        · rw [hf] at he; cases he
      split
      · trivial
      · rename_i p l
        split
        · trivial
        · have h1 := ih.args false 0 st l [] [] (by simp) ht (hr.suf ⟨[t, p], rfl⟩) (by simp) (by simp)
          split
          · trivial
          · rename_i st2 l2 args he2
            rw [he2] at h1
            obtain ⟨h1, h2, h3⟩ := h1
            dsimp only at h1 h2 h3
            split
            · trivial
            · have hba := bindArgs_given (env := env) (root := root) (s := s) (p := st2.pragma) (name := t.sym.text) (f.args.zip args)
                (m := fun _ => none) (ws := st2.warns) (fun x hx => h2 _ (List.of_mem_zip hx).2) (by simp)
              have h4 := ih.walk (some t.sym.text) false true none
                  { st2 with
                    warns := (bindArgs st2.pragma t.sym.text (f.args.zip args) (fun _ => none) st2.warns).2
                    defs := st2.defs.push t.sym.text
                      (bindArgs st2.pragma t.sym.text (f.args.zip args) (fun _ => none) st2.warns).1 }
                  (noJoin f.body) [] (by simp) (by simp) (fun v hv hp => him v hv hp _)
                  ⟨(h1.tab ht).global, by
                    intro x hx k e he
                    rcases List.mem_cons.1 hx with rfl | hx
                    · exact hba k e he
                    · exact (h1.tab ht).stack x hx k e he⟩
                  (.inl (hbody.sub (noJoin_sub _))) (by
                    rw [NoDir, noJoin, List.filter_filter]
                    simpa [NoDir] using hnd) (by simp [Out.toksL])
              split
              · trivial
              · rename_i st3 l3 layer he3
                rw [he3] at h4
                obtain ⟨h4a, h4b, h4c⟩ := h4
                dsimp only at h4a h4b h4c
                refine ⟨⟨?_, ?_, ?_, ?_, ?_⟩, [.mac t layer], rfl, .inr (.inr ⟨layer, rfl, h4b⟩), fun hnr => ?_⟩
                · exact h4a.global.trans h1.global
                · simp only [Defines.pop, h4a.stack, Defines.push, List.tail_cons]
                  exact h1.stack
                · exact h4a.ifs.trans h1.ifs
                · exact h4a.files.trans h1.files
                · exact h1.suf.trans (List.suffix_cons p l)
                · rw [hmac]
                  have h5 : Adv st.defs.counter st2.defs.counter [] [] := ⟨h3 hnr, [], [], by simp, by simp, by simp, by simp⟩
                  exact h5.trans (h4c hnr)
    · rename_i b hf
      split
      · rename_i hsrc
        have hgiven : ∀ u ∈ b, Shown env root s u := by
          rcases he with ⟨he, -⟩ | ⟨-, b', he, h⟩
          · exact absurd hsrc he
          · rw [hf] at he; cases he; exact h
        refine ⟨Passed.refl _ _, [.mac t (b.map .direct)], rfl, .inr (.inr ⟨_, rfl, by rw [outs_direct]; exact hgiven⟩), fun _ => ?_⟩
        rw [hmac, numbersL_direct]
        exact .refl _ _
      · rename_i hsrc
        obtain ⟨hbody, hnd⟩ : SrcL env root b ∧ NoDir b := by
          rcases he with ⟨-, he⟩ | ⟨he, -⟩
          · rw [hf] at he; exact he
          · exact absurd he hsrc
        have h1 := ih.walk (some t.sym.text) false true none st (noJoin b) [] (by simp) (by simp)
          (fun v hv hp => him v hv hp _) ht (.inl (hbody.sub (noJoin_sub _))) (by
            rw [NoDir, noJoin, List.filter_filter]
            simpa [NoDir] using hnd) (by simp [Out.toksL])
        split
        · trivial
        · rename_i st3 l3 layer he3
          rw [he3] at h1
          obtain ⟨h1a, h1b, h1c⟩ := h1
          refine ⟨⟨h1a.global, h1a.stack, h1a.ifs, h1a.files, List.suffix_rfl⟩, [.mac t layer], rfl,
            .inr (.inr ⟨layer, rfl, h1b⟩), fun hnr => ?_⟩
          rw [hmac]
          exact h1c hnr
    · exact ⟨Passed.refl _ _, [], by simp, .inl rfl, fun _ => .refl _ _⟩
    · split <;> trivial

theorem allMac (hu : Usual env root) (hs : Site env root s) (n : Nat) : AllMac env root s n := by
  induction n with
  | zero =>
    constructor <;> intros
    · rw [walk.eq_def]; trivial
    · rw [defineUse.eq_def]; trivial
    · rw [readArgs.eq_def]; trivial
  | succ n ih =>
    constructor
    · intro im q jw quote st toks buf hq hbeh him ht hstr hnd hb
      rw [walk.eq_def]
      dsimp only
      split
      · exact ⟨Passed.refl _ _, hb, fun _ => .refl _ _⟩
      · rename_i t rest
        have go : ∀ q jw quote buf', (∀ p, quote = some p → Gen env root s ⟨.dquote, p⟩) → (q = true → ∀ t ∈ rest, Shown env root s t) →
            (∀ t ∈ Out.toksL buf', Shown env root s t) → (∀ a, Adv a a (numbersL buf) (numbersL buf')) →
            Yields (Preproc.walk n env (some s) im q jw quote st rest buf') fun x => Passed st (t :: rest) x.1 x.2.1 ∧
              (∀ t ∈ Out.toksL x.2.2, Shown env root s t) ∧
              (NoReset env root → Adv st.defs.counter x.1.defs.counter (numbersL buf) (numbersL x.2.2)) := by
          intro q jw quote buf' h1 h2 h3 h4
          exact (ih.walk im q jw quote st rest buf' h1 h2 (fun w hw hp u hu => him w hw hp u (by simp [hu])) ht
            (hstr.suf (List.suffix_cons t rest)) (NoDir.suf hnd (List.suffix_cons t rest)) h3).mono fun x hx =>
              ⟨hx.1.wider (List.suffix_cons t rest), hx.2.1, fun hn => (h4 _).trans (hx.2.2 hn)⟩
        have hout : Shown env root s t → (∀ u ∈ Out.toksL (closeQuote st quote (output st t buf)), Shown env root s u) ∧
            ∀ a, Adv a a (numbersL buf) (numbersL (closeQuote st quote (output st t buf))) := fun h =>
          ⟨closeQuote_shown hq (output_shown h hb), fun a => (output_adv a st t buf).trans (closeQuote_adv a st quote _)⟩
        have plain : (∀ w, t.sym ≠ .word w) → Shown env root s t := fun h =>
          hstr.shown (by simp) fun w hw => absurd hw (h w)
        split
        · rename_i w hw
          split_ifs with h1 h2 h3
          · trivial
          · trivial
          · have h4 := ih.use st t rest buf w hw ht hstr
            simp only [Option.getD_some]
            split
            · trivial
            · rename_i st2 l2 b2 he
              rw [he] at h4
              obtain ⟨h4a, o, h4b, h4c, h4d⟩ := h4
              dsimp only at h4a h4b h4d
              subst h4b
              have hb2 : ∀ u ∈ Out.toksL (buf ++ o), Shown env root s u := by
                intro u hu
                rw [outs_append] at hu
                rcases List.mem_append.1 hu with h | h
                · exact hb u h
                · exact h4c.shown u h
              have hsuf := h4a.suf.trans (List.suffix_cons t rest)
              refine (ih.walk im false false none st2 l2 _ (by simp) (by simp) (fun w hw hp u hu => him w hw hp u (hsuf.subset hu))
                (h4a.tab ht) (hstr.suf hsuf) (NoDir.suf hnd hsuf) (closeQuote_shown hq hb2)).mono fun x hx => ?_
              refine ⟨(h4a.wider (List.suffix_cons t rest)).trans hx.1, hx.2.1, fun hn => ?_⟩
              have k1 := (h4d hn).after (numbersL buf)
              rw [← numbersL_append] at k1
              exact k1.trans ((closeQuote_adv _ st2 quote _).trans (hx.2.2 hn))
          · have hsh : Shown env root s t := by
              by_cases hp : w ∈ placed
              · refine .inr (him w ?_ hp t (by simp))
                by_contra hne
                refine h3 ⟨hne, ?_⟩
                rw [Defines.containsKey, ← placed_eq]
                simp [hp]
              · refine hstr.shown (by simp) fun v hv => ?_
                rw [hw] at hv
                cases hv
                exact hp
            exact go _ _ _ _ (by simp) (by simp) (hout hsh).1 (hout hsh).2
        · rename_i hw
          have hsh := plain fun w h => by rw [hw] at h; cases h
          rw [if_neg (by rintro ⟨-, h⟩; exact NoDir.head hnd hw h)]
          split_ifs with h2
          · have hsrc : Source env root t := by
              rcases hstr.mem (t := t) (by simp) with h | h
              · exact h
              · exact absurd hw h.directive
            have hgen : Gen env root s ⟨.dquote, t.pos⟩ := .quote hsrc hw
            exact go _ _ _ _ (by rintro _ ⟨⟩; exact hgen) (by simp) (output_shown (.inr hgen) hb) fun a => output_adv a st _ buf
          · exact go _ _ _ _ (by simp) (by simp) (hout hsh).1 (hout hsh).2
        · rename_i hw
          have hsh := plain fun w h => by rw [hw] at h; cases h
          split_ifs
          · exact ⟨⟨rfl, rfl, rfl, rfl, List.suffix_cons t rest⟩, output_shown hsh hb, fun _ => output_adv _ st t buf⟩
          · exact go _ _ _ _ (by simp) (by simp) (hout hsh).1 (hout hsh).2
        · rename_i hw
          have hsh := plain fun w h => by rw [hw] at h; cases h
          exact go _ _ _ _ (by simp) (fun _ => hstr.behind hw) (hout hsh).1 (hout hsh).2
        · exact ⟨Passed.refl _ _, hb, fun _ => .refl _ _⟩
        · rename_i hw
          have hsh := plain fun w h => by rw [hw] at h; cases h
          exact go _ _ _ _ (by simp) (fun h u hu => hbeh h u (by simp [hu])) (hout hsh).1 (hout hsh).2
        · rename_i hw
          have hsh := plain fun w h => by rw [hw] at h; cases h
          exact go _ _ _ _ (by simp) (fun h u hu => hbeh h u (by simp [hu])) (hout hsh).1 (hout hsh).2
        · rename_i q0 _ _ _ _ _ _ k1 _ _
          have hsh : Shown env root s t := by
            cases hqq : q0 with
            | true => exact hbeh hqq t (by simp)
            | false => exact plain fun w h => k1 w h hqq
          exact go _ _ _ _ (by simp) (fun h u hu => hbeh h u (by simp [hu])) (hout hsh).1 (hout hsh).2
    · intro st t rest buf w hw ht hstr
      obtain ⟨oe, d, hge⟩ : ∃ oe d, st.defs.getWithGen env t s = (oe, d) := ⟨_, _, rfl⟩
      rw [defineUse_eq hw hge]
      exact useWith_mac hu hs ih hw ht hstr hge
    · intro q depth st toks args arg hbeh ht hstr hargs harg
      rw [readArgs.eq_def]
      dsimp only
      have hfin : ∀ a ∈ (if arg = [] then args else args ++ [arg]), ∀ t ∈ a, Shown env root s t := by
        intro a ha
        split at ha
        · exact hargs a ha
        · rcases List.mem_append.1 ha with h | h
          · exact hargs a h
          · rw [List.mem_singleton.1 h]; exact harg
      split
      · exact ⟨Passed.refl _ _, hfin, fun _ => le_rfl⟩
      · rename_i t rest
        have hat : Shown env root s t → ∀ u ∈ arg ++ [t], Shown env root s u := by
          intro h u hu
          rcases List.mem_append.1 hu with h' | h'
          · exact harg u h'
          · rw [List.mem_singleton.1 h']; exact h
        have go : ∀ q depth args arg, (q = true → ∀ t ∈ rest, Shown env root s t) → (∀ a ∈ args, ∀ t ∈ a, Shown env root s t) →
            (∀ t ∈ arg, Shown env root s t) →
            Yields (readArgs n env s q depth st rest args arg) fun x => Passed st (t :: rest) x.1 x.2.1 ∧
              (∀ a ∈ x.2.2, ∀ t ∈ a, Shown env root s t) ∧ (NoReset env root → st.defs.counter ≤ x.1.defs.counter) := by
          intro q depth args arg h1 h2 h3
          exact (ih.args q depth st rest args arg h1 ht (hstr.suf (List.suffix_cons t rest)) h2 h3).mono fun x hx =>
            ⟨hx.1.wider (List.suffix_cons t rest), hx.2⟩
        have plain : (∀ w, t.sym ≠ .word w) → Shown env root s t := fun h =>
          hstr.shown (by simp) fun w hw => absurd hw (h w)
        split
        · rename_i hqq
          exact go _ _ _ _ (fun _ u hu => hbeh hqq u (by simp [hu])) hargs (hat (hbeh hqq t (by simp)))
        · split
          · rename_i w hw
            split
            · have h4 := ih.use st t rest [] w hw ht hstr
              split
              · trivial
              · rename_i st2 l2 b2 he
                rw [he] at h4
                obtain ⟨h4a, o, h4b, h4c, h4d⟩ := h4
                dsimp only at h4a h4b h4d
                rw [List.nil_append] at h4b
                subst h4b
                refine (ih.args false depth st2 l2 args _ (by simp) (h4a.tab ht) (hstr.suf (h4a.suf.trans (List.suffix_cons t rest)))
                  hargs ?_).mono fun x hx => ⟨(h4a.wider (List.suffix_cons t rest)).trans hx.1, hx.2.1, fun hn => (h4d hn).1.trans (hx.2.2 hn)⟩
                intro u hu
                rcases List.mem_append.1 hu with h | h
                · exact harg u h
                · exact h4c.shown u h
            · rename_i hk
              refine go _ _ _ _ (by simp) hargs (hat (hstr.shown (by simp) fun v hv hp => hk ?_))
              rw [hw] at hv
              cases hv
              rw [Defines.containsKey, ← placed_eq]
              simp [hp]
          · rename_i hw
            exact go _ _ _ _ (by simp) hargs (hat (plain fun w h => by rw [hw] at h; cases h))
          · rename_i hw
            split
            · exact ⟨⟨rfl, rfl, rfl, rfl, List.suffix_cons t rest⟩, hfin, fun _ => le_rfl⟩
            · exact go _ _ _ _ (by simp) hargs (hat (plain fun w h => by rw [hw] at h; cases h))
          · refine go _ _ _ _ (by simp) ?_ (by simp)
            intro a ha
            rcases List.mem_append.1 ha with h | h
            · exact hargs a h
            · rw [List.mem_singleton.1 h]; exact harg
          · rename_i hw
            exact go _ _ _ _ (fun _ => hstr.behind hw) hargs (hat (plain fun w h => by rw [hw] at h; cases h))
          · rename_i k1 k2 k3 k4 k5
            exact go _ _ _ _ (by simp) hargs (hat (plain k1))

/-! ### Files -/

theorem getWithGen_count {d d' : Defines} {key : Tok} {p : Pos} {oe : Option Entry} (h : d.getWithGen env key p = (oe, d')) :
    d.counter ≤ d'.counter ∨ ∃ e, oe = some e ∧ e.defn = .void := by
  rw [Defines.getWithGen] at h
  dsimp only at h
  split at h
  · simp only [Prod.mk.injEq] at h
    obtain ⟨rfl, rfl⟩ := h
    rw [Defines.builtin]
    dsimp only
    split_ifs
    · left; simp
    · right; exact ⟨_, rfl, rfl⟩
    all_goals exact .inl le_rfl
  · left
    split at h
    · split at h
      · split at h <;> (cases h; exact le_rfl)
      · cases h; exact le_rfl
    · cases h; exact le_rfl

theorem resolveSide_count {d d' : Defines} {l : List Tok} {x} (h : resolveSide env d l = .ok (x, d')) : d.counter ≤ d'.counter := by
  rw [resolveSide.eq_def] at h
  split at h
  · rename_i t
    rw [resolveValue] at h
    split at h
    · rename_i e d2 he
      rcases getWithGen_count he with hc | ⟨e', he', hv⟩
      · split at h
        · simp only [Except.ok.injEq, Prod.mk.injEq] at h
          rw [← h.2]; exact hc
        · simp at h
        · simp at h
      · cases he'
        rw [hv] at h
        simp at h
    · rename_i d2 he
      rcases getWithGen_count he with hc | ⟨e', he', -⟩
      · simp only [Except.ok.injEq, Prod.mk.injEq] at h
        rw [← h.2]; exact hc
      · cases he'
  · simp only [Except.ok.injEq, Prod.mk.injEq] at h
    rw [← h.2]

theorem ifRightOp_count {d d' : Defines} {toks toks' op r} (h : ifRight.ifRightOp env d toks = .ok (op, r, d', toks')) :
    d.counter ≤ d'.counter := by
  rw [ifRight.ifRightOp] at h
  dsimp only at h
  split at h
  · split at h <;> simp at h
  · split at h
    · simp at h
    · rename_i hrs
      simp only [Except.ok.injEq, Prod.mk.injEq] at h
      obtain ⟨_, _, rfl, rfl⟩ := h
      exact resolveSide_count hrs

theorem ifRight_count {d d' : Defines} {left b toks toks' op r} (h : ifRight env d left b toks = .ok (op, r, d', toks')) :
    d.counter ≤ d'.counter := by
  rw [ifRight.eq_def] at h
  split at h
  · split at h
    · split at h
      · simp only [Except.ok.injEq, Prod.mk.injEq] at h
        obtain ⟨_, _, rfl, rfl⟩ := h
        exact le_rfl
      · simp at h
    · exact ifRightOp_count h
  · exact ifRightOp_count h

theorem directiveIf_count {st st' : St} {cmd : Tok} {toks toks' : List Tok} (h : directiveIf env st cmd toks = .ok (st', toks')) :
    st.defs.counter ≤ st'.defs.counter := by
  rw [directiveIf] at h
  dsimp only at h
  split at h
  · split at h
    · simp only [Except.ok.injEq, Prod.mk.injEq] at h
      obtain ⟨rfl, rfl⟩ := h
      exact le_rfl
    · simp at h
  · split at h
    · simp at h
    · rename_i hrs
      have h1 := resolveSide_count hrs
      split at h
      · simp at h
      · split at h
        · simp at h
        · rename_i hir
          have h2 := ifRight_count hir
          split at h
          · simp at h
          · split at h
            · simp at h
            · simp only [Except.ok.injEq, Prod.mk.injEq] at h
              obtain ⟨rfl, rfl⟩ := h
              exact h1.trans h2

theorem Adv.up {a b : Nat} (h : a ≤ b) (u : List Nat) : Adv a b u u := ⟨h, u, [], List.prefix_rfl, by simp, by simp, by simp⟩

/-- What is known at file level. -/
structure Filed (env : Env) (root : Text) (st : St) : Prop where
  global : ∀ k e, st.defs.global k = some e → Wrote env root e
  stack : st.defs.stack = []
  files : ∀ f ∈ st.files, Read env root f

theorem Filed.same {st st' : St} (h : Filed env root st) (h1 : st'.defs.global = st.defs.global) (h2 : st'.defs.stack = st.defs.stack)
    (h3 : st'.files = st.files) : Filed env root st' :=
  ⟨by rw [h1]; exact h.global, by rw [h2]; exact h.stack, by rw [h3]; exact h.files⟩

theorem Filed.tab {st : St} (h : Filed env root st) : Tab env root s st.defs := ⟨h.global, by rw [h.stack]; simp⟩

/-- The rest of a file that is read. -/
def Rest (env : Env) (root : Text) (l : List Tok) : Prop := ∃ f all, Read env root f ∧ env.load f = .ok all ∧ l <:+ all

theorem Rest.suf {l l' : List Tok} (h : Rest env root l) (hs : l' <:+ l) : Rest env root l' := by
  obtain ⟨f, all, h1, h2, h3⟩ := h
  exact ⟨f, all, h1, h2, hs.trans h3⟩

theorem Rest.srcL {l : List Tok} (h : Rest env root l) : SrcL env root l := by
  obtain ⟨f, all, h1, h2, h3⟩ := h
  exact ⟨f, all, h1, h2, h3.sublist⟩

theorem Rest.str {l : List Tok} (h : Rest env root l) : Str env root s l := .inl h.srcL

theorem Rest.mem {l : List Tok} (h : Rest env root l) {t : Tok} (ht : t ∈ l) : Source env root t := h.srcL.mem ht

/-- What a step at file level leaves. -/
structure Went (env : Env) (root : Text) (st : St) (toks : List Tok) (buf : List Out) (x : St × List Tok × List Out) : Prop where
  filed : Filed env root x.1
  files : x.1.files = st.files
  suf : x.2.1 <:+ toks
  top : ∀ o ∈ x.2.2, Stands env root o
  adv : NoReset env root → Adv st.defs.counter x.1.defs.counter (numbersL buf) (numbersL x.2.2)

theorem Went.refl {st : St} {toks : List Tok} {buf : List Out} (h : Filed env root st) (hb : ∀ o ∈ buf, Stands env root o) :
    Went env root st toks buf (st, toks, buf) := ⟨h, rfl, List.suffix_rfl, hb, fun _ => .refl _ _⟩

theorem Went.trans {st : St} {toks : List Tok} {buf : List Out} {x y : St × List Tok × List Out} (h : Went env root st toks buf x)
    (k : Went env root x.1 x.2.1 x.2.2 y) : Went env root st toks buf y :=
  ⟨k.filed, k.files.trans h.files, k.suf.trans h.suf, k.top, fun hn => (h.adv hn).trans (k.adv hn)⟩

theorem Went.wider {st : St} {toks toks' : List Tok} {buf : List Out} {x : St × List Tok × List Out} (h : Went env root st toks buf x)
    (hs : toks <:+ toks') : Went env root st toks' buf x := { h with suf := h.suf.trans hs }

/-- A written token stands for itself. -/
def Bare (env : Env) (root : Text) (t : Tok) : Prop := Source env root t ∧ ∀ w ∈ placed, t.sym = .word w → Quoted env root t

theorem output_top {st : St} {t : Tok} {buf : List Out} (ht : Bare env root t) (hb : ∀ o ∈ buf, Stands env root o) :
    ∀ o ∈ output st t buf, Stands env root o := by
  have hd : ∀ o ∈ buf ++ [.direct t], Stands env root o := by
    intro o ho
    rcases List.mem_append.1 ho with h | h
    · exact hb o h
    · rw [List.mem_singleton.1 h]; exact ht
  rw [output]
  split
  · split
    · exact hb
    · split
      · exact fun o ho => hb o (List.dropLast_subset _ ho)
      · exact hd
    · exact hd
  · exact hb

theorem Rest.behind {d : Tok} {l : List Tok} (h : Rest env root (d :: l)) (hd : d.sym = .dquote) : ∀ t ∈ l, Bare env root t := by
  obtain ⟨f, all, h1, h2, h3⟩ := h
  intro t ht
  refine ⟨⟨f, all, h1, h2, h3.subset (by simp [ht])⟩, fun w _ _ => ?_⟩
  obtain ⟨r1, r2, rfl, h4, h5⟩ := List.cons_sublist_iff.1 h3.sublist
  obtain ⟨x, z, rfl⟩ := List.append_of_mem (h5.subset ht)
  exact ⟨f, _, r1 ++ x, z, d, h1, h2, by simp, by simp [h4], hd⟩

theorem skipWsOut_top {st : St} (l : List Tok) : ∀ {buf}, Rest env root l → (∀ o ∈ buf, Stands env root o) →
    (∀ o ∈ (skipWsOut st l buf).2, Stands env root o) ∧ ∀ a, Adv a a (numbersL buf) (numbersL (skipWsOut st l buf).2) := by
  induction l with
  | nil => intro buf _ hb; exact ⟨hb, fun a => .refl _ _⟩
  | cons t l ih =>
    intro buf h hb
    rw [skipWsOut]
    split
    · rename_i hw
      have ht : Bare env root t := ⟨h.mem (by simp), fun w _ hv => by rw [hv] at hw; simp [Sym.isWs] at hw⟩
      obtain ⟨k1, k2⟩ := ih (h.suf (List.suffix_cons t l)) (output_top (st := st) ht hb)
      exact ⟨k1, fun a => (output_adv a st t buf).trans (k2 a)⟩
    · exact ⟨hb, fun a => .refl _ _⟩

theorem directiveDefine_filed (hu : Usual env root) {f : Text} {all pre toks toks' : List Tok} {h d : Tok} (hread : Read env root f)
    (hload : env.load f = .ok all) (hall : all = pre ++ h :: d :: toks) (hh : h.sym = .directive) (hd : d.sym = .word (kw "define"))
    {st st' : St} (hg : Filed env root st) (hr : directiveDefine st toks = .ok (st', toks')) :
    Filed env root st' ∧ st'.files = st.files ∧ st'.defs.counter = st.defs.counter ∧ toks' <:+ toks := by
  have hrest : Rest env root toks := ⟨f, all, hread, hload, ⟨pre ++ [h, d], by rw [hall]; simp⟩⟩
  rw [directiveDefine] at hr
  split at hr
  · simp at hr
  · rename_i ident l hnw
    obtain ⟨ws, name, heq, hws, hname⟩ := nextWord_eq hnw
    have hcond := hu.defs (ws := ws) (nm := ident) (l := l) hread hload (by rw [hall, heq]) hh hd hws hname
    have hsuf : l <:+ toks := ⟨ws ++ [ident], by rw [heq]; simp⟩
    split at hr
    · simp at hr
    · rename_i next rest
      dsimp only at hr
      split at hr
      · simp at hr
      · have done : ∀ (ws : List Warn) (df : Definition) (src : List Text), Wrote env root ⟨ident, df, .source src⟩ →
            Filed env root { st with
              warns := ws
              defs := Defines.insert (st.defs.remove ident.sym.text).2 ident.sym.text
                { tok := ident, defn := df, src := .source src } } := by
          intro ws df src hdf
          simp only [hname, Sym.text, Defines.remove, hg.stack, Defines.insert]
          refine ⟨fun k e he => ?_, rfl, hg.files⟩
          simp only [Inner.insert, Inner.remove] at he
          split at he
          · rename_i hk
            simp only [Option.some.injEq] at he
            subst he hk
            exact hdf
          · exact hg.global k e he
        have hcnt : ∀ e, (Defines.insert (st.defs.remove ident.sym.text).2 ident.sym.text e).counter = st.defs.counter := by
          intro e
          simp [Defines.remove, hg.stack, Defines.insert]
        have body : ∀ l2 : List Tok, l2 <:+ next :: rest → (∃ x, logical false (next :: rest) = x ++ logical false l2) →
            SrcL env root (readBody (skipWs l2) []).1 ∧ NoDir (readBody (skipWs l2) []).1 := by
          rintro l2 hl2 ⟨x, hx⟩
          obtain ⟨a, ha, hb⟩ := skipWs_suffix l2
          rw [ha, logical_blank hb] at hx
          have hnd : NoDir (logical false (skipWs l2)) := by
            have := hcond
            rw [hx] at this
            exact NoDir.append_right (NoDir.append_right this)
          obtain ⟨k1, k2⟩ := readBody_good (skipWs l2) [] false (by simp) (by simpa using hnd)
          refine ⟨?_, k1⟩
          have := readBody_sub (skipWs l2) []
          exact hrest.srcL.sub (this.trans ((skipWs_suf l2).trans (hl2.trans hsuf)).sublist)
        split at hr
        · rename_i hnx
          split at hr
          · simp at hr
          · rename_i args l2 hrp
            obtain ⟨x, hx⟩ := readParams_logical hrp
            have hlog : ∃ x, logical false (next :: rest) = x ++ logical false l2 := by
              refine ⟨next :: x, ?_⟩
              rw [logical, if_neg (by simp [hnx]), if_neg (by simp [hnx]), decide_eq_false (by simp [hnx]), hx]
              rfl
            simp only [Except.ok.injEq, Prod.mk.injEq] at hr
            obtain ⟨rfl, rfl⟩ := hr
            refine ⟨done _ _ _ ⟨by simp, body l2 ((readParams_suf hrp).trans (List.suffix_cons next rest)) hlog⟩, rfl, hcnt _, ?_⟩
            exact (readBody_suf _ _).trans ((skipWs_suf l2).trans ((readParams_suf hrp).trans
              ((List.suffix_cons next rest).trans hsuf)))
        · simp only [Except.ok.injEq, Prod.mk.injEq] at hr
          obtain ⟨rfl, rfl⟩ := hr
          exact ⟨done _ _ _ ⟨by simp, trivial⟩, rfl, hcnt _, hsuf⟩
        · simp only [Except.ok.injEq, Prod.mk.injEq] at hr
          obtain ⟨rfl, rfl⟩ := hr
          exact ⟨done _ _ _ ⟨by simp, trivial⟩, rfl, hcnt _, hsuf⟩
        · simp only [Except.ok.injEq, Prod.mk.injEq] at hr
          obtain ⟨rfl, rfl⟩ := hr
          exact ⟨done _ _ _ ⟨by simp, body (next :: rest) List.suffix_rfl ⟨[], rfl⟩⟩, rfl, hcnt _,
            (readBody_suf _ _).trans ((skipWs_suf _).trans hsuf)⟩

theorem directiveUndef_filed {st st' : St} {toks toks'} (hg : Filed env root st) (h : directiveUndef st toks = .ok (st', toks')) :
    Filed env root st' ∧ st'.files = st.files ∧ st'.defs.counter = st.defs.counter ∧ toks' <:+ toks := by
  rw [directiveUndef] at h
  split at h
  · simp at h
  · rename_i hnw
    split at h
    · simp at h
    · rename_i hen
      simp only [Except.ok.injEq, Prod.mk.injEq] at h
      obtain ⟨rfl, rfl⟩ := h
      refine ⟨?_, rfl, ?_, (expectNothing_suf hen).trans (nextWord_suf hnw)⟩
      · simp only [Defines.remove, hg.stack]
        refine ⟨fun k e he => ?_, rfl, hg.files⟩
        simp only [Inner.remove] at he
        split at he
        · simp at he
        · exact hg.global k e he
      · simp [Defines.remove, hg.stack]

theorem includeTarget_filed {st : St} {toks toks' : List Tok} (hg : Filed env root st) {found : Text} {inner : List Tok} {ws : List Warn}
    (hr : includeTarget env st toks = .ok (found, inner, ws, toks')) :
    Read env root found ∧ env.load found = .ok inner ∧ toks' <:+ toks := by
  obtain ⟨a, ha, hb⟩ := skipWs_suffix toks
  rw [includeTarget] at hr
  split at hr
  · simp at hr
  · rename_i o l hsk
    rw [hsk] at ha
    dsimp only at hr
    have go : ∀ close,
        (match readPath close o l [] with
        | .error e => .error e
        | .ok (path, toks) => match expectNothing toks with
          | .error (.code _ t _) => .error (.code 14 t)
          | .error e => .error e
          | .ok toks => match st.files with
            | [] => .error .panic
            | cur :: _ => match env.locate cur (toksText path) with
              | none => .error (.code 12 o (.toks path))
              | some (found, mismatch) => match env.load found with
                | .error e => .error e
                | .ok inner =>
                  .ok (found, inner, if mismatch then [Warn.includeCase path] else [], toks)) =
        (.ok (found, inner, ws, toks') : Except PErr (Text × List Tok × List Warn × List Tok)) →
        Read env root found ∧ env.load found = .ok inner ∧ toks' <:+ toks := by
      intro close hr
      split at hr
      · simp at hr
      · rename_i path l2 hrp
        obtain ⟨x, tail, h1, h2, h3, h4⟩ := readPath_eq hrp
        split at hr
        · simp at hr
        · simp at hr
        · rename_i l3 hen
          split at hr
          · simp at hr
          · rename_i cur fs hf
            split at hr
            · simp at hr
            · rename_i found' mm hloc
              split at hr
              · simp at hr
              · rename_i inner' hli
                simp only [Except.ok.injEq, Prod.mk.injEq] at hr
                obtain ⟨rfl, rfl, _, rfl⟩ := hr
                refine ⟨.incl (hg.files cur (by rw [hf]; simp)) hloc, hli, ?_⟩
                have : l2 <:+ l := by
                  rcases h4 with ⟨_, h4⟩ | ⟨c, h4, _⟩
                  · rw [h4]; exact List.nil_suffix
                  · exact ⟨x ++ [c], by rw [h1, h4]; simp⟩
                exact (expectNothing_suf hen).trans (this.trans ⟨a ++ [o], by rw [ha]; simp⟩)
    split at hr
    · exact go .dquote hr
    · exact go .rangle hr
    · simp at hr

/-- With this much fuel files give what may stand in a result. -/
structure AllFile (env : Env) (root : Text) (n : Nat) : Prop where
  walk : ∀ q jw st toks buf, (q = true → ∀ t ∈ toks, Bare env root t) → Filed env root st → Rest env root toks →
    (∀ o ∈ buf, Stands env root o) → Yields (walk n env none none q jw none st toks buf) (Went env root st toks buf)
  directive : ∀ st toks buf, Filed env root st → Rest env root toks → (∀ o ∈ buf, Stands env root o) →
    Yields (directive n env st toks buf) fun x => Went env root st toks buf x.2
  command : ∀ st h c toks buf, h.sym = .directive → c.sym.isWord = true → Filed env root st → Rest env root (h :: c :: toks) →
    (∀ o ∈ buf, Stands env root o) → Yields (command n env st c toks buf) (Went env root st toks buf)
  file : ∀ st toks buf, Filed env root st → Rest env root toks → (∀ o ∈ buf, Stands env root o) →
    Yields (file n env st toks buf) (Went env root st toks buf)
  line : ∀ st toks buf, Filed env root st → Rest env root toks → (∀ o ∈ buf, Stands env root o) →
    Yields (line n env st toks buf) (Went env root st toks buf)

theorem allFile (hu : Usual env root) (n : Nat) : AllFile env root n := by
  induction n with
  | zero =>
    constructor <;> intros
    · rw [walk.eq_def]; trivial
    · rw [directive.eq_def]; trivial
    · rw [command.eq_def]; trivial
    · rw [file.eq_def]; trivial
    · rw [line.eq_def]; trivial
  | succ n ih =>
    constructor
    · intro q jw st toks buf hbeh hf hrest hb
      rw [walk.eq_def]
      dsimp only
      split
      · exact .refl hf hb
      · rename_i t rest
        have hsuf : rest <:+ t :: rest := List.suffix_cons t rest
        have go : ∀ q jw, Bare env root t → (q = true → ∀ t ∈ rest, Bare env root t) →
            Yields (Preproc.walk n env none none q jw none st rest (output st t buf)) (Went env root st (t :: rest) buf) := by
          intro q jw h1 h2
          refine (ih.walk q jw st rest _ h2 hf (hrest.suf hsuf) (output_top h1 hb)).mono fun x hx => ?_
          exact Went.trans (x := (st, rest, output st t buf))
            ⟨hf, rfl, hsuf, output_top h1 hb, fun _ => output_adv _ st t buf⟩ hx
        have plain : (∀ w, t.sym = .word w → w ∉ placed) → Bare env root t := fun h =>
          ⟨hrest.mem (by simp), fun w hp hw => absurd hp (h w hw)⟩
        split
        · rename_i w hw
          split_ifs with h1 h2 h3
          · trivial
          · trivial
          · have hsite : Site env root t.pos := ⟨t, hrest.mem (by simp), rfl⟩
            have h4 := (allMac hu hsite n).use st t rest buf w hw hf.tab hrest.str
            simp only [Option.getD_none]
            split
            · trivial
            · rename_i st2 l2 b2 he
              rw [he] at h4
              obtain ⟨h4a, o, h4b, h4c, h4d⟩ := h4
              dsimp only at h4a h4b h4d
              subst h4b
              have hf2 : Filed env root st2 := hf.same h4a.global h4a.stack h4a.files
              have hb2 : ∀ x ∈ buf ++ o, Stands env root x := by
                intro x hx
                rcases List.mem_append.1 hx with h | h
                · exact hb x h
                · rcases h4c with rfl | ⟨rfl, k⟩ | ⟨l, rfl, k⟩
                  · simp at h
                  · rw [List.mem_singleton.1 h]
                    refine ⟨hrest.mem (by simp), fun v hv hvw => ?_⟩
                    rcases k with k | k
                    · exact k.2 v hv hvw
                    · exact absurd hv (k.word hu hsite hvw)
                  · rw [List.mem_singleton.1 h]
                    exact ⟨hrest.mem (by simp), k⟩
              have hmid : Went env root st (t :: rest) buf (st2, l2, buf ++ o) := by
                refine ⟨hf2, h4a.files, h4a.suf.trans hsuf, hb2, fun hn => ?_⟩
                have := (h4d hn).after (numbersL buf)
                rwa [← numbersL_append] at this
              refine (ih.walk false false st2 l2 (buf ++ o) (by simp) hf2 (hrest.suf hmid.suf) hb2).mono fun x hx => hmid.trans hx
          · refine go _ _ (plain fun v hv hp => h3 ⟨by simp, ?_⟩) (by simp)
            rw [hw] at hv
            cases hv
            rw [Defines.containsKey, ← placed_eq]
            simp [hp]
        · rename_i hw
          have hsh := plain fun w h => by rw [hw] at h; cases h
          split_ifs with h1 h2
          · have h3 := ih.directive st (t :: rest) buf hf hrest hb
            split
            · trivial
            · rename_i b st2 l2 b2 he
              rw [he] at h3
              have h3 : Went env root st (t :: rest) buf (st2, l2, b2) := h3
              exact (ih.walk false true st2 l2 b2 (by simp) h3.filed (hrest.suf h3.suf) h3.top).mono fun x hx => h3.trans hx
          · simp at h2
          · exact go _ _ hsh (by simp)
        · rename_i hw
          have hsh := plain fun w h => by rw [hw] at h; cases h
          rw [if_pos rfl]
          exact ⟨hf, rfl, hsuf, output_top hsh hb, fun _ => output_adv _ st t buf⟩
        · rename_i hw
          have hsh := plain fun w h => by rw [hw] at h; cases h
          exact go _ _ hsh (fun _ => hrest.behind hw)
        · exact .refl hf hb
        · rename_i hw
          have hsh := plain fun w h => by rw [hw] at h; cases h
          exact go _ _ hsh (fun h u hu => hbeh h u (by simp [hu]))
        · rename_i hw
          have hsh := plain fun w h => by rw [hw] at h; cases h
          exact go _ _ hsh (fun h u hu => hbeh h u (by simp [hu]))
        · rename_i q0 _ _ _ _ _ _ k1 _ _
          have hsh : Bare env root t := by
            cases hqq : q0 with
            | true => exact hbeh hqq t (by simp)
            | false => exact plain fun w h => absurd hqq (fun h' => k1 w h h')
          exact go _ _ hsh (fun h u hu => hbeh h u (by simp [hu]))
    · intro st toks buf hf hrest hb
      rw [directive.eq_def]
      dsimp only
      split
      · exact .refl hf hb
      · rename_i h rest
        split
        · rename_i hh
          split
          · exact Went.wider (.refl hf hb) (List.suffix_cons _ _)
          · rename_i c rest'
            split
            · rename_i hc
              have h1 := ih.command st h c rest' buf hh hc hf hrest hb
              split
              · trivial
              · rename_i st2 l2 b2 he
                rw [he] at h1
                exact Went.wider h1 ⟨[h, c], rfl⟩
            · exact Went.wider (.refl hf hb) (List.suffix_cons _ _)
        · exact .refl hf hb
    · intro st h c toks buf hh hc hf hrest hb
      have lift : ∀ r : Except PErr (St × List Tok),
          (∀ st' l', r = .ok (st', l') → Filed env root st' ∧ st'.files = st.files ∧ st.defs.counter ≤ st'.defs.counter ∧ l' <:+ toks) →
          Yields (liftR buf r) (Went env root st toks buf) := by
        intro r hr
        rw [liftR.eq_def]
        split
        · trivial
        · obtain ⟨h1, h2, h3, h4⟩ := hr _ _ rfl
          exact ⟨h1, h2, h4, hb, fun _ => .up h3 _⟩
      have hrt : Rest env root toks := hrest.suf ⟨[h, c], rfl⟩
      have back : ∀ (i : IfStates) (l : List Tok), l <:+ toks →
          Went env root st toks buf ({ st with ifs := i }, l, buf) := fun i l hl =>
        ⟨⟨hf.global, hf.stack, hf.files⟩, rfl, hl, hb, fun _ => .refl _ _⟩
      rw [command.eq_def]
      dsimp only
      split_ifs with k1 k2 k3 k4 k5 k6 k7 k8 k9 k10 k11
      · split
        · trivial
        · split
          · trivial
          · rename_i hen
            exact back _ _ (expectNothing_suf hen)
      · split
        · trivial
        · rename_i hen
          exact back _ _ (expectNothing_suf hen)
      · split
        · trivial
        · rename_i found inner ws l2 he
          obtain ⟨h1, h2, h3⟩ := includeTarget_filed hf he
          have h5 := ih.file { st with
              pragma := st.pragma.child, files := found :: st.files,
              included := st.included ++ [found], warns := st.warns ++ ws } inner buf
              ⟨hf.global, hf.stack, by
                intro f hff
                rcases List.mem_cons.1 hff with rfl | hff
                · exact h1
                · exact hf.files f hff⟩ ⟨found, inner, h1, h2, List.suffix_rfl⟩ hb
          split
          · trivial
          · rename_i st2 l3 b2 he2
            rw [he2] at h5
            have h5 : Went _ _ _ _ _ _ := h5
            exact ⟨⟨h5.filed.global, h5.filed.stack, hf.files⟩, rfl, h3, h5.top, h5.adv⟩
      · obtain ⟨f, all, hr, hl, pre, hall⟩ := hrest
        refine lift _ fun st' l' he => ?_
        obtain ⟨a1, a2, a3, a4⟩ := directiveDefine_filed hu hr hl hall.symm hh (word_of_text hc k5) hf he
        exact ⟨a1, a2, a3.ge, a4⟩
      · refine lift _ fun st' l' he => ?_
        obtain ⟨a1, a2, a3, a4⟩ := directiveUndef_filed hf he
        exact ⟨a1, a2, a3.ge, a4⟩
      · refine lift _ fun st' l' he => ?_
        obtain ⟨a1, a2, a3⟩ := directiveIf_good he
        exact ⟨hf.same a1.1 a1.2 a2, a2, directiveIf_count he, a3⟩
      · refine lift _ fun st' l' he => ?_
        obtain ⟨a1, a2, a3⟩ := directiveIfdef_good he
        exact ⟨hf.same (by rw [a1]) (by rw [a1]) a2, a2, by rw [a1], a3⟩
      · refine lift _ fun st' l' he => ?_
        obtain ⟨a1, a2, a3⟩ := directiveIfdef_good he
        exact ⟨hf.same (by rw [a1]) (by rw [a1]) a2, a2, by rw [a1], a3⟩
      · refine lift _ fun st' l' he => ?_
        obtain ⟨a1, a2, a3⟩ := directivePragma_good he
        exact ⟨hf.same (by rw [a1]) (by rw [a1]) a2, a2, by rw [a1], a3⟩
      · trivial
      · exact back _ _ (skipLine_suf _)
      · exact ⟨hf, rfl, skipLine_suf _, hb, fun _ => .refl _ _⟩
    · intro st toks buf hf hrest hb
      rw [file.eq_def]
      dsimp only
      split
      · exact .refl hf hb
      · rename_i t rest
        split
        · exact .refl hf hb
        · have h1 := ih.line st (t :: rest) buf hf hrest hb
          split
          · trivial
          · rename_i st2 l2 b2 he
            rw [he] at h1
            have h1 : Went _ _ _ _ _ _ := h1
            exact (ih.file st2 l2 b2 h1.filed (hrest.suf h1.suf) h1.top).mono fun x hx => h1.trans hx
    · intro st toks buf hf hrest hb
      rw [line.eq_def]
      dsimp only
      have hsk : (skipWsOut st toks buf).1 <:+ toks := by rw [skipWsOut_suf]; exact skipWs_suf toks
      obtain ⟨t1, t2⟩ := skipWsOut_top (st := st) toks hrest hb
      have h0 : Went env root st toks buf (st, skipWsOut st toks buf) := ⟨hf, rfl, hsk, t1, fun _ => t2 _⟩
      have h1 := ih.directive st (skipWsOut st toks buf).1 (skipWsOut st toks buf).2 hf (hrest.suf hsk) t1
      split
      · trivial
      · rename_i st2 l2 b2 he
        rw [he] at h1
        exact h0.trans h1
      · rename_i st2 l2 b2 he
        rw [he] at h1
        have h1 := h0.trans h1
        dsimp only at h1
        have hclr : ∀ x : St × List Tok × List Out, Went env root st toks buf x →
            Went env root st toks buf ({ x.1 with pragma := x.1.pragma.clearLine }, x.2.1, x.2.2) := fun x hx =>
          ⟨⟨hx.filed.global, hx.filed.stack, hx.filed.files⟩, hx.files, hx.suf, hx.top, hx.adv⟩
        split
        · have h4 := ih.walk false true st2 l2 b2 (by simp) h1.filed (hrest.suf h1.suf) h1.top
          split
          · trivial
          · rename_i st3 l3 b3 he
            rw [he] at h4
            exact hclr _ (h1.trans h4)
        · have h5 : Went env root st toks buf (st2, skipLine l2, b2) :=
            ⟨h1.filed, h1.files, (skipLine_suf _).trans h1.suf, h1.top, h1.adv⟩
          exact hclr _ h5

/-- A whole run. -/
theorem run_stands (hu : Usual env root) {n : Nat} {st : St} {buf : List Out} (h : run n env root = .ok (st, buf)) :
    (∀ o ∈ buf, Stands env root o) ∧ (NoReset env root → Adv 0 st.defs.counter [] (numbersL buf)) := by
  rw [run] at h
  split at h
  · simp at h
  · rename_i toks hl
    have h1 := (allFile hu n).file { files := [root] } toks [] ⟨by simp, rfl, by simp [Read.root]⟩
      ⟨root, toks, .root, hl, List.suffix_rfl⟩ (by simp)
    split at h
    · simp at h
    · rename_i st2 l buf2 he
      rw [he] at h1
      have h1 : Went _ _ _ _ _ _ := h1
      split at h
      · simp at h
      · simp only [Except.ok.injEq, Prod.mk.injEq] at h
        obtain ⟨rfl, rfl⟩ := h
        exact ⟨h1.top, h1.adv⟩

end Verif.Preproc
