import Verif.Lib.PreprocSubst
/-!
Whole programs with conditionals and macro use mean what `Verif.Spec.PreprocSubst` says.
-/
namespace Verif.Preproc.Subst
open Verif.Preproc Verif.Preproc.Spec

variable {T : Table}

/-! ### The last symbol of the output -/

mutual
theorem lastSym_toks : ∀ (o : Out) (s : Sym), o.lastSym = some s →
    (o.toks.map Tok.sym).getLast? = some s
  | .direct t, s, h => by simpa [Out.lastSym, Out.toks] using h
  | .mac _ l, s, h => by
    rw [Out.lastSym] at h
    rw [Out.toks]
    exact lastSymL_toks l s h
theorem lastSymL_toks : ∀ (l : List Out) (s : Sym), Out.lastSymL l = some s →
    ((Out.toksL l).map Tok.sym).getLast? = some s
  | [], s, h => by simp [Out.lastSymL] at h
  | [o], s, h => by
    rw [Out.lastSymL] at h
    rw [Out.toksL, Out.toksL, List.append_nil]
    exact lastSym_toks o s h
  | o :: b :: l, s, h => by
    rw [Out.lastSymL] at h
    have := lastSymL_toks (b :: l) s h
    rw [Out.toksL, List.map_append, List.getLast?_append, this]
    rfl
end

theorem noEsc_append {buf y : List Out} (h : NoEsc buf)
    (hy : ((Out.toksL y).map Tok.sym).getLast? ≠ some .escape) : NoEsc (buf ++ y) := by
  rcases List.eq_nil_or_concat y with rfl | ⟨z, o, rfl⟩
  · simpa using h
  · intro e
    simp only [List.concat_eq_append] at e hy
    rw [← List.append_assoc, List.getLast?_append] at e
    simp only [List.getLast?_singleton, Option.some_or, Option.bind_some] at e
    have := lastSym_toks o _ e
    rw [toksL_append, Out.toksL, Out.toksL, List.append_nil, List.map_append,
      List.getLast?_append, this] at hy
    exact hy rfl

/-! ### The macro table between lines -/

/-- A token of the body of an entry. -/
def InBody (e : Entry) (b : Tok) : Prop :=
  (∃ l, e.defn = .value l ∧ b ∈ l) ∨ ∃ f, e.defn = .function f ∧ b ∈ f.body

/-- The state between two lines, with what comes after in the file. -/
structure Inv (T : Table) (st : St) (fut : List Tok) : Prop where
  stack : st.defs.stack = []
  agree : ∀ k, AgreesM (st.defs.global k) (T k)
  before : ∀ k e, st.defs.global k = some e → ∀ b, InBody e b → ∀ t ∈ fut,
    b.pos.start.offset < t.pos.start.offset ∧ b.pos.start.line < t.pos.start.line
  funcs : ∀ k e, st.defs.global k = some e → ∀ f, e.defn = .function f → ∀ t ∈ fut,
    f.pos.stop.line < t.pos.start.line
  others : ∀ k e, st.defs.global k = some e → ∀ f, e.defn = .function f →
    ∀ k' e', st.defs.global k' = some e' → k' ≠ k → ∀ b, InBody e' b →
      b.pos.start.line < f.pos.start.line ∨ f.pos.stop.line < b.pos.start.line

theorem Inv.mono {T st fut st' fut'} (h : Inv T st fut) (hd : st'.defs = st.defs)
    (hf : ∀ t ∈ fut', t ∈ fut) : Inv T st' fut' := by
  obtain ⟨h1, h2, h3, h4, h5⟩ := h
  refine ⟨by rw [hd]; exact h1, by rw [hd]; exact h2, ?_, ?_, ?_⟩ <;> rw [hd]
  · exact fun k e he b hb t ht => h3 k e he b hb t (hf t ht)
  · exact fun k e he f hf' t ht => h4 k e he f hf' t (hf t ht)
  · exact h5

theorem Inv.rep {T st fut} (h : Inv T st fut) : Rep st.defs T.forget := by
  refine ⟨h.stack, fun k => ?_⟩
  have := h.agree k
  simp only [Table.forget]
  cases hk : T k with
  | none => rw [hk] at this; exact this
  | some m =>
    rw [hk] at this
    cases m with
    | unit => exact this
    | value b => obtain ⟨x, l, h1, h2, h3, _⟩ := this; exact ⟨x, l, h1, h2, h3⟩
    | func ps b => obtain ⟨x, l, h1, h2, _⟩ := this; exact ⟨x, l, h1, h2⟩

theorem Inv.world {T st a fut} (h : Inv T st (a ++ fut)) (hR : Ranked T) (hA : Apart T) :
    ∃ rank, World T rank st.defs.global (fun s => ∃ t ∈ a, s = t.pos) := by
  obtain ⟨rank, hrank⟩ := hR
  refine ⟨rank, h.agree, hrank, hA, ?_, ?_⟩
  · rintro b ⟨k', e', he', hb⟩ w hw e f he hf
    by_cases hk : k' = w
    · subst hk
      exfalso
      rw [he'] at he
      obtain rfl := Option.some.inj he
      rcases hb with ⟨l, hl, _⟩ | ⟨f', hf', hb⟩
      · rw [hf] at hl; simp at hl
      · rw [hf] at hf'
        obtain rfl := Definition.function.inj hf'
        have ha := h.agree k'
        cases hT : T k' with
        | none => rw [hT] at ha; rw [AgreesM] at ha; rw [he'] at ha; simp at ha
        | some m =>
          rw [hT] at ha
          cases m with
          | unit =>
            obtain ⟨x, h1, h2⟩ := ha
            rw [he'] at h1; obtain rfl := Option.some.inj h1; rw [hf] at h2; simp at h2
          | value b =>
            obtain ⟨x, l, h1, h2, _⟩ := ha
            rw [he'] at h1; obtain rfl := Option.some.inj h1; rw [hf] at h2; simp at h2
          | func ps c =>
            obtain ⟨x, f', h1, h2, h3, h4⟩ := ha
            rw [he'] at h1; obtain rfl := Option.some.inj h1; rw [hf] at h2
            obtain rfl := Definition.function.inj h2
            refine absurd (hrank k' _ hT k' (mem_words'.2 ?_) (by simp [hT])) (lt_irrefl _)
            rw [← h4, ← hw]
            exact List.mem_map_of_mem hb
    · right
      exact h.others _ e he f hf k' e' he' hk b hb
  · rintro s ⟨t, ht, rfl⟩ b ⟨k, e, he, hb⟩
    exact .inr (h.before k e he b hb t (by simp [ht])).1

/-! ### Text lines -/

theorem holds_ws_one {c : Claim} (h : Holds T c) : ∀ {ρ s z o}, c = .text .line ρ (s :: z) o →
    s.isWs = true → ∃ o', o = visible [s] ++ o' ∧ Holds T (.text .line ρ z o') := by
  intro ρ s z o he hs
  cases h
  case sym m ρ' s' l o' h1 h2 =>
    simp only [Claim.text.injEq, List.cons.injEq] at he
    obtain ⟨rfl, rfl, ⟨rfl, rfl⟩, rfl⟩ := he
    refine ⟨o', ?_, h2⟩
    cases s' <;> simp [Sym.isWs] at hs
    · rfl
    · rfl
    · simp [plainIn, inert, Mode.isArg] at h1
  case comment m ρ' s' l o' h1 h2 =>
    simp only [Claim.text.injEq, List.cons.injEq] at he
    obtain ⟨rfl, rfl, ⟨rfl, rfl⟩, rfl⟩ := he
    exact ⟨_, rfl, h2⟩
  case mac m ρ' u x l o' h1 h2 =>
    obtain ⟨w, v, rfl, _⟩ := use_head h1
    simp only [Claim.text.injEq, List.cons_append, List.cons.injEq] at he
    obtain ⟨rfl, rfl, ⟨rfl, rfl⟩, rfl⟩ := he
    simp [Sym.isWs] at hs
  all_goals first
    | (simp at he; done)
    | (simp only [Claim.text.injEq, List.cons_append, List.cons.injEq] at he
       obtain ⟨rfl, rfl, ⟨rfl, rfl⟩, rfl⟩ := he
       simp [Sym.isWs] at hs)

theorem holds_ws {i z o : List Sym} {ρ} (hi : blank i = true)
    (h : Holds T (.text .line ρ (i ++ z) o)) :
    ∃ o', o = visible i ++ o' ∧ Holds T (.text .line ρ z o') := by
  induction i generalizing o with
  | nil => exact ⟨o, rfl, h⟩
  | cons s i ih =>
    obtain ⟨hs, hi⟩ := blank_cons.1 hi
    obtain ⟨o1, rfl, h1⟩ := holds_ws_one h rfl hs
    obtain ⟨o2, rfl, h2⟩ := ih hi h1
    refine ⟨o2, ?_, h2⟩
    rw [← List.append_assoc]
    congr 1
    rw [show s :: i = [s] ++ i from rfl]
    simp only [visible, List.filter_append]

/-- Everything known after a selected region. -/
structure Ran' (n : Bool) (env : Env) (st : St) (a fut : List Tok) (buf : List Out) (T' : Table)
    (out : List Sym) (st' : St) (x : List Out) : Prop where
  inv : Inv T' st' fut
  keep : Keep n st st'
  out : (Out.toksL x).map Tok.sym = out
  noEsc : NoEsc (buf ++ x)
  emits : ∀ r, Runs env st' fut (buf ++ x) r → Runs env st (a ++ fut) buf r

theorem Ran'.seq {n1 n2 env st a1 a2 fut buf T1 o1 st1 x1 T2 o2 st2 x2}
    (h1 : Ran' n1 env st a1 (a2 ++ fut) buf T1 o1 st1 x1)
    (h2 : Ran' n2 env st1 a2 fut (buf ++ x1) T2 o2 st2 x2) :
    Ran' (n1 || n2) env st (a1 ++ a2) fut buf T2 (o1 ++ o2) st2 (x1 ++ x2) := by
  refine ⟨h2.inv, h1.keep.trans h2.keep, ?_, ?_, fun r hr => ?_⟩
  · rw [toksL_append, List.map_append, h1.out, h2.out]
  · rw [← List.append_assoc]; exact h2.noEsc
  · rw [List.append_assoc]
    exact h1.emits r (h2.emits r (by rw [List.append_assoc]; exact hr))

theorem ran_text' {env : Env} {T : Table} {st : St} (hr : st.ifs.reading = true) {a fut : List Tok}
    (hinv : Inv T st (a ++ fut)) (hR : Ranked T) (hA : Apart T) {l o : List Sym}
    (hok : (Item.text l).ok = true) (hl : Holds T (.text .line noArgs l o))
    (ho : o.getLast? ≠ some .escape) (ha : a.map Tok.sym = l ++ [.newline]) {buf : List Out}
    (he : NoEsc buf) :
    ∃ st' x, Ran' false env st a fut buf T (o ++ [.newline]) st' x := by
  simp only [Item.ok, Bool.and_eq_true, decide_eq_true_eq] at hok
  obtain ⟨rank, W⟩ := hinv.world hR hA
  have hinv0 := hinv
  obtain ⟨b, c, rfl, hb, hc⟩ := splitAppend ha
  obtain ⟨nl, c, rfl, hnl, hc⟩ := splitCons hc
  obtain rfl := splitNil hc
  obtain ⟨ind, x, rfl, h1, h2, h3⟩ := firstSplit b
  have hb' := hb
  rw [List.map_append] at hb'
  rw [← hb'] at hl
  obtain ⟨o', rfl, hl'⟩ := holds_ws h1 hl
  have hgood : ∀ t ∈ x, Good st.defs.global t := by
    intro t ht w hw e f hg hf
    exact .inr (.inr (hinv.funcs w e hg f hf t (by simp [ht])))
  have hctx : Ctx T rank st.defs.global st.defs none noArgs (x.map Tok.sym) := by
    have hin : inner st.defs = fun _ => none := by rw [inner, hinv.stack]
    have htop : top st.defs = none := by rw [top, hinv.stack]; rfl
    refine ⟨rfl, fun w _ => by rw [hin]; rfl, fun w e he => by rw [hin] at he; simp at he,
      fun w _ _ nm hnm => ?_, fun nm hnm => by rw [hin]⟩
    rw [htop] at hnm; simp at hnm
  obtain ⟨st', y, jw', k1, k2, k3⟩ := sim (env := env) W hl' x rfl hgood none none
    (.inl ⟨rfl, rfl, rfl, fun t ht => ⟨t, by simp [ht], rfl⟩⟩) st hr hctx true
  have hr' : st'.ifs.reading = true := by rw [k1.ifs]; exact hr
  have hfull : NoEsc (buf ++ (vis ind).map .direct ++ y) := by
    rw [List.append_assoc]
    refine noEsc_append he ?_
    rw [toksL_append, toksL_direct, List.map_append, vis_sym, k2]
    exact ho
  have hend : Walks env none none false jw' none st' (nl :: fut) (buf ++ (vis ind).map .direct ++ y)
      (.ok (st', fut, buf ++ (vis ind).map .direct ++ y ++ [.direct nl])) := by
    refine ⟨by simp, 1, ?_⟩
    rw [walk.eq_def]
    simp only [hnl]
    rw [if_pos trivial, output_newline hr' hnl hfull]
  obtain ⟨_, n, hn⟩ := k3 (nl :: fut) (by intro t ht; simp at ht; subst ht; exact hnl) _ _ hend
  refine ⟨{ st' with pragma := st'.pragma.clearLine }, (vis ind).map .direct ++ y ++ [.direct nl],
    ⟨hinv0.mono (by exact k1.defs) (by simp +contextual), ⟨by rw [show (({ st' with pragma := st'.pragma.clearLine } : St)).ifs = st'.ifs from rfl, k1.ifs], .inl ⟨rfl, ?_⟩⟩, ?_, ?_, fun r hk => ?_⟩⟩
  · rw [show (({ st' with pragma := st'.pragma.clearLine } : St)).ifs = st'.ifs from rfl, k1.ifs]
  · rw [toksL_append, toksL_append, toksL_direct, List.map_append, List.map_append, vis_sym, k2]
    simp [Out.toksL, Out.toks, hnl]
  · rw [← List.append_assoc]
    exact NoEsc.newline hnl
  · rw [hb] at h2
    rw [h2] at hok
    have hbuf : buf ++ ((vis ind).map Out.direct ++ y ++ [.direct nl]) =
        buf ++ (vis ind).map .direct ++ y ++ [.direct nl] := by simp
    rw [hbuf] at hk
    cases x with
    | nil =>
      simp only [List.append_nil, List.append_assoc, List.cons_append, List.nil_append] at hn ⊢
      obtain ⟨z, zs, hy, hne⟩ := first_ne_eoi h1 (t := nl) (by rw [hnl]; simp) fut
      refine Runs.of_line hy hne (n := n + 2) ?_ hk
      rw [line_text h1 (by rw [hnl]; rfl) (by rw [hnl]; simp), if_pos hr,
        walk_more (by omega) hn (by simp)]
      simp
    | cons t x =>
      simp only [List.append_assoc, List.cons_append, List.nil_append] at hn ⊢
      have ht : t.sym ≠ .eoi := by
        intro e
        have := hok.1
        rw [← hb] at this
        simp [oneLine, e] at this
      obtain ⟨z, zs, hy, hne⟩ := first_ne_eoi h1 ht (x ++ nl :: fut)
      refine Runs.of_line hy hne (n := n + 2) ?_ hk
      rw [line_text h1 (by simpa using h3) (by simpa using hok.2), if_pos hr,
        walk_more (by omega) hn (by simp)]
      simp

/-! ### Definitions -/

theorem InOrder.tail {a b : List Tok} (h : InOrder (a ++ b)) : InOrder b :=
  ⟨(List.pairwise_append.1 h.1).2.1, fun t ht => h.2 t (by simp [ht])⟩

theorem InOrder.left {a b : List Tok} (h : InOrder (a ++ b)) : InOrder a :=
  ⟨(List.pairwise_append.1 h.1).1, fun t ht => h.2 t (by simp [ht])⟩

/-- Tokens of a line and what comes after it. -/
theorem ahead_line {a fut : List Tok} {nl : Tok} (h : InOrder (a ++ nl :: fut))
    (hnl : nl.sym = .newline) {b t : Tok} (hb : b ∈ a) (ht : t ∈ fut) :
    b.pos.start.offset < t.pos.start.offset ∧ b.pos.stop.line < t.pos.start.line ∧
      b.pos.start.line < t.pos.start.line := by
  have h1 := (List.pairwise_append.1 h.1).2.2
  have h2 := h1 b hb nl (by simp)
  have h3 := h1 b hb t (by simp [ht])
  have h4 := (List.pairwise_cons.1 (List.pairwise_append.1 h.1).2.1).1 t ht
  have h5 := h.2 b (by simp [hb])
  have := h4.2.2 hnl
  refine ⟨h3.2.1, ?_, ?_⟩
  · have := h2.1; omega
  · have := h2.1; omega

theorem Inv.remove {T st fut} (h : Inv T st fut) (n : Text) :
    Inv (T.set n none) { st with defs := (st.defs.remove n).2 } fut := by
  have hs := h.stack
  have hg : ∀ k e, ((st.defs.remove n).2).global k = some e → st.defs.global k = some e ∧ k ≠ n := by
    intro k e
    simp only [Defines.remove, hs, Inner.remove]
    split
    · simp
    · rename_i hk; exact fun h => ⟨h, hk⟩
  refine ⟨by simp only [Defines.remove, hs], fun k => ?_, ?_, ?_, ?_⟩
  · simp only [Defines.remove, hs, Inner.remove, Table.set]
    by_cases hk : k = n
    · simp only [hk, if_true]; exact rfl
    · simp only [hk, if_false]; exact h.agree k
  · exact fun k e he => h.before k e (hg k e he).1
  · exact fun k e he => h.funcs k e (hg k e he).1
  · exact fun k e he f hf k' e' he' => h.others k e (hg k e he).1 f hf k' e' (hg k' e' he').1

/-- A definition, given where its tokens stand. -/
theorem Inv.define {T st pre fut} {w : Tok} {n : Text} (h : Inv T st (pre ++ fut)) (hw : w.sym = .word n)
    {df : Definition} {m : Mac}
    (hx : ∀ src, src ≠ DefSource.argument → AgreesM (some { tok := w, defn := df, src := src }) (some m))
    (hbody : ∀ src b, InBody { tok := w, defn := df, src := src } b → b ∈ pre ∧ ∀ t ∈ fut,
      b.pos.start.offset < t.pos.start.offset ∧ b.pos.start.line < t.pos.start.line)
    (hfun : ∀ f, df = .function f → (∃ b ∈ pre, f.pos.start.line = b.pos.start.line) ∧
      ∀ t ∈ fut, f.pos.stop.line < t.pos.start.line) :
    Inv (T.set n (some m)) (defined' st w df) fut := by
  have hs := h.stack
  have hg : ∀ k e, (defined' st w df).defs.global k = some e →
      (st.defs.global k = some e ∧ k ≠ n) ∨
      (k = n ∧ e = { tok := w, defn := df, src := .source st.files }) := by
    intro k e
    simp only [defined', Defines.remove, hs, hw, Sym.text, Defines.insert, Inner.insert, Inner.remove]
    split
    · rename_i hk
      intro he
      exact .inr ⟨hk, (Option.some.inj he).symm⟩
    · rename_i hk
      exact fun he => .inl ⟨he, hk⟩
  refine ⟨by simp only [defined', Defines.remove, hs, Defines.insert], fun k => ?_, ?_, ?_, ?_⟩
  · simp only [defined', Defines.remove, hs, hw, Sym.text, Defines.insert, Inner.insert,
      Inner.remove, Table.set]
    by_cases hk : k = n
    · simp only [hk, if_true]; exact hx _ (by simp)
    · simp only [hk, if_false]; exact h.agree k
  · intro k e he b hb t ht
    rcases hg k e he with ⟨he, _⟩ | ⟨_, rfl⟩
    · exact h.before k e he b hb t (by simp [ht])
    · exact (hbody _ b hb).2 t ht
  · intro k e he f hf t ht
    rcases hg k e he with ⟨he, _⟩ | ⟨_, rfl⟩
    · exact h.funcs k e he f hf t (by simp [ht])
    · exact (hfun f hf).2 t ht
  · intro k e he f hf k' e' he' hkk b hb
    rcases hg k e he with ⟨he, _⟩ | ⟨rfl, rfl⟩
    · rcases hg k' e' he' with ⟨he', _⟩ | ⟨_, rfl⟩
      · exact h.others k e he f hf k' e' he' hkk b hb
      · exact .inr (h.funcs k e he f hf b (by simp [(hbody _ b hb).1]))
    · rcases hg k' e' he' with ⟨he', _⟩ | ⟨rfl, _⟩
      · obtain ⟨⟨c, hc, hc'⟩, _⟩ := hfun f hf
        left
        rw [hc']
        exact (h.before k' e' he' b hb c (by simp [hc])).2
      · exact absurd rfl hkk

/-- A one-line directive in a selected branch. -/
theorem ran_directive' {env st T'} (hr : st.ifs.reading = true) {ind : List Tok}
    (hb : blank (ind.map Tok.sym) = true) {h c : Tok} (hh : h.sym = .directive) {w : Text}
    (hc : c.sym = .word w) {a fut : List Tok} {buf : List Out} (he : NoEsc buf) {st' : St}
    (hinv : Inv T' st' fut) (hk : Keep false st st')
    (hcmd : ∀ buf, command 1 env st c (a ++ fut) buf = .ok (st', fut, buf)) :
    Ran' false env st (ind ++ h :: c :: a) fut buf T' (visible (ind.map Tok.sym)) st'
      ((vis ind).map .direct) := by
  refine ⟨hinv, hk, by rw [toksL_direct]; exact vis_sym ind, he.append_ws hb, fun r hk => ?_⟩
  simp only [List.append_assoc, List.cons_append]
  refine Runs.directive hb hh hc (n := 1) ?_ hk
  rw [if_pos hr, hcmd]

theorem readParams_src' {a : List Tok} (ps : List Text) (h : a.map Tok.sym = paramSrc ps) {rp : Tok}
    (hrp : rp.sym = .rparen) (args : List Tok) :
    ∃ l, l.map Tok.sym = ps.map .word ∧ ∀ rest,
      readParams (a ++ rp :: rest) false args = .ok (args ++ l, rest) := by
  induction ps generalizing a args with
  | nil =>
    obtain rfl := splitNil h
    exact ⟨[], rfl, by simp [readParams, hrp, Sym.isWord]⟩
  | cons p ps ih =>
    cases ps with
    | nil =>
      obtain ⟨t, c, rfl, ht, hc⟩ := splitCons h
      obtain rfl := splitNil hc
      exact ⟨[t], by simp [ht], by simp [readParams, hrp, ht, Sym.isWord]⟩
    | cons q ps =>
      obtain ⟨t, c, rfl, ht, hc⟩ := splitCons h
      obtain ⟨k, c, rfl, hk, hc⟩ := splitCons hc
      obtain ⟨l, hl0, hl⟩ := ih hc (args ++ [t])
      refine ⟨t :: l, by rw [List.map_cons, hl0, ht]; rfl, fun rest => ?_⟩
      simp only [List.cons_append, readParams, ht, hk, Sym.isWord]
      simpa using hl rest

theorem directiveDefine_func' {st : St} {mid : List Tok} (hm : blank (mid.map Tok.sym) = true)
    {w : Tok} {n : Text} (hw : w.sym = .word n) (hn : isBuiltin n = false) {lp : Tok}
    (hlp : lp.sym = .lparen) {ps : List Text} {pt : List Tok} (hp : pt.map Tok.sym = paramSrc ps)
    {rp : Tok} (hrp : rp.sym = .rparen) {body : List Tok}
    (h : oneLine (body.map Tok.sym) = true)
    (hh : ((body.map Tok.sym).head?.any Sym.isWs) = false)
    (hl : (body.map Tok.sym).getLast? ≠ some .escape) {nl : Tok} (hnl : nl.sym = .newline) :
    ∃ args, args.map Tok.sym = ps.map .word ∧ ∀ rest,
      directiveDefine st (mid ++ w :: lp :: (pt ++ rp :: (body ++ nl :: rest))) =
      .ok (defined' st w (.function ⟨bodyPos w body, args, body⟩), rest) := by
  obtain ⟨args, hargs0, hargs⟩ := readParams_src' ps hp hrp []
  refine ⟨args, hargs0, fun rest => ?_⟩
  have hb := readBody_skip h hh hl (g := []) rfl hnl rest
  rw [directiveDefine, nextWord_blank hm hw]
  simp only [hw, Sym.text, hn, Bool.false_eq_true, if_false, hlp, hargs]
  simp only [List.nil_append] at hb
  simp only [hb, defined', hw, Sym.text, List.nil_append]
  rfl

/-! ### Programs -/

theorem bodyPos_start (w : Tok) (body : List Tok) :
    ∃ b ∈ w :: body, (bodyPos w body).start.line = b.pos.start.line := by
  cases body with
  | nil => exact ⟨w, by simp, rfl⟩
  | cons b l => exact ⟨b, by simp, rfl⟩

theorem bodyPos_stop (w : Tok) (body : List Tok) :
    ∃ b ∈ w :: body, (bodyPos w body).stop.line = b.pos.stop.line := by
  cases body with
  | nil => exact ⟨w, by simp, rfl⟩
  | cons b l =>
    refine ⟨l.getLastD b, ?_, rfl⟩
    rw [List.getLastD_eq_getLast?]
    cases h : l.getLast? with
    | none => simp
    | some x => simp [List.mem_of_getLast? h]

/-- The opening line of a condition. -/
theorem open_cond {env : Env} {st : St} {m : Macros} (hr : st.ifs.reading = true)
    (hrep : Rep st.defs m) {sp : Sp} (hsp : sp.ok = true) {t : Test} (ht : t.ok = true) {tv : Bool}
    (htest : t.eval env.compare m = some tv) {b : List Tok}
    (hb : b.map Tok.sym = sp.ind ++ .directive :: t.src sp.mid ++ sp.trail ++ [.newline]) :
    ∃ c : Tok, ∃ ind : List Tok, ind.map Tok.sym = sp.ind ∧ ∀ rest buf r,
      Runs env { st with ifs := st.ifs.pushIf c tv } rest (buf ++ (vis ind).map .direct) r →
      Runs env st (b ++ rest) buf r := by
  simp only [Spec.Sp.ok, Bool.and_eq_true] at hsp
  obtain ⟨w, ops, hsrc, hops, hw⟩ := Test.src_eq t ht hsp.1.2
  simp only [hsrc, List.append_assoc, List.cons_append] at hb
  obtain ⟨ind, b, rfl, hi, hb⟩ := splitAppend hb
  obtain ⟨h, b, rfl, hh, hb⟩ := splitCons hb
  obtain ⟨c, b, rfl, hc, hb⟩ := splitCons hb
  obtain ⟨o, b, rfl, ho, hb⟩ := splitAppend hb
  obtain ⟨tr, b, rfl, htr, hb⟩ := splitAppend hb
  obtain ⟨nl, b, rfl, hnl, hb⟩ := splitCons hb
  obtain rfl := splitNil hb
  refine ⟨c, ind, hi, fun rest buf r hk => ?_⟩
  simp only [List.append_assoc, List.cons_append, List.nil_append]
  refine Runs.directive (by rw [hi]; exact hsp.1.1) hh hc (n := 1) ?_ hk
  rw [if_pos hr]
  exact command_test hr hrep ht htest hsp.1.2 (by rw [List.map_cons, hc, ho, hsrc])
    (by rw [htr]; exact hsp.2) hnl rest _

theorem mem_skip {α} {a b : List α} {x t : α} (h : t ∈ a ++ b) : t ∈ a ++ x :: b :=
  (List.mem_append.1 h).elim (List.mem_append_left _)
    fun h => List.mem_append_right _ (List.mem_cons_of_mem _ h)

set_option maxHeartbeats 1000000 in
/-- Selected items do what the specification says. -/
theorem run_means {env : Env} {T T' : Table} {is : List Item} {o : List Sym}
    (h : Means env.compare T is T' o) : ∀ {st : St} {a fut : List Tok} {buf : List Out},
    st.ifs.reading = true → Inv T st (a ++ fut) → InOrder (a ++ fut) → Item.okL is = true →
    a.map Tok.sym = printItems is → NoEsc buf →
    ∃ st' x, Ran' (is.any Item.nested) env st a fut buf T' o st' x := by
  induction h with
  | nil =>
    intro st a fut buf hr hinv _ _ ha he
    obtain rfl := splitNil ha
    exact ⟨st, [], hinv, ⟨rfl, .inl ⟨rfl, rfl⟩⟩, rfl, by simpa using he, fun r hk => by simpa using hk⟩
  | @text T T' l o is o' hR hA hl ho _ ih =>
    intro st a fut buf hr hinv hord hok ha he
    simp only [Item.okL, Bool.and_eq_true] at hok
    simp only [printItems] at ha
    obtain ⟨a1, a2, rfl, ha1, ha2⟩ := splitAppend ha
    rw [List.append_assoc] at hinv hord
    obtain ⟨st1, x1, h1⟩ := ran_text' (env := env) hr hinv hR hA hok.1 hl ho
      (by simpa only [printItem] using ha1) he
    obtain ⟨st2, x2, h2⟩ := ih (h1.keep.reading.trans hr) h1.inv hord.tail hok.2 ha2 h1.noEsc
    have := h1.seq h2
    simp only [List.append_assoc, List.cons_append, List.nil_append] at this
    exact ⟨st2, _, this⟩
  | @value T T' sp n gap body is o _ ih =>
    intro st a fut buf hr hinv hord hok ha he
    simp only [Item.okL, Bool.and_eq_true] at hok
    obtain ⟨hok, hokL⟩ := hok
    simp only [Item.ok, Spec.Sp.ok, Bool.and_eq_true, Bool.not_eq_true', decide_eq_true_eq] at hok
    obtain ⟨⟨⟨⟨⟨⟨⟨⟨h1, h2⟩, h3⟩, h0⟩, h4⟩, h4'⟩, h5⟩, h6⟩, h7⟩ := hok
    simp only [printItems] at ha
    obtain ⟨a1, a2, rfl, ha1, ha2⟩ := splitAppend ha
    simp only [printItem, List.append_assoc, List.cons_append] at ha1
    obtain ⟨ind, b, rfl, hi, hb⟩ := splitAppend ha1
    obtain ⟨h, b, rfl, hh, hb⟩ := splitCons hb
    obtain ⟨c, b, rfl, hc, hb⟩ := splitCons hb
    obtain ⟨mid, b, rfl, hm, hb⟩ := splitAppend hb
    obtain ⟨w, b, rfl, hw, hb⟩ := splitCons hb
    obtain ⟨g, b, rfl, hg, hb⟩ := splitAppend hb
    obtain ⟨bd, b, rfl, hbd, hb⟩ := splitAppend hb
    obtain ⟨nl, b, rfl, hnl, hb⟩ := splitCons hb
    obtain rfl := splitNil hb
    have hsplit : ind ++ h :: c :: (mid ++ w :: (g ++ (bd ++ [nl]))) ++ a2 ++ fut =
        (ind ++ h :: c :: (mid ++ w :: (g ++ bd))) ++ nl :: (a2 ++ fut) := by simp
    have hord' := hord
    rw [hsplit] at hord'
    have hinv' : Inv (T.set n (some (.value body))) (defined' st w (.value bd)) (a2 ++ fut) := by
      refine (hinv.mono rfl (fun t ht => ?_)).define
        (pre := ind ++ h :: c :: (mid ++ w :: (g ++ bd))) hw ?_ ?_ ?_
      · rw [hsplit]
        exact mem_skip ht
      · exact fun src hsrc => ⟨_, bd, rfl, rfl, hbd, hsrc⟩
      · rintro src b (⟨l, hl, hb⟩ | ⟨f, hf, _⟩)
        · obtain rfl := Definition.value.inj hl
          have hmem : b ∈ ind ++ h :: c :: (mid ++ w :: (g ++ bd)) := by simp [hb]
          exact ⟨hmem, fun t ht => ⟨(ahead_line hord' hnl hmem ht).1, (ahead_line hord' hnl hmem ht).2.2⟩⟩
        · simp at hf
      · intro f hf; simp at hf
    have hran := ran_directive' (env := env) (st := st) (fut := a2 ++ fut)
      (a := mid ++ w :: (g ++ (bd ++ [nl]))) hr (by rw [hi]; exact h1) hh hc he
      hinv' ⟨rfl, .inl ⟨rfl, rfl⟩⟩ (fun buf => by
        rw [command_define hr hc]
        simp only [List.append_assoc, List.cons_append, List.nil_append]
        rw [directiveDefine_value (by rw [hm]; exact h2) hw h0 (by rw [hg]; exact h4)
          (by rintro rfl; exact h4' hg.symm) (by rw [hbd]; exact h5) (by rw [hbd]; exact h6)
          (by rw [hbd]; exact h7) hnl]
        rfl)
    rw [List.append_assoc] at hord
    obtain ⟨st2, x2, hx2⟩ := ih (hran.keep.reading.trans hr) hran.inv hord.tail hokL ha2 hran.noEsc
    have := hran.seq hx2
    rw [hi] at this
    exact ⟨st2, _, this⟩
  | @flag T T' sp n is o _ ih =>
    intro st a fut buf hr hinv hord hok ha he
    simp only [Item.okL, Bool.and_eq_true] at hok
    obtain ⟨hok, hokL⟩ := hok
    simp only [Item.ok, Spec.Sp.ok, Bool.and_eq_true, Bool.not_eq_true'] at hok
    obtain ⟨⟨⟨h1, h2⟩, h3⟩, h0⟩ := hok
    simp only [printItems] at ha
    obtain ⟨a1, a2, rfl, ha1, ha2⟩ := splitAppend ha
    simp only [printItem, List.append_assoc, List.cons_append] at ha1
    obtain ⟨ind, b, rfl, hi, hb⟩ := splitAppend ha1
    obtain ⟨h, b, rfl, hh, hb⟩ := splitCons hb
    obtain ⟨c, b, rfl, hc, hb⟩ := splitCons hb
    obtain ⟨mid, b, rfl, hm, hb⟩ := splitAppend hb
    obtain ⟨w, b, rfl, hw, hb⟩ := splitCons hb
    obtain ⟨nl, b, rfl, hnl, hb⟩ := splitCons hb
    obtain rfl := splitNil hb
    have hsplit : ind ++ h :: c :: (mid ++ [w, nl]) ++ a2 ++ fut =
        (ind ++ h :: c :: (mid ++ [w])) ++ nl :: (a2 ++ fut) := by simp
    have hord' := hord
    rw [hsplit] at hord'
    have hinv' : Inv (T.set n (some .unit)) (defined' st w .unit) (nl :: (a2 ++ fut)) := by
      refine (hinv.mono rfl (fun t ht => ?_)).define (pre := []) hw ?_ ?_ ?_
      · rw [hsplit]
        exact List.mem_append_right _ ht
      · exact fun src hsrc => ⟨_, rfl, rfl⟩
      · rintro src b (⟨l, hl, hb⟩ | ⟨f, hf, _⟩)
        · simp at hl
        · simp at hf
      · intro f hf; simp at hf
    have hbi : blank (ind.map Tok.sym) = true := by rw [hi]; exact h1
    -- the line end is written like that of an empty line
    have hline : Ran' false env (defined' st w .unit) [nl] (a2 ++ fut) (buf ++ (vis ind).map .direct)
        (T.set n (some .unit)) [.newline]
        { defined' st w .unit with pragma := (defined' st w .unit).pragma.clearLine } [.direct nl] := by
      have hno := he.append_ws hbi
      refine ⟨hinv'.mono rfl (by simp +contextual), ⟨rfl, .inl ⟨rfl, rfl⟩⟩, by simp [Out.toksL, Out.toks, hnl],
        NoEsc.newline hnl, fun r hk => ?_⟩
      refine Runs.of_line (t := nl) (l := a2 ++ fut) rfl (by rw [hnl]; simp) (n := 2) ?_ hk
      have := line_text (env := env) (st := defined' st w .unit) (n := 0) (ind := []) rfl (t := nl)
        (by rw [hnl]; rfl) (by rw [hnl]; simp) (toks := a2 ++ fut) (buf := buf ++ (vis ind).map .direct)
      simp only [List.nil_append] at this
      rw [List.singleton_append, this, if_pos (by exact hr), walk.eq_def]
      simp only [hnl]
      rw [if_pos trivial]
      simp only [show vis [] = [] from rfl, List.map_nil, List.append_nil]
      rw [output_newline (by exact hr) hnl hno]
    have hdir : ∀ r, Runs env (defined' st w .unit) ([nl] ++ (a2 ++ fut)) (buf ++ (vis ind).map .direct) r →
        Runs env st (ind ++ h :: c :: (mid ++ [w, nl]) ++ (a2 ++ fut)) buf r := by
      intro r hk
      simp only [List.append_assoc, List.cons_append, List.nil_append]
      refine Runs.directive hbi hh hc (n := 1) ?_ hk
      rw [if_pos hr, command_define hr hc, directiveDefine_flag (by rw [hm]; exact h2) hw h0 hnl]
      rfl
    have hran : Ran' false env st (ind ++ h :: c :: (mid ++ [w, nl])) (a2 ++ fut) buf
        (T.set n (some .unit)) (visible sp.ind ++ [.newline])
        { defined' st w .unit with pragma := (defined' st w .unit).pragma.clearLine }
        ((vis ind).map .direct ++ [.direct nl]) := by
      refine ⟨hline.inv, ⟨rfl, .inl ⟨rfl, rfl⟩⟩, ?_, ?_, fun r hk => ?_⟩
      · rw [toksL_append, toksL_direct, List.map_append, vis_sym, hi, hline.out]
      · rw [← List.append_assoc]; exact hline.noEsc
      · exact hdir r (hline.emits r (by rw [List.append_assoc]; exact hk))
    rw [List.append_assoc] at hord
    obtain ⟨st2, x2, hx2⟩ := ih (hran.keep.reading.trans hr) hran.inv hord.tail hokL ha2 hran.noEsc
    have := hran.seq hx2
    rw [List.append_assoc (visible sp.ind)] at this
    exact ⟨st2, _, this⟩
  | @func T T' sp n ps body is o _ ih =>
    intro st a fut buf hr hinv hord hok ha he
    simp only [Item.okL, Bool.and_eq_true] at hok
    obtain ⟨hok, hokL⟩ := hok
    simp only [Item.ok, Spec.Sp.ok, Bool.and_eq_true, Bool.not_eq_true', decide_eq_true_eq] at hok
    obtain ⟨⟨⟨⟨⟨⟨h1, h2⟩, h3⟩, h0⟩, h5⟩, h6⟩, h7⟩ := hok
    simp only [printItems] at ha
    obtain ⟨a1, a2, rfl, ha1, ha2⟩ := splitAppend ha
    simp only [printItem, List.append_assoc, List.cons_append] at ha1
    obtain ⟨ind, b, rfl, hi, hb⟩ := splitAppend ha1
    obtain ⟨h, b, rfl, hh, hb⟩ := splitCons hb
    obtain ⟨c, b, rfl, hc, hb⟩ := splitCons hb
    obtain ⟨mid, b, rfl, hm, hb⟩ := splitAppend hb
    obtain ⟨w, b, rfl, hw, hb⟩ := splitCons hb
    obtain ⟨lp, b, rfl, hlp, hb⟩ := splitCons hb
    obtain ⟨g, b, rfl, hg, hb⟩ := splitAppend hb
    obtain ⟨rp, b, rfl, hrp, hb⟩ := splitCons hb
    obtain ⟨bd, b, rfl, hbd, hb⟩ := splitAppend hb
    obtain ⟨nl, b, rfl, hnl, hb⟩ := splitCons hb
    obtain rfl := splitNil hb
    obtain ⟨args, hargs, hdef⟩ := directiveDefine_func' (st := st) (mid := mid) (by rw [hm]; exact h2)
      hw h0 hlp hg hrp (body := bd) (by rw [hbd]; exact h5) (by rw [hbd]; exact h6)
      (by rw [hbd]; exact h7) hnl
    have hsplit : ind ++ h :: c :: (mid ++ w :: lp :: (g ++ rp :: (bd ++ [nl]))) ++ a2 ++ fut =
        (ind ++ h :: c :: (mid ++ w :: lp :: (g ++ rp :: bd))) ++ nl :: (a2 ++ fut) := by simp
    have hord' := hord
    rw [hsplit] at hord'
    have hmem : ∀ b ∈ w :: bd, b ∈ ind ++ h :: c :: (mid ++ w :: lp :: (g ++ rp :: bd)) := by
      intro b hb
      rcases List.mem_cons.1 hb with rfl | hb
      · simp
      · simp [hb]
    have hinv' : Inv (T.set n (some (.func ps body)))
        (defined' st w (.function ⟨bodyPos w bd, args, bd⟩)) (a2 ++ fut) := by
      refine (hinv.mono rfl (fun t ht => ?_)).define
        (pre := ind ++ h :: c :: (mid ++ w :: lp :: (g ++ rp :: bd))) hw ?_ ?_ ?_
      · rw [hsplit]
        exact mem_skip ht
      · exact fun src hsrc => ⟨_, _, rfl, rfl, hargs, hbd⟩
      · rintro src b (⟨l, hl, hb⟩ | ⟨f, hf, hb⟩)
        · simp at hl
        · obtain rfl := Definition.function.inj hf
          have hmem := hmem b (by simp only [List.mem_cons]; exact .inr hb)
          exact ⟨hmem, fun t ht => ⟨(ahead_line hord' hnl hmem ht).1, (ahead_line hord' hnl hmem ht).2.2⟩⟩
      · rintro f hf
        obtain rfl := Definition.function.inj hf
        obtain ⟨b1, hb1, e1⟩ := bodyPos_start w bd
        obtain ⟨b2, hb2, e2⟩ := bodyPos_stop w bd
        refine ⟨⟨b1, hmem b1 hb1, e1⟩, fun t ht => ?_⟩
        rw [show (FuncDef.mk (bodyPos w bd) args bd).pos = bodyPos w bd from rfl, e2]
        exact (ahead_line hord' hnl (hmem b2 hb2) ht).2.1
    have hran := ran_directive' (env := env) (st := st) (fut := a2 ++ fut)
      (a := mid ++ w :: lp :: (g ++ rp :: (bd ++ [nl]))) hr (by rw [hi]; exact h1) hh hc he
      hinv' ⟨rfl, .inl ⟨rfl, rfl⟩⟩ (fun buf => by
        rw [command_define hr hc]
        simp only [List.append_assoc, List.cons_append, List.nil_append]
        rw [hdef]
        rfl)
    rw [List.append_assoc] at hord
    obtain ⟨st2, x2, hx2⟩ := ih (hran.keep.reading.trans hr) hran.inv hord.tail hokL ha2 hran.noEsc
    have := hran.seq hx2
    rw [hi] at this
    exact ⟨st2, _, this⟩
  | @undef T T' sp n is o _ ih =>
    intro st a fut buf hr hinv hord hok ha he
    simp only [Item.okL, Bool.and_eq_true] at hok
    obtain ⟨hok, hokL⟩ := hok
    simp only [Item.ok, Spec.Sp.ok, Bool.and_eq_true] at hok
    obtain ⟨⟨h1, h2⟩, h3⟩ := hok
    simp only [printItems] at ha
    obtain ⟨a1, a2, rfl, ha1, ha2⟩ := splitAppend ha
    simp only [printItem, List.append_assoc, List.cons_append] at ha1
    obtain ⟨ind, b, rfl, hi, hb⟩ := splitAppend ha1
    obtain ⟨h, b, rfl, hh, hb⟩ := splitCons hb
    obtain ⟨c, b, rfl, hc, hb⟩ := splitCons hb
    obtain ⟨mid, b, rfl, hm, hb⟩ := splitAppend hb
    obtain ⟨w, b, rfl, hw, hb⟩ := splitCons hb
    obtain ⟨tr, b, rfl, htr, hb⟩ := splitAppend hb
    obtain ⟨nl, b, rfl, hnl, hb⟩ := splitCons hb
    obtain rfl := splitNil hb
    have hinv' : Inv (T.set n none) { st with defs := (st.defs.remove n).2 } (a2 ++ fut) := by
      refine (hinv.mono rfl (fun t ht => ?_)).remove n
      rw [List.append_assoc]
      exact List.mem_append_right _ ht
    have hran := ran_directive' (env := env) (st := st) (fut := a2 ++ fut)
      (a := mid ++ w :: (tr ++ [nl])) hr (by rw [hi]; exact h1) hh hc he
      hinv' ⟨rfl, .inl ⟨rfl, rfl⟩⟩ (fun buf => by
        rw [command_undef hr hc]
        simp only [List.append_assoc, List.cons_append, List.nil_append]
        rw [directiveUndef, nextWord_blank (by rw [hm]; exact h2) hw]
        simp only [expectNothing_blank (by rw [htr]; exact h3) hnl, hw, Sym.text]
        rfl)
    rw [List.append_assoc] at hord
    obtain ⟨st2, x2, hx2⟩ := ih (hran.keep.reading.trans hr) hran.inv hord.tail hokL ha2 hran.noEsc
    have := hran.seq hx2
    rw [hi] at this
    exact ⟨st2, _, this⟩
  | @condTrue T T1 T2 sp t th els el spEnd is o1 o2 htest _ _ ihc ih =>
    intro st a fut buf hr hinv hord hok ha he
    simp only [Item.okL, Bool.and_eq_true] at hok
    obtain ⟨hok, hokL⟩ := hok
    simp only [Item.ok, Bool.and_eq_true] at hok
    obtain ⟨⟨⟨⟨⟨hsp, ht⟩, hth⟩, hels⟩, hel⟩, hend⟩ := hok
    simp only [printItems] at ha
    obtain ⟨a1, a2, rfl, ha1, ha2⟩ := splitAppend ha
    simp only [printItem] at ha1
    obtain ⟨b, e, rfl, hb, hE⟩ := splitAppend ha1
    obtain ⟨b, eb, rfl, hb, heb⟩ := splitAppend hb
    obtain ⟨b, ee, rfl, hb, hee⟩ := splitAppend hb
    obtain ⟨b, tb, rfl, hb, htb⟩ := splitAppend hb
    obtain ⟨c, ind, hi, open_⟩ := open_cond hr hinv.rep hsp ht htest hb
    have hbi : blank (ind.map Tok.sym) = true := by
      rw [hi]; simp only [Spec.Sp.ok, Bool.and_eq_true] at hsp; exact hsp.1.1
    have he1 := he.append_ws hbi
    have hrd : ({ st with ifs := st.ifs.pushIf c true } : St).ifs.reading = true := by
      simp only [reading_pushIf, hr, Bool.and_true]
    obtain ⟨st1, x1, hx1⟩ := ihc (fut := ee ++ (eb ++ (e ++ (a2 ++ fut)))) hrd
      (hinv.mono (st' := { st with ifs := st.ifs.pushIf c true }) rfl
        (by intro x hx; simp only [List.mem_append] at hx ⊢; tauto))
      (InOrder.tail (a := b) (by simpa only [List.append_assoc] using hord)) hth htb he1
    have hd1 : st1.ifs.didElse = none := by
      rcases hx1.keep.didElse with ⟨_, h'⟩ | ⟨_, h'⟩ <;> exact h'
    have hs1 : st1.ifs.stack = .readingIf c :: st.ifs.stack := hx1.keep.stack
    have hr1 : st1.ifs.reading = true := hx1.keep.reading.trans hrd
    have hran : ∃ st' x, Ran' true env st (b ++ tb ++ ee ++ eb ++ e) (a2 ++ fut) buf T1
        (visible sp.ind ++ o1 ++ visible (els.getD spEnd).ind) st' x := by
      cases els with
      | none =>
        simp only [elseSrc, List.map_eq_nil_iff] at hee
        subst hee
        simp only [Option.isSome_none, if_neg (by simp : ¬ (false = true)),
          List.map_eq_nil_iff] at heb
        subst heb
        obtain ⟨ind2, hi2, hfin⟩ := run_endif (env := env) (st := st1) hend hE
        simp only [Spec.Sp.ok, Bool.and_eq_true] at hend
        refine ⟨{ st1 with ifs := st1.ifs.pop.2 },
          (vis ind).map .direct ++ x1 ++ (vis ind2).map .direct,
          ⟨hx1.inv.mono rfl (by simp +contextual), ⟨by simp [IfStates.pop, hs1], .inr ⟨rfl, rfl⟩⟩, ?_, ?_,
            fun r hk => ?_⟩⟩
        · simp only [toksL_append, toksL_direct, List.map_append, vis_sym, hi, hx1.out, hi2,
            Option.getD_none]
        · simp only [← List.append_assoc]
          exact hx1.noEsc.append_ws (by rw [hi2]; exact hend.1.1)
        · simp only [List.append_assoc, List.nil_append]
          refine open_ _ _ _ (hx1.emits _ (hfin _ _ _ ?_))
          rw [if_pos hr1]
          simpa only [List.append_assoc] using hk
      | some spe =>
        simp only [Option.all_some] at hels
        simp only [Option.isSome_some, if_true] at heb
        obtain ⟨ce, ind1, hi1, helse⟩ := run_else (env := env) (st := st1) hels hee
        have hflip := flip_selected (b := true) hs1 hr hd1 ce
        simp only [if_true] at hflip
        let st2 : St := { st1 with ifs :=
          { stack := .passingElse c :: st.ifs.stack, didElse := some ce } }
        have hr2 : st2.ifs.reading = false := by
          simp [st2, IfStates.reading, IfState.reading]
        obtain ⟨st3, hs3, hrun3⟩ := skip_items (env := env) el hr2 hel heb
        obtain ⟨ind2, _, hfin⟩ := run_endif (env := env) (st := st3) hend hE
        simp only [Spec.Sp.ok, Bool.and_eq_true] at hels
        have hdefs : st3.defs = st1.defs := hs3.defs
        refine ⟨{ st3 with ifs := st3.ifs.pop.2 },
          (vis ind).map .direct ++ x1 ++ (vis ind1).map .direct,
          ⟨hx1.inv.mono hdefs (by simp +contextual),
            ⟨by simp [IfStates.pop, hs3.stack, st2], .inr ⟨rfl, rfl⟩⟩, ?_, ?_, fun r hk => ?_⟩⟩
        · simp only [toksL_append, toksL_direct, List.map_append, vis_sym, hi, hx1.out, hi1,
            Option.getD_some]
        · simp only [← List.append_assoc]
          exact hx1.noEsc.append_ws (by rw [hi1]; exact hels.1.1)
        · simp only [List.append_assoc]
          refine open_ _ _ _ (hx1.emits _ (helse _ hflip _ _ _ ?_))
          rw [if_pos hr1]
          refine hrun3 _ _ _ (hfin _ _ _ ?_)
          rw [if_neg (by rw [hs3.reading]; simp [hr2])]
          simpa only [List.append_assoc] using hk
    obtain ⟨st4, x4, hran⟩ := hran
    rw [List.append_assoc] at hord
    obtain ⟨st5, x5, hx5⟩ := ih (hran.keep.reading.trans hr) hran.inv hord.tail hokL ha2 hran.noEsc
    exact ⟨st5, _, hran.seq hx5⟩
  | @condFalse T T2 sp t th el spEnd is o2 htest _ ih =>
    intro st a fut buf hr hinv hord hok ha he
    simp only [Item.okL, Bool.and_eq_true] at hok
    obtain ⟨hok, hokL⟩ := hok
    simp only [Item.ok, Bool.and_eq_true] at hok
    obtain ⟨⟨⟨⟨⟨hsp, ht⟩, hth⟩, hels⟩, hel⟩, hend⟩ := hok
    simp only [printItems] at ha
    obtain ⟨a1, a2, rfl, ha1, ha2⟩ := splitAppend ha
    simp only [printItem] at ha1
    obtain ⟨b, e, rfl, hb, hE⟩ := splitAppend ha1
    obtain ⟨b, eb, rfl, hb, heb⟩ := splitAppend hb
    obtain ⟨b, ee, rfl, hb, hee⟩ := splitAppend hb
    obtain ⟨b, tb, rfl, hb, htb⟩ := splitAppend hb
    obtain ⟨c, ind, hi, open_⟩ := open_cond hr hinv.rep hsp ht htest hb
    have hbi : blank (ind.map Tok.sym) = true := by
      rw [hi]; simp only [Spec.Sp.ok, Bool.and_eq_true] at hsp; exact hsp.1.1
    have he1 := he.append_ws hbi
    have hrd : ({ st with ifs := st.ifs.pushIf c false } : St).ifs.reading = false := by
      simp only [reading_pushIf, hr, Bool.and_true]
    obtain ⟨st1, hs1, hrun1⟩ := skip_items (env := env) th hrd hth htb
    have hst1 : st1.ifs.stack = .passingIf c :: st.ifs.stack := hs1.stack
    have hr1 : st1.ifs.reading = false := hs1.reading.trans hrd
    simp only [elseSrc, List.map_eq_nil_iff] at hee
    subst hee
    simp only [Option.isSome_none, if_neg (by simp : ¬ (false = true)),
      List.map_eq_nil_iff] at heb
    subst heb
    obtain ⟨ind2, hi2, hfin⟩ := run_endif (env := env) (st := st1) hend hE
    have hdefs : st1.defs = st.defs := hs1.defs
    have hran : Ran' true env st (b ++ tb ++ [] ++ [] ++ e) (a2 ++ fut) buf T
        (visible sp.ind) { st1 with ifs := st1.ifs.pop.2 } ((vis ind).map .direct) := by
      refine ⟨hinv.mono hdefs (by intro x hx; simp only [List.mem_append] at hx ⊢; tauto),
        ⟨by simp [IfStates.pop, hst1], .inr ⟨rfl, rfl⟩⟩, ?_, he1, fun r hk => ?_⟩
      · rw [toksL_direct, vis_sym, hi]
      · simp only [List.append_assoc, List.nil_append]
        refine open_ _ _ _ (hrun1 _ _ _ (hfin _ _ _ ?_))
        rw [if_neg (by simp [hr1])]
        exact hk
    rw [List.append_assoc] at hord
    obtain ⟨st5, x5, hx5⟩ := ih (hran.keep.reading.trans hr) hran.inv hord.tail hokL ha2 hran.noEsc
    exact ⟨st5, _, hran.seq hx5⟩
  | @condElse T T1 T2 sp t th spe el spEnd is o1 o2 htest _ _ ihc ih =>
    intro st a fut buf hr hinv hord hok ha he
    simp only [Item.okL, Bool.and_eq_true] at hok
    obtain ⟨hok, hokL⟩ := hok
    simp only [Item.ok, Bool.and_eq_true] at hok
    obtain ⟨⟨⟨⟨⟨hsp, ht⟩, hth⟩, hels⟩, hel⟩, hend⟩ := hok
    simp only [printItems] at ha
    obtain ⟨a1, a2, rfl, ha1, ha2⟩ := splitAppend ha
    simp only [printItem] at ha1
    obtain ⟨b, e, rfl, hb, hE⟩ := splitAppend ha1
    obtain ⟨b, eb, rfl, hb, heb⟩ := splitAppend hb
    obtain ⟨b, ee, rfl, hb, hee⟩ := splitAppend hb
    obtain ⟨b, tb, rfl, hb, htb⟩ := splitAppend hb
    obtain ⟨c, ind, hi, open_⟩ := open_cond hr hinv.rep hsp ht htest hb
    have hbi : blank (ind.map Tok.sym) = true := by
      rw [hi]; simp only [Spec.Sp.ok, Bool.and_eq_true] at hsp; exact hsp.1.1
    have he1 := he.append_ws hbi
    have hrd : ({ st with ifs := st.ifs.pushIf c false } : St).ifs.reading = false := by
      simp only [reading_pushIf, hr, Bool.and_true]
    obtain ⟨st1, hs1, hrun1⟩ := skip_items (env := env) th hrd hth htb
    have hst1 : st1.ifs.stack = .passingIf c :: st.ifs.stack := hs1.stack
    have hr1 : st1.ifs.reading = false := hs1.reading.trans hrd
    have hd1 : st1.ifs.didElse = none := by
      rcases hs1.didElse with ⟨_, h'⟩ | ⟨_, h'⟩ <;> exact h'
    have hdefs : st1.defs = st.defs := hs1.defs
    simp only [Option.all_some] at hels
    simp only [Option.isSome_some, if_true] at heb
    obtain ⟨ce, ind1, hi1, helse⟩ := run_else (env := env) (st := st1) hels hee
    have hflip := flip_selected (b := false) hst1 hr hd1 ce
    simp only [Bool.false_eq_true, if_false] at hflip
    let st2 : St := { st1 with ifs :=
      { stack := .readingElse c :: st.ifs.stack, didElse := some ce } }
    have hr2 : st2.ifs.reading = true := by
      simpa [st2, IfStates.reading, IfState.reading] using hr
    obtain ⟨st3, x3, hx3⟩ := ihc (st := st2) (fut := e ++ (a2 ++ fut)) hr2
      (hinv.mono hdefs (by intro x hx; simp only [List.mem_append] at hx ⊢; tauto))
      (InOrder.tail (a := b ++ tb ++ ee) (by simpa only [List.append_assoc] using hord)) hel heb he1
    have hr3 : st3.ifs.reading = true := hx3.keep.reading.trans hr2
    obtain ⟨ind2, hi2, hfin⟩ := run_endif (env := env) (st := st3) hend hE
    simp only [Spec.Sp.ok, Bool.and_eq_true] at hend
    have hran : Ran' true env st (b ++ tb ++ ee ++ eb ++ e) (a2 ++ fut) buf T1
        (visible sp.ind ++ o1 ++ visible spEnd.ind) { st3 with ifs := st3.ifs.pop.2 }
        ((vis ind).map .direct ++ x3 ++ (vis ind2).map .direct) := by
      refine ⟨hx3.inv.mono rfl (by simp +contextual),
        ⟨by simp [IfStates.pop, hx3.keep.stack, st2], .inr ⟨rfl, rfl⟩⟩, ?_, ?_, fun r hk => ?_⟩
      · simp only [toksL_append, toksL_direct, List.map_append, vis_sym, hi, hx3.out, hi2]
      · simp only [← List.append_assoc]
        exact hx3.noEsc.append_ws (by rw [hi2]; exact hend.1.1)
      · simp only [List.append_assoc]
        refine open_ _ _ _ (hrun1 _ _ _ (helse _ hflip _ _ _ ?_))
        rw [if_neg (by simp [hr1])]
        refine hx3.emits _ (hfin _ _ _ ?_)
        rw [if_pos hr3]
        simpa only [List.append_assoc] using hk
    rw [List.append_assoc] at hord
    obtain ⟨st5, x5, hx5⟩ := ih (hran.keep.reading.trans hr) hran.inv hord.tail hokL ha2 hran.noEsc
    exact ⟨st5, _, hran.seq hx5⟩

end Verif.Preproc.Subst
