import Verif.Lib.PreprocItems
/-!
Selected branches of structured programs.
-/
namespace Verif.Preproc
open Spec

theorem toksText_sym (l : List Tok) : toksText l = Spec.text (l.map Tok.sym) := by
  simp [toksText, Spec.text, List.flatMap_map]

theorem NoEsc.append_ws {buf : List Out} (h : NoEsc buf) {a : List Tok}
    (ha : blank (a.map Tok.sym) = true) : NoEsc (buf ++ (vis a).map .direct) := by
  rcases List.eq_nil_or_concat (vis a) with h0 | ⟨l, t, h0⟩
  · rw [h0]; simpa using h
  · rw [h0]
    have ht : t ∈ vis a := by rw [h0]; simp
    have ht' : t ∈ a := (List.mem_filter.1 ht).1
    have hw : t.sym.isWs = true := by
      simp only [blank, List.all_eq_true] at ha
      exact ha _ (List.mem_map_of_mem ht')
    simp only [NoEsc, List.concat_eq_append, List.map_append, List.map_cons, List.map_nil,
      ← List.append_assoc, List.getLast?_append]
    simp only [List.getLast?_singleton, Option.some_or, Option.bind_some, Out.lastSym]
    intro e
    rw [Option.some.inj e] at hw
    simp [Sym.isWs] at hw

theorem NoEsc.newline {buf : List Out} {t : Tok} (ht : t.sym = .newline) :
    NoEsc (buf ++ [.direct t]) := by
  simp [NoEsc, Out.lastSym, ht]

/-! ### Conditions -/

theorem readValue_operands {a : List Tok} (h : ∀ t ∈ a, operand t.sym = true) {t : Tok}
    (ht : t.sym.isWs = true ∨ t.sym = .newline) (l : List Tok) :
    readValue (a ++ t :: l) = (a, t :: l) := by
  induction a with
  | nil => rw [List.nil_append, readValue, if_pos ht]
  | cons b a ih =>
    have hb := h b (by simp)
    simp only [operand, Bool.and_eq_true, Bool.not_eq_true', decide_eq_true_eq] at hb
    rw [List.cons_append, readValue, if_neg (by simp [hb]), ih (fun t ht => h t (by simp [ht]))]

theorem operand_not_ws {s : Sym} (h : operand s = true) : s.isWs = false := by
  simp only [operand, Bool.and_eq_true, Bool.not_eq_true'] at h
  exact h.1.1

theorem resolve_rep {env d m} (h : Rep d m) {t : Tok} {v : List Sym}
    (hv : operandValue m t.sym = some v) :
    ∃ l b, resolveSide env d [t] = .ok ((l, b), d) ∧ l.map Tok.sym = v ∧
      ((∃ x, m t.sym.text = some (.value x)) → b = true) := by
  rw [operandValue] at hv
  split at hv
  · simp at hv
  · rename_i hb
    have ha := h.2 t.sym.text
    have hg : d.getReadonly t.sym.text = d.global t.sym.text := by
      rw [Defines.getReadonly, h.1]
    have hb' : builtinGen.contains t.sym.text = false := by simpa using hb
    rw [resolveSide, resolveValue, Defines.getWithGen]
    dsimp only
    rw [hb', hg]
    cases hm : m t.sym.text with
    | none =>
      rw [hm] at hv ha
      simp only [Agrees] at ha
      rw [ha]
      simp only [Option.some.injEq] at hv
      exact ⟨[t], false, rfl, by simpa using hv, by simp⟩
    | some x =>
      rw [hm] at hv ha
      cases x with
      | unit => simp at hv
      | func => simp at hv
      | value b =>
        simp only [Option.some.injEq] at hv
        simp only [Agrees] at ha
        obtain ⟨e, l, h1, h2, h3⟩ := ha
        refine ⟨l, true, ?_, h3.trans hv, fun _ => rfl⟩
        simp [h1, h2]

theorem ifCompare_spec {env : Env} {l op r : List Tok} {ld rd b : Bool}
    (h : Spec.compare env.compare (Spec.text (op.map Tok.sym)) (Spec.text (l.map Tok.sym))
      (Spec.text (r.map Tok.sym)) = some b) : ifCompare env l ld op r rd = .ok b := by
  simp only [ifCompare, toksText_sym]
  simp only [Spec.compare] at h
  split at h
  · rename_i h1; rw [if_pos h1]; simp at h; simp [h]
  rename_i h1; rw [if_neg h1]
  split at h
  · rename_i h2; rw [if_pos h2]; simp at h; simp [h]
  rename_i h2; rw [if_neg h2]
  split at h
  · rename_i h3; rw [if_pos h3, h]
  · simp at h

theorem blank_cons_tok {a : List Tok} {s : List Sym} (h : a.map Tok.sym = s) (hb : blank s = true)
    (hne : s ≠ []) : ∃ t l, a = t :: l ∧ t.sym.isWs = true := by
  cases a with
  | nil => exact absurd h.symm hne
  | cons t l =>
    refine ⟨t, l, rfl, ?_⟩
    subst h
    exact (blank_cons.1 hb).1

/-- White space followed by a newline: its first token ends a value. -/
theorem blank_newline {a : List Tok} (hb : blank (a.map Tok.sym) = true) {nl : Tok}
    (hnl : nl.sym = .newline) (rest : List Tok) :
    ∃ t l, a ++ nl :: rest = t :: l ∧ (t.sym.isWs = true ∨ t.sym = .newline) := by
  cases a with
  | nil => exact ⟨nl, rest, rfl, .inr hnl⟩
  | cons t l => exact ⟨t, l ++ nl :: rest, rfl, .inl (blank_cons.1 hb).1⟩

/-- A condition in a selected branch pushes its truth value. -/
theorem command_test {env st m} (hr : st.ifs.reading = true) (hrep : Rep st.defs m) {t : Test}
    (hok : t.ok = true) {b : Bool} (hev : t.eval env.compare m = some b) {mid : List Sym}
    (hmid : blank mid = true) {c : Tok} {ops : List Tok}
    (hsrc : (c :: ops).map Tok.sym = t.src mid) {tr : List Tok}
    (htr : blank (tr.map Tok.sym) = true) {nl : Tok} (hnl : nl.sym = .newline)
    (rest : List Tok) (buf : List Out) :
    command 1 env st c (ops ++ (tr ++ nl :: rest)) buf =
      .ok ({ st with ifs := st.ifs.pushIf c b }, rest, buf) := by
  cases t with
  | ifdef n =>
    simp only [Test.src, List.map_cons, List.cons_append] at hsrc
    obtain ⟨hc, hs⟩ := List.cons.inj hsrc
    obtain ⟨md, o, rfl, h1, h2⟩ := splitAppend hs
    obtain ⟨w, o, rfl, hw, h2⟩ := splitCons h2
    obtain rfl := splitNil h2
    rw [command_ifdef hr hc, List.append_assoc, List.cons_append, List.nil_append,
      directiveIfdef, nextWord_blank (by rw [h1]; exact hmid) hw]
    simp only [expectNothing_blank htr hnl, liftR, hrep.containsKey, hw, Sym.text]
    simp only [Spec.Test.eval, Option.some.injEq] at hev
    rw [hev]
    simp
  | ifndef n =>
    simp only [Test.src, List.map_cons, List.cons_append] at hsrc
    obtain ⟨hc, hs⟩ := List.cons.inj hsrc
    obtain ⟨md, o, rfl, h1, h2⟩ := splitAppend hs
    obtain ⟨w, o, rfl, hw, h2⟩ := splitCons h2
    obtain rfl := splitNil h2
    rw [command_ifndef hr hc, List.append_assoc, List.cons_append, List.nil_append,
      directiveIfdef, nextWord_blank (by rw [h1]; exact hmid) hw]
    simp only [expectNothing_blank htr hnl, liftR, hrep.containsKey, hw, Sym.text]
    simp only [Spec.Test.eval, Option.some.injEq] at hev
    rw [← hev]
    cases defined m n <;> rfl
  | truthy s =>
    simp only [Test.src, List.map_cons, List.cons_append] at hsrc
    obtain ⟨hc, hs⟩ := List.cons.inj hsrc
    obtain ⟨md, o, rfl, h1, h2⟩ := splitAppend hs
    obtain ⟨w, o, rfl, hw, h2⟩ := splitCons h2
    obtain rfl := splitNil h2
    simp only [Spec.Test.ok, Bool.and_eq_true, decide_eq_true_eq] at hok
    simp only [Spec.Test.eval] at hev
    by_cases hbg : builtinGen.contains s.text = true
    · rw [if_pos hbg] at hev; simp at hev
    rw [if_neg hbg] at hev
    cases hx : m s.text with
    | none => rw [hx] at hev; simp at hev
    | some y =>
      cases y with
      | unit => rw [hx] at hev; simp at hev
      | func => rw [hx] at hev; simp at hev
      | value x =>
        rw [hx] at hev
        simp only at hev
        by_cases hxne : x = []
        · rw [if_pos hxne] at hev; simp at hev
        rw [if_neg hxne] at hev
        simp only [Option.some.injEq] at hev
        have hov : operandValue m w.sym = some x := by
          rw [operandValue, hw, if_neg hbg, hx]
        obtain ⟨l, bd, hres, hl, hbd⟩ := resolve_rep (env := env) hrep hov
        have hbd' : bd = true := hbd ⟨x, by rw [hw]; exact hx⟩
        subst hbd'
        obtain ⟨y, z, hyz, hy⟩ := blank_newline htr hnl rest
        have hop : operand w.sym = true := by rw [hw]; exact hok.1
        have hrv : readValue (w :: (tr ++ nl :: rest)) = ([w], tr ++ nl :: rest) := by
          rw [hyz]
          exact readValue_operands (a := [w]) (by simpa using hop) hy z
        rw [command_if hr hc, List.append_assoc, List.cons_append, List.nil_append, directiveIf,
          skipWs_blank (by rw [h1]; exact hmid) (operand_not_ws hop), hrv]
        simp only [List.head?_cons, Option.map_some, hw]
        rw [if_neg (by simpa using hok.2), hres]
        simp only
        rw [if_neg (by intro e; rw [e] at hl; exact hxne hl.symm),
          skipWs_blank htr (by rw [hnl]; rfl)]
        simp only [ifRight, hnl, if_true]
        rw [ifCompare_spec (b := b)]
        · simp [expectNothing, hnl, liftR]
        · rw [hl, ← hev]
          have h2 : Spec.text ([⟨Sym.equals, nl.pos⟩, ⟨Sym.equals, nl.pos⟩].map Tok.sym) = kw "==" := by
            simp only [List.map_cons, List.map_nil]
            decide +kernel
          have h3 : Spec.text ([(⟨Sym.digit 1, nl.pos⟩ : Tok)].map Tok.sym) = ['1'] := by
            simp only [List.map_cons, List.map_nil]
            decide +kernel
          rw [h2, h3, Spec.compare, if_pos rfl]
  | cmp l sp1 op sp2 r =>
    simp only [Test.src, List.map_cons, List.cons_append, List.append_assoc] at hsrc
    obtain ⟨hc, hs⟩ := List.cons.inj hsrc
    obtain ⟨md, o, rfl, h1, h2⟩ := splitAppend hs
    obtain ⟨lt, o, rfl, hl, h2⟩ := splitCons h2
    obtain ⟨s1, o, rfl, hs1, h2⟩ := splitAppend h2
    obtain ⟨ot, o, rfl, hot, h2⟩ := splitAppend h2
    obtain ⟨s2, o, rfl, hs2, h2⟩ := splitAppend h2
    obtain ⟨rt, o, rfl, hrt, h2⟩ := splitCons h2
    obtain rfl := splitNil h2
    simp only [Spec.Test.ok, Bool.and_eq_true, List.all_eq_true, decide_eq_true_eq] at hok
    obtain ⟨⟨⟨⟨⟨⟨⟨⟨k1, k2⟩, k3⟩, k4⟩, k5⟩, k6⟩, k7⟩, k8⟩, k9⟩ := hok
    simp only [Spec.Test.eval, Option.bind_eq_bind, Option.bind_eq_some_iff] at hev
    obtain ⟨va, hva, vb, hvb, hev⟩ := hev
    by_cases hane : va = []
    · rw [if_pos hane] at hev; simp at hev
    rw [if_neg hane] at hev
    rw [← hl] at hva
    rw [← hrt] at hvb
    obtain ⟨la, da, hra, hla, _⟩ := resolve_rep (env := env) hrep hva
    obtain ⟨lb, db, hrb, hlb, _⟩ := resolve_rep (env := env) hrep hvb
    have hopl : operand lt.sym = true := by rw [hl]; exact k1
    have hopr : operand rt.sym = true := by rw [hrt]; exact k9
    have hopo : ∀ t ∈ ot, operand t.sym = true := by
      intro t ht
      apply k5
      rw [← hot]
      exact List.mem_map_of_mem ht
    obtain ⟨x1, y1, rfl, hx1⟩ := blank_cons_tok hs1 k3 k4
    obtain ⟨x2, y2, rfl, hx2⟩ := blank_cons_tok hs2 k7 k8
    obtain ⟨x3, y3, h3, hx3⟩ := blank_newline htr hnl rest
    cases ot with
    | nil => exact absurd hot.symm k6
    | cons o1 ot =>
      have ho1 := hopo o1 (by simp)
      rw [command_if hr hc]
      simp only [List.append_assoc, List.cons_append, List.nil_append]
      rw [directiveIf, skipWs_blank (by rw [h1]; exact hmid) (operand_not_ws hopl)]
      have hrv1 := readValue_operands (a := [lt]) (by simpa using hopl) (.inl hx1)
        (y1 ++ o1 :: (ot ++ x2 :: (y2 ++ rt :: (tr ++ nl :: rest))))
      simp only [List.cons_append, List.nil_append] at hrv1
      rw [hrv1]
      simp only [List.head?_cons, Option.map_some, hl]
      rw [if_neg (by simpa using k2), hra]
      simp only
      rw [if_neg (by intro e; rw [e] at hla; exact hane hla.symm)]
      rw [show x1 :: (y1 ++ o1 :: (ot ++ x2 :: (y2 ++ rt :: (tr ++ nl :: rest)))) =
        (x1 :: y1) ++ o1 :: (ot ++ x2 :: (y2 ++ rt :: (tr ++ nl :: rest))) from rfl,
        skipWs_blank (by rw [hs1]; exact k3) (operand_not_ws ho1)]
      have hrv2 := readValue_operands hopo (.inl hx2) (y2 ++ rt :: (tr ++ nl :: rest))
      have hrv3 := readValue_operands (a := [rt]) (by simpa using hopr) hx3 y3
      rw [← h3] at hrv3
      simp only [List.cons_append, List.nil_append] at hrv2 hrv3
      rw [ifRight]
      rw [if_neg (operand_ne ho1), ifRight.ifRightOp, hrv2]
      simp only
      rw [show x2 :: (y2 ++ rt :: (tr ++ nl :: rest)) = (x2 :: y2) ++ rt :: (tr ++ nl :: rest) from rfl,
        skipWs_blank (by rw [hs2]; exact k7) (operand_not_ws hopr), hrv3]
      simp only
      rw [hrb]
      simp only
      rw [ifCompare_spec (b := b) (by rw [hla, hlb, hot]; exact hev)]
      simp only
      rw [expectNothing_blank htr hnl]
      rfl

/-! ### Definitions -/

theorem readBody_oneLine {a : List Tok} (h : oneLine (a.map Tok.sym) = true) {nl : Tok}
    (hnl : nl.sym = .newline) (rest : List Tok) (acc : List Tok)
    (hl : (acc ++ a).getLast?.map Tok.sym ≠ some .escape) :
    readBody (a ++ nl :: rest) acc = (acc ++ a, rest) := by
  induction a generalizing acc with
  | nil =>
    rw [List.append_nil] at hl
    rw [List.nil_append, readBody, if_pos hnl, if_neg hl, List.append_nil]
  | cons t a ih =>
    have ho : (t.sym ≠ .newline ∧ t.sym ≠ .eoi) ∧ oneLine (a.map Tok.sym) = true := by
      simpa [oneLine] using h
    rw [List.cons_append, readBody, if_neg ho.1.1, if_neg ho.1.2, ih ho.2 _ (by simpa using hl)]
    simp

theorem readBody_skip {a : List Tok} (h : oneLine (a.map Tok.sym) = true)
    (hh : ((a.map Tok.sym).head?.any Sym.isWs) = false)
    (hl : (a.map Tok.sym).getLast? ≠ some .escape) {g : List Tok}
    (hg : blank (g.map Tok.sym) = true) {nl : Tok} (hnl : nl.sym = .newline) (rest : List Tok) :
    readBody (skipWs (g ++ (a ++ nl :: rest))) [] = (a, rest) := by
  have : skipWs (g ++ (a ++ nl :: rest)) = a ++ nl :: rest := by
    cases a with
    | nil => exact skipWs_blank hg (by rw [hnl]; rfl) rest
    | cons t a => exact skipWs_blank hg (by simpa using hh) _
  rw [this, readBody_oneLine h hnl rest [] (by simpa [List.getLast?_map] using hl)]
  simp

theorem readParams_src {a : List Tok} (ps : List Text) (h : a.map Tok.sym = paramSrc ps) {rp : Tok}
    (hrp : rp.sym = .rparen) (args : List Tok) :
    ∃ l, ∀ rest, readParams (a ++ rp :: rest) false args = .ok (l, rest) := by
  induction ps generalizing a args with
  | nil =>
    obtain rfl := splitNil h
    exact ⟨args, by simp [readParams, hrp, Sym.isWord]⟩
  | cons p ps ih =>
    cases ps with
    | nil =>
      obtain ⟨t, c, rfl, ht, hc⟩ := splitCons h
      obtain rfl := splitNil hc
      exact ⟨args ++ [t], by simp [readParams, hrp, ht, Sym.isWord]⟩
    | cons q ps =>
      obtain ⟨t, c, rfl, ht, hc⟩ := splitCons h
      obtain ⟨k, c, rfl, hk, hc⟩ := splitCons hc
      obtain ⟨l, hl⟩ := ih hc (args ++ [t])
      refine ⟨l, fun rest => ?_⟩
      simp only [List.cons_append, readParams, ht, hk, Sym.isWord]
      simpa using hl rest

/-- The state after a definition. -/
def defined' (st : St) (ident : Tok) (df : Definition) : St :=
  { st with
    warns := match (st.defs.remove ident.sym.text).1 with
      | some ⟨o, _, .source _⟩ => st.warns ++ [.redefine ident o]
      | _ => st.warns
    defs := (st.defs.remove ident.sym.text).2.insert ident.sym.text
      { tok := ident, defn := df, src := .source st.files } }

theorem Rep.define {st : St} {m : Macros} (h : Rep st.defs m) {ident : Tok} {n : Text}
    (hn : ident.sym = .word n) {df : Definition} {x : Def}
    (hx : ∀ src, Agrees (some { tok := ident, defn := df, src := src }) (some x)) :
    Rep (defined' st ident df).defs (m.set n (some x)) := by
  have hs := h.1
  simp only [defined', Defines.remove, hs, hn, Sym.text, Defines.insert]
  refine ⟨rfl, fun k => ?_⟩
  simp only [Inner.insert, Inner.remove, Macros.set]
  by_cases hk : k = n
  · simp only [hk, if_true]; exact hx _
  · simp only [hk, if_false]; exact h.2 k

theorem Rep.remove {d : Defines} {m : Macros} (h : Rep d m) (n : Text) :
    Rep (d.remove n).2 (m.set n none) := by
  have hs := h.1
  simp only [Defines.remove, hs]
  refine ⟨rfl, fun k => ?_⟩
  simp only [Inner.remove, Macros.set]
  by_cases hk : k = n
  · simp only [hk, if_true]; exact rfl
  · simp only [hk, if_false]; exact h.2 k

/-! ### Items -/

/-- Emitting `x` while consuming `a`. -/
def Emits (env : Env) (st : St) (a : List Tok) (buf : List Out) (st' : St) (x : List Tok) : Prop :=
  ∀ rest r, Runs env st' rest (buf ++ x.map .direct) r → Runs env st (a ++ rest) buf r

/-- The conditional state is the same at the end of a region; `n` says whether there are
conditionals in it. -/
structure Keep (n : Bool) (st st' : St) : Prop where
  stack : st'.ifs.stack = st.ifs.stack
  didElse : (n = false ∧ st'.ifs.didElse = st.ifs.didElse) ∨ (n = true ∧ st'.ifs.didElse = none)

theorem Keep.reading {n} {a b : St} (h : Keep n a b) : b.ifs.reading = a.ifs.reading := by
  rw [IfStates.reading, h.stack]; rfl

theorem Keep.trans {m n} {a b c : St} (h : Keep m a b) (k : Keep n b c) : Keep (m || n) a c := by
  refine ⟨k.stack.trans h.stack, ?_⟩
  rcases k.didElse with ⟨rfl, k'⟩ | ⟨rfl, k'⟩
  · rw [k']
    rcases h.didElse with ⟨rfl, h'⟩ | ⟨rfl, h'⟩
    · exact .inl ⟨rfl, h'⟩
    · exact .inr ⟨rfl, h'⟩
  · exact .inr ⟨by simp, k'⟩

/-- Everything known after a selected region. -/
structure Ran (n : Bool) (env : Env) (st : St) (a : List Tok) (buf : List Out) (m' : Macros) (out : List Sym)
    (st' : St) (x : List Tok) : Prop where
  rep : Rep st'.defs m'
  keep : Keep n st st'
  out : x.map Tok.sym = out
  noEsc : NoEsc (buf ++ x.map .direct)
  emits : Emits env st a buf st' x

/-- A one-line directive in a selected branch. -/
theorem ran_directive {env st m'} (hr : st.ifs.reading = true) {ind : List Tok}
    (hb : blank (ind.map Tok.sym) = true) {h c : Tok} (hh : h.sym = .directive) {w : Text}
    (hc : c.sym = .word w) {a : List Tok} {buf : List Out} (he : NoEsc buf) {st' : St}
    (hrep : Rep st'.defs m') (hk : Keep false st st')
    (hcmd : ∀ rest buf, command 1 env st c (a ++ rest) buf = .ok (st', rest, buf)) :
    Ran false env st (ind ++ h :: c :: a) buf m' (visible (ind.map Tok.sym)) st' (vis ind) := by
  refine ⟨hrep, hk, vis_sym ind, he.append_ws hb, fun rest r hk => ?_⟩
  simp only [List.append_assoc, List.cons_append]
  refine Runs.directive hb hh hc (n := 1) ?_ hk
  rw [if_pos hr, hcmd]

theorem directiveDefine_value {st : St} {mid : List Tok} (hm : blank (mid.map Tok.sym) = true)
    {w : Tok} {n : Text} (hw : w.sym = .word n) (hn : isBuiltin n = false) {g body : List Tok}
    (hg : blank (g.map Tok.sym) = true) (hgne : g ≠ [])
    (h : oneLine (body.map Tok.sym) = true)
    (hh : ((body.map Tok.sym).head?.any Sym.isWs) = false)
    (hl : (body.map Tok.sym).getLast? ≠ some .escape) {nl : Tok} (hnl : nl.sym = .newline)
    (rest : List Tok) :
    directiveDefine st (mid ++ w :: (g ++ (body ++ nl :: rest))) =
      .ok (defined' st w (.value body), rest) := by
  have hb := readBody_skip h hh hl hg hnl rest
  rw [directiveDefine, nextWord_blank hm hw]
  cases g with
  | nil => exact absurd rfl hgne
  | cons t g =>
    have ht := (blank_cons.1 hg).1
    simp only [List.cons_append] at hb ⊢
    rw [hw]
    simp only [Sym.text, hn, Bool.false_eq_true, if_false, hb]
    obtain ⟨s, p⟩ := t
    cases s <;> simp [Sym.isWs] at ht <;> simp only [defined', hw, Sym.text] <;> rfl

theorem directiveDefine_flag {st : St} {mid : List Tok} (hm : blank (mid.map Tok.sym) = true)
    {w : Tok} {n : Text} (hw : w.sym = .word n) (hn : isBuiltin n = false) {nl : Tok}
    (hnl : nl.sym = .newline) (rest : List Tok) :
    directiveDefine st (mid ++ w :: nl :: rest) = .ok (defined' st w .unit, nl :: rest) := by
  rw [directiveDefine, nextWord_blank hm hw]
  simp only [hw, Sym.text, hn, Bool.false_eq_true, if_false, hnl, defined']
  rfl

theorem directiveDefine_func {st : St} {mid : List Tok} (hm : blank (mid.map Tok.sym) = true)
    {w : Tok} {n : Text} (hw : w.sym = .word n) (hn : isBuiltin n = false) {lp : Tok}
    (hlp : lp.sym = .lparen) {ps : List Text} {pt : List Tok} (hp : pt.map Tok.sym = paramSrc ps)
    {rp : Tok} (hrp : rp.sym = .rparen) {body : List Tok}
    (h : oneLine (body.map Tok.sym) = true)
    (hh : ((body.map Tok.sym).head?.any Sym.isWs) = false)
    (hl : (body.map Tok.sym).getLast? ≠ some .escape) {nl : Tok} (hnl : nl.sym = .newline) :
    ∃ f, ∀ rest, directiveDefine st (mid ++ w :: lp :: (pt ++ rp :: (body ++ nl :: rest))) =
      .ok (defined' st w (.function f), rest) := by
  obtain ⟨args, hargs⟩ := readParams_src ps hp hrp []
  refine ⟨⟨bodyPos w body, args, body⟩, fun rest => ?_⟩
  have hb := readBody_skip h hh hl (g := []) rfl hnl rest
  rw [directiveDefine, nextWord_blank hm hw]
  simp only [hw, Sym.text, hn, Bool.false_eq_true, if_false, hlp, hargs]
  simp only [List.nil_append] at hb
  simp only [hb, defined', hw, Sym.text]
  rfl

theorem reading_pushIf (s : IfStates) (c : Tok) (b : Bool) :
    (s.pushIf c b).reading = (b && s.reading) := by
  cases b <;> simp [IfStates.pushIf, IfStates.push, IfStates.reading, IfState.reading]

/-- `#else` of a condition whose enclosing conditions are all selected. -/
theorem flip_selected {s : IfStates} {c : Tok} {b : Bool} {l : List IfState}
    (hs : s.stack = (if b then IfState.readingIf c else .passingIf c) :: l)
    (hl : l.all IfState.reading = true) (hd : s.didElse = none) (e : Tok) :
    s.flip e = .ok { stack := (if b then .passingElse c else .readingElse c) :: l,
                     didElse := some e } := by
  rw [IfStates.flip, hd]
  simp only [hs, List.tail_cons, hl, if_true, List.head?_cons]
  cases b <;> rfl

theorem ran_text {env st m} (hr : st.ifs.reading = true) (hrep : Rep st.defs m)
    {l : List Sym} (hok : (Item.text l).ok = true) (hp : plain m false l = true)
    (hv : (visible l).getLast? ≠ some .escape) {a : List Tok} (ha : a.map Tok.sym = l ++ [.newline])
    {buf : List Out} (he : NoEsc buf) :
    ∃ st' x, Ran false env st a buf m (visible l ++ [.newline]) st' x := by
  simp only [Item.ok, Bool.and_eq_true, decide_eq_true_eq] at hok
  obtain ⟨b, c, rfl, hb, hc⟩ := splitAppend ha
  obtain ⟨nl, c, rfl, hnl, hc⟩ := splitCons hc
  obtain rfl := splitNil hc
  obtain ⟨ind, x, rfl, h1, h2, h3⟩ := firstSplit b
  have hfull : NoEsc (buf ++ (vis (ind ++ x)).map .direct) := by
    rcases List.eq_nil_or_concat (vis (ind ++ x)) with h0 | ⟨y, t, h0⟩
    · rw [h0]; simpa using he
    · rw [h0]
      have : (visible l).getLast? = some t.sym := by
        rw [← hb, ← vis_sym, h0]; simp
      rw [this] at hv
      simp only [NoEsc, List.concat_eq_append, List.map_append, List.map_cons, List.map_nil,
        ← List.append_assoc, List.getLast?_append]
      simpa [Out.lastSym] using hv
  rw [hb] at h2
  have hpx : plain m false (x.map Tok.sym) = true := by
    have : ∀ (i : List Sym), blank i = true → ∀ z, plain m false (i ++ z) = plain m false z := by
      intro i hi z
      induction i with
      | nil => rfl
      | cons s i ih =>
        obtain ⟨hs, hi⟩ := blank_cons.1 hi
        rw [List.cons_append]
        cases s <;> simp [Sym.isWs] at hs <;> simp only [plain] <;> exact ih hi
    rw [← hb, List.map_append, this _ h1] at hp
    exact hp
  have hox : oneLine (x.map Tok.sym) = true := by
    have := hok.1
    rw [← hb, List.map_append] at this
    simp only [oneLine, List.all_append, Bool.and_eq_true] at this
    exact this.2
  refine ⟨{ st with pragma := st.pragma.clearLine }, vis (ind ++ x) ++ [nl],
    ⟨hrep, ⟨rfl, .inl ⟨rfl, rfl⟩⟩, ?_, ?_, fun rest r hk => ?_⟩⟩
  · rw [List.map_append, vis_sym, hb]; simp [hnl]
  · rw [List.map_append, ← List.append_assoc]
    exact NoEsc.newline hnl
  · have hw := walk_plain (env := env) hr hrep hnl rest x false true
      (buf ++ (vis ind).map .direct) hox
      (by
        intro _
        have : firstSym (x.map Tok.sym) = firstSym l := by
          rw [h2]
          cases x with
          | nil => rfl
          | cons t x => simp only [List.head?_cons, Option.all_some, Bool.not_eq_true'] at h3
                        simp [firstSym, h3]
        rw [this]; exact hok.2) hpx
      (by rw [List.append_assoc, ← List.map_append, ← vis_append]; exact hfull)
    have hbuf : buf ++ (vis ind).map Out.direct ++ (vis x).map .direct ++ [.direct nl] =
        buf ++ (vis (ind ++ x) ++ [nl]).map .direct := by simp
    rw [hbuf] at hw
    rw [h2] at hok
    cases x with
    | nil =>
      simp only [List.append_nil, List.append_assoc, List.cons_append, List.nil_append] at hw hk ⊢
      obtain ⟨y, z, hy, hne⟩ := first_ne_eoi h1 (t := nl) (by rw [hnl]; simp) rest
      refine Runs.of_line hy hne (n := 2) ?_ hk
      rw [line_text h1 (by rw [hnl]; rfl) (by rw [hnl]; simp), if_pos hr,
        walk_more (by simp) hw (by simp)]
    | cons t x =>
      simp only [List.append_assoc, List.cons_append, List.nil_append] at hw ⊢
      have ht : t.sym ≠ .eoi := by
        intro e
        simp [oneLine, e] at hox
      obtain ⟨y, z, hy, hne⟩ := first_ne_eoi h1 ht (x ++ nl :: rest)
      refine Runs.of_line hy hne (n := (t :: x).length + 2) ?_ hk
      rw [line_text h1 (by simpa using h3) (by simpa using hok.2), if_pos hr, hw]

mutual
/-- A selected item does what the specification says. -/
theorem run_item {env : Env} : (it : Item) → ∀ {st : St} {m m' : Macros} {out : List Sym},
    st.ifs.reading = true → Rep st.defs m → it.ok = true →
    evalItem env.compare m it = some (m', out) → ∀ {a : List Tok} {buf : List Out},
    a.map Tok.sym = printItem it → NoEsc buf →
    ∃ st' x, Ran it.nested env st a buf m' out st' x
  | .text l, st, m, m', out, hr, hrep, hok, hev, a, buf, ha, he => by
    simp only [evalItem] at hev
    split at hev
    · rename_i hp
      simp only [Option.some.injEq, Prod.mk.injEq] at hev
      obtain ⟨rfl, rfl⟩ := hev
      exact ran_text hr hrep hok hp.1 hp.2 (by simpa only [printItem] using ha) he
    · simp at hev
  | .value sp n gap body, st, m, m', out, hr, hrep, hok, hev, a, buf, ha, he => by
    simp only [evalItem, Option.some.injEq, Prod.mk.injEq] at hev
    obtain ⟨rfl, rfl⟩ := hev
    simp only [Item.ok, Spec.Sp.ok, Bool.and_eq_true, Bool.not_eq_true', decide_eq_true_eq] at hok
    obtain ⟨⟨⟨⟨⟨⟨⟨⟨h1, h2⟩, h3⟩, h0⟩, h4⟩, h4'⟩, h5⟩, h6⟩, h7⟩ := hok
    simp only [printItem, List.append_assoc, List.cons_append] at ha
    obtain ⟨ind, b, rfl, hi, hb⟩ := splitAppend ha
    obtain ⟨h, b, rfl, hh, hb⟩ := splitCons hb
    obtain ⟨c, b, rfl, hc, hb⟩ := splitCons hb
    obtain ⟨mid, b, rfl, hm, hb⟩ := splitAppend hb
    obtain ⟨w, b, rfl, hw, hb⟩ := splitCons hb
    obtain ⟨g, b, rfl, hg, hb⟩ := splitAppend hb
    obtain ⟨bd, b, rfl, hbd, hb⟩ := splitAppend hb
    obtain ⟨nl, b, rfl, hnl, hb⟩ := splitCons hb
    obtain rfl := splitNil hb
    rw [← hi]
    refine ⟨_, _, ran_directive hr (by rw [hi]; exact h1) hh hc he
      (hrep.define hw (df := .value bd) fun src => ⟨_, bd, rfl, rfl, hbd⟩) ⟨rfl, .inl ⟨rfl, rfl⟩⟩
      fun rest buf => ?_⟩
    rw [command_define hr hc]
    simp only [List.append_assoc, List.cons_append, List.nil_append]
    rw [directiveDefine_value (by rw [hm]; exact h2) hw h0 (by rw [hg]; exact h4)
      (by rintro rfl; exact h4' hg.symm) (by rw [hbd]; exact h5) (by rw [hbd]; exact h6)
      (by rw [hbd]; exact h7) hnl]
    rfl
  | .flag sp n, st, m, m', out, hr, hrep, hok, hev, a, buf, ha, he => by
    simp only [evalItem, Option.some.injEq, Prod.mk.injEq] at hev
    obtain ⟨rfl, rfl⟩ := hev
    simp only [Item.ok, Spec.Sp.ok, Bool.and_eq_true, Bool.not_eq_true'] at hok
    obtain ⟨⟨⟨h1, h2⟩, h3⟩, h0⟩ := hok
    simp only [printItem, List.append_assoc, List.cons_append] at ha
    obtain ⟨ind, b, rfl, hi, hb⟩ := splitAppend ha
    obtain ⟨h, b, rfl, hh, hb⟩ := splitCons hb
    obtain ⟨c, b, rfl, hc, hb⟩ := splitCons hb
    obtain ⟨mid, b, rfl, hm, hb⟩ := splitAppend hb
    obtain ⟨w, b, rfl, hw, hb⟩ := splitCons hb
    obtain ⟨nl, b, rfl, hnl, hb⟩ := splitCons hb
    obtain rfl := splitNil hb
    have hrep' := hrep.define hw (df := .unit) (x := .unit) fun src => ⟨_, rfl, rfl⟩
    have hbi : blank (ind.map Tok.sym) = true := by rw [hi]; exact h1
    obtain ⟨st', x, hx⟩ := ran_text (env := env) (st := defined' st w .unit)
      (buf := buf ++ (vis ind).map .direct) hr hrep' (l := []) rfl rfl (by simp [visible])
      (a := [nl]) (by simp [hnl]) (he.append_ws hbi)
    refine ⟨st', vis ind ++ x, ⟨hx.rep, ⟨hx.keep.1, hx.keep.2⟩, ?_, ?_, fun rest r hk => ?_⟩⟩
    · rw [List.map_append, vis_sym, hx.out, hi]; rfl
    · rw [List.map_append, ← List.append_assoc]; exact hx.noEsc
    · simp only [List.append_assoc, List.cons_append, List.nil_append]
      refine Runs.directive hbi hh hc (n := 1) ?_
        (hx.emits rest r (by rw [List.append_assoc, ← List.map_append]; exact hk))
      rw [if_pos hr, command_define hr hc, directiveDefine_flag (by rw [hm]; exact h2) hw h0 hnl]
      rfl
  | .func sp n ps body, st, m, m', out, hr, hrep, hok, hev, a, buf, ha, he => by
    simp only [evalItem, Option.some.injEq, Prod.mk.injEq] at hev
    obtain ⟨rfl, rfl⟩ := hev
    simp only [Item.ok, Spec.Sp.ok, Bool.and_eq_true, Bool.not_eq_true', decide_eq_true_eq] at hok
    obtain ⟨⟨⟨⟨⟨⟨h1, h2⟩, h3⟩, h0⟩, h5⟩, h6⟩, h7⟩ := hok
    simp only [printItem, List.append_assoc, List.cons_append] at ha
    obtain ⟨ind, b, rfl, hi, hb⟩ := splitAppend ha
    obtain ⟨h, b, rfl, hh, hb⟩ := splitCons hb
    obtain ⟨c, b, rfl, hc, hb⟩ := splitCons hb
    obtain ⟨mid, b, rfl, hm, hb⟩ := splitAppend hb
    obtain ⟨w, b, rfl, hw, hb⟩ := splitCons hb
    obtain ⟨lp, b, rfl, hlp, hb⟩ := splitCons hb
    obtain ⟨g, b, rfl, hg, hb⟩ := splitAppend hb
    obtain ⟨rp, b, rfl, hrp, hb⟩ := splitCons hb
    obtain ⟨bd, b, rfl, hbd, hb⟩ := splitAppend hb
    obtain ⟨nl, b, rfl, hnl, hb⟩ := splitCons hb
    obtain rfl := splitNil hb
    rw [← hi]
    obtain ⟨f, hf⟩ := directiveDefine_func (st := st) (mid := mid) (by rw [hm]; exact h2) hw h0 hlp hg hrp
      (body := bd) (by rw [hbd]; exact h5) (by rw [hbd]; exact h6) (by rw [hbd]; exact h7) hnl
    refine ⟨_, _, ran_directive hr (by rw [hi]; exact h1) hh hc he
      (hrep.define hw (df := .function f) (x := .func) fun src => ⟨_, f, rfl, rfl⟩) ⟨rfl, .inl ⟨rfl, rfl⟩⟩
      fun rest buf => ?_⟩
    rw [command_define hr hc]
    simp only [List.append_assoc, List.cons_append, List.nil_append]
    rw [hf]
    rfl
  | .undef sp n, st, m, m', out, hr, hrep, hok, hev, a, buf, ha, he => by
    simp only [evalItem, Option.some.injEq, Prod.mk.injEq] at hev
    obtain ⟨rfl, rfl⟩ := hev
    simp only [Item.ok, Spec.Sp.ok, Bool.and_eq_true] at hok
    obtain ⟨⟨h1, h2⟩, h3⟩ := hok
    simp only [printItem, List.append_assoc, List.cons_append] at ha
    obtain ⟨ind, b, rfl, hi, hb⟩ := splitAppend ha
    obtain ⟨h, b, rfl, hh, hb⟩ := splitCons hb
    obtain ⟨c, b, rfl, hc, hb⟩ := splitCons hb
    obtain ⟨mid, b, rfl, hm, hb⟩ := splitAppend hb
    obtain ⟨w, b, rfl, hw, hb⟩ := splitCons hb
    obtain ⟨tr, b, rfl, htr, hb⟩ := splitAppend hb
    obtain ⟨nl, b, rfl, hnl, hb⟩ := splitCons hb
    obtain rfl := splitNil hb
    rw [← hi]
    refine ⟨{ st with defs := (st.defs.remove n).2 }, _,
      ran_directive hr (by rw [hi]; exact h1) hh hc he (hrep.remove n) ⟨rfl, .inl ⟨rfl, rfl⟩⟩
      fun rest buf => ?_⟩
    rw [command_undef hr hc]
    simp only [List.append_assoc, List.cons_append, List.nil_append]
    rw [directiveUndef, nextWord_blank (by rw [hm]; exact h2) hw]
    simp only [expectNothing_blank (by rw [htr]; exact h3) hnl, hw, Sym.text]
    rfl
  | .cond sp t th els el spEnd, st, m, m', out, hr, hrep, hok, hev, a, buf, ha, he => by
    simp only [Item.ok, Bool.and_eq_true] at hok
    obtain ⟨⟨⟨⟨⟨hsp, ht⟩, hth⟩, hels⟩, hel⟩, hend⟩ := hok
    simp only [Spec.Sp.ok, Bool.and_eq_true] at hsp
    obtain ⟨w, ops, hsrc, hops, hw⟩ := Test.src_eq t ht hsp.1.2
    simp only [printItem] at ha
    obtain ⟨b, e, rfl, hb, hE⟩ := splitAppend ha
    obtain ⟨b, eb, rfl, hb, heb⟩ := splitAppend hb
    obtain ⟨b, ee, rfl, hb, hee⟩ := splitAppend hb
    obtain ⟨b, tb, rfl, hb, htb⟩ := splitAppend hb
    simp only [hsrc, List.append_assoc, List.cons_append] at hb
    obtain ⟨ind, b, rfl, hi, hb⟩ := splitAppend hb
    obtain ⟨h, b, rfl, hh, hb⟩ := splitCons hb
    obtain ⟨c, b, rfl, hc, hb⟩ := splitCons hb
    obtain ⟨o, b, rfl, ho, hb⟩ := splitAppend hb
    obtain ⟨tr, b, rfl, htr, hb⟩ := splitAppend hb
    obtain ⟨nl, b, rfl, hnl, hb⟩ := splitCons hb
    obtain rfl := splitNil hb
    have hbi : blank (ind.map Tok.sym) = true := by rw [hi]; exact hsp.1.1
    have he1 := he.append_ws hbi
    cases htest : t.eval env.compare m with
    | none => simp only [evalItem, htest] at hev; simp at hev
    | some tv =>
      have open_ : ∀ rest r, Runs env { st with ifs := st.ifs.pushIf c tv } rest
          (buf ++ (vis ind).map .direct) r →
          Runs env st (ind ++ h :: c :: (o ++ (tr ++ nl :: rest))) buf r := by
        intro rest r hk
        refine Runs.directive hbi hh hc (n := 1) ?_ hk
        rw [if_pos hr]
        exact command_test hr hrep ht htest hsp.1.2 (by rw [List.map_cons, hc, ho, hsrc])
          (by rw [htr]; exact hsp.2) hnl rest _
      have hstk : ({ st with ifs := st.ifs.pushIf c tv } : St).ifs.stack =
          (if tv then IfState.readingIf c else .passingIf c) :: st.ifs.stack := rfl
      have hrd : ({ st with ifs := st.ifs.pushIf c tv } : St).ifs.reading = tv := by
        simp only [reading_pushIf, hr, Bool.and_true]
      cases tv with
      | true =>
        simp only [evalItem, htest] at hev
        cases hth' : evalItems env.compare m th with
        | none => rw [hth'] at hev; simp at hev
        | some p =>
          obtain ⟨m1, o1⟩ := p
          rw [hth'] at hev
          simp only [Option.some.injEq, Prod.mk.injEq] at hev
          obtain ⟨rfl, rfl⟩ := hev
          obtain ⟨st1, x1, hx1⟩ := run_items (env := env) th hrd hrep hth hth' htb he1
          have hd1 : st1.ifs.didElse = none := by
            rcases hx1.keep.didElse with ⟨_, h'⟩ | ⟨_, h'⟩ <;> exact h'
          have hs1 : st1.ifs.stack = .readingIf c :: st.ifs.stack := hx1.keep.stack
          have hr1 : st1.ifs.reading = true := hx1.keep.reading.trans hrd
          cases els with
          | none =>
            simp only [elseSrc, List.map_eq_nil_iff] at hee
            subst hee
            simp only [Option.isSome_none, if_neg (by simp : ¬ (false = true)),
              List.map_eq_nil_iff] at heb
            subst heb
            obtain ⟨ind2, hi2, hfin⟩ := run_endif (env := env) (st := st1) hend hE
            simp only [Spec.Sp.ok, Bool.and_eq_true] at hend
            refine ⟨{ st1 with ifs := st1.ifs.pop.2 }, vis ind ++ x1 ++ vis ind2,
              ⟨hx1.rep, ⟨by simp [IfStates.pop, hs1], .inr ⟨rfl, rfl⟩⟩, ?_, ?_, fun rest r hk => ?_⟩⟩
            · simp only [List.map_append, vis_sym, hi, hx1.out, hi2]
            · simp only [List.map_append, ← List.append_assoc]
              exact hx1.noEsc.append_ws (by rw [hi2]; exact hend.1.1)
            · simp only [List.append_assoc, List.cons_append, List.nil_append]
              refine open_ _ _ (hx1.emits _ _ (hfin _ _ _ ?_))
              rw [if_pos hr1]
              simpa only [List.map_append, List.append_assoc] using hk
          | some spe =>
            simp only [Option.all_some] at hels
            simp only [Option.isSome_some, if_true] at heb
            obtain ⟨ce, ind1, hi1, helse⟩ := run_else (env := env) (st := st1) hels hee
            have hflip := flip_selected (b := true) hs1 hr hd1 ce
            simp only [if_true] at hflip
            let st2 : St := { st1 with ifs :=
              { stack := .passingElse c :: st.ifs.stack, didElse := some ce } }
            have hr2 : st2.ifs.reading = false := by
              simp [st2, IfStates.reading, IfState.reading]
            obtain ⟨st3, hs3, hrun3⟩ := skip_items (env := env) el hr2 hel heb
            obtain ⟨ind2, _, hfin⟩ := run_endif (env := env) (st := st3) hend hE
            simp only [Spec.Sp.ok, Bool.and_eq_true] at hels
            refine ⟨{ st3 with ifs := st3.ifs.pop.2 }, vis ind ++ x1 ++ vis ind1,
              ⟨?_, ⟨by simp [IfStates.pop, hs3.stack, st2], .inr ⟨rfl, rfl⟩⟩, ?_, ?_, fun rest r hk => ?_⟩⟩
            · have : st3.defs = st1.defs := hs3.defs
              rw [show ({ st3 with ifs := st3.ifs.pop.2 } : St).defs = st3.defs from rfl, this]
              exact hx1.rep
            · simp only [List.map_append, vis_sym, hi, hx1.out, hi1]
            · simp only [List.map_append, ← List.append_assoc]
              exact hx1.noEsc.append_ws (by rw [hi1]; exact hels.1.1)
            · simp only [List.append_assoc, List.cons_append, List.nil_append]
              refine open_ _ _ (hx1.emits _ _ (helse _ hflip _ _ _ ?_))
              rw [if_pos hr1]
              refine hrun3 _ _ _ (hfin _ _ _ ?_)
              rw [if_neg (by rw [hs3.reading]; simp [hr2])]
              simpa only [List.map_append, List.append_assoc] using hk
      | false =>
        simp only [evalItem, htest] at hev
        obtain ⟨st1, hs1, hrun1⟩ := skip_items (env := env) th hrd hth htb
        have hst1 : st1.ifs.stack = .passingIf c :: st.ifs.stack := hs1.stack
        have hr1 : st1.ifs.reading = false := hs1.reading.trans hrd
        have hd1 : st1.ifs.didElse = none := by
          rcases hs1.didElse with ⟨_, h'⟩ | ⟨_, h'⟩ <;> exact h'
        cases els with
        | none =>
          simp only [Option.some.injEq, Prod.mk.injEq] at hev
          obtain ⟨rfl, rfl⟩ := hev
          simp only [elseSrc, List.map_eq_nil_iff] at hee
          subst hee
          simp only [Option.isSome_none, if_neg (by simp : ¬ (false = true)),
            List.map_eq_nil_iff] at heb
          subst heb
          obtain ⟨ind2, hi2, hfin⟩ := run_endif (env := env) (st := st1) hend hE
          refine ⟨{ st1 with ifs := st1.ifs.pop.2 }, vis ind,
            ⟨?_, ⟨by simp [IfStates.pop, hst1], .inr ⟨rfl, rfl⟩⟩, ?_, he1, fun rest r hk => ?_⟩⟩
          · have : st1.defs = st.defs := hs1.defs
            rw [show ({ st1 with ifs := st1.ifs.pop.2 } : St).defs = st1.defs from rfl, this]
            exact hrep
          · simp only [vis_sym, hi]
          · simp only [List.append_assoc, List.cons_append, List.nil_append]
            refine open_ _ _ (hrun1 _ _ _ (hfin _ _ _ ?_))
            rw [if_neg (by simp [hr1])]
            exact hk
        | some spe =>
          simp only at hev
          simp only [Option.all_some] at hels
          simp only [Option.isSome_some, if_true] at heb
          cases hel' : evalItems env.compare m el with
          | none => rw [hel'] at hev; simp at hev
          | some p =>
            obtain ⟨m1, o1⟩ := p
            rw [hel'] at hev
            simp only [Option.some.injEq, Prod.mk.injEq] at hev
            obtain ⟨rfl, rfl⟩ := hev
            obtain ⟨ce, ind1, hi1, helse⟩ := run_else (env := env) (st := st1) hels hee
            have hflip := flip_selected (b := false) hst1 hr hd1 ce
            simp only [Bool.false_eq_true, if_false] at hflip
            let st2 : St := { st1 with ifs :=
              { stack := .readingElse c :: st.ifs.stack, didElse := some ce } }
            have hr2 : st2.ifs.reading = true := by
              simpa [st2, IfStates.reading, IfState.reading] using hr
            have hrep2 : Rep st2.defs m := by
              have : st1.defs = st.defs := hs1.defs
              rw [show st2.defs = st1.defs from rfl, this]
              exact hrep
            obtain ⟨st3, x3, hx3⟩ := run_items (env := env) el hr2 hrep2 hel hel' heb he1
            have hr3 : st3.ifs.reading = true := hx3.keep.reading.trans hr2
            obtain ⟨ind2, hi2, hfin⟩ := run_endif (env := env) (st := st3) hend hE
            simp only [Spec.Sp.ok, Bool.and_eq_true] at hend
            refine ⟨{ st3 with ifs := st3.ifs.pop.2 }, vis ind ++ x3 ++ vis ind2,
              ⟨hx3.rep, ⟨by simp [IfStates.pop, hx3.keep.stack, st2], .inr ⟨rfl, rfl⟩⟩, ?_, ?_,
                fun rest r hk => ?_⟩⟩
            · simp only [List.map_append, vis_sym, hi, hx3.out, hi2]
            · simp only [List.map_append, ← List.append_assoc]
              exact hx3.noEsc.append_ws (by rw [hi2]; exact hend.1.1)
            · simp only [List.append_assoc, List.cons_append, List.nil_append]
              refine open_ _ _ (hrun1 _ _ _ (helse _ hflip _ _ _ ?_))
              rw [if_neg (by simp [hr1])]
              refine hx3.emits _ _ (hfin _ _ _ ?_)
              rw [if_pos hr3]
              simpa only [List.map_append, List.append_assoc] using hk
/-- A selected list of items does what the specification says. -/
theorem run_items {env : Env} : (l : List Item) → ∀ {st : St} {m m' : Macros} {out : List Sym},
    st.ifs.reading = true → Rep st.defs m → Item.okL l = true →
    evalItems env.compare m l = some (m', out) → ∀ {a : List Tok} {buf : List Out},
    a.map Tok.sym = printItems l → NoEsc buf →
    ∃ st' x, Ran (l.any Item.nested) env st a buf m' out st' x
  | [], st, m, m', out, _, hrep, _, hev, a, buf, ha, he => by
    simp only [evalItems, Option.some.injEq, Prod.mk.injEq] at hev
    obtain ⟨rfl, rfl⟩ := hev
    simp only [printItems, List.map_eq_nil_iff] at ha
    subst ha
    exact ⟨st, [], hrep, ⟨rfl, .inl ⟨rfl, rfl⟩⟩, rfl, by simpa using he, fun rest r hk => by
      simpa using hk⟩
  | i :: l, st, m, m', out, hr, hrep, hok, hev, a, buf, ha, he => by
    simp only [Item.okL, Bool.and_eq_true] at hok
    simp only [printItems] at ha
    obtain ⟨b, c, rfl, hb, hc⟩ := splitAppend ha
    simp only [evalItems] at hev
    cases h1 : evalItem env.compare m i with
    | none => rw [h1] at hev; simp at hev
    | some p =>
      obtain ⟨m1, o1⟩ := p
      rw [h1] at hev
      simp only at hev
      cases h2 : evalItems env.compare m1 l with
      | none => rw [h2] at hev; simp at hev
      | some p =>
        obtain ⟨m2, o2⟩ := p
        rw [h2] at hev
        simp only [Option.some.injEq, Prod.mk.injEq] at hev
        obtain ⟨rfl, rfl⟩ := hev
        obtain ⟨st1, x1, k1⟩ := run_item (env := env) i hr hrep hok.1 h1 hb he
        obtain ⟨st2, x2, k2⟩ := run_items (env := env) l (k1.keep.reading.trans hr) k1.rep hok.2 h2
          hc k1.noEsc
        refine ⟨st2, x1 ++ x2, k2.rep, k1.keep.trans k2.keep, ?_, ?_, fun rest r hk => ?_⟩
        · rw [List.map_append, k1.out, k2.out]
        · rw [List.map_append, ← List.append_assoc]; exact k2.noEsc
        · rw [List.append_assoc]
          refine k1.emits _ _ (k2.emits _ _ ?_)
          rw [List.append_assoc, ← List.map_append]
          exact hk
end

end Verif.Preproc
