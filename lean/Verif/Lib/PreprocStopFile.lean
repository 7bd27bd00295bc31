import Verif.Lib.PreprocStop
/-!
Termination of the preprocessor at file level.
-/
namespace Verif.Preproc
open Spec

variable {env : Env}

/-! ### Definitions -/

theorem logical_blank {a : List Tok} (h : blank (a.map Tok.sym) = true) (l : List Tok) :
    logical false (a ++ l) = a ++ logical false l := by
  induction a with
  | nil => rfl
  | cons t a ih =>
    simp only [blank, List.map_cons, List.all_cons, Bool.and_eq_true] at h
    have h1 : t.sym ≠ .newline := by rintro e; rw [e] at h; simp [Sym.isWs] at h
    have h2 : t.sym ≠ .eoi := by rintro e; rw [e] at h; simp [Sym.isWs] at h
    have h3 : t.sym ≠ .escape := by rintro e; rw [e] at h; simp [Sym.isWs] at h
    rw [List.cons_append, logical, if_neg (by simp [h1]), if_neg h2, decide_eq_false h3, ih h.2, List.cons_append]

theorem readParams_logical {l : List Tok} : ∀ {c args args' l'}, readParams l c args = .ok (args', l') →
    ∃ x, logical false l = x ++ logical false l' := by
  induction l with
  | nil =>
    intro c args args' l' h
    simp only [readParams, Except.ok.injEq, Prod.mk.injEq] at h
    obtain ⟨_, rfl⟩ := h; exact ⟨[], rfl⟩
  | cons t l ih =>
    intro c args args' l' h
    have step : t.sym ≠ .newline → t.sym ≠ .eoi → t.sym ≠ .escape →
        logical false (t :: l) = t :: logical false l := by
      intro h1 h2 h3
      rw [logical, if_neg (by simp [h1]), if_neg h2, decide_eq_false h3]
    have go : ∀ {c args}, t.sym ≠ .newline → t.sym ≠ .eoi → t.sym ≠ .escape →
        readParams l c args = .ok (args', l') → ∃ x, logical false (t :: l) = x ++ logical false l' := by
      intro c args h1 h2 h3 h
      obtain ⟨x, hx⟩ := ih h
      exact ⟨t :: x, by rw [step h1 h2 h3, hx]; rfl⟩
    rw [readParams] at h
    split at h
    · rename_i hw
      have h1 : t.sym ≠ .newline := by rintro e; rw [e] at hw; simp [Sym.isWord] at hw
      have h2 : t.sym ≠ .eoi := by rintro e; rw [e] at hw; simp [Sym.isWord] at hw
      have h3 : t.sym ≠ .escape := by rintro e; rw [e] at hw; simp [Sym.isWord] at hw
      split at h
      · simp at h
      · exact go h1 h2 h3 h
    · split at h
      · rename_i hw
        split at h
        · exact go (by rw [hw]; simp) (by rw [hw]; simp) (by rw [hw]; simp) h
        · simp at h
      · split at h
        · rename_i hw
          simp only [Except.ok.injEq, Prod.mk.injEq] at h
          obtain ⟨_, rfl⟩ := h
          exact ⟨[t], by rw [step (by rw [hw]; simp) (by rw [hw]; simp) (by rw [hw]; simp)]; rfl⟩
        · split at h
          · rename_i hw
            have h1 : t.sym ≠ .newline := by rintro e; rw [e] at hw; simp [Sym.isWs] at hw
            have h2 : t.sym ≠ .eoi := by rintro e; rw [e] at hw; simp [Sym.isWs] at hw
            have h3 : t.sym ≠ .escape := by rintro e; rw [e] at hw; simp [Sym.isWs] at hw
            exact go h1 h2 h3 h
          · simp at h

theorem NoDir.append_right {a b : List Tok} (h : NoDir (a ++ b)) : NoDir b := by
  rw [NoDir, List.filter_append] at h
  exact h.suffix (List.suffix_append _ _)

theorem NoDir.append_left {a b : List Tok} (h : NoDir (a ++ b)) : NoDir a := by
  rw [NoDir, List.filter_append] at h
  exact h.prefix (List.prefix_append _ _)

/-- Replacing a backslash and newline by the newline. -/
theorem NoDir.contract {a b : List Tok} {x nl : Tok} (hn : nl.sym = .newline)
    (h : NoDir (a ++ x :: nl :: b)) : NoDir (a ++ nl :: b) := by
  have h1 : NoDir a := NoDir.append_left h
  have h2 : NoDir (nl :: b) := NoDir.append_right (a := a ++ [x]) (by simpa using h)
  rw [NoDir] at *
  rw [List.filter_append, List.isChain_append]
  refine ⟨h1, h2, ?_⟩
  intro p _ q hq _
  rw [List.filter_cons_of_pos (by simp [hn])] at hq
  simp only [List.head?_cons, Option.mem_def, Option.some.injEq] at hq
  subst hq
  rw [hn]
  decide +kernel

theorem readBody_good (l : List Tok) : ∀ (acc : List Tok) (e : Bool),
    e = decide (acc.getLast?.map Tok.sym = some .escape) →
    NoDir (acc ++ logical e l) →
    NoDir (readBody l acc).1 ∧ ∀ t ∈ (readBody l acc).1, t ∈ acc ++ logical e l := by
  induction l with
  | nil =>
    intro acc e he h
    rw [logical, List.append_nil] at h ⊢
    exact ⟨h, fun t ht => ht⟩
  | cons t l ih =>
    intro acc e he h
    by_cases hn : t.sym = .newline
    · by_cases hesc : acc.getLast?.map Tok.sym = some .escape
      · have he' : e = true := by rw [he]; simpa using hesc
        subst he'
        have hlog : logical true (t :: l) = t :: logical false l := by
          rw [logical, if_neg (by simp), if_neg (by rw [hn]; simp), decide_eq_false (by rw [hn]; simp)]
        have hrb : readBody (t :: l) acc = readBody l (acc.dropLast ++ [t]) := by
          rw [readBody, if_pos hn, if_pos hesc]
        rw [hrb]
        rw [hlog] at h ⊢
        rcases acc.eq_nil_or_concat with rfl | ⟨acc', x, rfl⟩
        · simp at hesc
        · simp only [List.concat_eq_append, List.append_assoc, List.cons_append, List.nil_append] at h ⊢
          rw [List.dropLast_concat]
          have h' : NoDir ((acc' ++ [t]) ++ logical false l) := by
            simpa using NoDir.contract hn h
          obtain ⟨k1, k2⟩ := ih (acc' ++ [t]) false (by simp [hn]) h'
          refine ⟨k1, fun s hs => ?_⟩
          have := k2 s hs
          simp only [List.mem_append, List.mem_cons, List.not_mem_nil, or_false] at this ⊢
          tauto
      · have he' : e = false := by rw [he]; simpa using hesc
        subst he'
        have hlog : logical false (t :: l) = [] := by rw [logical, if_pos ⟨hn, rfl⟩]
        have hrb : readBody (t :: l) acc = (acc, l) := by
          rw [readBody, if_pos hn, if_neg hesc]
        rw [hrb]
        rw [hlog, List.append_nil] at h ⊢
        exact ⟨h, fun s hs => hs⟩
    · by_cases ho : t.sym = .eoi
      · have hlog : logical e (t :: l) = logical e l := by rw [logical, if_neg (by simp [hn]), if_pos ho]
        have hrb : readBody (t :: l) acc = readBody l acc := by rw [readBody, if_neg hn, if_pos ho]
        rw [hrb]
        rw [hlog] at h ⊢
        exact ih acc e he h
      · have hlog : logical e (t :: l) = t :: logical (decide (t.sym = .escape)) l := by
          rw [logical, if_neg (by simp [hn]), if_neg ho]
        have hrb : readBody (t :: l) acc = readBody l (acc ++ [t]) := by rw [readBody, if_neg hn, if_neg ho]
        rw [hrb]
        rw [hlog] at h ⊢
        obtain ⟨k1, k2⟩ := ih (acc ++ [t]) (decide (t.sym = .escape)) (by simp) (by simpa using h)
        exact ⟨k1, fun s hs => by simpa using k2 s hs⟩

/-- What is known at file level. -/
structure GoodFile (rank : Text → Nat) (st : St) : Prop where
  good : Good rank st.defs
  stack : st.defs.stack = []

theorem directiveDefine_good {rank frank : Text → Nat} (hac : Acyclic env rank frank) {p : Text}
    {all pre toks toks' : List Tok} {h d : Tok} (hload : env.load p = .ok all) (hall : all = pre ++ h :: d :: toks)
    (hh : h.sym = .directive) (hd : d.sym = .word (kw "define")) {st st' : St} (hg : GoodFile rank st)
    (hr : directiveDefine st toks = .ok (st', toks')) :
    GoodFile rank st' ∧ st'.files = st.files ∧ toks' <:+ toks := by
  rw [directiveDefine] at hr
  split at hr
  · simp at hr
  · rename_i ident l hnw
    obtain ⟨ws, name, heq, hws, hname⟩ := nextWord_eq hnw
    have hcond := hac.defs (ws := ws) (nm := ident) (l := l) hload (by rw [hall, heq]) hh hd hws hname
    have hsuf : l <:+ toks := ⟨ws ++ [ident], by rw [heq]; simp⟩
    split at hr
    · simp at hr
    · rename_i next rest
      dsimp only at hr
      split at hr
      · simp at hr
      · have done : ∀ (ws : List Warn) (df : Definition) (src : DefSource), EntryGood rank name df →
            GoodFile rank { st with
              warns := ws
              defs := Defines.insert (st.defs.remove ident.sym.text).2 ident.sym.text
                { tok := ident, defn := df, src := src } } := by
          intro ws df src hdf
          simp only [hname, Sym.text, Defines.remove, hg.stack, Defines.insert]
          refine ⟨⟨fun k e he => ?_, by simp⟩, rfl⟩
          simp only [Inner.insert, Inner.remove] at he
          split at he
          · rename_i hk
            simp only [Option.some.injEq] at he
            subst he hk
            exact hdf
          · exact hg.good.global k e he
        have body : ∀ l2 : List Tok, (∃ x, logical false (next :: rest) = x ++ logical false l2) →
            Below rank (rank name) (readBody (skipWs l2) []).1 ∧ NoDir (readBody (skipWs l2) []).1 := by
          rintro l2 ⟨x, hx⟩
          obtain ⟨a, ha, hb⟩ := skipWs_suffix l2
          rw [ha, logical_blank hb] at hx
          have hnd : NoDir (logical false (skipWs l2)) := by
            have := hcond.2
            rw [hx] at this
            exact NoDir.append_right (NoDir.append_right this)
          obtain ⟨k1, k2⟩ := readBody_good (skipWs l2) [] false (by simp) (by simpa using hnd)
          refine ⟨fun t ht w hw => hcond.1 t ?_ w hw, k1⟩
          rw [hx]
          have := k2 t ht
          simp only [List.nil_append] at this
          simp [this]
        split at hr
        · rename_i hnx
          split at hr
          · simp at hr
          · rename_i args l2 hrp
            obtain ⟨x, hx⟩ := readParams_logical hrp
            have hlog : ∃ x, logical false (next :: rest) = x ++ logical false l2 := by
              refine ⟨next :: x, ?_⟩
              rw [logical, if_neg (by simp [hnx]), if_neg (by simp [hnx]), decide_eq_false (by simp [hnx]), hx]
              rfl
            simp only [Except.ok.injEq, Prod.mk.injEq] at hr
            obtain ⟨rfl, rfl⟩ := hr
            refine ⟨done _ _ _ (body l2 hlog), rfl, ?_⟩
            exact (readBody_suf _ _).trans ((skipWs_suf l2).trans ((readParams_suf hrp).trans
              ((List.suffix_cons next rest).trans hsuf)))
        · simp only [Except.ok.injEq, Prod.mk.injEq] at hr
          obtain ⟨rfl, rfl⟩ := hr
          exact ⟨done _ _ _ trivial, rfl, hsuf⟩
        · simp only [Except.ok.injEq, Prod.mk.injEq] at hr
          obtain ⟨rfl, rfl⟩ := hr
          exact ⟨done _ _ _ trivial, rfl, hsuf⟩
        · simp only [Except.ok.injEq, Prod.mk.injEq] at hr
          obtain ⟨rfl, rfl⟩ := hr
          exact ⟨done _ _ _ (body (next :: rest) ⟨[], rfl⟩), rfl, (readBody_suf _ _).trans ((skipWs_suf _).trans hsuf)⟩

/-! ### The other directives -/

theorem resolveSide_same {d : Defines} {l : List Tok} {x d'} (h : resolveSide env d l = .ok (x, d')) :
    d'.global = d.global ∧ d'.stack = d.stack := by
  rw [resolveSide.eq_def] at h
  split at h
  · rename_i t
    rw [resolveValue] at h
    have := getWithGen_same (env := env) d t t.pos
    split at h
    · rename_i e d2 he
      rw [he] at this
      split at h
      · simp only [Except.ok.injEq, Prod.mk.injEq] at h
        rw [← h.2]; exact this
      · simp at h
      · simp at h
    · rename_i d2 he
      rw [he] at this
      simp only [Except.ok.injEq, Prod.mk.injEq] at h
      rw [← h.2]; exact this
  · simp only [Except.ok.injEq, Prod.mk.injEq] at h
    rw [← h.2]; exact ⟨rfl, rfl⟩

theorem ifRightOp_good {d d' : Defines} {toks toks' op r}
    (h : ifRight.ifRightOp env d toks = .ok (op, r, d', toks')) :
    (d'.global = d.global ∧ d'.stack = d.stack) ∧ toks' <:+ toks := by
  rw [ifRight.ifRightOp] at h
  dsimp only at h
  split at h
  · split at h <;> simp at h
  · split at h
    · simp at h
    · rename_i hrs
      simp only [Except.ok.injEq, Prod.mk.injEq] at h
      obtain ⟨_, _, rfl, rfl⟩ := h
      exact ⟨resolveSide_same hrs, (readValue_suf _).trans ((skipWs_suf _).trans (readValue_suf _))⟩

theorem ifRight_good {d d' : Defines} {left b toks toks' op r}
    (h : ifRight env d left b toks = .ok (op, r, d', toks')) :
    (d'.global = d.global ∧ d'.stack = d.stack) ∧ toks' <:+ toks := by
  rw [ifRight.eq_def] at h
  split at h
  · split at h
    · split at h
      · simp only [Except.ok.injEq, Prod.mk.injEq] at h
        obtain ⟨_, _, rfl, rfl⟩ := h
        exact ⟨⟨rfl, rfl⟩, List.suffix_rfl⟩
      · simp at h
    · exact ifRightOp_good h
  · exact ifRightOp_good h

theorem GoodFile.of_same {rank : Text → Nat} {st st' : St} (h : GoodFile rank st)
    (hs : st'.defs.global = st.defs.global ∧ st'.defs.stack = st.defs.stack) : GoodFile rank st' :=
  ⟨⟨by rw [hs.1]; exact h.good.global, by rw [hs.2]; exact h.good.stack⟩, by rw [hs.2]; exact h.stack⟩

theorem directiveIf_good {st st' : St} {cmd : Tok} {toks toks' : List Tok}
    (h : directiveIf env st cmd toks = .ok (st', toks')) :
    (st'.defs.global = st.defs.global ∧ st'.defs.stack = st.defs.stack) ∧ st'.files = st.files ∧ toks' <:+ toks := by
  rw [directiveIf] at h
  dsimp only at h
  have h0 : (readValue (skipWs toks)).2 <:+ toks := (readValue_suf _).trans (skipWs_suf _)
  split at h
  · split at h
    · simp only [Except.ok.injEq, Prod.mk.injEq] at h
      obtain ⟨rfl, rfl⟩ := h
      exact ⟨⟨rfl, rfl⟩, rfl, (skipLine_suf _).trans h0⟩
    · simp at h
  · split at h
    · simp at h
    · rename_i hrs
      have h1 := resolveSide_same hrs
      split at h
      · simp at h
      · split at h
        · simp at h
        · rename_i hir
          obtain ⟨h2, h3⟩ := ifRight_good hir
          split at h
          · simp at h
          · split at h
            · simp at h
            · rename_i hen
              simp only [Except.ok.injEq, Prod.mk.injEq] at h
              obtain ⟨rfl, rfl⟩ := h
              exact ⟨⟨h2.1.trans h1.1, h2.2.trans h1.2⟩, rfl,
                (expectNothing_suf hen).trans (h3.trans ((skipWs_suf _).trans h0))⟩

theorem directiveIfdef_good {st st' : St} {cmd : Tok} {b toks toks'}
    (h : directiveIfdef st cmd b toks = .ok (st', toks')) :
    st'.defs = st.defs ∧ st'.files = st.files ∧ toks' <:+ toks := by
  rw [directiveIfdef] at h
  split at h
  · simp at h
  · rename_i hnw
    split at h
    · simp at h
    · rename_i hen
      simp only [Except.ok.injEq, Prod.mk.injEq] at h
      obtain ⟨rfl, rfl⟩ := h
      exact ⟨rfl, rfl, (expectNothing_suf hen).trans (nextWord_suf hnw)⟩

theorem directiveUndef_good {rank : Text → Nat} {st st' : St} {toks toks'} (hg : GoodFile rank st)
    (h : directiveUndef st toks = .ok (st', toks')) :
    GoodFile rank st' ∧ st'.files = st.files ∧ toks' <:+ toks := by
  rw [directiveUndef] at h
  split at h
  · simp at h
  · rename_i hnw
    split at h
    · simp at h
    · rename_i hen
      simp only [Except.ok.injEq, Prod.mk.injEq] at h
      obtain ⟨rfl, rfl⟩ := h
      refine ⟨?_, rfl, (expectNothing_suf hen).trans (nextWord_suf hnw)⟩
      simp only [Defines.remove, hg.stack]
      refine ⟨⟨fun k e he => ?_, by simp⟩, rfl⟩
      simp only [Inner.remove] at he
      split at he
      · simp at he
      · exact hg.good.global k e he

theorem readPragma_suf {c : Tok} {toks toks' : List Tok} {x s} (h : readPragma c toks = .ok (x, s, toks')) :
    toks' <:+ toks := by
  rw [readPragma] at h
  split at h
  · simp at h
  · rename_i code l hnw
    have h1 := nextWord_suf hnw
    have h2 := (currentWord_suf (skipWs l)).trans ((skipWs_suf l).trans h1)
    split at h
    · rename_i t l2 hcw
      rw [hcw] at h2
      split at h
      · simp at h
      · split at h
        · simp at h
        · rename_i hen
          simp only [Except.ok.injEq, Prod.mk.injEq] at h
          obtain ⟨_, _, rfl⟩ := h
          exact (expectNothing_suf hen).trans h2
    · simp at h
    · rename_i l2 _ hcw
      rw [hcw] at h2
      simp only [Except.ok.injEq, Prod.mk.injEq] at h
      obtain ⟨_, _, rfl⟩ := h
      exact h2

theorem directivePragma_good {st st' : St} {toks toks'} (h : directivePragma st toks = .ok (st', toks')) :
    st'.defs = st.defs ∧ st'.files = st.files ∧ toks' <:+ toks := by
  rw [directivePragma] at h
  split at h
  · simp at h
  · rename_i hnw
    have h1 := nextWord_suf hnw
    split at h
    · simp only [Except.ok.injEq, Prod.mk.injEq] at h
      obtain ⟨rfl, rfl⟩ := h
      exact ⟨rfl, rfl, (skipLine_suf _).trans h1⟩
    · split at h
      · simp at h
      · rename_i hnw2
        have h2 := (nextWord_suf hnw2).trans h1
        split at h
        · split at h
          · simp at h
          · rename_i hrp
            split at h
            · simp at h
            · simp only [Except.ok.injEq, Prod.mk.injEq] at h
              obtain ⟨rfl, rfl⟩ := h
              exact ⟨rfl, rfl, (readPragma_suf hrp).trans h2⟩
        · split at h
          · split at h
            · simp at h
            · rename_i hrp
              split at h
              · simp at h
              · simp only [Except.ok.injEq, Prod.mk.injEq] at h
                obtain ⟨rfl, rfl⟩ := h
                exact ⟨rfl, rfl, (readPragma_suf hrp).trans h2⟩
          · simp at h

theorem text_toks (l : List Tok) : text (l.map Tok.sym) = toksText l := by
  simp [text, toksText, List.flatMap_map]

theorem includeTarget_good {rank frank : Text → Nat} (hac : Acyclic env rank frank) {p : Text} {fs : List Text}
    {all pre toks toks' : List Tok} {h d : Tok} (hload : env.load p = .ok all) (hall : all = pre ++ h :: d :: toks)
    (hh : h.sym = .directive) (hd : d.sym = .word (kw "include")) {st : St} (hf : st.files = p :: fs)
    {found : Text} {inner : List Tok} {ws : List Warn}
    (hr : includeTarget env st toks = .ok (found, inner, ws, toks')) :
    frank found < frank p ∧ env.load found = .ok inner ∧ toks' <:+ toks := by
  obtain ⟨a, ha, hb⟩ := skipWs_suffix toks
  rw [includeTarget] at hr
  split at hr
  · simp at hr
  · rename_i o l hsk
    rw [hsk] at ha
    dsimp only at hr
    have go : ∀ close, (o.sym = .dquote ∧ close = Sym.dquote ∨ o.sym = .langle ∧ close = .rangle) →
        (match readPath close o l [] with
        | .error e => .error e
        | .ok (path, toks) => match expectNothing toks with
          | .error (.code _ t _) => .error (.code 14 t)
          | .error e => .error e
          | .ok toks => match st.files with
            | [] => .error .panic
            | cur :: _ => match env.locate cur (toksText path) with
              | none => .error (.code 12 o (.toks path))
              | some (found, mismatch) => match env.load found with
                | .error e => .error e
                | .ok inner =>
                  .ok (found, inner, if mismatch then [Warn.includeCase path] else [], toks)) =
        (.ok (found, inner, ws, toks') : Except PErr (Text × List Tok × List Warn × List Tok)) →
        frank found < frank p ∧ env.load found = .ok inner ∧ toks' <:+ toks := by
      intro close hcl hr
      split at hr
      · simp at hr
      · rename_i path l2 hrp
        obtain ⟨x, tail, h1, h2, h3, h4⟩ := readPath_eq hrp
        simp only [List.nil_append] at h2
        subst h2
        split at hr
        · simp at hr
        · simp at hr
        · rename_i l3 hen
          rw [hf] at hr
          dsimp only at hr
          split at hr
          · simp at hr
          · rename_i found' mm hloc
            split at hr
            · simp at hr
            · rename_i inner' hli
              simp only [Except.ok.injEq, Prod.mk.injEq] at hr
              obtain ⟨rfl, rfl, _, rfl⟩ := hr
              refine ⟨?_, hli, ?_⟩
              · refine hac.incs (pre := pre) (ws := a) (o := o) (path := path) (tail := tail) hload ?_ hh hd hb hcl h3 ?_
                  (by rw [text_toks]; exact hloc)
                · rw [hall, ha, h1]
                · rcases h4 with ⟨h4, _⟩ | ⟨c, h4, h5⟩
                  · exact .inl h4
                  · exact .inr ⟨c, l2, h4, h5⟩
              · have : l2 <:+ l := by
                  rcases h4 with ⟨_, h4⟩ | ⟨c, h4, _⟩
                  · rw [h4]; exact List.nil_suffix
                  · exact ⟨path ++ [c], by rw [h1, h4]; simp⟩
                exact (expectNothing_suf hen).trans (this.trans ⟨a ++ [o], by rw [ha]; simp⟩)
    split at hr
    · rename_i ho
      exact go .dquote (.inl ⟨ho, rfl⟩) hr
    · rename_i ho
      exact go .rangle (.inr ⟨ho, rfl⟩) hr
    · simp at hr

/-! ### None of these runs out of fuel -/

theorem expectNothing_ne (l : List Tok) : expectNothing l ≠ .error .fuel := by
  induction l with
  | nil => simp [expectNothing]
  | cons t l ih => rw [expectNothing]; split <;> [simp; (split <;> [exact ih; simp])]

theorem currentWord_ne (l : List Tok) : (currentWord l).1 ≠ .error .fuel := by
  cases l with
  | nil => simp [currentWord]
  | cons t l => rw [currentWord]; split <;> [simp; (split <;> simp)]

theorem nextWord_ne (l : List Tok) : nextWord l ≠ .error .fuel := by
  rw [nextWord]
  have := currentWord_ne (skipWs l)
  split
  · simp
  · rename_i h
    rw [h] at this
    simpa using this

theorem readParams_ne (l : List Tok) : ∀ c args, readParams l c args ≠ .error .fuel := by
  induction l with
  | nil => simp [readParams]
  | cons t l ih =>
    intro c args
    rw [readParams]
    split
    · split <;> [simp; exact ih _ _]
    · split
      · split <;> [exact ih _ _; simp]
      · split
        · simp
        · split <;> [exact ih _ _; simp]

theorem readPath_ne (close : Sym) (o : Tok) (l : List Tok) : ∀ p, readPath close o l p ≠ .error .fuel := by
  induction l with
  | nil => simp [readPath]
  | cons t l ih =>
    intro p
    rw [readPath]
    split
    · simp
    · split
      · simp
      · split <;> [simp; exact ih _]

theorem resolveSide_ne (d : Defines) (l : List Tok) : resolveSide env d l ≠ .error .fuel := by
  rw [resolveSide.eq_def]
  split
  · rw [resolveValue]
    split
    · split <;> simp
    · simp
  · simp

theorem ifRightOp_ne (d : Defines) (toks : List Tok) : ifRight.ifRightOp env d toks ≠ .error .fuel := by
  rw [ifRight.ifRightOp]
  dsimp only
  split
  · split <;> simp
  · have := resolveSide_ne (env := env) d
    split
    · rename_i he; intro h; refine this _ (he.trans ?_); simpa using h
    · simp

theorem ifRight_ne (d : Defines) (left : List Tok) (b : Bool) (toks : List Tok) :
    ifRight env d left b toks ≠ .error .fuel := by
  rw [ifRight.eq_def]
  split
  · split
    · split <;> simp
    · exact ifRightOp_ne _ _
  · exact ifRightOp_ne _ _

theorem ifCompare_ne (l op r : List Tok) (ld rd : Bool) : ifCompare env l ld op r rd ≠ .error .fuel := by
  rw [ifCompare.eq_def]
  dsimp only
  split
  · simp
  · split
    · simp
    · split
      · split <;> simp
      · split <;> simp

theorem directiveIf_ne (st : St) (cmd : Tok) (toks : List Tok) : directiveIf env st cmd toks ≠ .error .fuel := by
  rw [directiveIf]
  dsimp only
  split
  · split <;> simp
  · split
    · rename_i he; intro h; refine resolveSide_ne _ _ (he.trans ?_); simpa using h
    · split
      · simp
      · split
        · rename_i he; intro h; refine ifRight_ne _ _ _ _ (he.trans ?_); simpa using h
        · split
          · rename_i he; intro h; refine ifCompare_ne _ _ _ _ _ (he.trans ?_); simpa using h
          · split
            · rename_i he; intro h; refine expectNothing_ne _ (he.trans ?_); simpa using h
            · simp

theorem directiveIfdef_ne (st : St) (cmd : Tok) (b : Bool) (toks : List Tok) :
    directiveIfdef st cmd b toks ≠ .error .fuel := by
  rw [directiveIfdef]
  split
  · rename_i he; intro h; refine nextWord_ne _ (he.trans ?_); simpa using h
  · split
    · rename_i he; intro h; refine expectNothing_ne _ (he.trans ?_); simpa using h
    · simp

theorem directiveUndef_ne (st : St) (toks : List Tok) : directiveUndef st toks ≠ .error .fuel := by
  rw [directiveUndef]
  split
  · rename_i he; intro h; refine nextWord_ne _ (he.trans ?_); simpa using h
  · split
    · rename_i he; intro h; refine expectNothing_ne _ (he.trans ?_); simpa using h
    · simp

theorem directiveDefine_ne (st : St) (toks : List Tok) : directiveDefine st toks ≠ .error .fuel := by
  rw [directiveDefine]
  split
  · rename_i he; intro h; refine nextWord_ne _ (he.trans ?_); simpa using h
  · split
    · simp
    · dsimp only
      split
      · simp
      · split
        · split
          · rename_i he; intro h; refine readParams_ne _ _ _ (he.trans ?_); simpa using h
          · simp
        all_goals simp

theorem readPragma_ne (c : Tok) (toks : List Tok) : readPragma c toks ≠ .error .fuel := by
  rw [readPragma]
  split
  · rename_i he; intro h; refine nextWord_ne _ (he.trans ?_); simpa using h
  · split
    · split
      · simp
      · split
        · rename_i he; intro h; refine expectNothing_ne _ (he.trans ?_); simpa using h
        · simp
    · simp
    · simp

theorem addSuppress_ne (p : Pragma) (t : Tok) (s : Scope) : p.addSuppress t s ≠ .error .fuel := by
  rw [Pragma.addSuppress]; split <;> simp

theorem addFlag_ne (p : Pragma) (t : Tok) (s : Scope) : p.addFlag t s ≠ .error .fuel := by
  rw [Pragma.addFlag]; split <;> simp

theorem directivePragma_ne (st : St) (toks : List Tok) : directivePragma st toks ≠ .error .fuel := by
  rw [directivePragma]
  split
  · rename_i he; intro h; refine nextWord_ne _ (he.trans ?_); simpa using h
  · split
    · simp
    · split
      · rename_i he; intro h; refine nextWord_ne _ (he.trans ?_); simpa using h
      · split
        · split
          · rename_i he; intro h; refine readPragma_ne _ _ (he.trans ?_); simpa using h
          · split
            · rename_i he; intro h; refine addSuppress_ne _ _ _ (he.trans ?_); simpa using h
            · simp
        · split
          · split
            · rename_i he; intro h; refine readPragma_ne _ _ (he.trans ?_); simpa using h
            · split
              · rename_i he; intro h; refine addFlag_ne _ _ _ (he.trans ?_); simpa using h
              · simp
          · simp

theorem flip_ne (s : IfStates) (t : Tok) : s.flip t ≠ .error .fuel := by
  rw [IfStates.flip]; repeat' (first | (simp; done) | split)

theorem includeTarget_ne (hl : ∀ p, env.load p ≠ .error .fuel) (st : St) (toks : List Tok) :
    includeTarget env st toks ≠ .error .fuel := by
  rw [includeTarget]
  split
  · simp
  · dsimp only
    split
    iterate 2
      · split
        · rename_i he; intro h; refine readPath_ne _ _ _ _ (he.trans ?_); simpa using h
        · split
          · simp
          · rename_i he; intro h; refine expectNothing_ne _ (he.trans ?_); simpa using h
          · split
            · simp
            · split
              · simp
              · split
                · rename_i he; intro h; refine hl _ (he.trans ?_); simpa using h
                · simp
    · simp

/-! ### Files -/

theorem directive_stable {st toks buf} : ∀ n m, n ≤ m →
    directive n env st toks buf ≠ .error .fuel → directive m env st toks buf = directive n env st toks buf :=
  fun _ _ h hne => eq_of_le (f := fun n => directive n env st toks buf) (fun n => (mono n).2.2.2.1 ..) h rfl hne

/-- A state good at file level in the same file, the end of a stream. -/
structure Fine (rank : Text → Nat) (st : St) (toks : List Tok) (st' : St) (toks' : List Tok) : Prop where
  good : GoodFile rank st'
  files : st'.files = st.files
  suf : toks' <:+ toks

theorem Fine.trans {rank : Text → Nat} {st st' st'' : St} {l l' l'' : List Tok} (h : Fine rank st l st' l')
    (k : Fine rank st' l' st'' l'') : Fine rank st l st'' l'' :=
  ⟨k.good, k.files.trans h.files, k.suf.trans h.suf⟩

theorem Fine.wider {rank : Text → Nat} {st st' : St} {l l' l'' : List Tok} (h : Fine rank st l st' l')
    (k : l <:+ l'') : Fine rank st l'' st' l' := ⟨h.good, h.files, h.suf.trans k⟩

/-- Reading the file `p` ends. -/
def FileStops (env : Env) (rank : Text → Nat) (p : Text) : Prop :=
  ∀ all st fs buf, env.load p = .ok all → st.files = p :: fs → GoodFile rank st →
    Stops (fun n => file n env st all buf) fun x => GoodFile rank x.1 ∧ x.1.files = st.files

theorem liftR_stops {rank : Text → Nat} {st : St} {toks : List Tok} {buf : List Out} {f : Nat → R}
    {x : Except PErr (St × List Tok)} (hx : x ≠ .error .fuel) (hf : f 1 = liftR buf x)
    (hp : ∀ st' toks', x = .ok (st', toks') → Fine rank st toks st' toks') :
    Stops f fun x => Fine rank st toks x.1 x.2.1 := by
  cases x with
  | error e => exact Stops.one (.error e) hf (by simpa using hx) (by simp)
  | ok y =>
    obtain ⟨st', toks'⟩ := y
    refine Stops.one (.ok (st', toks', buf)) hf (by simp) ?_
    rintro x h; cases h
    exact hp _ _ rfl

theorem word_of_text {t : Tok} {w : Text} (h : t.sym.isWord = true) (hw : t.sym.text = w) : t.sym = .word w := by
  cases hs : t.sym <;> rw [hs] at h hw <;> simp_all [Sym.isWord, Sym.text]

theorem commandStops {rank frank : Text → Nat} (hac : Acyclic env rank frank) {p : Text} {fs : List Text}
    (ihf : ∀ q, frank q < frank p → FileStops env rank q)
    {all pre toks : List Tok} {h d : Tok} (hload : env.load p = .ok all) (hall : all = pre ++ h :: d :: toks)
    (hh : h.sym = .directive) (hd : d.sym.isWord = true) (st : St) (buf : List Out)
    (hfs : st.files = p :: fs) (hg : GoodFile rank st) :
    Stops (fun n => command n env st d toks buf) fun x => Fine rank st toks x.1 x.2.1 := by
  by_cases c1 : d.sym.text = kw "else"
  · cases hfl : st.ifs.flip d with
    | error e =>
      refine Stops.one (.error e) ?_ (by rintro ⟨⟩; exact flip_ne _ _ hfl) (by simp)
      rw [command.eq_def]; dsimp only; rw [if_pos c1, hfl]
    | ok ifs =>
      cases hen : expectNothing toks with
      | error e =>
        refine Stops.one (.error e) ?_ (by rintro ⟨⟩; exact expectNothing_ne _ hen) (by simp)
        rw [command.eq_def]; dsimp only; rw [if_pos c1, hfl, hen]
      | ok l =>
        refine Stops.one (.ok ({ st with ifs := ifs }, l, buf)) ?_ (by simp) ?_
        · rw [command.eq_def]; dsimp only; rw [if_pos c1, hfl, hen]
        · rintro x hx; cases hx; exact ⟨⟨hg.good, hg.stack⟩, rfl, expectNothing_suf hen⟩
  by_cases c2 : d.sym.text = kw "endif"
  · cases hen : expectNothing toks with
    | error e =>
      refine Stops.one (.error e) ?_ (by rintro ⟨⟩; exact expectNothing_ne _ hen) (by simp)
      rw [command.eq_def]; dsimp only; rw [if_neg c1, if_pos c2, hen]
    | ok l =>
      refine Stops.one (.ok ({ st with ifs := st.ifs.pop.2 }, l, buf)) ?_ (by simp) ?_
      · rw [command.eq_def]; dsimp only; rw [if_neg c1, if_pos c2, hen]
      · rintro x hx; cases hx; exact ⟨⟨hg.good, hg.stack⟩, rfl, expectNothing_suf hen⟩
  by_cases hr : st.ifs.reading = true
  swap
  · by_cases c3 : d.sym.text = kw "if" ∨ d.sym.text = kw "ifdef" ∨ d.sym.text = kw "ifndef"
    · refine Stops.one (.ok ({ st with ifs := st.ifs.push (.passingChild d) }, skipLine toks, buf)) ?_ (by simp) ?_
      · rw [command.eq_def]; dsimp only; rw [if_neg c1, if_neg c2, if_neg hr, if_pos c3]
      · rintro x hx; cases hx; exact ⟨⟨hg.good, hg.stack⟩, rfl, skipLine_suf _⟩
    · refine Stops.one (.ok (st, skipLine toks, buf)) ?_ (by simp) ?_
      · rw [command.eq_def]; dsimp only; rw [if_neg c1, if_neg c2, if_neg hr, if_neg c3]
      · rintro x hx; cases hx; exact ⟨⟨hg.good, hg.stack⟩, rfl, skipLine_suf _⟩
  by_cases c3 : d.sym.text = kw "include"
  · cases hit : includeTarget env st toks with
    | error e =>
      refine Stops.one (.error e) ?_ (by rintro ⟨⟩; exact includeTarget_ne hac.loads _ _ hit) (by simp)
      rw [command.eq_def]; dsimp only; rw [if_neg c1, if_neg c2, if_pos hr, if_pos c3, hit]
    | ok y =>
      obtain ⟨found, inner, ws, toks'⟩ := y
      obtain ⟨h1, h2, h3⟩ := includeTarget_good hac hload hall hh (word_of_text hd c3) hfs hit
      refine Stops.bind (ihf found h1 inner { st with
          pragma := st.pragma.child, files := found :: st.files,
          included := st.included ++ [found], warns := st.warns ++ ws } st.files buf h2 rfl ⟨hg.good, hg.stack⟩)
        file_stable (fun _ x => .ok ({ x.1 with pragma := st.pragma, files := st.files }, toks', x.2.2))
        (fun k => ?_) ?_
      · rw [command.eq_def]; dsimp only; rw [if_neg c1, if_neg c2, if_pos hr, if_pos c3, hit]
        dsimp only
        generalize file k env _ _ _ = z
        rcases z with e | ⟨a, b, c⟩ <;> rfl
      · rintro ⟨st', toks2, b'⟩ ⟨k1, k2⟩
        exact ⟨0, fun m _ => ⟨rfl, by simp, fun y hy => by
          cases hy; exact ⟨⟨k1.good, k1.stack⟩, rfl, h3⟩⟩⟩
  by_cases c4 : d.sym.text = kw "define"
  · refine liftR_stops (buf := buf) (directiveDefine_ne st toks) ?_ fun st' toks' hx => ?_
    · rw [command.eq_def]; dsimp only; rw [if_neg c1, if_neg c2, if_pos hr, if_neg c3, if_pos c4]
    · obtain ⟨k1, k2, k3⟩ := directiveDefine_good hac hload hall hh (word_of_text hd c4) hg hx
      exact ⟨k1, k2, k3⟩
  by_cases c5 : d.sym.text = kw "undef"
  · refine liftR_stops (buf := buf) (directiveUndef_ne st toks) ?_ fun st' toks' hx => ?_
    · rw [command.eq_def]; dsimp only; rw [if_neg c1, if_neg c2, if_pos hr, if_neg c3, if_neg c4, if_pos c5]
    · obtain ⟨k1, k2, k3⟩ := directiveUndef_good hg hx
      exact ⟨k1, k2, k3⟩
  by_cases c6 : d.sym.text = kw "if"
  · refine liftR_stops (buf := buf) (directiveIf_ne (env := env) st d toks) ?_ fun st' toks' hx => ?_
    · rw [command.eq_def]; dsimp only
      rw [if_neg c1, if_neg c2, if_pos hr, if_neg c3, if_neg c4, if_neg c5, if_pos c6]
    · obtain ⟨k1, k2, k3⟩ := directiveIf_good hx
      exact ⟨hg.of_same k1, k2, k3⟩
  by_cases c7 : d.sym.text = kw "ifdef"
  · refine liftR_stops (buf := buf) (directiveIfdef_ne st d true toks) ?_ fun st' toks' hx => ?_
    · rw [command.eq_def]; dsimp only
      rw [if_neg c1, if_neg c2, if_pos hr, if_neg c3, if_neg c4, if_neg c5, if_neg c6, if_pos c7]
    · obtain ⟨k1, k2, k3⟩ := directiveIfdef_good hx
      exact ⟨hg.of_same (by rw [k1]; exact ⟨rfl, rfl⟩), k2, k3⟩
  by_cases c8 : d.sym.text = kw "ifndef"
  · refine liftR_stops (buf := buf) (directiveIfdef_ne st d false toks) ?_ fun st' toks' hx => ?_
    · rw [command.eq_def]; dsimp only
      rw [if_neg c1, if_neg c2, if_pos hr, if_neg c3, if_neg c4, if_neg c5, if_neg c6, if_neg c7, if_pos c8]
    · obtain ⟨k1, k2, k3⟩ := directiveIfdef_good hx
      exact ⟨hg.of_same (by rw [k1]; exact ⟨rfl, rfl⟩), k2, k3⟩
  by_cases c9 : d.sym.text = kw "pragma"
  · refine liftR_stops (buf := buf) (directivePragma_ne st toks) ?_ fun st' toks' hx => ?_
    · rw [command.eq_def]; dsimp only
      rw [if_neg c1, if_neg c2, if_pos hr, if_neg c3, if_neg c4, if_neg c5, if_neg c6, if_neg c7, if_neg c8, if_pos c9]
    · obtain ⟨k1, k2, k3⟩ := directivePragma_good hx
      exact ⟨hg.of_same (by rw [k1]; exact ⟨rfl, rfl⟩), k2, k3⟩
  refine Stops.one (.error (.code 4 d)) ?_ (by simp) (by simp)
  rw [command.eq_def]; dsimp only
  rw [if_neg c1, if_neg c2, if_pos hr, if_neg c3, if_neg c4, if_neg c5, if_neg c6, if_neg c7, if_neg c8, if_neg c9]

/-- What a directive leaves, and that it takes its `#`. -/
theorem directiveStops {rank frank : Text → Nat} (hac : Acyclic env rank frank) {p : Text} {fs : List Text}
    (ihf : ∀ q, frank q < frank p → FileStops env rank q)
    {all toks : List Tok} (hload : env.load p = .ok all) (hall : toks <:+ all) (st : St) (buf : List Out)
    (hfs : st.files = p :: fs) (hg : GoodFile rank st) :
    Stops (fun n => directive n env st toks buf) fun x => Fine rank st toks x.2.1 x.2.2.1 ∧
      (∀ t l, toks = t :: l → t.sym = .directive → x.2.2.1 <:+ l) ∧
      (x.1 = true → ∃ t l, toks = t :: l ∧ t.sym = .directive) := by
  obtain ⟨pre, hall⟩ := hall
  cases toks with
  | nil =>
    refine Stops.one (.ok (false, st, [], buf)) ?_ (by simp) ?_
    · rw [directive.eq_def]
    · rintro x hx; cases hx; exact ⟨⟨hg, rfl, List.suffix_rfl⟩, by simp, by simp⟩
  | cons t l =>
    by_cases ht : t.sym = .directive
    · cases l with
      | nil =>
        refine Stops.one (.ok (false, st, [], buf)) ?_ (by simp) ?_
        · rw [directive.eq_def]; dsimp only; rw [if_pos ht]
        · rintro x hx; cases hx
          exact ⟨⟨hg, rfl, List.nil_suffix⟩, fun _ _ _ _ => List.nil_suffix, by simp⟩
      | cons c l =>
        by_cases hc : c.sym.isWord = true
        · refine Stops.bind (commandStops hac ihf hload hall.symm ht hc st buf hfs hg) command_stable
            (fun _ x => .ok (true, x.1, x.2.1, x.2.2)) (fun k => ?_) ?_
          · rw [directive.eq_def]; dsimp only; rw [if_pos ht, if_pos hc]
            generalize command k env _ _ _ _ = z
            rcases z with e | ⟨a, b, c⟩ <;> rfl
          · rintro ⟨st', toks', b'⟩ k1
            refine ⟨0, fun m _ => ⟨rfl, by simp, fun y hy => ?_⟩⟩
            cases hy
            refine ⟨k1.wider ((List.suffix_cons c l).trans (List.suffix_cons t _)), ?_, fun _ => ⟨t, _, rfl, ht⟩⟩
            rintro _ _ h _; cases h
            exact k1.suf.trans (List.suffix_cons c l)
        · refine Stops.one (.ok (false, st, c :: l, buf)) ?_ (by simp) ?_
          · rw [directive.eq_def]; dsimp only; rw [if_pos ht, if_neg hc]
          · rintro x hx; cases hx
            refine ⟨⟨hg, rfl, List.suffix_cons t _⟩, ?_, by simp⟩
            rintro _ _ h _; cases h; exact List.suffix_rfl
    · refine Stops.one (.ok (false, st, t :: l, buf)) ?_ (by simp) ?_
      · rw [directive.eq_def]; dsimp only; rw [if_neg ht]
      · rintro x hx; cases hx
        refine ⟨⟨hg, rfl, List.suffix_rfl⟩, ?_, by simp⟩
        rintro _ _ h h'; cases h; exact absurd h' ht

theorem exists_below (rank : Text → Nat) (l : List Tok) : ∃ r, Below rank r l := by
  induction l with
  | nil => exact ⟨0, by simp [Below]⟩
  | cons t l ih =>
    obtain ⟨r, hr⟩ := ih
    cases hs : t.sym with
    | word w =>
      refine ⟨max r (rank w + 1), fun u hu v hv => ?_⟩
      rcases List.mem_cons.1 hu with rfl | hu
      · rw [hs] at hv; cases hv; omega
      · have := hr u hu v hv; omega
    | _ =>
      refine ⟨r, fun u hu v hv => ?_⟩
      rcases List.mem_cons.1 hu with rfl | hu
      · rw [hs] at hv; cases hv
      · exact hr u hu v hv

theorem walkStops {rank frank : Text → Nat} (hac : Acyclic env rank frank) {p : Text} {fs : List Text}
    (ihf : ∀ q, frank q < frank p → FileStops env rank q)
    {all toks : List Tok} (hload : env.load p = .ok all) (hall : toks <:+ all) (q jw : Bool) (quote : Option Pos)
    (st : St) (buf : List Out) (hfs : st.files = p :: fs) (hg : GoodFile rank st) :
    Stops (fun n => walk n env none none q jw quote st toks buf) fun x => Fine rank st toks x.1 x.2.1 ∧
      (∀ t l, toks = t :: l → t.sym ≠ .eoi → x.2.1 <:+ l) := by
  obtain ⟨r, hr⟩ := exists_below rank all
  generalize hk : toks.length = k
  induction k using Nat.strong_induction_on generalizing toks q jw quote st buf with
  | _ k ihk =>
  cases toks with
  | nil =>
    refine Stops.one (.ok (st, [], buf)) ?_ (by simp) ?_
    · rw [walk.eq_def]
    · rintro x h; cases h; exact ⟨⟨hg, rfl, List.suffix_rfl⟩, by simp⟩
  | cons t rest =>
    have hlt : rest.length < k := by rw [← hk]; simp
    have hrest : rest <:+ all := (List.suffix_cons t rest).trans hall
    have next : ∀ q jw quote buf st' toks', Fine rank st rest st' toks' →
        Stops (fun n => walk n env none none q jw quote st' toks' buf)
        fun x => Fine rank st (t :: rest) x.1 x.2.1 ∧ (∀ t' l, t :: rest = t' :: l → t'.sym ≠ .eoi → x.2.1 <:+ l) := by
      intro q jw quote buf st' toks' hf
      have := hf.suf.length_le
      refine (ihk toks'.length (by omega) (hf.suf.trans hrest) q jw quote st' buf (hf.files.trans hfs) hf.good rfl).mono ?_
      rintro x ⟨h1, h2⟩
      refine ⟨(hf.trans h1).wider (List.suffix_cons t rest), ?_⟩
      rintro _ _ h _; cases h
      exact h1.suf.trans hf.suf
    have here : Fine rank st rest st rest := ⟨hg, rfl, List.suffix_rfl⟩
    obtain ⟨s, ps⟩ := t
    have step : ∀ q' jw' quote' buf', (∀ n, walk (n + 1) env none none q jw quote st (⟨s, ps⟩ :: rest) buf =
        walk n env none none q' jw' quote' st rest buf') →
        Stops (fun n => walk n env none none q jw quote st (⟨s, ps⟩ :: rest) buf)
        fun x => Fine rank st (⟨s, ps⟩ :: rest) x.1 x.2.1 ∧
          (∀ t l, (⟨s, ps⟩ :: rest : List Tok) = t :: l → t.sym ≠ .eoi → x.2.1 <:+ l) :=
      fun q' jw' quote' buf' h => (next q' jw' quote' buf' st rest here).succ h fun x h => h
    have stop : (∀ n, walk (n + 1) env none none q jw quote st (⟨.eoi, ps⟩ :: rest) buf =
        .ok (st, ⟨.eoi, ps⟩ :: rest, buf)) → Stops (fun n => walk n env none none q jw quote st (⟨.eoi, ps⟩ :: rest) buf)
        fun x => Fine rank st (⟨.eoi, ps⟩ :: rest) x.1 x.2.1 ∧
          (∀ t l, (⟨.eoi, ps⟩ :: rest : List Tok) = t :: l → t.sym ≠ .eoi → x.2.1 <:+ l) := by
      intro h
      refine Stops.one _ (h 0) (by simp) ?_
      rintro x h; cases h
      refine ⟨⟨hg, rfl, List.suffix_rfl⟩, ?_⟩
      rintro _ _ h h'; cases h; exact absurd rfl h'
    have err : ∀ (e : PErr), e ≠ .fuel → (∀ n, walk (n + 1) env none none q jw quote st (⟨s, ps⟩ :: rest) buf =
        .error e) → Stops (fun n => walk n env none none q jw quote st (⟨s, ps⟩ :: rest) buf)
        fun x => Fine rank st (⟨s, ps⟩ :: rest) x.1 x.2.1 ∧
          (∀ t l, (⟨s, ps⟩ :: rest : List Tok) = t :: l → t.sym ≠ .eoi → x.2.1 <:+ l) :=
      fun e he h => Stops.one _ (h 0) (by simpa using he) (by simp)
    cases q with
    | true =>
      cases s
      case eoi => exact stop fun n => by rw [walk.eq_def]
      all_goals
        apply step
        · intro n; rw [walk.eq_def]
    | false =>
      cases s
      case eoi => exact stop fun n => by rw [walk.eq_def]
      case word w =>
        by_cases h1 : w = kw "__EXEC"
        · refine err (.code 25 ⟨.word w, ps⟩) (by simp) fun n => ?_
          rw [walk.eq_def]; dsimp only; rw [if_pos h1]
        · by_cases h2 : isUnsupportedBuiltin w = true
          · refine err (.code 26 ⟨.word w, ps⟩) (by simp) fun n => ?_
            rw [walk.eq_def]; dsimp only; rw [if_neg h1, if_pos h2]
          · by_cases h3 : (none : Option Text) ≠ some w ∧ st.defs.containsKey w = true
            · have hb : Below rank r (⟨.word w, ps⟩ :: rest) := fun u hu => hr u (hall.subset hu)
              refine Stops.bind (useStops hac (r := r) (fun r' _ => bodyStops hac r') (⟨.word w, ps⟩ :: rest) ps
                (hac.paths hload _ (hall.subset List.mem_cons_self)) st buf _ rest w rfl rfl hg.good hb) defineUse_stable
                (fun n x => walk n env none none false false none x.1 x.2.1 (closeQuote x.1 quote x.2.2))
                (fun n => ?_) ?_
              · rw [walk.eq_def]; dsimp only; rw [if_neg h1, if_neg h2, if_pos h3, Option.getD_none]
                generalize defineUse n env _ _ _ _ = z
                rcases z with e | ⟨a, b, c⟩ <;> rfl
              · rintro ⟨st', toks', b'⟩ ⟨k1, k2⟩
                exact (next false false none _ st' toks'
                  ⟨hg.of_same ⟨k1.global, k1.stack⟩, k1.files, k2⟩).stable walk_stable
            · apply step
              intro n; rw [walk.eq_def]
              dsimp only; rw [if_neg h1, if_neg h2, if_neg h3]
      case directive =>
        by_cases h1 : jw = true ∧ (rest.head?.any fun c => directiveWords.contains c.sym.text) = true
        · refine Stops.bind (directiveStops hac ihf hload hall st buf hfs hg) directive_stable
            (fun n x => walk n env none none false true quote x.2.1 x.2.2.1 x.2.2.2) (fun n => ?_) ?_
          · rw [walk.eq_def]; dsimp only; rw [if_pos h1]
            generalize directive n env _ _ _ = z
            rcases z with e | ⟨a, b, c, d⟩ <;> rfl
          · rintro ⟨b, st', toks', b'⟩ ⟨k1, k2, _⟩
            exact (next false true quote b' st' toks' ⟨k1.good, k1.files, k2 _ _ rfl rfl⟩).stable walk_stable
        · apply step
          intro n; rw [walk.eq_def]
          dsimp only; rw [if_neg h1, if_neg (by simp)]
      case newline =>
        refine Stops.one (.ok (st, rest, output st ⟨.newline, ps⟩ buf)) ?_ (by simp) ?_
        · rw [walk.eq_def]; dsimp only; rw [if_pos rfl]
        · rintro x h; cases h
          refine ⟨⟨hg, rfl, List.suffix_cons _ rest⟩, ?_⟩
          rintro _ _ h _; cases h; exact List.suffix_rfl
      all_goals
        apply step
        · intro n; rw [walk.eq_def]

theorem skipWs_head {t : Tok} {l : List Tok} (h : t.sym.isWs = false) : skipWs (t :: l) = t :: l := by
  rw [skipWs, if_neg (by simp [h])]

theorem lineStops {rank frank : Text → Nat} (hac : Acyclic env rank frank) {p : Text} {fs : List Text}
    (ihf : ∀ q, frank q < frank p → FileStops env rank q)
    {all : List Tok} {t : Tok} {rest : List Tok} (hload : env.load p = .ok all) (hall : t :: rest <:+ all)
    (ht : t.sym ≠ .eoi) (st : St) (buf : List Out) (hfs : st.files = p :: fs) (hg : GoodFile rank st) :
    Stops (fun n => line n env st (t :: rest) buf) fun x => Fine rank st rest x.1 x.2.1 := by
  have hsk := skipWsOut_suf st (t :: rest) buf
  generalize hz : skipWsOut st (t :: rest) buf = z at hsk
  obtain ⟨toks, buf1⟩ := z
  simp only at hsk
  have hsuf : toks <:+ t :: rest := hsk ▸ skipWs_suf _
  -- either whitespace was taken, or the stream still starts with `t`
  have hcase : toks <:+ rest ∨ toks = t :: rest := by
    rw [hsk]
    by_cases hw : t.sym.isWs = true
    · rw [skipWs, if_pos hw]; exact .inl (skipWs_suf _)
    · exact .inr (skipWs_head (by simpa using hw))
  have take : ∀ l, l <:+ toks → (∀ t' l', toks = t' :: l' → t'.sym ≠ .eoi → l <:+ l') → l <:+ rest := by
    intro l h1 h2
    rcases hcase with h | h
    · exact h1.trans h
    · exact h2 t rest h ht
  refine Stops.bind (directiveStops hac ihf hload (hsuf.trans hall) st buf1 hfs hg) directive_stable
    (fun n x => if x.1 = true then .ok (x.2.1, x.2.2.1, x.2.2.2) else
      if x.2.1.ifs.reading then
        match walk n env none none false true none x.2.1 x.2.2.1 x.2.2.2 with
        | .error e => .error e
        | .ok (st, toks, buf) => .ok ({ st with pragma := st.pragma.clearLine }, toks, buf)
      else .ok ({ x.2.1 with pragma := x.2.1.pragma.clearLine }, skipLine x.2.2.1, x.2.2.2)) (fun n => ?_) ?_
  · rw [line.eq_def]; dsimp only; rw [hz]; dsimp only
    generalize directive n env _ _ _ = z
    rcases z with e | ⟨a, b, c, d⟩
    · rfl
    · cases a
      · dsimp only
        by_cases hrd : b.ifs.reading = true
        · simp only [hrd, if_true, Bool.false_eq_true, if_false]
          generalize walk n env _ _ _ _ _ _ _ _ = z
          rcases z with e | ⟨a, b, c⟩ <;> rfl
        · simp only [hrd, Bool.false_eq_true, if_false]
      · rfl
  · rintro ⟨a, st', toks', b'⟩ ⟨k1, k2, k3⟩
    simp only at k1 k2 k3 ⊢
    cases a with
    | true =>
      refine ⟨0, fun m _ => ⟨rfl, by simp, fun y hy => ?_⟩⟩
      rw [if_pos rfl] at hy
      cases hy
      obtain ⟨t', l', h1, h2⟩ := k3 rfl
      refine ⟨k1.good, k1.files, take _ k1.suf fun t'' l'' h3 _ => ?_⟩
      rw [h1] at h3; cases h3
      exact k2 _ _ h1 h2
    | false =>
      simp only [Bool.false_eq_true, if_false]
      by_cases hrd : st'.ifs.reading = true
      · simp only [if_pos hrd]
        obtain ⟨n, hn⟩ := (walkStops hac ihf hload (k1.suf.trans (hsuf.trans hall)) false true none st' b'
          (k1.files.trans hfs) k1.good).stable walk_stable
        refine ⟨n, fun m hm => ?_⟩
        obtain ⟨e1, e2, e3⟩ := hn m hm
        rw [e1]
        refine ⟨rfl, ?_, ?_⟩
        · split
          · rename_i e' he'
            intro hc
            apply e2
            rw [he']; simpa using hc
          · simp
        · intro y hy
          split at hy
          · simp at hy
          · rename_i st2 l2 b2 he2
            obtain ⟨f1, f2⟩ := e3 _ he2
            cases hy
            refine ⟨⟨f1.good.good, f1.good.stack⟩, f1.files.trans k1.files, take _ (f1.suf.trans k1.suf) ?_⟩
            rintro t' l' h1 h2
            by_cases hd : t'.sym = .directive
            · exact f1.suf.trans (k2 _ _ h1 hd)
            · obtain ⟨c, hc⟩ := k1.suf
              cases c with
              | nil =>
                simp only [List.nil_append] at hc
                exact f2 t' l' (hc.trans h1) h2
              | cons c0 c =>
                rw [h1] at hc
                cases hc
                exact f1.suf.trans ⟨c, rfl⟩
      · refine ⟨0, fun m _ => ⟨by rw [if_neg hrd, if_neg hrd], by rw [if_neg hrd]; simp, fun y hy => ?_⟩⟩
        rw [if_neg hrd] at hy
        cases hy
        refine ⟨⟨k1.good.good, k1.good.stack⟩, k1.files, take _ ((skipLine_suf _).trans k1.suf) ?_⟩
        rintro t' l' h1 h2
        obtain ⟨c, hc⟩ := k1.suf
        cases c with
        | nil =>
          simp only [List.nil_append] at hc
          rw [hc, h1]; exact skipLine_cons_suf t' l'
        | cons c0 c =>
          rw [h1] at hc
          cases hc
          exact (skipLine_suf _).trans ⟨c, rfl⟩

theorem fileStops {rank frank : Text → Nat} (hac : Acyclic env rank frank) (p : Text) : FileStops env rank p := by
  generalize hm : frank p = m
  induction m using Nat.strong_induction_on generalizing p with
  | _ m ihm =>
  have ihf : ∀ q, frank q < frank p → FileStops env rank q := fun q hq => ihm (frank q) (hm ▸ hq) q rfl
  intro all st fs buf hload hfs hg
  suffices h : ∀ k toks st buf, toks.length = k → toks <:+ all → st.files = p :: fs → GoodFile rank st →
      Stops (fun n => file n env st toks buf) fun x => GoodFile rank x.1 ∧ x.1.files = st.files from
    h _ all st buf rfl List.suffix_rfl hfs hg
  intro k
  induction k using Nat.strong_induction_on with
  | _ k ihk =>
  intro toks st buf hk hall hfs hg
  cases toks with
  | nil =>
    refine Stops.one (.ok (st, [], buf)) ?_ (by simp) ?_
    · rw [file.eq_def]
    · rintro x h; cases h; exact ⟨hg, rfl⟩
  | cons t rest =>
    by_cases ht : t.sym = .eoi
    · refine Stops.one (.ok (st, t :: rest, buf)) ?_ (by simp) ?_
      · rw [file.eq_def]; dsimp only; rw [if_pos ht]
      · rintro x h; cases h; exact ⟨hg, rfl⟩
    · refine Stops.bind (lineStops hac ihf hload hall ht st buf hfs hg) line_stable
        (fun n x => file n env x.1 x.2.1 x.2.2) (fun n => ?_) ?_
      · rw [file.eq_def]; dsimp only; rw [if_neg ht]
        generalize line n env _ _ _ = z
        rcases z with e | ⟨a, b, c⟩ <;> rfl
      · rintro ⟨st', toks', b'⟩ k1
        simp only at k1 ⊢
        have := k1.suf.length_le
        refine ((ihk toks'.length (by simp only [List.length_cons] at hk; omega) toks' st' b' rfl
          (k1.suf.trans ((List.suffix_cons t rest).trans hall)) (k1.files.trans hfs) k1.good).mono ?_).stable file_stable
        rintro x ⟨f1, f2⟩
        exact ⟨f1, f2.trans k1.files⟩

end Verif.Preproc
