import Verif.Lib.PreprocStopFile
import Verif.Spec.PreprocTidy
/-!
Preprocessing tidy sources does not crash: the streams that are read never run out of tokens at a place where one is needed.
-/
namespace Verif.Preproc
open Spec

variable {env : Env} {calls : Text → Prop}

/-- A result that is no crash. -/
def Safe {α} (r : Except PErr α) (P : α → Prop) : Prop :=
  match r with
  | .ok x => P x
  | .error e => e ≠ .panic

theorem Safe.mono {α} {r : Except PErr α} {P Q : α → Prop} (h : Safe r P) (hpq : ∀ x, P x → Q x) : Safe r Q := by
  cases r with
  | ok x => exact hpq x h
  | error e => exact h

/-! ### Streams -/

/-- A stream that goes on to a line break and the end of the file. -/
def Full (l : List Tok) : Prop := ∃ y nl e, l = y ++ [nl, e] ∧ nl.sym = .newline ∧ e.sym = .eoi

theorem Full.ne {l : List Tok} (h : Full l) : l ≠ [] := by
  obtain ⟨y, nl, e, rfl, _⟩ := h
  simp

theorem Full.tail {t : Tok} {l : List Tok} (h : Full (t :: l)) (ht : t.sym ≠ .newline) : Full l := by
  obtain ⟨y, nl, e, heq, hn, he⟩ := h
  cases y with
  | nil =>
    simp only [List.nil_append, List.cons.injEq] at heq
    exact absurd (heq.1 ▸ hn) ht
  | cons a y =>
    simp only [List.cons_append, List.cons.injEq] at heq
    exact ⟨y, nl, e, heq.2, hn, he⟩

theorem Full.of_suffix {t : Tok} {l all : List Tok} (h : Full all) (hs : t :: l <:+ all) (ht : t.sym ≠ .eoi) :
    Full (t :: l) := by
  obtain ⟨y, nl, e, rfl, hn, he⟩ := h
  rcases List.suffix_or_suffix_of_suffix hs (List.suffix_append y [nl, e]) with h1 | h1
  · obtain ⟨a, ha⟩ := h1
    rcases a with _ | ⟨a, _ | ⟨b, a⟩⟩
    · exact ⟨[], nl, e, by simpa using ha, hn, he⟩
    · simp only [List.cons_append, List.nil_append, List.cons.injEq] at ha
      exact absurd (ha.2.1 ▸ he) ht
    · simp at ha
  · obtain ⟨a, ha⟩ := h1
    exact ⟨a, nl, e, ha.symm, hn, he⟩

theorem ws_ne_newline {s : Sym} (h : s.isWs = true) : s ≠ .newline := by rintro rfl; simp [Sym.isWs] at h

theorem word_ne_newline {s : Sym} (h : s.isWord = true) : s ≠ .newline := by rintro rfl; simp [Sym.isWord] at h

theorem Full.skipWs {l : List Tok} (h : Full l) : Full (skipWs l) := by
  induction l with
  | nil => exact absurd rfl h.ne
  | cons t l ih =>
    rw [Preproc.skipWs]
    split
    · rename_i hw
      exact ih (h.tail (ws_ne_newline hw))
    · exact h

theorem Full.readValue {l : List Tok} (h : Full l) : Full (readValue l).2 := by
  induction l with
  | nil => exact absurd rfl h.ne
  | cons t l ih =>
    rw [Preproc.readValue]
    split
    · exact h
    · rename_i hw
      exact ih (h.tail (fun hn => hw (.inr hn)))

theorem currentWord_safe {l : List Tok} (h : l ≠ []) : (currentWord l).1 ≠ .error .panic := by
  cases l with
  | nil => exact absurd rfl h
  | cons t l => rw [currentWord]; split_ifs <;> simp

theorem Full.currentWord {l : List Tok} (h : Full l) {t : Tok} {l' : List Tok} (hc : currentWord l = (.ok t, l')) :
    Full l' := by
  cases l with
  | nil => exact absurd rfl h.ne
  | cons a l =>
    rw [Preproc.currentWord] at hc
    split_ifs at hc with hw h2
    · simp only [Prod.mk.injEq] at hc
      exact hc.2 ▸ h.tail (word_ne_newline hw)
    · simp at hc
    · simp at hc

theorem Full.nextWord {l : List Tok} (h : Full l) : Safe (nextWord l) fun x => Full x.2 := by
  rw [Preproc.nextWord]
  have h1 := currentWord_safe h.skipWs.ne
  split
  · rename_i t l' hc
    exact h.skipWs.currentWord hc
  · rename_i e l' hc
    rw [hc] at h1
    intro he
    exact h1 (by rw [he])

theorem expectNothing_safe (l : List Tok) : expectNothing l ≠ .error .panic := by
  induction l with
  | nil => simp [expectNothing]
  | cons t l ih => rw [expectNothing]; split_ifs <;> simp_all

theorem readParams_safe (l : List Tok) : ∀ c args, readParams l c args ≠ .error .panic := by
  induction l with
  | nil => intros; simp [readParams]
  | cons t l ih =>
    intro c args
    rw [readParams]
    split_ifs <;> first | exact ih _ _ | simp

theorem readPath_safe (close : Sym) (o : Tok) (l : List Tok) : ∀ p, readPath close o l p ≠ .error .panic := by
  induction l with
  | nil => intros; simp [readPath]
  | cons t l ih =>
    intro p
    rw [readPath]
    split_ifs <;> first | exact ih _ | simp

/-! ### Macros -/

/-- The last token is none of `calls`. -/
def Ending (calls : Text → Prop) (l : List Tok) : Prop := ∀ t w, l.getLast? = some t → t.sym = .word w → ¬ calls w

theorem Ending.suffix {a b : List Tok} (h : Ending calls b) (hs : a <:+ b) : Ending calls a := by
  obtain ⟨c, rfl⟩ := hs
  intro t w ht
  refine h t w ?_
  rw [List.getLast?_append, ht]
  rfl

/-- A macro whose body can be walked over. -/
def EntryTidy (calls : Text → Prop) (k : Text) : Definition → Prop
  | .value b => Ending calls (noJoin b) ∧ NoDir b
  | .function f => calls k ∧ Ending calls (noJoin f.body) ∧ NoDir f.body
  | .unit => calls k
  | .void => True

/-- Every global macro is tidy, every local one an argument. -/
structure TidyDefs (calls : Text → Prop) (d : Defines) : Prop where
  global : ∀ k e, d.global k = some e → EntryTidy calls k e.defn ∧ e.defn ≠ .void
  stack : ∀ f ∈ d.stack, ∀ k e, f.2 k = some e → e.src = .argument ∧ ∃ v, e.defn = .value v

theorem TidyDefs.of_same {d d' : Defines} (h : TidyDefs calls d) (h1 : d'.global = d.global) (h2 : d'.stack = d.stack) :
    TidyDefs calls d' := ⟨by rw [h1]; exact h.global, by rw [h2]; exact h.stack⟩

theorem noJoin_last {b : List Tok} {t : Tok} (h : (noJoin b).getLast? = some t) : t ∈ b :=
  (List.mem_filter.1 (List.mem_of_getLast? h)).1

/-- A place in a file that is not named like a macro of `calls`. -/
def OkSite (env : Env) (calls : Text → Prop) (s : Pos) : Prop :=
  ¬ calls (env.fileName s.path) ∧ ¬ calls (Defines.shortName (env.fileName s.path))

theorem getWithGen_tidy {d : Defines} (hg : TidyDefs calls d) {key : Tok}
    {w : Text} (hw : key.sym = .word w) {site : Pos} (hsite : OkSite env calls site) {e : Entry} {d' : Defines}
    (h : d.getWithGen env key site = (some e, d')) :
    (e.src = .argument ∧ ∃ v, e.defn = .value v) ∨ EntryTidy calls w e.defn := by
  rw [Defines.getWithGen] at h
  dsimp only at h
  simp only [hw, Sym.text] at h
  split at h
  · rename_i hb
    simp only [Prod.mk.injEq, Option.some.injEq] at h
    obtain ⟨rfl, _⟩ := h
    right
    simp only
    rw [Defines.builtin]
    dsimp only
    split_ifs with h1 h2 h3 h4 h5
    · exact ⟨by intro t w' h3; simp [noJoin] at h3; subst h3; simp, noDir_single _⟩
    · trivial
    · refine ⟨?_, by simp [NoDir, NotDir]⟩
      intro t w' h3; simp [noJoin] at h3; subst h3; simp
    · refine ⟨?_, noDir_single _⟩
      intro t w' h3 h4; simp [noJoin] at h3; subst h3
      simp only [Sym.word.injEq] at h4
      exact h4 ▸ hsite.1
    · refine ⟨?_, noDir_single _⟩
      intro t w' h3 h4; simp [noJoin] at h3; subst h3
      simp only [Sym.word.injEq] at h4
      exact h4 ▸ hsite.2
    · exact ⟨by intro t w' h3; simp [noJoin] at h3; subst h3; simp, noDir_single _⟩
  · have key : ∀ e', d.getReadonly w = some e' → (e'.src = .argument ∧ ∃ v, e'.defn = .value v) ∨
        EntryTidy calls w e'.defn := by
      intro e' he
      rw [Defines.getReadonly] at he
      split at he
      · exact .inr (hg.global _ _ he).1
      · rename_i n m s hs
        split at he
        · rename_i e'' hm
          simp only [Option.some.injEq] at he
          subst he
          exact .inl (hg.stack (n, m) (by rw [hs]; simp) w e'' hm)
        · exact .inr (hg.global _ _ he).1
    split at h
    · rename_i e' he
      have := key e' he
      split at h
      · split at h
        · simp only [Prod.mk.injEq, Option.some.injEq] at h
          rw [← h.1]; exact this
        · simp at h
      · simp only [Prod.mk.injEq, Option.some.injEq] at h
        rw [← h.1]; exact this
    · simp at h

/-- What a step keeps. -/
structure Kept (calls : Text → Prop) (st : St) (toks : List Tok) (st' : St) (toks' : List Tok) : Prop where
  defs : TidyDefs calls st'.defs
  stack : st'.defs.stack = st.defs.stack
  files : st'.files = st.files
  suf : toks' <:+ toks

theorem Kept.trans {st st' st'' : St} {l l' l'' : List Tok} (h : Kept calls st l st' l') (k : Kept calls st' l' st'' l'') :
    Kept calls st l st'' l'' :=
  ⟨k.defs, k.stack.trans h.stack, k.files.trans h.files, k.suf.trans h.suf⟩

theorem Kept.wider {st st' : St} {l l' l'' : List Tok} (h : Kept calls st l st' l') (k : l <:+ l'') :
    Kept calls st l'' st' l' := ⟨h.defs, h.stack, h.files, h.suf.trans k⟩

/-- What of a file is still to be read. -/
structure InFile (env : Env) (st : St) (l : List Tok) : Prop where
  stack : st.defs.stack = []
  src : ∃ p fs all, st.files = p :: fs ∧ env.load p = .ok all ∧ l <:+ all

/-- The streams that are walked over: bodies of macros and files. -/
def Stream (env : Env) (calls : Text → Prop) (st : St) (l : List Tok) : Prop :=
  (l.IsChain NotDir ∧ Ending calls l) ∨ InFile env st l

theorem InFile.kept {st st' : St} {l l' : List Tok} (h : InFile env st l) (k : Kept calls st l st' l') : InFile env st' l' := by
  obtain ⟨h1, p, fs, all, h2, h3, h4⟩ := h
  exact ⟨k.stack.trans h1, p, fs, all, k.files.trans h2, h3, k.suf.trans h4⟩

theorem Stream.kept {st st' : St} {l l' : List Tok} (h : Stream env calls st l) (k : Kept calls st l st' l') :
    Stream env calls st' l' := by
  rcases h with h | h
  · refine .inl ⟨?_, h.2.suffix k.suf⟩
    obtain ⟨a, rfl⟩ := k.suf
    exact h.1.right_of_append
  · exact .inr (h.kept k)

theorem InFile.full (ht : Tidy env calls) {st : St} {t : Tok} {l : List Tok} (h : InFile env st (t :: l))
    (he : t.sym ≠ .eoi) : Full (t :: l) := by
  obtain ⟨-, p, fs, all, -, h3, h4⟩ := h
  exact Full.of_suffix (ht.ends h3) h4 he

/-- A word of `calls` is never the last token. -/
theorem Stream.more (ht : Tidy env calls) {st : St} {t : Tok} {l : List Tok} {w : Text} (h : Stream env calls st (t :: l))
    (hw : t.sym = .word w) (hc : calls w) : l ≠ [] := by
  rintro rfl
  rcases h with h | h
  · exact h.2 t w rfl hw hc
  · exact ((h.full ht (by rw [hw]; simp)).tail (by rw [hw]; simp)).ne rfl

/-! ### Definitions -/

theorem readBody_last (l : List Tok) : ∀ (acc : List Tok) (e : Bool),
    e = decide (acc.getLast?.map Tok.sym = some .escape) →
    ∀ t w, ((readBody l acc).1.filter fun t => t.sym ≠ .join).getLast? = some t → t.sym = .word w →
      ((acc ++ logical e l).filter fun t => t.sym ≠ .join).getLast? = some t := by
  induction l with
  | nil => intro acc e he t w h _; simpa [readBody, logical] using h
  | cons a l ih =>
    intro acc e he t w h hw
    by_cases hn : a.sym = .newline
    · by_cases hesc : acc.getLast?.map Tok.sym = some .escape
      · have he' : e = true := by rw [he]; simpa using hesc
        subst he'
        have hlog : logical true (a :: l) = a :: logical false l := by
          rw [logical, if_neg (by simp), if_neg (by rw [hn]; simp), decide_eq_false (by rw [hn]; simp)]
        rw [readBody, if_pos hn, if_pos hesc] at h
        have := ih (acc.dropLast ++ [a]) false (by simp [hn]) t w h hw
        rw [hlog]
        have hna : (decide (a.sym ≠ .join)) = true := by simp [hn]
        simp only [List.append_assoc, List.cons_append, List.nil_append, List.filter_append, List.filter_cons, hna, if_true,
          List.getLast?_append, List.getLast?_cons, Option.some_or] at this ⊢
        exact this
      · have he' : e = false := by rw [he]; simpa using hesc
        subst he'
        rw [logical, if_pos ⟨hn, rfl⟩, List.append_nil]
        rwa [readBody, if_pos hn, if_neg hesc] at h
    · by_cases ho : a.sym = .eoi
      · rw [logical, if_neg (by simp [hn]), if_pos ho]
        rw [readBody, if_neg hn, if_pos ho] at h
        exact ih acc e he t w h hw
      · rw [logical, if_neg (by simp [hn]), if_neg ho]
        rw [readBody, if_neg hn, if_neg ho] at h
        have := ih (acc ++ [a]) (decide (a.sym = .escape)) (by simp) t w h hw
        simpa using this

theorem directiveDefine_tidy (ht : Tidy env calls) {st : St} {h d : Tok} {toks : List Tok}
    (hi : InFile env st (h :: d :: toks)) (hh : h.sym = .directive) (hd : d.sym = .word (kw "define"))
    (hg : TidyDefs calls st.defs) :
    Safe (directiveDefine st toks) fun x => Kept calls st toks x.1 x.2 := by
  have hfull : Full toks := ((hi.full ht (by rw [hh]; simp)).tail (by rw [hh]; simp)).tail (by rw [hd]; simp)
  rw [directiveDefine]
  have hnx := hfull.nextWord
  split
  · rename_i e he
    rw [he] at hnx
    exact hnx
  · rename_i ident l hnw
    obtain ⟨ws, name, heq, hws, hname⟩ := nextWord_eq hnw
    obtain ⟨hstk, p, fs, all, hf, hload, pre, hpre⟩ := hi
    obtain ⟨hc1, hc2, hc3⟩ := ht.defs (ws := ws) (nm := ident) (l := l) (pre := pre) hload (by rw [← hpre, heq]) hh hd hws hname
    have hsuf : l <:+ toks := ⟨ws ++ [ident], by rw [heq]; simp⟩
    split
    · simp [Safe]
    · rename_i next rest
      dsimp only
      split
      · simp [Safe]
      · have done : ∀ (ws : List Warn) (df : Definition) (src : DefSource) (l' : List Tok), EntryTidy calls name df → df ≠ .void →
            l' <:+ toks →
            Kept calls st toks { st with
              warns := ws
              defs := Defines.insert (st.defs.remove ident.sym.text).2 ident.sym.text
                { tok := ident, defn := df, src := src } } l' := by
          intro ws df src l' hdf hv hl'
          simp only [hname, Sym.text, Defines.remove, hstk, Defines.insert]
          refine ⟨⟨fun k e he => ?_, by simp⟩, by simp [hstk], rfl, hl'⟩
          simp only [Inner.insert, Inner.remove] at he
          split at he
          · rename_i hk
            simp only [Option.some.injEq] at he
            subst he hk
            exact ⟨hdf, hv⟩
          · exact hg.global k e he
        have body : ∀ l2 : List Tok, (∃ x, logical false (next :: rest) = x ++ logical false l2) →
            Ending calls (noJoin (readBody (skipWs l2) []).1) ∧ NoDir (readBody (skipWs l2) []).1 := by
          rintro l2 ⟨x, hx⟩
          obtain ⟨a, ha, hb⟩ := skipWs_suffix l2
          rw [ha, logical_blank hb] at hx
          have hnd : NoDir (logical false (skipWs l2)) := by
            rw [hx] at hc1
            exact NoDir.append_right (NoDir.append_right hc1)
          refine ⟨fun t w h1 h2 => hc2 t w ?_ h2, (readBody_good (skipWs l2) [] false (by simp) (by simpa using hnd)).1⟩
          have := readBody_last (skipWs l2) [] false (by simp) t w h1 h2
          rw [List.nil_append] at this
          rw [hx, List.filter_append, List.filter_append, List.getLast?_append, List.getLast?_append, this]
          rfl
        split
        · rename_i hnx
          split
          · rename_i e he
            intro h2
            exact readParams_safe rest false [] (by rw [he, h2])
          · rename_i args l2 hrp
            obtain ⟨x, hx⟩ := readParams_logical hrp
            have hlog : ∃ x, logical false (next :: rest) = x ++ logical false l2 := by
              refine ⟨next :: x, ?_⟩
              rw [logical, if_neg (by simp [hnx]), if_neg (by simp [hnx]), decide_eq_false (by simp [hnx]), hx]
              rfl
            exact done _ _ _ _ ⟨hc3 next rest rfl (.inl hnx), body l2 hlog⟩ (by simp)
              ((readBody_suf _ _).trans ((skipWs_suf l2).trans ((readParams_suf hrp).trans
              ((List.suffix_cons next rest).trans hsuf))))
        · rename_i hnx
          exact done _ _ _ _ (hc3 next rest rfl (.inr (.inl hnx))) (by simp) hsuf
        · rename_i hnx
          exact done _ _ _ _ (hc3 next rest rfl (.inr (.inr hnx))) (by simp) hsuf
        · exact done _ _ _ _ (body (next :: rest) ⟨[], rfl⟩) (by simp) ((readBody_suf _ _).trans ((skipWs_suf _).trans hsuf))

/-! ### Conditions -/

theorem readValue_mem (l : List Tok) : ∀ t ∈ (readValue l).1, t ∈ l.takeWhile fun t => t.sym ≠ .newline := by
  induction l with
  | nil => simp [readValue]
  | cons a l ih =>
    rw [readValue]
    split
    · simp
    · rename_i hw
      intro t ht
      rw [List.takeWhile_cons_of_pos (by simpa using fun h => hw (.inr h))]
      simp only [List.mem_cons] at ht ⊢
      rcases ht with rfl | ht
      · exact .inl rfl
      · exact .inr (ih t ht)

/-- The line goes on with this. -/
def Within (l' l : List Tok) : Prop :=
  ∀ t ∈ l'.takeWhile fun t => t.sym ≠ .newline, t ∈ l.takeWhile fun t => t.sym ≠ .newline

theorem skipWs_within (l : List Tok) : Within (skipWs l) l := by
  induction l with
  | nil => intro t ht; exact ht
  | cons a l ih =>
    rw [skipWs]
    split
    · rename_i hw
      intro t ht
      rw [List.takeWhile_cons_of_pos (by simpa using ws_ne_newline hw)]
      exact List.mem_cons_of_mem _ (ih t ht)
    · intro t ht; exact ht

theorem readValue_within (l : List Tok) : Within (readValue l).2 l := by
  induction l with
  | nil => intro t ht; exact ht
  | cons a l ih =>
    rw [readValue]
    split
    · intro t ht; exact ht
    · rename_i hw
      intro t ht
      rw [List.takeWhile_cons_of_pos (by simpa using fun h => hw (.inr h))]
      exact List.mem_cons_of_mem _ (ih t ht)

theorem resolveSide_safe {d : Defines} (hg : TidyDefs calls d) (hs : d.stack = []) {l : List Tok}
    (hl : ∀ t ∈ l, t.sym.text ≠ kw "__COUNTER_RESET__") :
    resolveSide env d l ≠ .error .panic := by
  rw [resolveSide.eq_def]
  split
  · rename_i t
    rw [resolveValue]
    split
    · rename_i e d2 he
      split
      · simp
      · rename_i hv
        exfalso
        rw [Defines.getWithGen] at he
        dsimp only at he
        split at he
        · rename_i hb
          simp only [Prod.mk.injEq, Option.some.injEq] at he
          obtain ⟨rfl, -⟩ := he
          simp only [Defines.builtin] at hv
          split_ifs at hv with h1 h2
          exact hl t (by simp) h2
        · rw [Defines.getReadonly, hs] at he
          dsimp only at he
          split at he
          · rename_i e' he'
            have h3 := (hg.global _ _ he').2
            split at he
            · rename_i f hf
              split at he
              · simp only [Prod.mk.injEq, Option.some.injEq] at he
                obtain ⟨rfl, -⟩ := he
                exact h3 hv
              · simp at he
            · simp only [Prod.mk.injEq, Option.some.injEq] at he
              obtain ⟨rfl, -⟩ := he
              exact h3 hv
          · simp at he
      · simp
    · simp
  · simp

theorem ifRight_safe {d : Defines} (hg : TidyDefs calls d) (hs : d.stack = []) {left : List Tok} {b : Bool} {toks : List Tok}
    (hf : Full toks) (hns : skipWs toks = toks)
    (hl : ∀ t ∈ toks.takeWhile fun t => t.sym ≠ .newline, t.sym.text ≠ kw "__COUNTER_RESET__") :
    ifRight env d left b toks ≠ .error .panic := by
  have hop : ∀ t l, toks = t :: l → t.sym ≠ .newline → ifRight.ifRightOp env d toks ≠ .error .panic := by
    rintro t l rfl hn
    rw [ifRight.ifRightOp]
    dsimp only
    split
    · rename_i hr
      split
      · simp
      · rename_i ho
        exfalso
        rw [List.getLast?_eq_none_iff, readValue, if_neg] at ho
        · simp at ho
        · rintro (hw | hw)
          · rw [skipWs, if_pos hw] at hns
            have h1 := (skipWs_suf l).length_le
            rw [hns] at h1
            simp at h1
          · exact hn hw
    · rename_i r1 r2 hr
      have : resolveSide env d (r1 :: r2) ≠ .error .panic := by
        refine resolveSide_safe hg hs fun t' ht' => ?_
        rw [← hr] at ht'
        exact hl t' (readValue_within _ _ (skipWs_within _ _ (readValue_mem _ _ ht')))
      rw [← hr] at this
      split
      · rename_i e he
        intro h2
        simp only [Except.error.injEq] at h2
        exact this (by rw [he, h2])
      · simp
  rw [ifRight.eq_def]
  split
  · rename_i t l
    split_ifs with h1 h2
    · simp
    · simp
    · exact hop t l rfl h1
  · exact absurd rfl hf.ne

theorem ifCompare_safe (l op r : List Tok) (ld rd : Bool) : ifCompare env l ld op r rd ≠ .error .panic := by
  rw [ifCompare.eq_def]
  dsimp only
  split_ifs
  · simp
  · simp
  · split <;> simp
  · split <;> simp

theorem skipWs_skipWs (l : List Tok) : skipWs (skipWs l) = skipWs l := by
  induction l with
  | nil => rfl
  | cons t l ih =>
    by_cases h : t.sym.isWs
    · rw [skipWs, if_pos h, ih]
    · rw [skipWs, if_neg h, skipWs, if_neg h]

theorem directiveIf_tidy (ht : Tidy env calls) {st : St} {h d : Tok} {toks : List Tok}
    (hi : InFile env st (h :: d :: toks)) (hh : h.sym = .directive) (hd : d.sym = .word (kw "if"))
    (hg : TidyDefs calls st.defs) :
    Safe (directiveIf env st d toks) fun x => Kept calls st toks x.1 x.2 := by
  have hfull : Full toks := ((hi.full ht (by rw [hh]; simp)).tail (by rw [hh]; simp)).tail (by rw [hd]; simp)
  have hreset : ∀ t ∈ toks.takeWhile fun t => t.sym ≠ .newline, t.sym.text ≠ kw "__COUNTER_RESET__" := by
    obtain ⟨-, p, fs, all, -, hload, pre, hpre⟩ := hi
    exact ht.ifs hload hpre.symm hh hd
  cases hr : directiveIf env st d toks with
  | ok x =>
    obtain ⟨st', toks'⟩ := x
    obtain ⟨⟨h1, h2⟩, h3, h4⟩ := directiveIf_good hr
    exact ⟨hg.of_same h1 h2, h2, h3, h4⟩
  | error e =>
    have hl1 : resolveSide env st.defs (readValue (skipWs toks)).1 ≠ .error .panic :=
      resolveSide_safe hg hi.stack fun t ht => hreset t (skipWs_within _ _ (readValue_mem _ _ ht))
    rw [directiveIf] at hr
    dsimp only at hr
    rintro rfl
    split at hr
    · split at hr <;> simp at hr
    · split at hr
      · rename_i e he
        simp only [Except.error.injEq] at hr
        exact hl1 (by rw [he, hr])
      · rename_i l ldef d' he
        have hsame := resolveSide_same he
        split at hr
        · simp at hr
        · split at hr
          · rename_i e2 he2
            simp only [Except.error.injEq] at hr
            refine ifRight_safe (hg.of_same hsame.1 hsame.2) (hsame.2.trans hi.stack) hfull.skipWs.readValue.skipWs (skipWs_skipWs _)
              (fun t ht => ?_) (by rw [he2, hr])
            exact hreset t (skipWs_within _ _ (readValue_within _ _ (skipWs_within _ _ ht)))
          · rename_i op r d2 toks2 he2
            split at hr
            · rename_i e3 he3
              simp only [Except.error.injEq] at hr
              exact ifCompare_safe _ _ _ _ _ (by rw [he3, hr])
            · split at hr
              · rename_i e4 he4
                simp only [Except.error.injEq] at hr
                exact expectNothing_safe _ (by rw [he4, hr])
              · simp at hr

theorem directiveIfdef_tidy {st : St} {cmd : Tok} {b : Bool} {toks : List Tok} (hf : Full toks) (hg : TidyDefs calls st.defs) :
    Safe (directiveIfdef st cmd b toks) fun x => Kept calls st toks x.1 x.2 := by
  have h1 := hf.nextWord
  rw [directiveIfdef]
  split
  · rename_i e he
    rw [he] at h1
    exact h1
  · rename_i t l hn
    split
    · rename_i e he
      rintro rfl
      exact expectNothing_safe _ he
    · rename_i l' he
      exact ⟨hg, rfl, rfl, (expectNothing_suf he).trans (nextWord_suf hn)⟩

theorem directiveUndef_tidy {st : St} {toks : List Tok} (hf : Full toks) (hs : st.defs.stack = []) (hg : TidyDefs calls st.defs) :
    Safe (directiveUndef st toks) fun x => Kept calls st toks x.1 x.2 := by
  have h1 := hf.nextWord
  rw [directiveUndef]
  split
  · rename_i e he
    rw [he] at h1
    exact h1
  · rename_i t l hn
    split
    · rename_i e he
      rintro rfl
      exact expectNothing_safe _ he
    · rename_i l' he
      refine ⟨⟨fun k e he => ?_, ?_⟩, ?_, rfl, (expectNothing_suf he).trans (nextWord_suf hn)⟩
      · simp only [Defines.remove, hs, Inner.remove] at he
        split at he
        · simp at he
        · exact hg.global k e he
      · simp only [Defines.remove, hs]
        simp
      · simp only [Defines.remove, hs]

/-! ### Pragmas and includes -/

theorem readPragma_tidy {cmd : Tok} {toks : List Tok} (hf : Full toks) : readPragma cmd toks ≠ .error .panic := by
  have h1 := hf.nextWord
  rw [readPragma]
  split
  · rename_i e he
    rw [he] at h1
    intro h2
    simp only [Except.error.injEq] at h2
    exact h1 h2
  · rename_i code l hn
    rw [hn] at h1
    have h2 := currentWord_safe (Full.skipWs h1).ne
    split
    · split
      · simp
      · split
        · rename_i e he
          intro h2
          simp only [Except.error.injEq] at h2
          exact expectNothing_safe _ (by rw [he, h2])
        · simp
    · rename_i l' hc
      rw [hc] at h2
      exact absurd rfl h2
    · simp

theorem addSuppress_safe (p : Pragma) (t : Tok) (s : Scope) : p.addSuppress t s ≠ .error .panic := by
  rw [Pragma.addSuppress]; split <;> simp

theorem addFlag_safe (p : Pragma) (t : Tok) (s : Scope) : p.addFlag t s ≠ .error .panic := by
  rw [Pragma.addFlag]; split <;> simp

theorem directivePragma_tidy {st : St} {toks : List Tok} (hf : Full toks) (hg : TidyDefs calls st.defs) :
    Safe (directivePragma st toks) fun x => Kept calls st toks x.1 x.2 := by
  cases hr : directivePragma st toks with
  | ok x =>
    obtain ⟨st', toks'⟩ := x
    obtain ⟨h1, h2, h3⟩ := directivePragma_good hr
    exact ⟨by rw [h1]; exact hg, by rw [h1], h2, h3⟩
  | error e =>
    rintro rfl
    have h1 := hf.nextWord
    rw [directivePragma] at hr
    split at hr
    · rename_i e he
      rw [he] at h1
      simp only [Except.error.injEq] at hr
      exact h1 hr
    · rename_i h' l hn
      rw [hn] at h1
      have h2 := Full.nextWord h1
      split at hr
      · simp at hr
      · split at hr
        · rename_i e he
          rw [he] at h2
          simp only [Except.error.injEq] at hr
          exact h2 hr
        · rename_i c l2 hn2
          rw [hn2] at h2
          split at hr
          · split at hr
            · rename_i e he
              simp only [Except.error.injEq] at hr
              exact readPragma_tidy h2 (by rw [he, hr])
            · split at hr
              · rename_i e he
                simp only [Except.error.injEq] at hr
                exact addSuppress_safe _ _ _ (by rw [he, hr])
              · simp at hr
          · split at hr
            · split at hr
              · rename_i e he
                simp only [Except.error.injEq] at hr
                exact readPragma_tidy h2 (by rw [he, hr])
              · split at hr
                · rename_i e he
                  simp only [Except.error.injEq] at hr
                  exact addFlag_safe _ _ _ (by rw [he, hr])
                · simp at hr
            · simp at hr

theorem includeTarget_tidy (ht : Tidy env calls) {st : St} {toks : List Tok} (hf : Full toks) (hfs : st.files ≠ []) :
    Safe (includeTarget env st toks) fun x => env.load x.1 = .ok x.2.1 ∧ x.2.2.2 <:+ toks := by
  have go : ∀ (opn : Tok) (l : List Tok) (close : Sym), l <:+ toks →
      Safe (match readPath close opn l [] with
      | .error e => .error e
      | .ok (path, toks) => match expectNothing toks with
        | .error (.code _ t _) => .error (.code 14 t)
        | .error e => .error e
        | .ok toks => match st.files with
          | [] => .error .panic
          | cur :: _ => match env.locate cur (toksText path) with
            | none => .error (.code 12 opn (.toks path))
            | some (found, mismatch) => match env.load found with
              | .error e => .error e
              | .ok inner =>
                .ok (found, inner, if mismatch then [Warn.includeCase path] else [], toks))
        (fun x : Text × List Tok × List Warn × List Tok => env.load x.1 = .ok x.2.1 ∧ x.2.2.2 <:+ toks) := by
    intro opn l close hl
    split
    · rename_i e he
      rintro rfl
      exact readPath_safe _ _ _ _ he
    · rename_i path l2 he
      split
      · simp [Safe]
      · rename_i e _ he2
        rintro rfl
        exact expectNothing_safe _ he2
      · rename_i l3 he3
        split
        · rename_i h0
          exact absurd h0 hfs
        · split
          · simp [Safe]
          · split
            · rename_i found _ _ e he4
              rintro rfl
              exact ht.loads _ he4
            · rename_i found _ _ inner he4
              refine ⟨he4, (expectNothing_suf he3).trans (List.IsSuffix.trans ?_ hl)⟩
              obtain ⟨x, tail, rfl, -, -, hx | ⟨c, rfl, -⟩⟩ := readPath_eq he
              · rw [hx.2]; exact List.nil_suffix
              · exact ⟨x ++ [c], by simp⟩
  rw [includeTarget]
  split
  · rename_i h0
    exact absurd h0 hf.skipWs.ne
  · rename_i opn l ho
    have hl : l <:+ toks := (List.suffix_cons opn l).trans (ho ▸ skipWs_suf toks)
    dsimp only
    split
    · exact go _ _ _ hl
    · exact go _ _ _ hl
    · simp [Safe]

/-! ### The processor -/

/-- No function of the processor crashes with this much fuel. -/
structure AllSafe (env : Env) (calls : Text → Prop) (n : Nat) : Prop where
  walk : ∀ site im q jw quote st toks buf, (∀ s, site = some s → OkSite env calls s) → (site = none → InFile env st toks) →
    TidyDefs calls st.defs → Stream env calls st toks →
    Safe (walk n env site im q jw quote st toks buf) fun x => Kept calls st toks x.1 x.2.1
  use : ∀ site st t rest buf w, OkSite env calls site → t.sym = .word w → TidyDefs calls st.defs → Stream env calls st (t :: rest) →
    Safe (defineUse n env site st (t :: rest) buf) fun x => Kept calls st rest x.1 x.2.1
  args : ∀ site q depth st toks args arg, OkSite env calls site → TidyDefs calls st.defs → Stream env calls st toks →
    Safe (readArgs n env site q depth st toks args arg) fun x => Kept calls st toks x.1 x.2.1
  directive : ∀ st toks buf, TidyDefs calls st.defs → InFile env st toks →
    Safe (directive n env st toks buf) fun x => Kept calls st toks x.2.1 x.2.2.1
  command : ∀ st h c toks buf, TidyDefs calls st.defs → InFile env st (h :: c :: toks) → h.sym = .directive →
    c.sym.isWord = true → Safe (command n env st c toks buf) fun x => Kept calls st toks x.1 x.2.1
  file : ∀ st toks buf, TidyDefs calls st.defs → InFile env st toks →
    Safe (file n env st toks buf) fun x => Kept calls st toks x.1 x.2.1
  line : ∀ st toks buf, TidyDefs calls st.defs → InFile env st toks →
    Safe (line n env st toks buf) fun x => Kept calls st toks x.1 x.2.1

theorem Kept.refl {st : St} {l : List Tok} (hg : TidyDefs calls st.defs) : Kept calls st l st l :=
  ⟨hg, rfl, rfl, List.suffix_rfl⟩

theorem Kept.drop {st : St} {t : Tok} {l : List Tok} (hg : TidyDefs calls st.defs) : Kept calls st (t :: l) st l :=
  ⟨hg, rfl, rfl, List.suffix_cons t l⟩

theorem useWith_safe {n : Nat} (ih : AllSafe env calls n) (ht : Tidy env calls) {site : Pos} {st : St} {buf : List Out} {t : Tok}
    {rest : List Tok} {w : Text} {oe : Option Entry} (hsite : OkSite env calls site) (hw : t.sym = .word w) (hg : TidyDefs calls st.defs)
    (hs : Stream env calls st (t :: rest))
    (he : ∀ e, oe = some e → (e.src = .argument ∧ ∃ v, e.defn = .value v) ∨ EntryTidy calls w e.defn) :
    Safe (useWith n env site buf t rest st oe) fun x => Kept calls st rest x.1 x.2.1 := by
  have hrest : Stream env calls st rest := hs.kept (Kept.drop hg)
  cases oe with
  | none => exact Kept.refl hg
  | some e =>
    have he := he e rfl
    rw [useWith.eq_def]
    dsimp only
    split
    · rename_i f hf
      rw [hf] at he
      have he : calls w ∧ Ending calls (noJoin f.body) ∧ NoDir f.body := by
        rcases he with ⟨-, v, hv⟩ | h
        · simp at hv
        · exact h
      split
      · rename_i hr
        exact absurd rfl (hs.more ht hw he.1)
      · rename_i p l
        split
        · simp [Safe]
        · have h1 := ih.args site false 0 st l [] [] hsite hg (hrest.kept (Kept.drop hg))
          split
          · rename_i e2 he2
            rw [he2] at h1
            exact h1
          · rename_i st2 l2 args he2
            rw [he2] at h1
            simp only [Safe] at h1
            split
            · simp [Safe]
            · have hg2 : TidyDefs calls (st2.defs.push t.sym.text
                  (bindArgs st2.pragma t.sym.text (f.args.zip args) (fun _ => none) st2.warns).1) := by
                refine ⟨h1.defs.global, fun x hx => ?_⟩
                simp only [Defines.push, List.mem_cons] at hx
                rcases hx with rfl | hx
                · exact bindArgs_good _ _ _ _ _ (by simp)
                · exact h1.defs.stack x hx
              have h2 := ih.walk (some site) (some t.sym.text) false true none
                  { st2 with
                    warns := (bindArgs st2.pragma t.sym.text (f.args.zip args) (fun _ => none) st2.warns).2
                    defs := st2.defs.push t.sym.text
                      (bindArgs st2.pragma t.sym.text (f.args.zip args) (fun _ => none) st2.warns).1 }
                  (noJoin f.body) [] (by rintro _ ⟨⟩; exact hsite) (by simp) hg2 (.inl ⟨he.2.2, he.2.1⟩)
              split
              · rename_i e3 he3
                rw [he3] at h2
                exact h2
              · rename_i st3 l3 layer he3
                rw [he3] at h2
                simp only [Safe] at h2
                have hst : st3.defs.stack.tail = st2.defs.stack := by
                  rw [h2.stack]; simp [Defines.push]
                refine ⟨⟨h2.defs.global, ?_⟩, ?_, ?_, ?_⟩
                · intro x hx
                  exact h2.defs.stack x (List.mem_of_mem_tail hx)
                · exact hst.trans h1.stack
                · exact h2.files.trans h1.files
                · exact h1.suf.trans (List.suffix_cons p l)
    · rename_i b hb
      rw [hb] at he
      split
      · exact Kept.refl hg
      · rename_i hsrc
        have he : Ending calls (noJoin b) ∧ NoDir b := by
          rcases he with ⟨h, -⟩ | h
          · exact absurd h hsrc
          · exact h
        have h2 := ih.walk (some site) (some t.sym.text) false true none st (noJoin b) [] (by rintro _ ⟨⟩; exact hsite) (by simp) hg (.inl ⟨he.2, he.1⟩)
        split
        · rename_i e3 he3
          rw [he3] at h2
          exact h2
        · rename_i st3 l3 layer he3
          rw [he3] at h2
          simp only [Safe] at h2
          exact ⟨h2.defs, h2.stack, h2.files, List.suffix_rfl⟩
    · exact Kept.refl hg
    · rename_i hu
      rw [hu] at he
      have he : calls w := by
        rcases he with ⟨-, v, hv⟩ | h
        · simp at hv
        · exact h
      split
      · exact absurd rfl (hs.more ht hw he)
      · simp [Safe]

theorem allSafe (ht : Tidy env calls) (n : Nat) : AllSafe env calls n := by
  induction n with
  | zero =>
    constructor <;> intros
    · rw [walk.eq_def]; simp [Safe]
    · rw [defineUse.eq_def]; simp [Safe]
    · rw [readArgs.eq_def]; simp [Safe]
    · rw [directive.eq_def]; simp [Safe]
    · rw [command.eq_def]; simp [Safe]
    · rw [file.eq_def]; simp [Safe]
    · rw [line.eq_def]; simp [Safe]
  | succ n ih =>
    constructor
    · intro site im q jw quote st toks buf hsite hnone hg hs
      rw [walk.eq_def]
      dsimp only
      split
      · exact Kept.refl hg
      · rename_i t rest
        have hrest : Stream env calls st rest := hs.kept (Kept.drop hg)
        have go : ∀ q jw quote buf, Safe (Preproc.walk n env site im q jw quote st rest buf)
            fun x => Kept calls st (t :: rest) x.1 x.2.1 := fun q jw quote buf =>
          (ih.walk site im q jw quote st rest buf hsite (fun h => (hnone h).kept (Kept.drop hg)) hg hrest).mono fun x hx => hx.wider (List.suffix_cons t rest)
        split
        · rename_i w hw
          split_ifs with h1 h2 h3
          · simp [Safe]
          · simp [Safe]
          · have hok : OkSite env calls (site.getD t.pos) := by
              cases hsi : site with
              | some s => exact hsite s hsi
              | none =>
                obtain ⟨-, p, fs, all, -, hl, hsu⟩ := hnone hsi
                exact ht.names hl t (hsu.subset (by simp))
            have hu := ih.use (site.getD t.pos) st t rest buf w hok hw hg hs
            split
            · rename_i e he
              rw [he] at hu
              exact hu
            · rename_i st2 l2 b2 he
              rw [he] at hu
              simp only [Safe] at hu
              exact (ih.walk _ _ _ _ _ st2 l2 _ hsite (fun h => ((hnone h).kept (Kept.drop hg)).kept hu) hu.defs
                (hrest.kept hu)).mono fun x hx =>
                (hu.trans hx).wider (List.suffix_cons t rest)
          · exact go _ _ _ _
        · rename_i hw
          split_ifs with h1 h2
          · obtain ⟨-, h1⟩ := h1
            have hin : InFile env st (t :: rest) := by
              rcases hs with ⟨hc, -⟩ | h
              · exfalso
                cases rest with
                | nil => simp at h1
                | cons c rest =>
                  simp only [List.head?_cons, Option.any_some, List.contains_iff_mem] at h1
                  exact (List.isChain_cons_cons.1 hc).1 hw h1
              · exact h
            have hd := ih.directive st (t :: rest) buf hg hin
            split
            · rename_i e he
              rw [he] at hd
              exact hd
            · rename_i b st2 l2 b2 he
              rw [he] at hd
              simp only [Safe] at hd
              exact (ih.walk _ _ _ _ _ st2 l2 _ hsite (fun _ => hin.kept hd) hd.defs (.inr (hin.kept hd))).mono fun x hx => hd.trans hx
          · exact go _ _ _ _
          · exact go _ _ _ _
        · split_ifs
          · exact Kept.drop hg
          · exact go _ _ _ _
        · exact go _ _ _ _
        · exact Kept.refl hg
        · exact go _ _ _ _
        · exact go _ _ _ _
        · exact go _ _ _ _
    · intro site st t rest buf w hsite hw hg hs
      obtain ⟨oe, d, hge⟩ : ∃ oe d, st.defs.getWithGen env t site = (oe, d) := ⟨_, _, rfl⟩
      rw [defineUse_eq hw hge]
      have hsame := getWithGen_same (env := env) st.defs t site
      rw [hge] at hsame
      have hg' : TidyDefs calls d := hg.of_same hsame.1 hsame.2
      have hk : Kept calls st (t :: rest) { st with defs := d } (t :: rest) := ⟨hg', hsame.2, rfl, List.suffix_rfl⟩
      refine (useWith_safe (st := { st with defs := d }) ih ht hsite hw hg' (hs.kept hk) fun e he => ?_).mono fun x hx =>
        ⟨hx.defs, hx.stack.trans hsame.2, hx.files, hx.suf⟩
      subst he
      exact getWithGen_tidy hg hw hsite hge
    · intro site q depth st toks args arg hsite hg hs
      rw [readArgs.eq_def]
      dsimp only
      split
      · exact Kept.refl hg
      · rename_i t rest
        have hrest : Stream env calls st rest := hs.kept (Kept.drop hg)
        have go : ∀ q depth args arg, Safe (readArgs n env site q depth st rest args arg)
            fun x => Kept calls st (t :: rest) x.1 x.2.1 := fun q depth args arg =>
          (ih.args site q depth st rest args arg hsite hg hrest).mono fun x hx => hx.wider (List.suffix_cons t rest)
        split
        · exact go _ _ _ _
        · split
          · rename_i w hw
            split
            · have hu := ih.use site st t rest [] w hsite hw hg hs
              split
              · rename_i e he
                rw [he] at hu
                exact hu
              · rename_i st2 l2 b2 he
                rw [he] at hu
                simp only [Safe] at hu
                exact (ih.args _ _ _ st2 l2 _ _ hsite hu.defs (hrest.kept hu)).mono fun x hx =>
                  (hu.trans hx).wider (List.suffix_cons t rest)
            · exact go _ _ _ _
          · exact go _ _ _ _
          · split
            · exact Kept.drop hg
            · exact go _ _ _ _
          · exact go _ _ _ _
          · exact go _ _ _ _
          · exact go _ _ _ _
    · intro st toks buf hg hi
      rw [directive.eq_def]
      dsimp only
      split
      · exact Kept.refl hg
      · rename_i h rest
        split
        · rename_i hh
          split
          · exact Kept.drop hg
          · rename_i c rest'
            split
            · rename_i hc
              have h1 := ih.command st h c rest' buf hg hi hh hc
              split
              · rename_i e he
                rw [he] at h1
                exact h1
              · rename_i st2 l2 b2 he
                rw [he] at h1
                exact Kept.wider h1 ⟨[h, c], rfl⟩
            · exact Kept.drop hg
        · exact Kept.refl hg
    · intro st h c toks buf hg hi hh hc
      have hf : Full toks := ((hi.full ht (by rw [hh]; simp)).tail (by rw [hh]; simp)).tail (word_ne_newline hc)
      have lift : ∀ r : Except PErr (St × List Tok), Safe r (fun x => Kept calls st toks x.1 x.2) →
          Safe (liftR buf r) fun x => Kept calls st toks x.1 x.2.1 := by
        intro r hr
        rw [liftR.eq_def]
        split
        · exact hr
        · exact hr
      rw [command.eq_def]
      dsimp only
      split_ifs with k1 k2 k3 k4 k5 k6 k7 k8 k9 k10 k11
      · split
        · rename_i e he
          rintro rfl
          rw [IfStates.flip] at he
          split at he
          · split at he <;> simp at he
          · split at he
            · split at he <;> simp at he
            · simp at he
        · split
          · rename_i e he
            rintro rfl
            exact expectNothing_safe _ he
          · rename_i l he
            exact ⟨hg, rfl, rfl, expectNothing_suf he⟩
      · split
        · rename_i e he
          rintro rfl
          exact expectNothing_safe _ he
        · rename_i l he
          exact ⟨hg, rfl, rfl, expectNothing_suf he⟩
      · have hfs : st.files ≠ [] := by
          obtain ⟨-, p, fs, all, hfs, -⟩ := hi
          rw [hfs]; simp
        have h1 := includeTarget_tidy ht hf hfs
        split
        · rename_i e he
          rw [he] at h1
          exact h1
        · rename_i found inner ws l2 he
          rw [he] at h1
          simp only [Safe] at h1
          have h2 := ih.file { st with
              pragma := st.pragma.child, files := found :: st.files,
              included := st.included ++ [found], warns := st.warns ++ ws } inner buf hg
              ⟨hi.stack, found, st.files, inner, rfl, h1.1, List.suffix_rfl⟩
          split
          · rename_i e2 he2
            rw [he2] at h2
            exact h2
          · rename_i st2 l3 b2 he2
            rw [he2] at h2
            simp only [Safe] at h2
            exact ⟨h2.defs, h2.stack, rfl, h1.2⟩
      · exact lift _ (directiveDefine_tidy ht hi hh (word_of_text hc k5) hg)
      · exact lift _ (directiveUndef_tidy hf hi.stack hg)
      · exact lift _ (directiveIf_tidy ht hi hh (word_of_text hc k7) hg)
      · exact lift _ (directiveIfdef_tidy hf hg)
      · exact lift _ (directiveIfdef_tidy hf hg)
      · exact lift _ (directivePragma_tidy hf hg)
      · simp [Safe]
      · exact ⟨hg, rfl, rfl, skipLine_suf _⟩
      · exact ⟨hg, rfl, rfl, skipLine_suf _⟩
    · intro st toks buf hg hi
      rw [file.eq_def]
      dsimp only
      split
      · exact Kept.refl hg
      · rename_i t rest
        split
        · exact Kept.refl hg
        · have h1 := ih.line st (t :: rest) buf hg hi
          split
          · rename_i e he
            rw [he] at h1
            exact h1
          · rename_i st2 l2 b2 he
            rw [he] at h1
            simp only [Safe] at h1
            exact (ih.file st2 l2 b2 h1.defs (hi.kept h1)).mono fun x hx => h1.trans hx
    · intro st toks buf hg hi
      rw [line.eq_def]
      dsimp only
      have hsk : (skipWsOut st toks buf).1 <:+ toks := by rw [skipWsOut_suf]; exact skipWs_suf toks
      have hk0 : Kept calls st toks st (skipWsOut st toks buf).1 := ⟨hg, rfl, rfl, hsk⟩
      have h1 := ih.directive st (skipWsOut st toks buf).1 (skipWsOut st toks buf).2 hg (hi.kept hk0)
      split
      · rename_i e he
        rw [he] at h1
        exact h1
      · rename_i st2 l2 b2 he
        rw [he] at h1
        exact hk0.trans h1
      · rename_i st2 l2 b2 he
        rw [he] at h1
        simp only [Safe] at h1
        have hk1 := hk0.trans h1
        split
        · have h2 := ih.walk none none false true none st2 l2 b2 (by simp) (fun _ => hi.kept hk1) h1.defs (.inr (hi.kept hk1))
          split
          · rename_i e he
            rw [he] at h2
            exact h2
          · rename_i st3 l3 b3 he
            rw [he] at h2
            simp only [Safe] at h2
            have := hk1.trans h2
            exact ⟨this.defs, this.stack, this.files, this.suf⟩
        · exact ⟨hk1.defs, hk1.stack, hk1.files, (skipLine_suf _).trans hk1.suf⟩

end Verif.Preproc
