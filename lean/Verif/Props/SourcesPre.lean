import Verif.Lib.SourcesPre
import Verif.Props.Sources
import Verif.Props.PreprocBuiltin
/-! C133: from the bytes of the sources through the preprocessor to what the game finds. -/
namespace Verif.Sources
open Verif.Rapifier
open Verif.Commands (Pre Parsed compiled settings scripts)
open Verif.Workspace (Addon)
open Verif.Preproc

variable (D : Project)

namespace Project

mutual
theorem paths_every : ∀ o : Out, ∀ x ∈ Processed.paths o, ∃ t ∈ o.every, x = t.pos.path
  | .direct t, x, h => ⟨t, by simp [Out.every], by simpa [Processed.paths] using h⟩
  | .mac t l, x, h => by
    rw [Processed.paths, List.mem_cons] at h
    rcases h with rfl | h
    · exact ⟨t, by simp [Out.every], rfl⟩
    · obtain ⟨u, hu, e⟩ := pathsL_every l x h
      exact ⟨u, by simp [Out.every, hu], e⟩
theorem pathsL_every : ∀ l : List Out, ∀ x ∈ Processed.pathsL l, ∃ t ∈ Out.everyL l, x = t.pos.path
  | [], x, h => by simp [Processed.pathsL] at h
  | o :: l, x, h => by
    rw [Processed.pathsL, List.mem_append] at h
    rcases h with h | h
    · obtain ⟨u, hu, e⟩ := paths_every o x h
      exact ⟨u, by simp [Out.everyL, hu], e⟩
    · obtain ⟨u, hu, e⟩ := pathsL_every l x h
      exact ⟨u, by simp [Out.everyL, hu], e⟩
end

theorem whole_own (w : Files) : Spec.OwnPlaces (D.whole w) where
  path f all h := D.tokens_path h
  fails f e h := D.tokens_fails h

/-- The processed text can be made of every result of the preprocessor. -/
theorem new_ok {w : Files} {root : Text} {n : Nat} {st : St} {buf : List Out} (h : run n (D.whole w) root = .ok (st, buf)) :
    ∃ p, Processed.new (D.source w) buf = .ok p := by
  refine Processed.C33_total fun x hx => ?_
  obtain ⟨t, ht, rfl⟩ := pathsL_every buf x hx
  have hf := run_from (root := root) (D.whole_own w) n
  rw [h] at hf
  obtain ⟨f, all, u, _, h2, h3, h4⟩ := hf.2 t ht
  have : t.pos.path = f := by rw [← h4]; exact (D.whole_own w).path f all h2 u h3
  rw [this]
  change D.tokens f (D.source w f) = _ at h2
  cases hs : D.source w f with
  | none => rw [hs] at h2; cases h2
  | some s => rfl

end Project

section
variable {K E : Type} {code : Nat → Tok → More → K} {other : E}

/-- C133: the preprocessor, reading the files one by one as it comes to them, gives what it gives on all the files at once: the processed text
of the output, or the report of the error. It reads no other files than the one it is asked for and those that a name in a file can
mean. -/
theorem C133_pre {fs : List Text} (hfs : ∀ c t g b, D.locate c t = some (g, b) → g ∈ fs) {n m : Nat} (hm : fs.length + 1 < m)
    (w : Files) (p : Path) :
    (∀ st buf, run n (D.whole w) (D.name p) = .ok (st, buf) →
      ∃ q, Processed.new (D.source w) buf = .ok q ∧ (D.pre code other n m p).run w = .ok (st, q)) ∧
    (∀ st q, (D.pre code other n m p).run w = .ok (st, q) →
      ∃ buf, run n (D.whole w) (D.name p) = .ok (st, buf) ∧ Processed.new (D.source w) buf = .ok q) ∧
    (∀ k t x, run n (D.whole w) (D.name p) = .error (.code k t x) → (D.pre code other n m p).run w = .code (code k t x)) ∧
    ∀ q ∈ (D.pre code other n m p).reads w, q = D.place (D.name p) ∨ ∃ c t g b, D.locate c t = some (g, b) ∧ q = D.place g := by
  have hfs' : ∀ f, D.Needed (D.name p) f → f ∈ D.name p :: fs := by
    rintro f (rfl | ⟨c, t, b, h⟩)
    · simp
    · exact List.mem_cons_of_mem _ (hfs c t f b h)
  obtain ⟨h1, h2⟩ := D.reading_run (w := w) hfs' code other n m [] (fun f s h => by simp at h)
    (by
      refine Nat.lt_of_le_of_lt ?_ hm
      exact (List.length_filter_le _ _).trans (by simp))
  unfold Project.pre
  rw [h1]
  refine ⟨fun st buf h => ?_, fun st q h => ?_, fun k t x h => by rw [h]; rfl, fun q hq => ?_⟩
  · obtain ⟨q, hq⟩ := D.new_ok h
    refine ⟨q, hq, ?_⟩
    rw [h]
    simp only [Project.finish, hq]
  · cases hr : run n (D.whole w) (D.name p) with
    | error e => rw [hr] at h; cases e <;> cases h
    | ok x =>
      obtain ⟨st', buf⟩ := x
      rw [hr] at h
      obtain ⟨q', hq⟩ := D.new_ok hr
      simp only [Project.finish, hq, Pre.ok.injEq, Prod.mk.injEq] at h
      obtain ⟨rfl, rfl⟩ := h
      exact ⟨buf, rfl, hq⟩
  · obtain ⟨f, hf, rfl⟩ := h2 q hq
    rcases hf with rfl | ⟨c, t, b, h⟩
    · exact .inl rfl
    · exact .inr ⟨c, t, f, b, h, rfl⟩

/-- C133: a compiled script, from the bytes of the sources: the preprocessor makes a text of them, and what the game finds in the compiled file
means what that text says. -/
theorem C133_script {fs : List Text} (hfs : ∀ c t g b, D.locate c t = some (g, b) → g ∈ fs) {n m : Nat} (hm : fs.length + 1 < m)
    {Ex St' Bl : Type} {M : Sqf.Sem Ex St' Bl} {F : Sqf.FloatOps} {lower : Bytes → Bytes} (L : Sqf.Laws F lower M)
    (N : Sqf.NameLaws M) {warnings : St × Processed.P → List K} {env : St × Processed.P → SqfParse.Env} {F' : SqfLex.F32}
    {names : St × Processed.P → List Bytes} {loc : St × Processed.P → Sqf.Span → Option Sqf.SourceInfo}
    {span : St × Processed.P → Sqf.Span} {errs : St × Processed.P → List K} {lint : Addon → St × Processed.P → List Sqf.Stmt → List K}
    {bad : E} {err : K → Bool} {w : Files} {a : Addon} {f : Path} {b : Bytes}
    (hdb : ∀ t, (env t).db.Plain) (hx : ∀ t, (env t).extract = Sqf.textOf t.2.output)
    (hmade : Made (sqfTools (D.pre code other n m) warnings (fun t => t.2.output) env F' F lower names loc span errs lint bad) err w a f
      (.ok b)) :
    ∃ st buf p ss, run n (D.whole w) (D.name f) = .ok (st, buf) ∧ Processed.new (D.source w) buf = .ok p ∧
      (∀ k ∈ lint a (st, p) ss, err k = false) ∧
      ((Processed.bytesOf p.output).length < 2 ^ 31 →
        ∃ ts, SqfLex.Layout F' 0 ts p.output ∧ SqfParse.DerBlock (env (st, p)).db true ss (SqfParse.code ts) ∧
        ∃ k stmts, (∀ g, k ≤ g → Sqf.found g b = some ⟨names (st, p), Processed.bytesOf p.output, stmts⟩) ∧
          M.block (M.tss (Processed.bytesOf p.output) stmts) = M.block (M.ss ss)) := by
  obtain ⟨⟨st, p⟩, ss, h1, h2, h3⟩ := C131_script L N hdb hx hmade
  obtain ⟨buf, h4, h5⟩ := (C133_pre D (code := code) (other := other) hfs hm w f).2.1 st p h1
  exact ⟨st, buf, p, ss, h4, h5, h2, h3⟩

/-- C133: a binary config, from the bytes of the sources: the preprocessor makes a text of them that does not ask to be left as it is, and the
binary form stands for the tree that the text is written for. -/
theorem C133_config {fs : List Text} (hfs : ∀ c t g b, D.locate c t = some (g, b) → g ∈ fs) {n m : Nat} (hm : fs.length + 1 < m)
    {α : Type} {warnings : St × Processed.P → List K} {F : ConfigParse.Fl α} {lower : Text → Text}
    {ofF32 : Nat → Ver.Version} {pfx : Option Text} {configs : Text → Option Lints.Override}
    {lints : List (Lints.Lint ConfigLint.Target ConfigLint.Code)} (hl : lints.Perm (ConfigLint.configLints lower pfx))
    {errs : St × Processed.P → List K} {lcode : ConfigLint.Code → K} {lintErr : Lints.LErr → K} {bad : E} {w : Files}
    {f : Path} {b : Bytes}
    (hmade : Rapifier.Made (configTools (D.pre code other n m) warnings (fun t => t.2.output) F lower ofF32 configs lints
      (fun t => t.1.noRapify) errs lcode lintErr bad) w f (.ok b)) :
    ∃ st buf p ps, run n (D.whole w) (D.name f) = .ok (st, buf) ∧ Processed.new (D.source w) buf = .ok p ∧ st.noRapify = false ∧
      ('\x00' ∉ p.output → b.length < 2 ^ 32 →
        ConfigParse.Written (ConfigParse.Reading F) ps p.output ∧ Rap.Spec.decode b = some (ConfigLint.propsRap ps)) := by
  obtain ⟨⟨st, p⟩, ps, h1, h2, h3⟩ := C131_config hl hmade
  obtain ⟨buf, h4, h5⟩ := (C133_pre D (code := code) (other := other) hfs hm w f).2.1 st p h1
  exact ⟨st, buf, p, ps, h4, h5, h2, h3⟩

/-- C133: the threads do not disturb each other when no result of the build exists before it: with the preprocessor as it is, and names in files
meaning only files that exist, no work reads the result of another one. -/
theorem C133_fresh {S C : Type} {fs : List Text} (hfs : ∀ c t g b, D.locate c t = some (g, b) → g ∈ fs) {n m : Nat}
    (hm : fs.length + 1 < m) {T : Tools (St × Processed.P) S K E} {err : K → Bool} {R : Rapifier.Tools (St × Processed.P) C K E}
    (hT : T.pre = D.pre code other n m) (hR : R.pre = D.pre code other n m) {walk : Addon → List Path} {addons : List Addon}
    {l : List (Addon × Path)} {w w' : Files}
    (hplace : ∀ p, D.place (D.name p) = p) (hfound : ∀ c t g b, D.locate c t = some (g, b) → w (D.place g) ≠ none)
    (hs : ∀ e ∈ scripts walk addons, w e.2 ≠ none ∧ w (compiled e.2) = none) (hc : ∀ e ∈ l, w e.2 ≠ none ∧ w (outPath e.2) = none)
    (nodup : ((scripts walk addons).map Prod.snd).Nodup) (nodup' : (l.map Prod.snd).Nodup)
    (configs : ∃ glob toml walk', entries glob toml walk' addons = some l)
    (steps : ∃ w₁ js₁ js₂, Steps (w, jobs T err (scripts walk addons)) (w₁, js₁) ∧ (∀ j ∈ js₁, ∃ r, j = .done r) ∧
      Steps (w₁, Rapifier.jobs R l) (w', js₂) ∧ ∀ j ∈ js₂, ∃ r, j = .done r) :
    Built T err R walk addons l w w' := by
  have key : ∀ p q, w p ≠ none → w q = none → q ∉ (D.pre code other n m p).reads w := by
    intro p q hp hq hmem
    rcases (C133_pre D (code := code) (other := other) hfs hm w p).2.2.2 q hmem with rfl | ⟨c, t, g, b, h1, rfl⟩
    · rw [hplace] at hq; exact hp hq
    · exact hfound c t g b h1 hq
  exact ⟨nodup, nodup', configs, fun e he e' he' _ => by rw [hT]; exact key _ _ (hs e' he').1 (hs e he).2,
    fun e he e' he' _ => by rw [hR]; exact key _ _ (hc e' he').1 (hc e he).2,
    fun e he e' he' => by rw [hR]; exact key _ _ (hc e' he').1 (hs e he).2, steps⟩

end

/-! ### Sources without `#` -/

theorem pairs_eoi {cl : Classes} (hcl : cl.Ascii) : ∀ (n : Nat) (s : Text) (ps : List Pair), pairs cl n s = some ps →
    ∃ qs, ps = qs ++ [⟨[], .eoi⟩] ∧ ∀ p ∈ qs, p.sym ≠ .eoi := by
  intro n
  induction n with
  | zero =>
    intro s ps h
    cases s with
    | nil => simp only [pairs, Option.some.injEq] at h; exact ⟨[], by simp [← h], by simp⟩
    | cons c s => simp [pairs] at h
  | succ n ih =>
    intro s ps h
    cases s with
    | nil => simp only [pairs, Option.some.injEq] at h; exact ⟨[], by simp [← h], by simp⟩
    | cons c s =>
      rw [pairs] at h
      split at h
      · simp at h
      · rename_i p r hn
        split at h
        · simp at h
        · rename_i qs hq
          simp only [Option.some.injEq] at h
          subst h
          obtain ⟨qs', rfl, h1⟩ := ih _ _ hq
          refine ⟨p :: qs', rfl, fun q hq => ?_⟩
          rcases List.mem_cons.1 hq with rfl | hq
          · have key : ∀ s, NextCase cl s q r → q.sym ≠ .eoi := by
              intro s hc
              cases hc with
              | plain r hne hp hk ho ht => intro h; simp only at h; subst h; exact absurd ht.symm hne
              | _ => simp
            exact key _ (next_cases hcl hn)
          · exact h1 q hq

theorem lexLoop_eoi (path : Text) : ∀ (qs : List Pair) (st : LexSt), (∀ p ∈ qs, p.sym ≠ .eoi) → ∀ t ∈ lexLoop path st qs, t.sym ≠ .eoi := by
  intro qs
  induction qs with
  | nil => intro st _ t ht; simp [lexLoop] at ht
  | cons p qs ih =>
    intro st h t ht
    rw [lexLoop] at ht
    dsimp only at ht
    rw [List.mem_append, List.mem_append] at ht
    rcases ht with (ht | ht) | ht
    · unfold LexSt.stray at ht
      split at ht
      · split at ht
        · rw [List.mem_singleton.1 ht]; simp
        · simp at ht
      · simp at ht
    · split at ht
      · simp at ht
      · rw [List.mem_singleton.1 ht]; exact h p (by simp)
    · exact ih _ (fun q hq => h q (by simp [hq])) t ht

/-- After the end of a file comes nothing. -/
theorem tokenise_eoi {cl : Classes} (hcl : cl.Ascii) {path src : Text} {toks : List Tok} (h : tokenise cl path src = some toks) :
    ∃ l e, toks = l ++ e ∧ (∀ t ∈ l, t.sym ≠ .eoi) ∧ ∀ t ∈ e, t.sym = .eoi := by
  rw [tokenise] at h
  cases hp : pairs cl src.length src with
  | none => simp [hp] at h
  | some ps =>
    simp [hp] at h
    obtain ⟨qs, rfl, h1⟩ := pairs_eoi hcl _ _ _ hp
    have key : ∀ (qs : List Pair) (st : LexSt), (∀ p ∈ qs, p.sym ≠ .eoi) → ∃ st', lexLoop path st (qs ++ [⟨[], .eoi⟩]) =
        lexLoop path st qs ++ lexLoop path st' [⟨[], .eoi⟩] := by
      intro qs
      induction qs with
      | nil => intro st _; exact ⟨st, by simp [lexLoop]⟩
      | cons p qs ih =>
        intro st hq
        obtain ⟨st', e⟩ := ih { st.turn p with offset := st.offset + utf8 p.raw } fun q h => hq q (by simp [h])
        refine ⟨st', ?_⟩
        rw [List.cons_append, lexLoop, lexLoop]
        dsimp only
        rw [e]
        simp only [List.append_assoc]
    obtain ⟨st', e⟩ := key qs {} h1
    rw [e] at h
    refine ⟨_, _, h.symm, lexLoop_eoi path qs {} h1, fun t ht => ?_⟩
    rw [lexLoop] at ht
    simp only [LexSt.stray, List.nil_append, lexLoop, List.append_nil] at ht
    split at ht
    · simp at ht
    · rw [List.mem_singleton.1 ht]

theorem written_plain {env : Env} : ∀ (l : List Tok) (q : Bool) (c : Nat) (e : List Tok), (∀ t ∈ l, t.sym ≠ .eoi) → (∀ t ∈ e, t.sym = .eoi) →
    (∀ t ∈ l, ∀ w ∈ Spec.placed, t.sym ≠ .word w) → Spec.text (Spec.written env q c (l ++ e)) = Spec.text ((l ++ e).map Tok.sym) := by
  intro l
  induction l with
  | nil =>
    intro q c e _ he _
    have : ∀ e : List Tok, (∀ t ∈ e, t.sym = .eoi) → Spec.text (e.map Tok.sym) = [] := by
      intro e
      induction e with
      | nil => intro _; rfl
      | cons t e ih =>
        intro h
        have h2 := ih fun u hu => h u (by simp [hu])
        simp only [Spec.text, List.map_cons, List.flatMap_cons, h t (by simp), Sym.text, List.nil_append] at h2 ⊢
        exact h2
    rw [List.nil_append, this e he]
    cases e with
    | nil => rfl
    | cons t e => rw [Spec.written.eq_def]; simp [he t (by simp), Spec.text]
  | cons t l ih =>
    intro q c e hl he hp
    have hl' : ∀ u ∈ l, u.sym ≠ .eoi := fun u hu => hl u (by simp [hu])
    have hp' : ∀ u ∈ l, ∀ w ∈ Spec.placed, u.sym ≠ .word w := fun u hu => hp u (by simp [hu])
    have go : ∀ q, Spec.text (t.sym :: Spec.written env q c (l ++ e)) = Spec.text ((t :: l ++ e).map Tok.sym) := by
      intro q
      have := ih q c e hl' he hp'
      simp only [Spec.text, List.flatMap_cons, List.cons_append, List.map_cons] at this ⊢
      rw [this]
    rw [List.cons_append, Spec.written.eq_def]
    dsimp only
    split
    · rename_i h; exact absurd h (hl t (by simp))
    · rename_i h
      rw [ih _ c e hl' he hp']
      simp only [Spec.text, List.map_cons, List.flatMap_cons, h, Sym.text, List.nil_append]
    · rename_i h; rw [← h]; exact go _
    · rename_i w h
      have hne : ∀ x ∈ Spec.placed, w ≠ x := fun x hx hw => hp t (by simp) x hx (by rw [h, hw])
      rw [if_neg (hne _ (by simp [Spec.placed])), if_neg (hne _ (by simp [Spec.placed])), if_neg (hne _ (by simp [Spec.placed])),
        if_neg (hne _ (by simp [Spec.placed])), if_neg (hne _ (by simp [Spec.placed])), if_neg (hne _ (by simp [Spec.placed])), ← h]
      exact go _
    · exact go _

mutual
theorem label_plain : ∀ (o : Out) (q : List Char), (∀ t ∈ o.toks, t.sym.text ≠ ['#', '#']) →
    (Processed.Spec.label q o).2.map (·.c) = toksText o.toks
  | .direct t, q, h => by
    have := h t (by simp [Out.toks])
    simp [Processed.Spec.label, Processed.Spec.written, this, Out.toks, toksText, Function.comp_def]
  | .mac t l, q, h => by
    have := labels_plain l q (by simpa [Out.toks] using h)
    simp only [Processed.Spec.label, List.map_map, Out.toks]
    rw [← this]
    rfl
theorem labels_plain : ∀ (l : List Out) (q : List Char), (∀ t ∈ Out.toksL l, t.sym.text ≠ ['#', '#']) →
    (Processed.Spec.labels q l).2.map (·.c) = toksText (Out.toksL l)
  | [], q, h => by simp [Processed.Spec.labels, Out.toksL, toksText]
  | o :: l, q, h => by
    have h1 := label_plain o q fun t ht => h t (by simp [Out.toksL, ht])
    have h2 := labels_plain l (Processed.Spec.label q o).1 fun t ht => h t (by simp [Out.toksL, ht])
    simp only [Processed.Spec.labels, List.map_append, h1, h2, Out.toksL, toksText, List.flatMap_append]
end

/-- C133: a source without `#`, `\` and built-in macros is parsed as its own text without the comments. -/
theorem C133_plain {K E : Type} {code : Nat → Tok → More → K} {other : E} (hcl : D.cl.Ascii) {fs : List Text}
    (hfs : ∀ c t g b, D.locate c t = some (g, b) → g ∈ fs) {m : Nat} (hm : fs.length + 1 < m) {w : Files} {p : Path} {src : Text}
    {toks : List Tok} (hsrc : D.source w (D.name p) = some src) (ht : tokenise D.cl (D.name p) src = some toks) (hn : Spec.NoTrap .code src)
    (hh : '#' ∉ src) (hb : '\\' ∉ src) (hw : ∀ t ∈ toks, ∀ x, t.sym = .word x → x ∉ Spec.placed ∧ ¬ Spec.refused x)
    (hname : ∀ x, x = D.fileName (D.name p) ∨ x = Defines.shortName (D.fileName (D.name p)) → ¬ Spec.refused x ∧ x ∉ Spec.placed) :
    ∃ k, ∀ n, k ≤ n → ∃ st q, (D.pre code other n m p).run w = .ok (st, q) ∧ q.output = Spec.strip .code src := by
  have hload : (D.whole w).load (D.name p) = .ok toks := by
    show D.tokens _ (D.source w (D.name p)) = _
    rw [hsrc]
    simp only [Project.tokens, ht]
  have hraw : ∀ t ∈ toks, ∀ c ∈ t.sym.text, c ∈ src ∨ c = '\n' := by
    intro t h c hc
    obtain ⟨_, a, raw, b, e, hs, _⟩ := C76_places hcl ht h
    rw [e]
    cases hy : t.sym with
    | newline => right; rw [hy] at hc; simpa [Sym.text] using hc
    | comment x => rw [hy] at hc; simp [Sym.text] at hc
    | _ => left; rw [hy] at hs hc; simp only [Spelled] at hs; rw [← hs] at hc; simp [hc]
  have hsharp : ∀ t ∈ toks, '#' ∉ t.sym.text := fun t h hc => by
    rcases hraw t h _ hc with h | h
    · exact hh h
    · cases h
  have hs : ∀ t ∈ toks, Spec.Simple (D.whole w) t := by
    intro t h
    refine ⟨fun e => hsharp t h (by simp [e, Sym.text]), fun e => ?_, fun x e => (hw t h x e).2, ?_⟩
    · rcases hraw t h '\\' (by simp [e, Sym.text]) with h | h
      · exact hb h
      · cases h
    · rw [(C76_places hcl ht h).1]; exact hname
  obtain ⟨k, st, buf, h1, h2⟩ := C132_plain hload hs
  have htext : toksText (Out.toksL buf) = Spec.strip .code src := by
    rw [toksText_sym, h2, ← C75_comments hcl ht hn]
    obtain ⟨l, e, rfl, k1, k2⟩ := tokenise_eoi hcl ht
    rw [written_plain l false 0 e k1 k2 fun t h x hx e => (hw t (by simp [h]) x e).1 hx, toksText_sym]
  have hno : ∀ t ∈ Out.toksL buf, t.sym.text ≠ ['#', '#'] := by
    intro t h e
    have : '#' ∈ Spec.strip .code src := by
      rw [← htext, toksText, List.mem_flatMap]
      exact ⟨t, h, by simp [e]⟩
    rw [← C75_comments hcl ht hn, toksText, List.mem_flatMap] at this
    obtain ⟨u, hu, hc⟩ := this
    exact hsharp u hu hc
  refine ⟨k, fun n hk => ?_⟩
  obtain ⟨q, e1, e2⟩ := (C133_pre D (code := code) (other := other) hfs hm w p).1 st buf (h1 n hk)
  refine ⟨st, q, e2, ?_⟩
  rw [(Processed.C33_text e1).1, Processed.Spec.origin, labels_plain buf [] hno, htext]

namespace Demo

/-! A config that includes a file and uses a macro of it. -/

/-- A project of files in one folder, found by their names. -/
def flat (files : List Text) : Project where
  name p := p.getLastD []
  place t := [t]
  decode b := some (b.map fun x => Char.ofNat x.toNat)
  cl := Preproc.Ex.ascii
  locate _ t := if t ∈ files then some (t, false) else none
  fileMacro t := t
  fileName t := t
  compare _ _ _ := none

def bytesOf (s : String) : Bytes := s.toList.map fun c => UInt8.ofNat c.toNat

def disk (l : List (Text × String)) : Files := fun p => (l.find? fun e => [e.1] = p).map fun e => bytesOf e.2

def three : Files := disk [(['c'], "#include <x>\nv = N;"), (['x'], "#define N 5\n"), (['y'], "!")]

theorem flat_found (files : List Text) : ∀ c t g b, (flat files).locate c t = some (g, b) → g ∈ files := by
  intro c t g b h
  unfold flat at h
  dsimp only at h
  split at h
  · cases h; assumption
  · cases h

/-- The included file is read, the other one is not. -/
example : ((flat [['x'], ['y']]).pre (fun k _ _ => k) () 100 10 [['c']] : Reading (Pre _ Nat Unit)).reads three = [[['c']], [['x']]] := by
  decide +kernel

/-- A name that means no file is reported with its code. -/
example : (match ((flat []).pre (fun k _ _ => k) () 100 10 [['c']] : Reading (Pre _ Nat Unit)).run three with
    | .code k => decide (k = 12)
    | _ => false) = true := by decide +kernel

/-! The same with the tools of the models: a config becomes a binary config. -/

def tidyDisk : Files := disk [(['c'], "class A {y = 5;}; // a")]

def tidyProject : Project := flat [['x']]

theorem tidy_pre : (match (tidyProject.pre (fun k _ _ => k) () 200 3 [['c']] : Reading (Pre _ Nat Unit)).run tidyDisk with
      | .ok (st, p) => decide (p.output = "class A {y = 5;}; ".toList) &&
          !st.noRapify && decide ('\x00' ∉ p.output) && match ConfigParse.config ConfigParse.sampleFl p.output with
        | .ok ps [] => match ConfigLint.build ConfigLint.low (fun b => ⟨b / 100, b % 100, 0, none, none⟩) (fun _ => none)
            (ConfigLint.configLints ConfigLint.low none) ps with
          | .written b => decide (b.length < 1000)
          | _ => false
        | _ => false
      | _ => false) = true := by decide +kernel

/-- The config is made, and what is read back from it is what the processed text says. -/
example : ∃ b st buf p ps, Rapifier.Made (configTools (tidyProject.pre (fun k _ _ => k) () 200 3) (fun _ => []) (fun t => t.2.output)
      ConfigParse.sampleFl ConfigLint.low (fun b => ⟨b / 100, b % 100, 0, none, none⟩) (fun _ => none)
      (ConfigLint.configLints ConfigLint.low none) (fun t => t.1.noRapify) (fun _ => [0]) (fun _ => 1) (fun _ => 2) ()) tidyDisk
      [['c']] (.ok b) ∧
    run 200 (tidyProject.whole tidyDisk) ['c'] = .ok (st, buf) ∧ Processed.new (tidyProject.source tidyDisk) buf = .ok p ∧
    ConfigParse.Written (ConfigParse.Reading ConfigParse.sampleFl) ps p.output ∧ Rap.Spec.decode b = some (ConfigLint.propsRap ps) := by
  have hd := tidy_pre
  cases hr : (tidyProject.pre (fun k _ _ => k) () 200 3 [['c']] : Reading (Pre _ Nat Unit)).run tidyDisk with
  | ok t =>
    obtain ⟨st, p⟩ := t
    rw [hr] at hd
    simp only [Bool.and_eq_true, decide_eq_true_eq, Bool.not_eq_true'] at hd
    obtain ⟨⟨⟨_, h1⟩, h2⟩, h3⟩ := hd
    rcases hc : ConfigParse.config ConfigParse.sampleFl p.output with ⟨ps, r⟩ | _
    · rw [hc] at h3
      rcases r with _ | ⟨x, r⟩
      · dsimp only at h3
        cases hb : ConfigLint.build ConfigLint.low (fun b => ⟨b / 100, b % 100, 0, none, none⟩) (fun _ => none)
          (ConfigLint.configLints ConfigLint.low none) ps with
        | written b =>
          rw [hb] at h3
          have hm := config_made (text := fun t : St × Processed.P => t.2.output) (warnings := fun _ => [])
            (noRapify := fun t => t.1.noRapify) (errs := fun _ => [0])
            (code := fun _ => 1) (lintErr := fun _ => 2) (bad := ()) hr h1 hc hb
          obtain ⟨st', buf, p', qs, k1, k2, _, k4⟩ := C133_config tidyProject (flat_found _) (by decide) (List.Perm.refl _) hm
          have : p'.output = p.output := by
            obtain ⟨q, e1, e2⟩ := (C133_pre tidyProject (code := fun k _ _ => k) (other := ()) (flat_found _)
              (n := 200) (m := 3) (by decide) tidyDisk [['c']]).1 st' buf k1
            rw [hr] at e2
            cases e2
            rw [k2] at e1
            cases e1
            rfl
          exact ⟨b, st', buf, p', qs, hm, k1, k2, k4 (by rw [this]; exact h2) (lt_trans (of_decide_eq_true h3) (by decide))⟩
        | _ => rw [hb] at h3; cases h3
      · cases h3
    · rw [hc] at h3; cases h3
    · rw [hc] at h3; cases h3
  | _ => rw [hr] at hd; cases hd

/-- A source for which `C133_plain` speaks: it is parsed as its text without the comments. -/
def calmSrc : String := "x = 1; // one\ny[] = {\"a\", /* two */ 2};\n"

theorem calm_toks : (match tokenise Preproc.Ex.ascii ['c'] calmSrc.toList with
    | some toks => decide (∀ t ∈ toks, ∀ x ∈ Spec.placed, t.sym ≠ .word x) && toks.all fun t => match t.sym with
      | .word w => decide (w ≠ kw "__EXEC") && !isUnsupportedBuiltin w
      | _ => true
    | none => false) = true := by decide +kernel

example : ∃ k, ∀ n, k ≤ n → ∃ st q, ((flat []).pre (fun k _ _ => k) () n 2 [['c']] : Reading (Pre _ Nat Unit)).run
    (disk [(['c'], calmSrc)]) = .ok (st, q) ∧ q.output = "x = 1; \ny[] = {\"a\",  2};\n".toList := by
  have hd := calm_toks
  cases ht : tokenise Preproc.Ex.ascii ['c'] calmSrc.toList with
  | none => rw [ht] at hd; cases hd
  | some toks =>
    rw [ht] at hd
    simp only [Bool.and_eq_true, decide_eq_true_eq, List.all_eq_true] at hd
    have e : Spec.strip .code calmSrc.toList = "x = 1; \ny[] = {\"a\",  2};\n".toList := by decide +kernel
    rw [← e]
    have hsrc : (flat []).source (disk [(['c'], calmSrc)]) ((flat []).name [['c']]) = some calmSrc.toList := by
      decide +kernel
    refine C133_plain (flat []) Preproc.Ex.ascii_ok (flat_found []) (by decide) hsrc ht (by simp [Spec.NoTrap, calmSrc, Spec.Closes]) (by decide) (by decide) ?_ ?_
    · intro t h x hx
      refine ⟨fun hp => hd.1 t h x hp hx, ?_⟩
      have := hd.2 t h
      rw [hx] at this
      simp only [Bool.and_eq_true, decide_eq_true_eq, Bool.not_eq_true'] at this
      rintro (h | h)
      · exact this.1 h
      · rw [this.2] at h; cases h
    · rintro x (rfl | rfl)
      · refine ⟨?_, by decide +kernel⟩
        rintro (h | h)
        · exact absurd h (by decide +kernel)
        · exact absurd h (by decide +kernel)
      · refine ⟨?_, by decide +kernel⟩
        rintro (h | h)
        · exact absurd h (by decide +kernel)
        · exact absurd h (by decide +kernel)

end Demo

end Verif.Sources
