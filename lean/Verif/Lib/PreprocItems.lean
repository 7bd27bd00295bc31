import Verif.Lib.PreprocCond
/-!
Structured programs run by the preprocessor model: skipped and selected branches.
-/
namespace Verif.Preproc
open Spec

theorem reading_push (s : IfStates) (i : IfState) :
    (s.push i).reading = (i.reading && s.reading) := by
  simp [IfStates.push, IfStates.reading]

/-! ### What the directives do -/

section
variable {env : Env} {st : St} {c : Tok} {toks : List Tok} {buf : List Out} {n : Nat}

theorem command_else (hc : c.sym = .word (kw "else")) {ifs} (hf : st.ifs.flip c = .ok ifs) {l}
    (he : expectNothing toks = .ok l) :
    command (n + 1) env st c toks buf = .ok ({ st with ifs := ifs }, l, buf) := by
  rw [command.eq_def]
  simp only [hc, Sym.text, if_true, hf, he]

theorem command_endif (hc : c.sym = .word (kw "endif")) {l}
    (he : expectNothing toks = .ok l) :
    command (n + 1) env st c toks buf = .ok ({ st with ifs := st.ifs.pop.2 }, l, buf) := by
  rw [command.eq_def]
  dsimp only
  rw [hc, if_neg (by decide +kernel), if_pos (by rfl), he]

theorem command_skip_if (hr : st.ifs.reading = false)
    (hc : c.sym = .word (kw "if") ∨ c.sym = .word (kw "ifdef") ∨ c.sym = .word (kw "ifndef")) :
    command (n + 1) env st c toks buf =
      .ok ({ st with ifs := st.ifs.push (.passingChild c) }, skipLine toks, buf) := by
  rw [command.eq_def]
  dsimp only
  rcases hc with hc | hc | hc <;>
  · rw [hc, if_neg (by decide +kernel), if_neg (by decide +kernel), if_neg (by simp [hr]),
      if_pos (by simp [Sym.text])]

theorem command_skip (hr : st.ifs.reading = false)
    (hc : c.sym = .word (kw "define") ∨ c.sym = .word (kw "undef")) :
    command (n + 1) env st c toks buf = .ok (st, skipLine toks, buf) := by
  rw [command.eq_def]
  dsimp only
  rcases hc with hc | hc <;>
  · rw [hc, if_neg (by decide +kernel), if_neg (by decide +kernel), if_neg (by simp [hr]),
      if_neg (by decide +kernel)]

theorem command_define (hr : st.ifs.reading = true) (hc : c.sym = .word (kw "define")) :
    command (n + 1) env st c toks buf = liftR buf (directiveDefine st toks) := by
  rw [command.eq_def]
  dsimp only
  rw [hc, if_neg (by decide +kernel), if_neg (by decide +kernel), if_pos hr,
    if_neg (by decide +kernel), if_pos (by rfl)]

theorem command_undef (hr : st.ifs.reading = true) (hc : c.sym = .word (kw "undef")) :
    command (n + 1) env st c toks buf = liftR buf (directiveUndef st toks) := by
  rw [command.eq_def]
  dsimp only
  rw [hc, if_neg (by decide +kernel), if_neg (by decide +kernel), if_pos hr,
    if_neg (by decide +kernel), if_neg (by decide +kernel), if_pos (by rfl)]

theorem command_if (hr : st.ifs.reading = true) (hc : c.sym = .word (kw "if")) :
    command (n + 1) env st c toks buf = liftR buf (directiveIf env st c toks) := by
  rw [command.eq_def]
  dsimp only
  rw [hc, if_neg (by decide +kernel), if_neg (by decide +kernel), if_pos hr,
    if_neg (by decide +kernel), if_neg (by decide +kernel), if_neg (by decide +kernel), if_pos (by rfl)]

theorem command_ifdef (hr : st.ifs.reading = true) (hc : c.sym = .word (kw "ifdef")) :
    command (n + 1) env st c toks buf = liftR buf (directiveIfdef st c true toks) := by
  rw [command.eq_def]
  dsimp only
  rw [hc, if_neg (by decide +kernel), if_neg (by decide +kernel), if_pos hr,
    if_neg (by decide +kernel), if_neg (by decide +kernel), if_neg (by decide +kernel),
    if_neg (by decide +kernel), if_pos (by rfl)]

theorem command_ifndef (hr : st.ifs.reading = true) (hc : c.sym = .word (kw "ifndef")) :
    command (n + 1) env st c toks buf = liftR buf (directiveIfdef st c false toks) := by
  rw [command.eq_def]
  dsimp only
  rw [hc, if_neg (by decide +kernel), if_neg (by decide +kernel), if_pos hr,
    if_neg (by decide +kernel), if_neg (by decide +kernel), if_neg (by decide +kernel),
    if_neg (by decide +kernel), if_neg (by decide +kernel), if_pos (by rfl)]
end

/-! ### Splitting source text -/

theorem splitAppend {a : List Tok} {x y : List Sym} (h : a.map Tok.sym = x ++ y) :
    ∃ b c, a = b ++ c ∧ b.map Tok.sym = x ∧ c.map Tok.sym = y := by
  obtain ⟨b, c, h1, h2, h3⟩ := List.map_eq_append_iff.1 h
  exact ⟨b, c, h1, h2, h3⟩

theorem splitCons {a : List Tok} {x : Sym} {y : List Sym} (h : a.map Tok.sym = x :: y) :
    ∃ t c, a = t :: c ∧ t.sym = x ∧ c.map Tok.sym = y := by
  obtain ⟨b, c, h1, h2, h3⟩ := List.map_eq_cons_iff.1 h
  exact ⟨b, c, h1, h2, h3⟩

theorem splitNil {a : List Tok} (h : a.map Tok.sym = []) : a = [] := by simpa using h

/-- The first token of a line that starts with blanks and then `t`. -/
theorem first_ne_eoi {ind : List Tok} (hb : blank (ind.map Tok.sym) = true) {t : Tok}
    (ht : t.sym ≠ .eoi) (l : List Tok) :
    ∃ x r, ind ++ t :: l = x :: r ∧ x.sym ≠ .eoi := by
  cases ind with
  | nil => exact ⟨t, l, rfl, ht⟩
  | cons b ind =>
    refine ⟨b, _, rfl, ?_⟩
    rw [List.map_cons, blank_cons] at hb
    rintro h
    rw [h] at hb
    simp [Sym.isWs] at hb

theorem Runs.directive {env st} {ind : List Tok} (hb : blank (ind.map Tok.sym) = true)
    {h c : Tok} (hh : h.sym = .directive) {w : Text} (hc : c.sym = .word w) {toks : List Tok}
    {buf : List Out} {n st' toks' buf' r}
    (hcmd : command n env st c toks
      (if st.ifs.reading then buf ++ (vis ind).map .direct else buf) = .ok (st', toks', buf'))
    (hr : Runs env st' toks' buf' r) :
    Runs env st (ind ++ h :: c :: toks) buf r := by
  obtain ⟨x, l, hx, he⟩ := first_ne_eoi hb (t := h) (by rw [hh]; simp) (c :: toks)
  exact Runs.of_line hx he (line_directive hb hh hc hcmd) hr

/-! ### Skipped branches -/

/-- What a skipped region leaves alone; `n` says whether there are conditionals in it. -/
structure Sim (n : Bool) (st st' : St) : Prop where
  defs : st'.defs = st.defs
  stack : st'.ifs.stack = st.ifs.stack
  didElse : (n = false ∧ st'.ifs.didElse = st.ifs.didElse) ∨ (n = true ∧ st'.ifs.didElse = none)

theorem Sim.refl (st : St) : Sim false st st := ⟨rfl, rfl, .inl ⟨rfl, rfl⟩⟩

theorem Sim.trans {m n} {a b c : St} (h : Sim m a b) (k : Sim n b c) : Sim (m || n) a c := by
  refine ⟨k.defs.trans h.defs, k.stack.trans h.stack, ?_⟩
  rcases k.didElse with ⟨rfl, k'⟩ | ⟨rfl, k'⟩
  · rw [k']
    rcases h.didElse with ⟨rfl, h'⟩ | ⟨rfl, h'⟩
    · exact .inl ⟨rfl, h'⟩
    · exact .inr ⟨rfl, h'⟩
  · exact .inr ⟨by simp, k'⟩

theorem Sim.reading {n} {a b : St} (h : Sim n a b) : b.ifs.reading = a.ifs.reading := by
  rw [IfStates.reading, h.stack]; rfl

theorem oneLine_sym {l : List Sym} (h : oneLine l = true) : ∀ s ∈ l, s ≠ .newline := by
  intro s hs
  simp only [oneLine, List.all_eq_true, Bool.and_eq_true, decide_eq_true_eq] at h
  exact (h s hs).1

theorem blank_sym {l : List Sym} (h : blank l = true) : ∀ s ∈ l, s ≠ .newline := by
  intro s hs
  simp only [blank, List.all_eq_true] at h
  exact isWs_ne_newline (h s hs)

theorem paramSrc_sym : ∀ (ps : List Text), ∀ s ∈ paramSrc ps, s ≠ .newline
  | [] => by simp [paramSrc]
  | [p] => by simp [paramSrc]
  | p :: q :: l => by
    intro s hs
    simp only [paramSrc, List.mem_cons] at hs
    rcases hs with rfl | rfl | hs
    · simp
    · simp
    · exact paramSrc_sym (q :: l) s hs

theorem skipLine_syms {a : List Tok} {l : List Sym} (h : a.map Tok.sym = l)
    (hl : ∀ s ∈ l, s ≠ .newline) {t : Tok} (ht : t.sym = .newline) (rest : List Tok) :
    skipLine (a ++ t :: rest) = rest := by
  refine skipLine_oneLine (fun x hx => hl _ ?_) ht rest
  rw [← h]; exact List.mem_map_of_mem hx

theorem operand_ne {s : Sym} (h : operand s = true) : s ≠ .newline := by
  simp only [operand, Bool.and_eq_true, decide_eq_true_eq] at h
  exact h.1.2

/-- A condition is a directive word and operands on one line. -/
theorem Test.src_eq (t : Test) (h : t.ok = true) {mid : List Sym} (hm : blank mid = true) :
    ∃ w l, t.src mid = .word w :: l ∧ (∀ s ∈ l, s ≠ .newline) ∧
      (w = kw "if" ∨ w = kw "ifdef" ∨ w = kw "ifndef") := by
  cases t with
  | ifdef n =>
    refine ⟨kw "ifdef", mid ++ [.word n], rfl, ?_, by simp⟩
    intro s hs
    simp only [List.mem_append, List.mem_singleton] at hs
    rcases hs with hs | rfl
    · exact blank_sym hm s hs
    · simp
  | ifndef n =>
    refine ⟨kw "ifndef", mid ++ [.word n], rfl, ?_, by simp⟩
    intro s hs
    simp only [List.mem_append, List.mem_singleton] at hs
    rcases hs with hs | rfl
    · exact blank_sym hm s hs
    · simp
  | truthy x =>
    simp only [Spec.Test.ok, Bool.and_eq_true] at h
    refine ⟨kw "if", mid ++ [x], rfl, ?_, by simp⟩
    intro s hs
    simp only [List.mem_append, List.mem_singleton] at hs
    rcases hs with hs | rfl
    · exact blank_sym hm s hs
    · exact operand_ne h.1
  | cmp l sp1 op sp2 r =>
    simp only [Spec.Test.ok, Bool.and_eq_true, List.all_eq_true] at h
    obtain ⟨⟨⟨⟨⟨⟨⟨⟨h1, _⟩, h2⟩, _⟩, h3⟩, _⟩, h4⟩, _⟩, h5⟩ := h
    refine ⟨kw "if", mid ++ l :: sp1 ++ op ++ sp2 ++ [r], by simp [Test.src], ?_, by simp⟩
    intro s hs
    simp only [List.mem_append, List.mem_cons, List.not_mem_nil, or_false] at hs
    rcases hs with (((hs | rfl | hs) | hs) | hs) | rfl
    · exact blank_sym hm s hs
    · exact operand_ne h1
    · exact blank_sym h2 s hs
    · exact operand_ne (h3 s hs)
    · exact blank_sym h4 s hs
    · exact operand_ne h5

theorem firstSplit (a : List Tok) : ∃ ind b, a = ind ++ b ∧ blank (ind.map Tok.sym) = true ∧
    firstSym (a.map Tok.sym) = (b.head?.map Tok.sym) ∧ (b.head?.all fun t => !t.sym.isWs) = true := by
  induction a with
  | nil => exact ⟨[], [], rfl, rfl, rfl, rfl⟩
  | cons t a ih =>
    obtain ⟨ind, b, h1, h2, h3, h4⟩ := ih
    by_cases h : t.sym.isWs = true
    · refine ⟨t :: ind, b, by rw [h1]; rfl, ?_, ?_, h4⟩
      · rw [List.map_cons, blank_cons]; exact ⟨h, h2⟩
      · rw [List.map_cons, firstSym, if_pos h, h3]
    · exact ⟨[], t :: a, rfl, rfl, by rw [List.map_cons, firstSym, if_neg h]; rfl, by simpa using h⟩

/-- Any single-line directive other than conditionals in a skipped branch. -/
theorem skip_simple {env st} (hr : st.ifs.reading = false) {ind : List Tok}
    (hb : blank (ind.map Tok.sym) = true) {h c : Tok} (hh : h.sym = .directive)
    (hc : c.sym = .word (kw "define") ∨ c.sym = .word (kw "undef")) {l : List Tok} {x : List Sym}
    (hl : l.map Tok.sym = x) (hx : ∀ s ∈ x, s ≠ .newline) {nl : Tok} (hnl : nl.sym = .newline)
    {rest : List Tok} {buf : List Out} {r} (hk : Runs env st rest buf r) :
    Runs env st (ind ++ h :: c :: (l ++ nl :: rest)) buf r := by
  have hcmd := command_skip (n := 0) (env := env) (toks := l ++ nl :: rest) (buf := buf) hr hc
  rw [skipLine_syms hl hx hnl] at hcmd
  rcases hc with hc | hc <;>
  · refine Runs.directive (n := 1) hb hh hc ?_ hk
    rw [if_neg (by simp [hr])]
    exact hcmd

theorem run_else {env st} {sp : Sp} (hsp : sp.ok = true) {a : List Tok}
    (ha : a.map Tok.sym = elseSrc (some sp)) :
    ∃ c : Tok, ∃ ind : List Tok, ind.map Tok.sym = sp.ind ∧ ∀ ifs, st.ifs.flip c = .ok ifs →
    ∀ rest buf r,
      Runs env { st with ifs := ifs } rest
        (if st.ifs.reading then buf ++ (vis ind).map .direct else buf) r →
      Runs env st (a ++ rest) buf r := by
  simp only [Spec.Sp.ok, Bool.and_eq_true] at hsp
  simp only [elseSrc, List.append_assoc, List.cons_append] at ha
  obtain ⟨ind, b, rfl, h1, h2⟩ := splitAppend ha
  obtain ⟨h, b, rfl, hh, h2⟩ := splitCons h2
  obtain ⟨c, b, rfl, hc, h2⟩ := splitCons h2
  obtain ⟨tr, b, rfl, h3, h2⟩ := splitAppend h2
  obtain ⟨nl, b, rfl, hnl, h2⟩ := splitCons h2
  obtain rfl := splitNil h2
  refine ⟨c, ind, h1, fun ifs hf rest buf r hk => ?_⟩
  simp only [List.append_assoc, List.cons_append, List.nil_append]
  refine Runs.directive (n := 1) (by rw [h1]; exact hsp.1.1) hh hc ?_ hk
  exact command_else hc hf (expectNothing_blank (by rw [h3]; exact hsp.2) hnl rest) (n := 0)

theorem run_endif {env st} {sp : Sp} (hsp : sp.ok = true) {a : List Tok}
    (ha : a.map Tok.sym = sp.ind ++ .directive :: .word (kw "endif") :: sp.trail ++ [.newline]) :
    ∃ ind : List Tok, ind.map Tok.sym = sp.ind ∧ ∀ rest buf r,
      Runs env { st with ifs := st.ifs.pop.2 } rest
        (if st.ifs.reading then buf ++ (vis ind).map .direct else buf) r →
      Runs env st (a ++ rest) buf r := by
  simp only [Spec.Sp.ok, Bool.and_eq_true] at hsp
  simp only [List.append_assoc, List.cons_append] at ha
  obtain ⟨ind, b, rfl, h1, h2⟩ := splitAppend ha
  obtain ⟨h, b, rfl, hh, h2⟩ := splitCons h2
  obtain ⟨c, b, rfl, hc, h2⟩ := splitCons h2
  obtain ⟨tr, b, rfl, h3, h2⟩ := splitAppend h2
  obtain ⟨nl, b, rfl, hnl, h2⟩ := splitCons h2
  obtain rfl := splitNil h2
  refine ⟨ind, h1, fun rest buf r hk => ?_⟩
  simp only [List.append_assoc, List.cons_append, List.nil_append]
  refine Runs.directive (n := 1) (by rw [h1]; exact hsp.1.1) hh hc ?_ hk
  exact command_endif hc (expectNothing_blank (by rw [h3]; exact hsp.2) hnl rest) (n := 0)

/-- `#else` below a skipped branch. -/
theorem flip_skipped {s : IfStates} {i : IfState} {l : List IfState} (hs : s.stack = i :: l)
    (hl : l.all IfState.reading = false) (hd : s.didElse = none) (c : Tok) :
    s.flip c = .ok { stack := i :: l, didElse := some c } := by
  rw [IfStates.flip, hd]
  simp only [hs, List.tail_cons, hl]
  rfl

mutual
/-- A skipped item changes nothing and emits nothing. -/
theorem skip_item {env : Env} : (it : Item) → ∀ {st : St}, st.ifs.reading = false →
    it.ok = true → ∀ {a : List Tok}, a.map Tok.sym = printItem it → ∃ st', Sim it.nested st st' ∧
      ∀ rest buf r, Runs env st' rest buf r → Runs env st (a ++ rest) buf r
  | .text l, st, hr, hok, a, ha => by
    simp only [Item.ok, Bool.and_eq_true, decide_eq_true_eq] at hok
    simp only [printItem] at ha
    obtain ⟨b, c, rfl, hb, hc⟩ := splitAppend ha
    obtain ⟨nl, c, rfl, hnl, hc⟩ := splitCons hc
    obtain rfl := splitNil hc
    obtain ⟨ind, x, rfl, h1, h2, h3⟩ := firstSplit b
    refine ⟨{ st with pragma := st.pragma.clearLine }, ⟨rfl, rfl, .inl ⟨rfl, rfl⟩⟩,
      fun rest buf r hk => ?_⟩
    have hx : ∀ s ∈ (x.map Tok.sym), s ≠ .newline := by
      intro s hs
      refine oneLine_sym hok.1 s ?_
      rw [← hb, List.map_append]; simp only [List.mem_append]; exact .inr hs
    rw [hb] at h2
    rw [h2] at hok
    cases x with
    | nil =>
      simp only [List.append_nil, List.append_assoc, List.cons_append, List.nil_append]
      obtain ⟨y, z, hy, he⟩ := first_ne_eoi h1 (t := nl) (by rw [hnl]; simp) rest
      refine Runs.of_line hy he (n := 2) ?_ hk
      rw [line_text h1 (by rw [hnl]; rfl) (by rw [hnl]; simp), if_neg (by simp [hr])]
      simp [skipLine, hnl]
    | cons t x =>
      simp only [List.append_assoc, List.cons_append, List.nil_append]
      have ht : t.sym ≠ .eoi := by
        intro e
        have := hok.1
        rw [← hb] at this
        simp [oneLine, e] at this
      obtain ⟨y, z, hy, he⟩ := first_ne_eoi h1 ht (x ++ nl :: rest)
      refine Runs.of_line hy he (n := 2) ?_ hk
      rw [line_text h1 (by simpa using h3) (by simpa using hok.2), if_neg (by simp [hr])]
      rw [← List.cons_append, skipLine_syms rfl hx hnl]
  | .value sp n gap body, st, hr, hok, a, ha => by
    simp only [Item.ok, Spec.Sp.ok, Bool.and_eq_true] at hok
    obtain ⟨⟨⟨⟨⟨⟨⟨⟨h1, h2⟩, h3⟩, _⟩, h4⟩, _⟩, h5⟩, _⟩, _⟩ := hok
    simp only [printItem, List.append_assoc, List.cons_append] at ha
    obtain ⟨ind, b, rfl, hi, hb⟩ := splitAppend ha
    obtain ⟨h, b, rfl, hh, hb⟩ := splitCons hb
    obtain ⟨c, b, rfl, hc, hb⟩ := splitCons hb
    obtain ⟨mid, b, rfl, hm, hb⟩ := splitAppend hb
    obtain ⟨w, b, rfl, hw, hb⟩ := splitCons hb
    obtain ⟨g, b, rfl, hg, hb⟩ := splitAppend hb
    obtain ⟨bd, b, rfl, hbd, hb⟩ := splitAppend hb
    obtain ⟨nl, b, rfl, hnl, hb⟩ := splitCons hb
    obtain rfl := splitNil hb
    refine ⟨st, .refl st, fun rest buf r hk => ?_⟩
    have := skip_simple (l := mid ++ w :: (g ++ bd)) hr (by rw [hi]; exact h1) hh (.inl hc) rfl
      (by
        intro s hs
        simp only [List.map_append, List.map_cons, List.mem_append, List.mem_cons, hm, hw, hg, hbd] at hs
        rcases hs with hs | rfl | hs | hs
        · exact blank_sym h2 s hs
        · simp
        · exact blank_sym h4 s hs
        · exact oneLine_sym h5 s hs) hnl hk
    simpa using this
  | .flag sp n, st, hr, hok, a, ha => by
    simp only [Item.ok, Spec.Sp.ok, Bool.and_eq_true] at hok
    obtain ⟨⟨⟨h1, h2⟩, h3⟩, _⟩ := hok
    simp only [printItem, List.append_assoc, List.cons_append] at ha
    obtain ⟨ind, b, rfl, hi, hb⟩ := splitAppend ha
    obtain ⟨h, b, rfl, hh, hb⟩ := splitCons hb
    obtain ⟨c, b, rfl, hc, hb⟩ := splitCons hb
    obtain ⟨mid, b, rfl, hm, hb⟩ := splitAppend hb
    obtain ⟨w, b, rfl, hw, hb⟩ := splitCons hb
    obtain ⟨nl, b, rfl, hnl, hb⟩ := splitCons hb
    obtain rfl := splitNil hb
    refine ⟨st, .refl st, fun rest buf r hk => ?_⟩
    have := skip_simple (l := mid ++ [w]) hr (by rw [hi]; exact h1) hh (.inl hc) rfl
      (by
        intro s hs
        simp only [List.map_append, List.map_cons, List.map_nil, List.mem_append,
          List.mem_singleton, hm, hw] at hs
        rcases hs with hs | rfl
        · exact blank_sym h2 s hs
        · simp) hnl hk
    simpa using this
  | .func sp n ps body, st, hr, hok, a, ha => by
    simp only [Item.ok, Spec.Sp.ok, Bool.and_eq_true] at hok
    obtain ⟨⟨⟨⟨⟨⟨h1, h2⟩, h3⟩, _⟩, h5⟩, _⟩, _⟩ := hok
    simp only [printItem, List.append_assoc, List.cons_append] at ha
    obtain ⟨ind, b, rfl, hi, hb⟩ := splitAppend ha
    obtain ⟨h, b, rfl, hh, hb⟩ := splitCons hb
    obtain ⟨c, b, rfl, hc, hb⟩ := splitCons hb
    obtain ⟨mid, b, rfl, hm, hb⟩ := splitAppend hb
    obtain ⟨w, b, rfl, hw, hb⟩ := splitCons hb
    obtain ⟨lp, b, rfl, hlp, hb⟩ := splitCons hb
    obtain ⟨g, b, rfl, hg, hb⟩ := splitAppend hb
    obtain ⟨rp, b, rfl, hrp, hb⟩ := splitCons hb
    obtain ⟨bd, b, rfl, hbd, hb⟩ := splitAppend hb
    obtain ⟨nl, b, rfl, hnl, hb⟩ := splitCons hb
    obtain rfl := splitNil hb
    refine ⟨st, .refl st, fun rest buf r hk => ?_⟩
    have := skip_simple (l := mid ++ w :: lp :: (g ++ rp :: bd)) hr (by rw [hi]; exact h1) hh
      (.inl hc) rfl
      (by
        intro s hs
        simp only [List.map_append, List.map_cons, List.mem_append, List.mem_cons, hm, hw, hg, hbd,
          hlp, hrp] at hs
        rcases hs with hs | rfl | rfl | hs | rfl | hs
        · exact blank_sym h2 s hs
        · simp
        · simp
        · exact paramSrc_sym ps s hs
        · simp
        · exact oneLine_sym h5 s hs) hnl hk
    simpa using this
  | .undef sp n, st, hr, hok, a, ha => by
    simp only [Item.ok, Spec.Sp.ok, Bool.and_eq_true] at hok
    obtain ⟨⟨h1, h2⟩, h3⟩ := hok
    simp only [printItem, List.append_assoc, List.cons_append] at ha
    obtain ⟨ind, b, rfl, hi, hb⟩ := splitAppend ha
    obtain ⟨h, b, rfl, hh, hb⟩ := splitCons hb
    obtain ⟨c, b, rfl, hc, hb⟩ := splitCons hb
    obtain ⟨mid, b, rfl, hm, hb⟩ := splitAppend hb
    obtain ⟨w, b, rfl, hw, hb⟩ := splitCons hb
    obtain ⟨tr, b, rfl, htr, hb⟩ := splitAppend hb
    obtain ⟨nl, b, rfl, hnl, hb⟩ := splitCons hb
    obtain rfl := splitNil hb
    refine ⟨st, .refl st, fun rest buf r hk => ?_⟩
    have := skip_simple (l := mid ++ w :: tr) hr (by rw [hi]; exact h1) hh (.inr hc) rfl
      (by
        intro s hs
        simp only [List.map_append, List.map_cons, List.mem_append,
          List.mem_cons, hm, hw, htr] at hs
        rcases hs with hs | rfl | hs
        · exact blank_sym h2 s hs
        · simp
        · exact blank_sym h3 s hs) hnl hk
    simpa using this
  | .cond sp t th els el spEnd, st, hr, hok, a, ha => by
    simp only [Item.ok, Bool.and_eq_true] at hok
    obtain ⟨⟨⟨⟨⟨hsp, ht⟩, hth⟩, hels⟩, hel⟩, hend⟩ := hok
    simp only [Spec.Sp.ok, Bool.and_eq_true] at hsp
    obtain ⟨w, ops, hsrc, hops, hw⟩ := Test.src_eq t ht hsp.1.2
    simp only [printItem] at ha
    obtain ⟨b, e, rfl, hb, he⟩ := splitAppend ha
    obtain ⟨b, eb, rfl, hb, heb⟩ := splitAppend hb
    obtain ⟨b, ee, rfl, hb, hee⟩ := splitAppend hb
    obtain ⟨b, tb, rfl, hb, htb⟩ := splitAppend hb
    simp only [hsrc, List.append_assoc, List.cons_append] at hb
    obtain ⟨ind, b, rfl, hi, hb⟩ := splitAppend hb
    obtain ⟨h, b, rfl, hh, hb⟩ := splitCons hb
    obtain ⟨c, b, rfl, hc, hb⟩ := splitCons hb
    obtain ⟨o, b, rfl, ho, hb⟩ := splitAppend hb
    obtain ⟨tr, b, rfl, htr, hb⟩ := splitAppend hb
    obtain ⟨nl, b, rfl, hnl, hb⟩ := splitCons hb
    obtain rfl := splitNil hb
    have hcw : c.sym = .word (kw "if") ∨ c.sym = .word (kw "ifdef") ∨
        c.sym = .word (kw "ifndef") := by
      rcases hw with rfl | rfl | rfl <;> simp [hc]
    let st0 : St := { st with ifs := st.ifs.push (.passingChild c) }
    have hr0 : st0.ifs.reading = false := by simp [st0, reading_push, IfState.reading]
    obtain ⟨st1, hs1, hrun1⟩ := skip_items (env := env) th hr0 hth htb
    have open_ : ∀ rest buf r, Runs env st0 rest buf r →
        Runs env st (ind ++ h :: c :: (o ++ (tr ++ nl :: rest))) buf r := by
      intro rest buf r hk
      refine Runs.directive (n := 1) (by rw [hi]; exact hsp.1.1) hh hc ?_ hk
      rw [if_neg (by simp [hr]), command_skip_if hr hcw (n := 0)]
      rw [← List.append_assoc, skipLine_syms rfl ?_ hnl]
      intro s hs
      simp only [List.map_append, List.mem_append, ho, htr] at hs
      rcases hs with hs | hs
      · exact hops s hs
      · exact blank_sym hsp.2 s hs
    have hst1 : st1.ifs.stack = .passingChild c :: st.ifs.stack := hs1.stack
    have hd1 : st1.ifs.didElse = none := by
      rcases hs1.didElse with ⟨_, h'⟩ | ⟨_, h'⟩
      · exact h'
      · exact h'
    cases els with
    | none =>
      simp only [elseSrc, List.map_eq_nil_iff] at hee
      subst hee
      simp only [Option.isSome_none, if_neg (by simp : ¬ (false = true)), List.map_eq_nil_iff] at heb
      subst heb
      obtain ⟨ind2, _, hfin⟩ := run_endif (env := env) (st := st1) hend he
      refine ⟨{ st1 with ifs := st1.ifs.pop.2 }, ⟨hs1.defs, ?_, .inr ⟨rfl, rfl⟩⟩, fun rest buf r hk => ?_⟩
      · simp [IfStates.pop, hst1]
      · simp only [List.append_assoc, List.cons_append, List.nil_append]
        refine open_ _ _ _ (hrun1 _ _ _ (hfin _ _ _ ?_))
        rw [if_neg (by rw [hs1.reading]; simp [hr0])]
        exact hk
    | some spe =>
      simp only [Option.all_some] at hels
      simp only [Option.isSome_some, if_true] at heb
      obtain ⟨ce, ind1, _, helse⟩ := run_else (env := env) (st := st1) hels hee
      have hflip := flip_skipped hst1 hr hd1 ce
      let st2 : St := { st1 with ifs := { stack := .passingChild c :: st.ifs.stack, didElse := some ce } }
      have hr2 : st2.ifs.reading = false := by simp [st2, IfStates.reading, IfState.reading]
      obtain ⟨st3, hs3, hrun3⟩ := skip_items (env := env) el hr2 hel heb
      obtain ⟨ind2, _, hfin⟩ := run_endif (env := env) (st := st3) hend he
      refine ⟨{ st3 with ifs := st3.ifs.pop.2 }, ⟨?_, ?_, .inr ⟨rfl, rfl⟩⟩, fun rest buf r hk => ?_⟩
      · exact hs3.defs.trans hs1.defs
      · simp [IfStates.pop, hs3.stack, st2]
      · simp only [List.append_assoc, List.cons_append, List.nil_append]
        refine open_ _ _ _ (hrun1 _ _ _ (helse _ hflip _ _ _ ?_))
        rw [if_neg (by rw [hs1.reading]; simp [hr0])]
        refine hrun3 _ _ _ (hfin _ _ _ ?_)
        rw [if_neg (by rw [hs3.reading]; simp [hr2])]
        exact hk
/-- A skipped list of items changes nothing and emits nothing. -/
theorem skip_items {env : Env} : (l : List Item) → ∀ {st : St}, st.ifs.reading = false →
    Item.okL l = true → ∀ {a : List Tok}, a.map Tok.sym = printItems l → ∃ st',
      Sim (l.any Item.nested) st st' ∧
      ∀ rest buf r, Runs env st' rest buf r → Runs env st (a ++ rest) buf r
  | [], st, _, _, a, ha => by
    simp only [printItems, List.map_eq_nil_iff] at ha
    subst ha
    exact ⟨st, .refl st, fun rest buf r hk => hk⟩
  | i :: l, st, hr, hok, a, ha => by
    simp only [Item.okL, Bool.and_eq_true] at hok
    simp only [printItems] at ha
    obtain ⟨b, c, rfl, hb, hc⟩ := splitAppend ha
    obtain ⟨st1, h1, k1⟩ := skip_item (env := env) i hr hok.1 hb
    obtain ⟨st2, h2, k2⟩ := skip_items (env := env) l (h1.reading.trans hr) hok.2 hc
    refine ⟨st2, h1.trans h2, fun rest buf r hk => ?_⟩
    rw [List.append_assoc]
    exact k1 _ _ _ (k2 _ _ _ hk)
end

end Verif.Preproc
