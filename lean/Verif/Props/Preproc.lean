import Verif.Lib.PreprocRun
/-!
C29: conditional compilation selects the right branches.
C30: a second `#else` is rejected (only sometimes).
-/
namespace Verif.Preproc
open Spec

/-! ### Helpers for examples -/

namespace Ex

/-- Tokens of a list of symbols, one column each, all on line `l`. -/
def tk (path : Text) (l : Nat) : Nat → List Sym → List Tok
  | _, [] => []
  | o, s :: r => ⟨s, ⟨⟨o, l, o⟩, ⟨o + 1, l, o + 1⟩, path⟩⟩ ::
      tk path (if s = .newline then l + 1 else l) (o + 1) r

theorem tk_sym (path : Text) (x : List Sym) : ∀ l o, (tk path l o x).map Tok.sym = x := by
  induction x with
  | nil => intros; rfl
  | cons s r ih => intro l o; simp [tk, ih]

/-- A world with the one file `main`. -/
def world (src : List Sym) : Env where
  load p := if p = kw "main" then .ok (tk p 1 0 src) else .error .panic
  locate _ _ := none
  fileMacro p := p
  fileName p := p
  compare _ _ _ := none

/-- A word. -/
abbrev w (s : String) : Sym := .word (kw s)

/-- The symbols written by a run. -/
def outSyms (r : Except PErr (St × List Out)) : Option (List Sym) :=
  match r with
  | .ok (_, b) => some ((Out.toksL b).map Tok.sym)
  | .error _ => none

/-- The error of a run: number and symbol. -/
def errOf (r : Except PErr (St × List Out)) : Option (Option (Nat × Sym)) :=
  match r with
  | .ok _ => none
  | .error (.code n t _) => some (some (n, t.sym))
  | .error _ => some none

/-- Did the program abort? -/
def aborts (r : Except PErr (St × List Out)) : Bool :=
  match r with
  | .error .panic | .error .stray => true
  | _ => false

end Ex
open Ex

/-! ### C29 -/

theorem toksL_direct (l : List Tok) : Out.toksL (l.map .direct) = l := by
  induction l with
  | nil => rfl
  | cons t l ih => simp [Out.toksL, Out.toks, ih]

/-- C29. A file whose content is the source of a structured program (conditionals nested to any depth, on
`#ifdef`, `#ifndef`, `#if X`, `#if L op R`, with or without `#else`, definitions and `#undef` anywhere, skipped
branches holding whatever is well-formed) preprocesses to exactly the output `evalItems` describes: the text of
the branches selected by the macros defined at that point, and the macro table afterwards. -/
theorem C29_conditionals {env : Env} {path : Text} {items : List Item} {toks : List Tok} {m' : Macros}
    {out : List Sym} (hload : env.load path = .ok toks)
    (hsrc : toks.map Tok.sym = printItems items ++ [.eoi]) (hok : Item.okL items = true)
    (hev : evalItems env.compare (fun _ => none) items = some (m', out)) :
    ∃ k st buf, (∀ n, k ≤ n → run n env path = .ok (st, buf)) ∧
      (Out.toksL buf).map Tok.sym = out ∧ ∀ name, Agrees (st.defs.getReadonly name) (m' name) := by
  obtain ⟨a, b, rfl, ha, hb⟩ := splitAppend hsrc
  obtain ⟨e, c, rfl, he, hc⟩ := splitCons hb
  obtain rfl := splitNil hc
  obtain ⟨st, x, hx⟩ := run_items (env := env) (st := { files := [path] }) (m := fun _ => none) (buf := []) items rfl
    ⟨rfl, fun _ => rfl⟩ hok hev ha (by simp [NoEsc])
  have hruns : Runs env { files := [path] } (a ++ [e]) []
      (.ok (st, [e], x.map .direct)) :=
    hx.emits [e] _ ⟨by simp, 1, by rw [file.eq_def]; simp [he]⟩
  obtain ⟨hne, n, hn⟩ := hruns
  refine ⟨n, st, x.map .direct, fun k hk => ?_, by rw [toksL_direct, hx.out], fun name => ?_⟩
  · rw [run, hload]
    simp only
    rw [file_more hk hn hne]
    simp only
    have : st.ifs.stack = [] := hx.keep.stack
    simp [IfStates.pop, this]
  · have := hx.rep.2 name
    rwa [Defines.getReadonly, hx.rep.1]

/-- The line that opens a conditional. -/
def openSrc (sp : Sp) (t : Test) : List Sym := sp.ind ++ .directive :: t.src sp.mid ++ sp.trail ++ [.newline]

theorem run_open {env : Env} {st : St} {m : Macros} (hr : st.ifs.reading = true) (hrep : Rep st.defs m) {sp : Sp}
    {t : Test} (hsp : sp.ok = true) (ht : t.ok = true) {tv : Bool} (htest : t.eval env.compare m = some tv)
    {a : List Tok} (ha : a.map Tok.sym = openSrc sp t) {buf : List Out} (he : NoEsc buf) :
    ∃ c ind, ind.map Tok.sym = sp.ind ∧ NoEsc (buf ++ (vis ind).map .direct) ∧ ∀ rest r,
      Runs env { st with ifs := st.ifs.pushIf c tv } rest (buf ++ (vis ind).map .direct) r →
      Runs env st (a ++ rest) buf r := by
  simp only [Spec.Sp.ok, Bool.and_eq_true] at hsp
  obtain ⟨w, ops, hsrc, hops, hw⟩ := Test.src_eq t ht hsp.1.2
  simp only [openSrc, hsrc, List.append_assoc, List.cons_append] at ha
  obtain ⟨ind, b, rfl, hi, hb⟩ := splitAppend ha
  obtain ⟨h, b, rfl, hh, hb⟩ := splitCons hb
  obtain ⟨c, b, rfl, hc, hb⟩ := splitCons hb
  obtain ⟨o, b, rfl, ho, hb⟩ := splitAppend hb
  obtain ⟨tr, b, rfl, htr, hb⟩ := splitAppend hb
  obtain ⟨nl, b, rfl, hnl, hb⟩ := splitCons hb
  obtain rfl := splitNil hb
  have hbi : blank (ind.map Tok.sym) = true := by rw [hi]; exact hsp.1.1
  refine ⟨c, ind, hi, he.append_ws hbi, fun rest r hk => ?_⟩
  simp only [List.append_assoc, List.cons_append, List.nil_append]
  refine Runs.directive hbi hh hc (n := 1) ?_ hk
  rw [if_pos hr]
  exact command_test hr hrep ht htest hsp.1.2 (by rw [List.map_cons, hc, ho, hsrc])
    (by rw [htr]; exact hsp.2) hnl rest _

/-- A region in a branch of a conditional: it has a meaning if the branch is selected. -/
def Selectable (cmp : Text → Text → Text → Option Bool) (m : Macros) (sel : Bool) (l : List Item) : Prop :=
  sel = true → ∃ m' out, evalItems cmp m l = some (m', out)

theorem run_branch {env : Env} {l : List Item} {st : St} {m : Macros} (hrep : Rep st.defs m)
    (hok : Item.okL l = true) (hsel : Selectable env.compare m st.ifs.reading l) {a : List Tok} {buf : List Out}
    (ha : a.map Tok.sym = printItems l) (he : NoEsc buf) :
    ∃ st' buf', Keep (l.any Item.nested) st st' ∧ (st.ifs.reading = false → Rep st'.defs m) ∧ NoEsc buf' ∧
      ∀ rest r, Runs env st' rest buf' r → Runs env st (a ++ rest) buf r := by
  cases hr : st.ifs.reading with
  | true =>
    obtain ⟨m', out, hev⟩ := hsel hr
    obtain ⟨st', x, hx⟩ := run_items (env := env) l hr hrep hok hev ha he
    exact ⟨st', _, hx.keep, by simp, hx.noEsc, hx.emits⟩
  | false =>
    obtain ⟨st', hs, hrun⟩ := skip_items (env := env) l hr hok ha
    exact ⟨st', buf, ⟨hs.stack, hs.didElse⟩, fun _ => by rw [hs.defs]; exact hrep, he, fun rest r => hrun rest buf r⟩

/-- C29. A conditional that is still open at the end of the file is an error (PE18), whether its branch is selected
or not. -/
theorem C29_unterminated {env : Env} {path : Text} {pre th : List Item} {sp : Sp} {t : Test} {toks : List Tok}
    {m : Macros} {out : List Sym} {tv : Bool} (hload : env.load path = .ok toks)
    (hsrc : toks.map Tok.sym = printItems pre ++ openSrc sp t ++ printItems th ++ [.eoi])
    (hok : Item.okL pre = true) (hsp : sp.ok = true) (ht : t.ok = true) (hth : Item.okL th = true)
    (hev : evalItems env.compare (fun _ => none) pre = some (m, out)) (htest : t.eval env.compare m = some tv)
    (hsel : Selectable env.compare m tv th) :
    ∃ k c, ∀ n, k ≤ n → run n env path = .error (.code 18 c) := by
  obtain ⟨b, e, rfl, hb, he⟩ := splitAppend hsrc
  obtain ⟨b, tb, rfl, hb, htb⟩ := splitAppend hb
  obtain ⟨a, o, rfl, ha, ho⟩ := splitAppend hb
  obtain ⟨e, c, rfl, hee, hc⟩ := splitCons he
  obtain rfl := splitNil hc
  obtain ⟨st, x, hx⟩ := run_items (env := env) (st := { files := [path] }) (m := fun _ => none) (buf := []) pre rfl
    ⟨rfl, fun _ => rfl⟩ hok hev ha (by simp [NoEsc])
  have hr : st.ifs.reading = true := hx.keep.reading
  obtain ⟨c, ind, _, he1, hopen⟩ := run_open (env := env) hr hx.rep hsp ht htest ho hx.noEsc
  obtain ⟨st2, buf2, hk2, _, _, hrun2⟩ := run_branch (env := env)
    (st := { st with ifs := st.ifs.pushIf c tv }) (m := m) (l := th) hx.rep hth
    (by rw [reading_pushIf, hr, Bool.and_true]; exact hsel) htb he1
  have hruns : Runs env { files := [path] } (a ++ o ++ tb ++ [e]) [] (.ok (st2, [e], buf2)) := by
    have hend : Runs env st2 [e] buf2 (.ok (st2, [e], buf2)) :=
      ⟨by simp, 1, by rw [file.eq_def]; simp [hee]⟩
    rw [List.append_assoc, List.append_assoc]
    exact hx.emits _ _ (hopen _ _ (hrun2 _ _ hend))
  obtain ⟨hne, n, hn⟩ := hruns
  refine ⟨n, c, fun k hk => ?_⟩
  rw [run, hload]
  simp only
  rw [file_more hk hn hne]
  have : st2.ifs.stack = (if tv then IfState.readingIf c else .passingIf c) :: st.ifs.stack := hk2.stack
  simp only [IfStates.pop, this, List.head?_cons]
  cases tv <;> rfl

/-- C29 applies: nested conditionals, one of them inside a skipped branch. -/
example : ∃ items m' out,
    Item.okL items = true ∧ evalItems (fun _ _ _ => none) (fun _ => none) items = some (m', out) ∧
    out = [.word (kw "yes"), .newline, .word (kw "deep"), .newline] :=
  ⟨[.value {} (kw "A") [.space] [.digit 1],
    .cond {} (.cmp (.word (kw "A")) [.space] [.equals, .equals] [.space] (.digit 1))
      [.text [.word (kw "yes")]] (some {}) [.cond {} (.ifdef (kw "B")) [.text [.word (kw "no")]] none [] {}] {},
    .cond {} (.ifdef (kw "B")) [.cond {} (.ifndef (kw "B")) [.text [.word (kw "no")]] (some {}) [] {}]
      (some {}) [.cond {} (.truthy (.word (kw "A"))) [.text [.word (kw "deep")]] none [] {}] {}],
    _, _, by decide +kernel, rfl, by decide +kernel⟩

/-- C29 does not extend to conditionals inside multi-line macros: arguments used in a branch that is not selected
come out all the same. With
```
#define M(a) x \
#ifdef NOPE \
a \
#endif
M(5)
```
the last line gives `x 5`. -/
theorem C29_violated_in_macros :
    outSyms (run 100 (world ([.directive, w "define", .space, w "M", .lparen, w "a", .rparen, .space, w "x", .space,
      .escape, .newline, .directive, w "ifdef", .space, w "NOPE", .space, .escape, .newline, w "a", .space, .escape,
      .newline, .directive, w "endif", .newline, w "M", .lparen, .digit 5, .rparen, .newline, .eoi])) (kw "main")) =
    some [w "x", .space, .newline, .digit 5, .newline] := by decide +kernel

/-! ### C30 -/

/-- The conditional directives as the state machine sees them. -/
inductive Op
  | cond (c : Tok) (b : Bool) | skipped (c : Tok) | els (c : Tok) | endif
  deriving DecidableEq

/-- One directive, as `command` handles it. -/
def Op.step (s : IfStates) : Op → Except PErr IfStates
  | .cond c b => .ok (s.pushIf c b)
  | .skipped c => .ok (s.push (.passingChild c))
  | .els c => s.flip c
  | .endif => .ok s.pop.2

/-- A history of directives. -/
def Op.steps : IfStates → List Op → Except PErr IfStates
  | s, [] => .ok s
  | s, o :: l => match o.step s with
    | .error e => .error e
    | .ok s => steps s l

theorem Op.steps_append (l : List Op) : ∀ (s : IfStates) (k : List Op), Op.steps s (l ++ k) =
    match Op.steps s l with
    | .error e => .error e
    | .ok s => Op.steps s k := by
  induction l with
  | nil => intros; rfl
  | cons o l ih =>
    intro s k
    simp only [List.cons_append, Op.steps]
    cases o.step s with
    | error e => rfl
    | ok s => exact ih s k

theorem Op.didElse {l : List Op} : ∀ {s : IfStates}, Op.steps {} l = .ok s →
    s.didElse.isSome = (match l.getLast? with
      | some (.els _) => true
      | _ => false) := by
  intro s h
  rcases List.eq_nil_or_concat l with rfl | ⟨l, o, rfl⟩
  · simp only [Op.steps, Except.ok.injEq] at h
    subst h; rfl
  · rw [List.concat_eq_append, Op.steps_append] at h
    rw [List.concat_eq_append, List.getLast?_append]
    cases h1 : Op.steps {} l with
    | error e => rw [h1] at h; simp at h
    | ok s1 =>
      rw [h1] at h
      simp only [Op.steps] at h
      cases h2 : o.step s1 with
      | error e => rw [h2] at h; simp at h
      | ok s2 =>
        rw [h2] at h
        simp only [Except.ok.injEq] at h
        subst h
        cases o with
        | cond c b => simp only [Op.step, Except.ok.injEq] at h2; subst h2; rfl
        | skipped c => simp only [Op.step, Except.ok.injEq] at h2; subst h2; rfl
        | endif => simp only [Op.step, Except.ok.injEq] at h2; subst h2; rfl
        | els c =>
          simp only [Op.step, IfStates.flip] at h2
          split at h2
          · split at h2 <;> simp at h2
          · split at h2
            · split at h2 <;> (simp only [Except.ok.injEq] at h2; subst h2; rfl)
            · simp only [Except.ok.injEq] at h2; subst h2; rfl

/-- C30, what the code really does for every history of conditional directives: an `#else` is refused exactly when
the conditional directive right before it is an `#else` too. Missing from C30: an `#else` that repeats after an
inner conditional (`C30_violated`) or that belongs to no conditional (`C30_stray_else`) is accepted. -/
theorem C30_else_refused_iff_partial {l : List Op} {s : IfStates} (h : Op.steps {} l = .ok s) (c : Tok) :
    (∃ e, s.flip c = .error e) ↔ ∃ d, l.getLast? = some (.els d) := by
  have hd := Op.didElse h
  constructor
  · rintro ⟨e, he⟩
    cases hx : s.didElse with
    | none =>
      rw [IfStates.flip, hx] at he
      simp only at he
      split at he
      · split at he <;> simp at he
      · simp at he
    | some d =>
      rw [hx] at hd
      simp only [Option.isSome_some] at hd
      split at hd
      · rename_i d hl; exact ⟨d, hl⟩
      · simp at hd
  · rintro ⟨d, hl⟩
    rw [hl] at hd
    obtain ⟨d, hd⟩ := Option.isSome_iff_exists.1 hd
    rw [IfStates.flip, hd]
    simp only
    cases s.stack <;> exact ⟨_, rfl⟩

/-- C30. A second `#else` with only text, definitions and `#undef` between the two is refused (PE17), whichever
branch is selected. Missing from C30: other content between the two, see `C30_violated`. -/
theorem C30_double_else_partial {env : Env} {path : Text} {pre th mid : List Item} {sp s1 s2 : Sp} {t : Test}
    {toks : List Tok} {tail : List Sym} {m : Macros} {out : List Sym} {tv : Bool}
    (hload : env.load path = .ok toks)
    (hsrc : toks.map Tok.sym = printItems pre ++ openSrc sp t ++ printItems th ++ elseSrc (some s1) ++
      printItems mid ++ (s2.ind ++ .directive :: .word (kw "else") :: tail))
    (hok : Item.okL pre = true) (hsp : sp.ok = true) (hs1 : s1.ok = true) (hs2 : s2.ok = true)
    (ht : t.ok = true) (hth : Item.okL th = true) (hmid : Item.okL mid = true)
    (hflat : mid.any Item.nested = false)
    (hev : evalItems env.compare (fun _ => none) pre = some (m, out)) (htest : t.eval env.compare m = some tv)
    (hselth : Selectable env.compare m tv th) (hselmid : Selectable env.compare m (!tv) mid) :
    ∃ k c more, c.sym = .word (kw "else") ∧ ∀ n, k ≤ n → run n env path = .error (.code 17 c more) := by
  obtain ⟨b, e, rfl, hb, he⟩ := splitAppend hsrc
  obtain ⟨b, mb, rfl, hb, hmb⟩ := splitAppend hb
  obtain ⟨b, eb, rfl, hb, heb⟩ := splitAppend hb
  obtain ⟨b, tb, rfl, hb, htb⟩ := splitAppend hb
  obtain ⟨a, o, rfl, ha, ho⟩ := splitAppend hb
  obtain ⟨ind2, e, rfl, hi2, he⟩ := splitAppend he
  obtain ⟨h2, e, rfl, hh2, he⟩ := splitCons he
  obtain ⟨c2, tl, rfl, hc2, htl⟩ := splitCons he
  obtain ⟨st, x, hx⟩ := run_items (env := env) (st := { files := [path] }) (m := fun _ => none) (buf := []) pre rfl
    ⟨rfl, fun _ => rfl⟩ hok hev ha (by simp [NoEsc])
  have hr : st.ifs.reading = true := hx.keep.reading
  obtain ⟨c, ind, _, he1, hopen⟩ := run_open (env := env) hr hx.rep hsp ht htest ho hx.noEsc
  obtain ⟨st2, buf2, hk2, hrep2, he2, hrun2⟩ := run_branch (env := env)
    (st := { st with ifs := st.ifs.pushIf c tv }) (m := m) (l := th) hx.rep hth
    (by rw [reading_pushIf, hr, Bool.and_true]; exact hselth) htb he1
  have hstk : st2.ifs.stack = (if tv then IfState.readingIf c else .passingIf c) :: st.ifs.stack := by
    rw [hk2.stack]; rfl
  have hd : st2.ifs.didElse = none := by
    rcases hk2.didElse with ⟨_, h'⟩ | ⟨_, h'⟩ <;> exact h'
  obtain ⟨ce, ind1, hi1, helse⟩ := run_else (env := env) (st := st2) hs1 heb
  have hflip := flip_selected hstk hr hd ce
  let st3 : St := { st2 with ifs :=
    { stack := (if tv then .passingElse c else .readingElse c) :: st.ifs.stack, didElse := some ce } }
  have hr3 : st3.ifs.reading = !tv := by
    have : st.ifs.stack.all IfState.reading = true := hr
    cases tv <;> simp [st3, IfStates.reading, IfState.reading, this]
  have hr2 : st2.ifs.reading = tv := by
    rw [hk2.reading, reading_pushIf, hr, Bool.and_true]
  have hs1' : blank (ind1.map Tok.sym) = true := by
    rw [hi1]; simp only [Spec.Sp.ok, Bool.and_eq_true] at hs1; exact hs1.1.1
  have hfin : ∃ stf buff, Keep false st3 stf ∧ ∀ rest r, Runs env stf rest buff r →
      Runs env st3 (mb ++ rest) (if st2.ifs.reading then buf2 ++ (vis ind1).map .direct else buf2) r := by
    cases tv with
    | false =>
      obtain ⟨m', o', hev'⟩ := hselmid rfl
      have hrep3 : Rep st3.defs m := hrep2 (by rw [reading_pushIf, hr]; rfl)
      obtain ⟨st4, x4, hx4⟩ := run_items (env := env) (st := st3) (buf := buf2) mid hr3 hrep3 hmid hev' hmb he2
      refine ⟨st4, buf2 ++ x4.map .direct, hflat ▸ hx4.keep, fun rest r hk => ?_⟩
      rw [if_neg (by simp [hr2])]
      exact hx4.emits rest r hk
    | true =>
      obtain ⟨st4, hs4, hrun4⟩ := skip_items (env := env) (st := st3) mid hr3 hmid hmb
      refine ⟨st4, _, ⟨hs4.stack, hflat ▸ hs4.didElse⟩, fun rest r hk => hrun4 rest _ r hk⟩
  obtain ⟨stf, buff, hkf, hrunf⟩ := hfin
  have hdf : stf.ifs.didElse = some ce := by
    rcases hkf.didElse with ⟨_, h'⟩ | ⟨h', _⟩
    · exact h'
    · simp at h'
  have hff : stf.ifs.flip c2 = .error (.code 17 c2 (.toks [ce, c])) := by
    have : stf.ifs.stack = (if tv then .passingElse c else .readingElse c) :: st.ifs.stack := hkf.stack
    rw [IfStates.flip, hdf]
    simp only [this]
    cases tv <;> rfl
  have hb2 : blank (ind2.map Tok.sym) = true := by
    rw [hi2]; simp only [Spec.Sp.ok, Bool.and_eq_true] at hs2; exact hs2.1.1
  have hruns : Runs env { files := [path] } (a ++ o ++ tb ++ eb ++ mb ++ (ind2 ++ h2 :: c2 :: tl)) []
      (.error (.code 17 c2 (.toks [ce, c]))) := by
    simp only [List.append_assoc]
    refine hx.emits _ _ (hopen _ _ (hrun2 _ _ (helse _ hflip _ _ _ (hrunf _ _ ⟨by simp, 4, ?_⟩))))
    obtain ⟨y, l, hy, hne⟩ := first_ne_eoi hb2 (t := h2) (by rw [hh2]; simp) (c2 :: tl)
    rw [file.eq_def, hy]
    dsimp only
    rw [if_neg hne, ← hy, line.eq_def]
    dsimp only
    rw [skipWsOut_blank hb2 (by rw [hh2]; rfl)]
    dsimp only
    rw [directive.eq_def]
    dsimp only
    rw [if_pos hh2, if_pos (by rw [hc2]; rfl), command.eq_def]
    dsimp only
    rw [if_pos (by rw [hc2]; rfl), hff]
  obtain ⟨hne, n, hn⟩ := hruns
  refine ⟨n, c2, .toks [ce, c], hc2, fun k hk => ?_⟩
  rw [run, hload]
  simp only
  rw [file_more hk hn hne]

/-- C30 applies. -/
example : ∃ src : List Sym, errOf (run 40 (world src) (kw "main")) = some (some (17, w "else")) ∧
    src = printItems [] ++ openSrc {} (.ifdef (kw "A")) ++ printItems [.text [w "a"]] ++ elseSrc (some {}) ++
      printItems [.text [w "b"]] ++ ([] ++ .directive :: .word (kw "else") :: [.newline, .directive, w "endif", .newline, .eoi]) :=
  ⟨_, by decide +kernel, rfl⟩

/-- C30 is violated. In
```
#ifdef A
a
#else
b
#ifdef B
#endif
#else
c
#endif
```
the second `#else` is accepted, and both `b` and `c` come out. -/
theorem C30_violated :
    outSyms (run 60 (world ([.directive, w "ifdef", .space, w "A", .newline, w "a", .newline, .directive, w "else",
      .newline, w "b", .newline, .directive, w "ifdef", .space, w "B", .newline, .directive, w "endif", .newline,
      .directive, w "else", .newline, w "c", .newline, .directive, w "endif", .newline, .eoi])) (kw "main")) =
    some [w "b", .newline, w "c", .newline] := by decide +kernel

/-- The line that ends a conditional. -/
def endSrc (sp : Sp) : List Sym := sp.ind ++ .directive :: .word (kw "endif") :: sp.trail ++ [.newline]

/-- From a second `#else` that is not refused to the end of the file. -/
theorem hidden_rest {env : Env} {st : St} {i : IfState} (hstk : st.ifs.stack = [i]) (hd : st.ifs.didElse = none)
    (hi : IfStates.flipTop (some i) = none) {m m' : Macros} (hrep : Rep st.defs m) {s2 s3 : Sp} (hs2 : s2.ok = true)
    (hs3 : s3.ok = true) {tail : List Item} (hok : Item.okL tail = true) {out : List Sym}
    (hev : evalItems env.compare m tail = some (m', out)) {eb tb nb : List Tok} {e : Tok} (heb : eb.map Tok.sym = elseSrc (some s2))
    (htb : tb.map Tok.sym = printItems tail) (hnb : nb.map Tok.sym = endSrc s3) (hee : e.sym = .eoi) {buf : List Out}
    (he : NoEsc buf) :
    ∃ (st' : St) (x : List Tok), st'.ifs.stack = [] ∧ Rep st'.defs m' ∧
      x.map Tok.sym = (if i.reading then visible s2.ind else []) ++ out ++ visible s3.ind ∧
      Runs env st (eb ++ (tb ++ (nb ++ [e]))) buf (.ok (st', [e], buf ++ x.map .direct)) := by
  obtain ⟨ce, ind, hind, helse⟩ := run_else (env := env) (st := st) hs2 heb
  have hflip : st.ifs.flip ce = .ok { stack := [], didElse := some ce } := by
    rw [IfStates.flip, hd]
    simp only [hstk, List.tail_cons, List.all_nil, if_true, List.head?_cons, hi]
  have hread : st.ifs.reading = i.reading := by simp [IfStates.reading, hstk]
  have hb2 : blank (ind.map Tok.sym) = true := by
    rw [hind]; simp only [Spec.Sp.ok, Bool.and_eq_true] at hs2; exact hs2.1.1
  let w : List Tok := if i.reading then vis ind else []
  have hbuf : (if st.ifs.reading then buf ++ (vis ind).map Out.direct else buf) = buf ++ w.map .direct := by
    rw [hread]; simp only [w]; cases i.reading <;> simp
  have hew : NoEsc (buf ++ w.map .direct) := by
    simp only [w]; cases i.reading
    · simpa using he
    · exact he.append_ws hb2
  let st5 : St := { st with ifs := { stack := [], didElse := some ce } }
  obtain ⟨st6, x, hx⟩ := run_items (env := env) (st := st5) (m := m) tail rfl hrep hok hev htb hew
  obtain ⟨ind3, hi3, hfin⟩ := run_endif (env := env) (st := st6) hs3 hnb
  have hs6 : st6.ifs.stack = [] := hx.keep.stack
  have hr6 : st6.ifs.reading = true := hx.keep.reading
  refine ⟨{ st6 with ifs := st6.ifs.pop.2 }, w ++ x ++ vis ind3, by simp [IfStates.pop, hs6], hx.rep, ?_, ?_⟩
  · simp only [List.map_append, hx.out, vis_sym, hi3, w]
    cases i.reading <;> simp [vis_sym, hind]
  · refine helse _ hflip _ _ _ ?_
    rw [hbuf]
    refine hx.emits _ _ (hfin _ _ _ ?_)
    rw [if_pos hr6]
    refine ⟨by simp, 1, ?_⟩
    rw [file.eq_def]
    simp [hee]

/-- C30, how much is accepted: whenever there is a conditional between two `#else` of one `#if`, whatever it is, the second
`#else` is not refused. It ends the conditional instead: what follows it is read whatever was tested, behind whichever branch
was selected, and the `#endif` is taken for one that ends nothing. -/
theorem C30_hidden {env : Env} {path : Text} {pre th mid tail : List Item} {sp s1 s2 s3 : Sp} {t : Test}
    {toks : List Tok} {m m1 m2 : Macros} {o1 o2 o3 : List Sym} {tv : Bool}
    (hload : env.load path = .ok toks)
    (hsrc : toks.map Tok.sym = printItems pre ++ openSrc sp t ++ printItems th ++ elseSrc (some s1) ++
      printItems mid ++ elseSrc (some s2) ++ printItems tail ++ endSrc s3 ++ [.eoi])
    (hok : Item.okL pre = true) (hsp : sp.ok = true) (hs1 : s1.ok = true) (hs2 : s2.ok = true) (hs3 : s3.ok = true)
    (ht : t.ok = true) (hth : Item.okL th = true) (hmid : Item.okL mid = true) (htl : Item.okL tail = true)
    (hnest : mid.any Item.nested = true)
    (hev : evalItems env.compare (fun _ => none) pre = some (m, o1)) (htest : t.eval env.compare m = some tv)
    (hsel : evalItems env.compare m (if tv then th else mid) = some (m1, o2))
    (htail : evalItems env.compare m1 tail = some (m2, o3)) :
    ∃ k st buf, (∀ n, k ≤ n → run n env path = .ok (st, buf)) ∧
      (Out.toksL buf).map Tok.sym = o1 ++ visible sp.ind ++ o2 ++ visible (if tv then s1.ind else s2.ind) ++ o3 ++
        visible s3.ind ∧
      ∀ name, Agrees (st.defs.getReadonly name) (m2 name) := by
  obtain ⟨b, e, rfl, hb, he⟩ := splitAppend hsrc
  obtain ⟨b, nb, rfl, hb, hnb⟩ := splitAppend hb
  obtain ⟨b, lb, rfl, hb, hlb⟩ := splitAppend hb
  obtain ⟨b, eb2, rfl, hb, heb2⟩ := splitAppend hb
  obtain ⟨b, mb, rfl, hb, hmb⟩ := splitAppend hb
  obtain ⟨b, eb, rfl, hb, heb⟩ := splitAppend hb
  obtain ⟨b, tb, rfl, hb, htb⟩ := splitAppend hb
  obtain ⟨a, o, rfl, ha, ho⟩ := splitAppend hb
  obtain ⟨e, c, rfl, hee, hc⟩ := splitCons he
  obtain rfl := splitNil hc
  obtain ⟨st, x, hx⟩ := run_items (env := env) (st := { files := [path] }) (m := fun _ => none) (buf := []) pre rfl
    ⟨rfl, fun _ => rfl⟩ hok hev ha (by simp [NoEsc])
  have hr : st.ifs.reading = true := hx.keep.reading
  have hstack : st.ifs.stack = [] := hx.keep.stack
  obtain ⟨c, ind, hind, he1, hopen⟩ := run_open (env := env) hr hx.rep hsp ht htest ho hx.noEsc
  have hrp : ({ st with ifs := st.ifs.pushIf c tv } : St).ifs.reading = tv := by
    simp only [reading_pushIf, hr, Bool.and_true]
  have hblank1 : ∀ {l : List Tok}, l.map Tok.sym = s1.ind → blank (l.map Tok.sym) = true := by
    intro l h; rw [h]; simp only [Spec.Sp.ok, Bool.and_eq_true] at hs1; exact hs1.1.1
  suffices hend : ∃ (st' : St) (y : List Tok), st'.ifs.stack = [] ∧ Rep st'.defs m2 ∧
      y.map Tok.sym = o2 ++ visible (if tv then s1.ind else s2.ind) ++ o3 ++ visible s3.ind ∧
      Runs env { st with ifs := st.ifs.pushIf c tv } (tb ++ (eb ++ (mb ++ (eb2 ++ (lb ++ (nb ++ [e]))))))
        (x.map Out.direct ++ (vis ind).map .direct) (.ok (st', [e], (x.map Out.direct ++ (vis ind).map .direct) ++ y.map .direct)) by
    obtain ⟨st', y, hst', hrep', hy, hruns⟩ := hend
    have hall : Runs env { files := [path] } (a ++ o ++ tb ++ eb ++ mb ++ eb2 ++ lb ++ nb ++ [e]) []
        (.ok (st', [e], (x.map Out.direct ++ (vis ind).map .direct) ++ y.map .direct)) := by
      simp only [List.append_assoc] at hruns ⊢
      exact hx.emits _ _ (hopen _ _ (by simpa only [List.append_assoc, List.nil_append] using hruns))
    obtain ⟨hne, n, hn⟩ := hall
    refine ⟨n, st', (x.map Out.direct ++ (vis ind).map .direct) ++ y.map .direct, fun k hk => ?_, ?_, fun name => ?_⟩
    rotate_left
    · rw [← List.map_append, ← List.map_append, toksL_direct]
      simp only [List.map_append, hx.out, vis_sym, hind, hy, List.append_assoc]
    · have := hrep'.2 name
      rwa [Defines.getReadonly, hrep'.1]
    · rw [run, hload]
      simp only
      rw [file_more hk hn hne]
      simp only
      simp [IfStates.pop, hst']
  cases tv with
  | true =>
    simp only [if_true] at hsel
    obtain ⟨st2, x2, hx2⟩ := run_items (env := env) th hrp hx.rep hth hsel htb he1
    have hstk : st2.ifs.stack = (if true then IfState.readingIf c else .passingIf c) :: [] := by
      rw [hx2.keep.stack]; simp [IfStates.pushIf, IfStates.push, hstack]
    have hd : st2.ifs.didElse = none := by
      rcases hx2.keep.didElse with ⟨_, h'⟩ | ⟨_, h'⟩ <;> exact h'
    obtain ⟨ce, ind1, hi1, helse⟩ := run_else (env := env) (st := st2) hs1 heb
    have hflip := flip_selected hstk rfl hd ce
    simp only [if_true] at hflip
    let st3 : St := { st2 with ifs := { stack := [.passingElse c], didElse := some ce } }
    have hr3 : st3.ifs.reading = false := rfl
    obtain ⟨st4, hs4, hrun4⟩ := skip_items (env := env) (st := st3) mid hr3 hmid hmb
    have hd4 : st4.ifs.didElse = none := by
      rcases hs4.didElse with ⟨h', _⟩ | ⟨_, h'⟩
      · rw [hnest] at h'; simp at h'
      · exact h'
    have hr2 : st2.ifs.reading = true := hx2.keep.reading.trans hrp
    have hrep4 : Rep st4.defs m1 := by
      have : st4.defs = st2.defs := hs4.defs
      rw [this]; exact hx2.rep
    have hne4 := hx2.noEsc.append_ws (hblank1 hi1)
    obtain ⟨st', y, hst', hrep', hy, hruns⟩ := hidden_rest (env := env) (st := st4) (i := .passingElse c) hs4.stack hd4 rfl
      hrep4 hs2 hs3 htl htail heb2 hlb hnb hee hne4
    refine ⟨st', x2 ++ vis ind1 ++ y, hst', hrep', ?_, ?_⟩
    · simp only [List.map_append, hx2.out, vis_sym, hi1, hy, if_true]
      simp [IfState.reading]
    · refine hx2.emits _ _ (helse _ hflip _ _ _ ?_)
      rw [if_pos hr2]
      have := hrun4 _ _ _ hruns
      simpa only [List.map_append, List.append_assoc, List.nil_append] using this
  | false =>
    simp only [Bool.false_eq_true, if_false] at hsel
    obtain ⟨st2, hs2', hrun2⟩ := skip_items (env := env) th hrp hth htb
    have hstk : st2.ifs.stack = (if false then IfState.readingIf c else .passingIf c) :: [] := by
      rw [hs2'.stack]; simp [IfStates.pushIf, IfStates.push, hstack]
    have hd : st2.ifs.didElse = none := by
      rcases hs2'.didElse with ⟨_, h'⟩ | ⟨_, h'⟩ <;> exact h'
    obtain ⟨ce, ind1, hi1, helse⟩ := run_else (env := env) (st := st2) hs1 heb
    have hflip := flip_selected hstk rfl hd ce
    simp only [Bool.false_eq_true, if_false] at hflip
    let st3 : St := { st2 with ifs := { stack := [.readingElse c], didElse := some ce } }
    have hr3 : st3.ifs.reading = true := rfl
    have hrep3 : Rep st3.defs m := by
      have : st3.defs = st.defs := hs2'.defs
      rw [this]; exact hx.rep
    obtain ⟨st4, x4, hx4⟩ := run_items (env := env) (st := st3) mid hr3 hrep3 hmid hsel hmb he1
    have hd4 : st4.ifs.didElse = none := by
      rcases hx4.keep.didElse with ⟨h', _⟩ | ⟨_, h'⟩
      · rw [hnest] at h'; simp at h'
      · exact h'
    have hr2 : st2.ifs.reading = false := hs2'.reading.trans hrp
    obtain ⟨st', y, hst', hrep', hy, hruns⟩ := hidden_rest (env := env) (st := st4) (i := .readingElse c) hx4.keep.stack hd4 rfl
      hx4.rep hs2 hs3 htl htail heb2 hlb hnb hee hx4.noEsc
    refine ⟨st', x4 ++ y, hst', hrep', ?_, ?_⟩
    · simp only [List.map_append, hx4.out, hy]
      simp [IfState.reading]
    · refine hrun2 _ _ _ (helse _ hflip _ _ _ ?_)
      rw [if_neg (by simp [hr2])]
      refine hx4.emits _ _ ?_
      simpa only [List.map_append, List.append_assoc, List.nil_append] using hruns

/-- C30_hidden applies to a file in which the branch that is selected has the inner conditional. -/
example : ∃ k st buf, (∀ n, k ≤ n → run n (world (printItems [] ++ openSrc {} (.ifdef (kw "A")) ++
      printItems [.text [w "a"]] ++ elseSrc (some {}) ++
      printItems [.text [w "b"], .cond {} (.ifdef (kw "B")) [] none [] {}] ++ elseSrc (some {}) ++
      printItems [.text [w "c"]] ++ endSrc {} ++ [.eoi])) (kw "main") = .ok (st, buf)) ∧
    (Out.toksL buf).map Tok.sym = [w "b", .newline, w "c", .newline] := by
  obtain ⟨k, st, buf, h1, h2, _⟩ := C30_hidden (env := world _) (path := kw "main") (pre := []) (th := [.text [w "a"]])
    (mid := [.text [w "b"], .cond {} (.ifdef (kw "B")) [] none [] {}]) (tail := [.text [w "c"]]) (sp := {}) (s1 := {})
    (s2 := {}) (s3 := {}) (t := .ifdef (kw "A")) (tv := false) rfl (tk_sym _ _ _ _) (by decide +kernel)
    (by decide +kernel) (by decide +kernel) (by decide +kernel) (by decide +kernel) (by decide +kernel)
    (by decide +kernel) (by decide +kernel) (by decide +kernel) (by decide +kernel) rfl rfl rfl rfl
  exact ⟨k, st, buf, h1, h2⟩

/-- … and to one in which it is in the branch that is left out. -/
example : ∃ k st buf, (∀ n, k ≤ n → run n (world (printItems [] ++ openSrc {} (.ifndef (kw "A")) ++
      printItems [.text [w "a"]] ++ elseSrc (some {}) ++
      printItems [.cond {} (.ifdef (kw "B")) [.text [w "b"]] (some {}) [] {}] ++ elseSrc (some {}) ++
      printItems [.text [w "c"]] ++ endSrc {} ++ [.eoi])) (kw "main") = .ok (st, buf)) ∧
    (Out.toksL buf).map Tok.sym = [w "a", .newline, w "c", .newline] := by
  obtain ⟨k, st, buf, h1, h2, _⟩ := C30_hidden (env := world _) (path := kw "main") (pre := []) (th := [.text [w "a"]])
    (mid := [.cond {} (.ifdef (kw "B")) [.text [w "b"]] (some {}) [] {}]) (tail := [.text [w "c"]]) (sp := {}) (s1 := {})
    (s2 := {}) (s3 := {}) (t := .ifndef (kw "A")) (tv := true) rfl (tk_sym _ _ _ _) (by decide +kernel)
    (by decide +kernel) (by decide +kernel) (by decide +kernel) (by decide +kernel) (by decide +kernel)
    (by decide +kernel) (by decide +kernel) (by decide +kernel) (by decide +kernel) rfl rfl rfl rfl
  exact ⟨k, st, buf, h1, h2⟩

/-- C30. An `#else` without `#if` is accepted (release build; a debug build aborts on the subtraction). -/
theorem C30_stray_else :
    outSyms (run 60 (world ([.directive, w "else", .newline, w "a", .newline, .eoi])) (kw "main")) =
    some [w "a", .newline] := by decide +kernel

/-- C30. Two of them abort. -/
theorem C30_stray_else_aborts :
    aborts (run 60 (world ([.directive, w "else", .newline, .directive, w "else", .newline, .eoi])) (kw "main")) =
      true := by decide +kernel

/-- C30. An `#endif` without `#if` is accepted. -/
theorem C30_stray_endif :
    outSyms (run 60 (world ([.directive, w "endif", .newline, w "a", .newline, .eoi])) (kw "main")) =
    some [w "a", .newline] := by decide +kernel

end Verif.Preproc
