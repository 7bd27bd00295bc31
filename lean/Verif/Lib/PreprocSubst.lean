import Verif.Spec.PreprocSubst
import Verif.Lib.PreprocRun
/-!
Macro use in the preprocessor is the substitution of `Verif.Spec.PreprocSubst`.
-/
namespace Verif.Preproc.Subst
open Verif.Preproc Verif.Preproc.Spec

/-! ### Representation -/

/-- An entry of the macro table stands for a macro. -/
def AgreesM (e : Option Entry) : Option Mac → Prop
  | none => e = none
  | some .unit => ∃ x, e = some x ∧ x.defn = .unit
  | some (.value b) => ∃ x l, e = some x ∧ x.defn = .value l ∧ l.map Tok.sym = b ∧ x.src ≠ .argument
  | some (.func ps b) => ∃ x f, e = some x ∧ x.defn = .function f ∧
      f.args.map Tok.sym = ps.map .word ∧ f.body.map Tok.sym = b

/-- An entry of the argument map stands for an argument. -/
def ArgRep (e : Option Entry) : Option (List Sym) → Prop
  | none => e = none
  | some v => ∃ x l, e = some x ∧ x.defn = .value l ∧ l.map Tok.sym = v ∧ x.src = .argument

/-- The argument map in force. -/
def inner (d : Defines) : Inner := match d.stack with
  | [] => fun _ => none
  | (_, m) :: _ => m

/-- The macro whose body is being read. -/
def top (d : Defines) : Option Text := d.stack.head?.map Prod.fst

/-- The name of a macro is used outside of its own definition. -/
def Good (g : Inner) (k : Tok) : Prop :=
  ∀ w, k.sym = .word w → ∀ e f, g w = some e → e.defn = .function f →
    (k.pos.path ≠ f.pos.path ∨ k.pos.start.line < f.pos.start.line ∨
      f.pos.stop.line < k.pos.start.line)

/-- A token of a body comes before the place of use. -/
def Pre (s : Pos) (b : Tok) : Prop := b.pos.path ≠ s.path ∨ b.pos.start.offset < s.start.offset

/-- A token of some body. -/
def BodyTok (g : Inner) (b : Tok) : Prop :=
  ∃ k e, g k = some e ∧ ((∃ l, e.defn = .value l ∧ b ∈ l) ∨ ∃ f, e.defn = .function f ∧ b ∈ f.body)

/-- The macro table and the places of use. -/
structure World (T : Table) (rank : Text → Nat) (g : Inner) (S : Pos → Prop) : Prop where
  agree : ∀ k, AgreesM (g k) (T k)
  ranked : ∀ n m, T n = some m → ∀ w ∈ m.words, (T w).isSome → rank w < rank n
  apart : Apart T
  good : ∀ b, BodyTok g b → Good g b
  pre : ∀ s, S s → ∀ b, BodyTok g b → Pre s b

/-- The state while a text is read. -/
structure Ctx (T : Table) (rank : Text → Nat) (g : Inner) (d : Defines) (im : Option Text)
    (ρ : Args) (l : List Sym) : Prop where
  glob : d.global = g
  args : ∀ w, Sym.word w ∈ l → ArgRep (inner d w) (ρ w)
  dom : ∀ w e, inner d w = some e → ∃ f ps b, T f = some (.func ps b) ∧ w ∈ ps
  low : ∀ w, Sym.word w ∈ l → (T w).isSome → ∀ nm, top d = some nm ∨ im = some nm →
    rank w < rank nm
  name : ∀ nm, top d = some nm ∨ im = some nm → inner d nm = none

theorem Ctx.mono {T rank g d im ρ l l'} (h : Ctx T rank g d im ρ l) (hl : ∀ s ∈ l', s ∈ l) :
    Ctx T rank g d im ρ l' :=
  ⟨h.glob, fun w hw => h.args w (hl _ hw), h.dom, fun w hw => h.low w (hl _ hw), h.name⟩

theorem mem_words {b : List Sym} {w : Text} :
    w ∈ (Mac.value b).words ↔ Sym.word w ∈ b := by
  simp only [Mac.words, List.mem_filterMap]
  constructor
  · rintro ⟨s, hs, h⟩
    cases s <;> simp at h
    subst h; exact hs
  · intro h; exact ⟨_, h, rfl⟩

theorem mem_words' {ps : List Text} {b : List Sym} {w : Text} :
    w ∈ (Mac.func ps b).words ↔ Sym.word w ∈ b := mem_words

theorem mem_joined {b : List Sym} {s : Sym} (h : s ∈ joined b) : s ∈ b :=
  (List.mem_filter.1 h).1

/-- The state does not change but for warnings. -/
def Same (st st' : St) : Prop := ∃ ws, st' = { st with warns := ws }

theorem Same.refl (st : St) : Same st st := ⟨st.warns, rfl⟩
theorem Same.trans {a b c : St} (h : Same a b) (k : Same b c) : Same a c := by
  obtain ⟨w, rfl⟩ := h; obtain ⟨w', rfl⟩ := k; exact ⟨w', rfl⟩
theorem Same.defs {a b : St} (h : Same a b) : b.defs = a.defs := by obtain ⟨w, rfl⟩ := h; rfl
theorem Same.ifs {a b : St} (h : Same a b) : b.ifs = a.ifs := by obtain ⟨w, rfl⟩ := h; rfl

/-! ### Runs -/

/-- Walking ends with `r`. -/
def Walks (env : Env) (site : Option Pos) (im : Option Text) (q jw : Bool) (quote : Option Pos)
    (st : St) (toks : List Tok) (buf : List Out) (r : R) : Prop :=
  r ≠ .error .fuel ∧ ∃ n, walk n env site im q jw quote st toks buf = r

/-- Reading arguments ends with `r`. -/
def Reads (env : Env) (site : Pos) (q : Bool) (d : Nat) (st : St) (toks : List Tok)
    (args : List (List Tok)) (arg : List Tok) (r : Except PErr (St × List Tok × List (List Tok))) :
    Prop :=
  r ≠ .error .fuel ∧ ∃ n, readArgs n env site q d st toks args arg = r

/-- The stream goes on with a line end or not at all. -/
def HeadOk (rest : List Tok) : Prop := ∀ t, rest.head? = some t → t.sym = .newline

/-- Where walking takes place. -/
def SiteOk (S : Pos → Prop) (m : Mode) (site : Option Pos) (im : Option Text) (toks : List Tok) :
    Prop :=
  (m = .line ∧ site = none ∧ im = none ∧ ∀ t ∈ toks, S t.pos) ∨
  (m = .body ∧ ∃ s i, site = some s ∧ im = some i ∧ S s ∧ ∀ t ∈ toks, Pre s t)

theorem SiteOk.mono {S m site im toks toks'} (h : SiteOk S m site im toks)
    (hl : ∀ t ∈ toks', t ∈ toks) : SiteOk S m site im toks' := by
  rcases h with ⟨h1, h2, h3, h4⟩ | ⟨h1, s, i, h2, h3, h4, h5⟩
  · exact .inl ⟨h1, h2, h3, fun t ht => h4 t (hl t ht)⟩
  · exact .inr ⟨h1, s, i, h2, h3, h4, fun t ht => h5 t (hl t ht)⟩

theorem SiteOk.not_arg {S m site im toks} (h : SiteOk S m site im toks) : ¬ m.isArg := by
  rcases h with ⟨h1, _⟩ | ⟨h1, _⟩ <;> subst h1 <;> simp [Mode.isArg]

theorem SiteOk.site {S m site im toks} (h : SiteOk S m site im toks) {t : Tok} (ht : t ∈ toks) :
    S (site.getD t.pos) := by
  rcases h with ⟨_, rfl, _, h4⟩ | ⟨_, s, i, rfl, _, h4, _⟩
  · exact h4 t ht
  · exact h4

section
variable (env : Env) (T : Table) (rank : Text → Nat) (g : Inner) (S : Pos → Prop)

/-- A line or body is read as the specification says. -/
def WSim (m : Mode) (ρ : Args) (l o : List Sym) : Prop :=
  ∀ toks : List Tok, toks.map Tok.sym = l → (∀ t ∈ toks, Good g t) →
  ∀ site im, SiteOk S m site im toks →
  ∀ st : St, st.ifs.reading = true → Ctx T rank g st.defs im ρ l → ∀ jw : Bool,
  ∃ st' x jw', Same st st' ∧ (Out.toksL x).map Tok.sym = o ∧ ∀ rest, HeadOk rest → ∀ buf r,
    Walks env site im false jw' none st' rest (buf ++ x) r →
    Walks env site im false jw none st (toks ++ rest) buf r

/-- An argument is read as the specification says. -/
def ASim (d d' : Nat) (ρ : Args) (l o : List Sym) : Prop :=
  ∀ toks : List Tok, toks.map Tok.sym = l → (∀ t ∈ toks, Good g t) →
  ∀ site, S site → ∀ im, ∀ st : St, st.ifs.reading = true → Ctx T rank g st.defs im ρ l →
  ∃ st' x, Same st st' ∧ x.map Tok.sym = o ∧ ∀ rest args arg r,
    Reads env site false d' st' rest args (arg ++ x) r →
    Reads env site false d st (toks ++ rest) args arg r

/-- A macro is used as the specification says. -/
def USim (ρ : Args) (u x : List Sym) : Prop :=
  ∀ toks : List Tok, toks.map Tok.sym = u → (∀ t ∈ toks, Good g t) →
  ∀ site, S site → ∀ im, ∀ st : St, st.ifs.reading = true → Ctx T rank g st.defs im ρ u →
  ∃ st' o, Same st st' ∧ (Out.toks o).map Tok.sym = x ∧ ∀ rest, ∃ n, ∀ buf,
    defineUse n env site st (toks ++ rest) buf = .ok (st', rest, buf ++ [o])

/-- The arguments that count. -/
def actualToks (xs : List (List Tok)) : List (List Tok) :=
  if xs.getLast? = some [] then xs.dropLast else xs

/-- All arguments are read as the specification says. -/
def LSim (d : Nat) (ρ : Args) (src : List Sym) (vals : List (List Sym)) : Prop :=
  ∀ toks : List Tok, toks.map Tok.sym = src → (∀ t ∈ toks, Good g t) →
  ∀ site, S site → ∀ im, ∀ st : St, st.ifs.reading = true → Ctx T rank g st.defs im ρ src →
  ∃ st' xs, Same st st' ∧ xs.map (List.map Tok.sym) = vals ∧ ∀ rp : Tok, rp.sym = .rparen →
    ∀ rest args, ∃ n, readArgs n env site false d st (toks ++ rp :: rest) args [] =
      .ok (st', rest, args ++ actualToks xs)

/-- Simulation of a claim. -/
def Sim : Claim → Prop
  | .text (.arg d d') ρ l o => ASim env T rank g S d d' ρ l o
  | .text m ρ l o => WSim env T rank g S m ρ l o
  | .use ρ u x => USim env T rank g S ρ u x
  | .args d ρ l vs => LSim env T rank g S d ρ l vs
end

/-! ### Looking up -/

theorem containsKey_iff {d : Defines} {w : Text} (hw : ordinary w) :
    d.containsKey w = true ↔
      top d ≠ some w ∧ ((inner d w).isSome ∨ (d.global w).isSome) := by
  rw [Defines.containsKey, hw.1]
  simp only [Bool.false_or, top, inner]
  cases h : d.stack with
  | nil => simp
  | cons p s =>
    obtain ⟨n, m⟩ := p
    simp only [List.head?_cons, Option.map_some, ne_eq, Option.some.injEq]
    split <;> simp_all

theorem getReadonly_eq (d : Defines) (w : Text) :
    d.getReadonly w = match inner d w with
      | some e => some e
      | none => d.global w := by
  rw [Defines.getReadonly, inner]
  cases d.stack <;> rfl

theorem getWithGen_ordinary {env : Env} {d : Defines} {site : Pos} {t : Tok} {w : Text} (ht : t.sym = .word w)
    (hw : ordinary w) {e : Entry} (he : d.getReadonly w = some e)
    (hf : ∀ f, e.defn = .function f → (t.pos.path ≠ f.pos.path ∨ t.pos.start.line < f.pos.start.line ∨
      f.pos.stop.line < t.pos.start.line)) :
    d.getWithGen env t site = (some e, d) := by
  rw [Defines.getWithGen]
  simp only [ht, Sym.text]
  rw [if_neg (by rw [hw.1]; simp), he]
  dsimp only
  split
  · rename_i f h
    rw [if_pos (hf f h)]
  · rfl

section
variable {env : Env} {T : Table} {rank : Text → Nat} {g : Inner} {S : Pos → Prop}

theorem ctx_contains {d im ρ l} (W : World T rank g S) (h : Ctx T rank g d im ρ l) {w : Text}
    (hw : ordinary w) (hl : Sym.word w ∈ l) (hm : (ρ w).isSome ∨ (T w).isSome) :
    d.containsKey w = true ∧ im ≠ some w := by
  have key : ∀ nm, top d = some nm ∨ im = some nm → w ≠ nm := by
    rintro nm hnm rfl
    rcases hm with hm | hm
    · have h1 := h.args w hl
      obtain ⟨v, hv⟩ := Option.isSome_iff_exists.1 hm
      rw [hv, h.name w hnm] at h1
      obtain ⟨_, _, h1, _⟩ := h1
      simp at h1
    · exact absurd (h.low w hl hm w hnm) (lt_irrefl _)
  constructor
  · rw [containsKey_iff hw]
    refine ⟨fun e => key w (.inl e) rfl, ?_⟩
    rcases hm with hm | hm
    · left
      have h1 := h.args w hl
      obtain ⟨v, hv⟩ := Option.isSome_iff_exists.1 hm
      rw [hv] at h1
      obtain ⟨x, _, h1, _⟩ := h1
      simp [h1]
    · right
      rw [h.glob]
      have h1 := W.agree w
      obtain ⟨v, hv⟩ := Option.isSome_iff_exists.1 hm
      rw [hv] at h1
      cases v with
      | unit => obtain ⟨x, h1, _⟩ := h1; simp [h1]
      | value b => obtain ⟨x, l, h1, _⟩ := h1; simp [h1]
      | func ps b => obtain ⟨x, l, h1, _⟩ := h1; simp [h1]
  · exact fun e => key w (.inr e) rfl

theorem ctx_not_contains {d im ρ l} (W : World T rank g S) (h : Ctx T rank g d im ρ l) {w : Text}
    (hw : ordinary w) (hl : Sym.word w ∈ l) (h1 : ρ w = none) (h2 : T w = none) :
    d.containsKey w = false := by
  rw [← Bool.not_eq_true, containsKey_iff hw]
  rintro ⟨_, h3⟩
  have ha := h.args w hl
  have hb := W.agree w
  rw [h1] at ha
  rw [h2] at hb
  rw [h.glob] at h3
  simp only [ArgRep] at ha
  simp only [AgreesM] at hb
  simp [ha, hb] at h3

/-! ### Single steps of walking -/

theorem closeQuote_none (st : St) (buf : List Out) : closeQuote st none buf = buf := rfl

theorem Walks.step {env : Env} {site im q jw quote st} {toks : List Tok} {buf : List Out}
    {q' jw' quote' st'} {toks' : List Tok} {buf' : List Out} {r : R}
    (h : ∀ n, walk (n + 1) env site im q jw quote st toks buf =
      walk n env site im q' jw' quote' st' toks' buf')
    (hr : Walks env site im q' jw' quote' st' toks' buf' r) :
    Walks env site im q jw quote st toks buf r := by
  obtain ⟨h0, n, hn⟩ := hr
  exact ⟨h0, n + 1, by rw [h, hn]⟩

theorem Reads.step {env : Env} {site q d st} {toks : List Tok} {args arg}
    {q' d' st'} {toks' : List Tok} {args' arg'} {r}
    (h : ∀ n, readArgs (n + 1) env site q d st toks args arg =
      readArgs n env site q' d' st' toks' args' arg')
    (hr : Reads env site q' d' st' toks' args' arg' r) :
    Reads env site q d st toks args arg r := by
  obtain ⟨h0, n, hn⟩ := hr
  exact ⟨h0, n + 1, by rw [h, hn]⟩

/-- A symbol that does nothing is written. -/
theorem walk_plainIn {env : Env} {m : Mode} (hm : ¬ m.isArg) {t : Tok} (ht : plainIn m t.sym)
    {st : St} (hr : st.ifs.reading = true) (site im jw) :
    ∃ jw', ∀ n rest buf, walk (n + 1) env site im false jw none st (t :: rest) buf =
      walk n env site im false jw' none st rest (buf ++ [.direct t]) := by
  obtain ⟨s, p⟩ := t
  cases s
  case space => exact ⟨jw, fun n rest buf => by rw [walk.eq_def]; simp [closeQuote, output, hr]⟩
  case tab => exact ⟨jw, fun n rest buf => by rw [walk.eq_def]; simp [closeQuote, output, hr]⟩
  case word => simp [plainIn, inert, hm] at ht
  case dquote => simp [plainIn, inert, hm] at ht
  case newline => simp [plainIn, inert, hm] at ht
  case eoi => simp [plainIn, inert, hm] at ht
  case comment => simp [plainIn, inert, hm] at ht
  case directive => simp [plainIn, inert, hm] at ht
  all_goals exact ⟨false, fun n rest buf => by rw [walk.eq_def]; simp [closeQuote, output, hr]⟩

theorem toksL_append (a b : List Out) : Out.toksL (a ++ b) = Out.toksL a ++ Out.toksL b := by
  induction a with
  | nil => rfl
  | cons o a ih => rw [List.cons_append, Out.toksL, Out.toksL, ih, List.append_assoc]

theorem toksL_direct (l : List Tok) : Out.toksL (l.map .direct) = l := by
  induction l with
  | nil => rfl
  | cons t l ih => rw [List.map_cons, Out.toksL, Out.toks, ih]; rfl

theorem wsim_done {m ρ} : WSim env T rank g S m ρ [] [] := by
  intro toks ht _ site im _ st hr _ jw
  obtain rfl := splitNil ht
  exact ⟨st, [], jw, .refl st, rfl, fun rest _ buf r h => by simpa using h⟩

theorem wsim_sym {m ρ s l o} (hs : plainIn m s) (ih : WSim env T rank g S m ρ l o) :
    WSim env T rank g S m ρ (s :: l) (s :: o) := by
  intro toks ht hg site im hS st hr hc jw
  obtain ⟨t, toks, rfl, h1, h2⟩ := splitCons ht
  subst h1
  obtain ⟨jw1, hstep⟩ := walk_plainIn (env := env) hS.not_arg hs hr site im jw
  obtain ⟨st', x, jw', k1, k2, k3⟩ := ih toks h2 (fun t ht => hg t (by simp [ht])) site im
    (hS.mono (by simp +contextual)) st hr (hc.mono (by simp +contextual)) jw1
  refine ⟨st', .direct t :: x, jw', k1, by rw [Out.toksL, Out.toks]; simp [k2], ?_⟩
  intro rest hrest buf r h
  rw [List.cons_append]
  exact Walks.step (fun n => hstep n _ _) (k3 rest hrest _ r (by simpa using h))

theorem wsim_comment {m ρ c l o} (ih : WSim env T rank g S m ρ l o) :
    WSim env T rank g S m ρ (.comment c :: l) o := by
  intro toks ht hg site im hS st hr hc jw
  obtain ⟨t, toks, rfl, h1, h2⟩ := splitCons ht
  obtain ⟨st', x, jw', k1, k2, k3⟩ := ih toks h2 (fun t ht => hg t (by simp [ht])) site im
    (hS.mono (by simp +contextual)) st hr (hc.mono (by simp +contextual)) false
  refine ⟨st', x, jw', k1, k2, ?_⟩
  intro rest hrest buf r h
  rw [List.cons_append]
  refine Walks.step (fun n => ?_) (k3 rest hrest _ r h)
  rw [walk.eq_def]
  simp [h1, closeQuote, output]

/-- Inside double quotes. -/
theorem walk_string {site : Option Pos} {im : Option Text} {st : St} (hr : st.ifs.reading = true) {r : R} {dq : Tok}
    (hq : dq.sym = .dquote) {rest : List Tok} :
    ∀ (x : List Tok), (∀ s ∈ x.map Tok.sym, s ≠ .dquote ∧ s ≠ .newline ∧ s ≠ .eoi ∧ ∀ c, s ≠ .comment c) →
    ∀ (jw : Bool) (buf : List Out), Walks env site im false false none st rest (buf ++ (x ++ [dq]).map .direct) r →
    Walks env site im true jw none st (x ++ dq :: rest) buf r := by
  intro x
  induction x with
  | nil =>
    intro _ jw buf h
    refine Walks.step (fun n => ?_) h
    rw [List.nil_append, walk.eq_def]
    simp [hq, closeQuote, output, hr]
  | cons t x ih =>
    intro hx jw buf h
    have ht := hx t.sym (by simp)
    have hx' : ∀ s ∈ x.map Tok.sym, s ≠ .dquote ∧ s ≠ .newline ∧ s ≠ .eoi ∧ ∀ c, s ≠ .comment c :=
      fun s hs => hx s (by simp only [List.map_cons, List.mem_cons]; exact .inr hs)
    obtain ⟨s, p⟩ := t
    have hb : buf ++ ((⟨s, p⟩ :: x) ++ [dq]).map Out.direct =
        (buf ++ [.direct ⟨s, p⟩]) ++ (x ++ [dq]).map .direct := by simp
    rw [hb] at h
    rw [List.cons_append]
    have key : ∀ jw', Walks env site im true jw' none st (x ++ dq :: rest) (buf ++ [.direct ⟨s, p⟩]) r :=
      fun jw' => ih hx' jw' _ h
    cases s
    case dquote => simp at ht
    case newline => simp at ht
    case eoi => simp at ht
    case comment c => exact absurd rfl (ht.2.2.2 c)
    case space => exact Walks.step (fun n => by rw [walk.eq_def]; simp [closeQuote, output, hr]) (key jw)
    case tab => exact Walks.step (fun n => by rw [walk.eq_def]; simp [closeQuote, output, hr]) (key jw)
    all_goals exact Walks.step (fun n => by rw [walk.eq_def]; simp [closeQuote, output, hr]) (key false)

theorem wsim_string {m ρ x l o}
    (hx : ∀ s ∈ x, s ≠ .dquote ∧ s ≠ .newline ∧ s ≠ .eoi ∧ ∀ c, s ≠ .comment c)
    (ih : WSim env T rank g S m ρ l o) :
    WSim env T rank g S m ρ (.dquote :: x ++ .dquote :: l) (.dquote :: x ++ .dquote :: o) := by
  intro toks ht hg site im hS st hr hc jw
  simp only [List.cons_append] at ht
  obtain ⟨q1, b, rfl, h1, h2⟩ := splitCons ht
  obtain ⟨xt, b, rfl, h3, h2⟩ := splitAppend h2
  obtain ⟨q2, toks, rfl, h4, h2⟩ := splitCons h2
  obtain ⟨st', y, jw', k1, k2, k3⟩ := ih toks h2 (fun t ht => hg t (by simp [ht])) site im
    (hS.mono (by simp +contextual)) st hr (hc.mono (by simp +contextual)) false
  refine ⟨st', (q1 :: xt ++ [q2]).map .direct ++ y, jw', k1, ?_, ?_⟩
  · rw [toksL_append, toksL_direct, List.map_append, k2]
    simp [h1, h3, h4]
  intro rest hrest buf r h
  simp only [List.cons_append, List.append_assoc]
  refine Walks.step (q' := true) (fun n => ?_) (walk_string (buf := buf ++ [.direct q1]) hr h4 xt (by rw [h3]; exact hx) false
    (k3 rest hrest _ r (by simpa using h)))
  rw [walk.eq_def]
  simp [h1, closeQuote, output, hr]

theorem ordinary_exec {w : Text} (hw : ordinary w) : w ≠ kw "__EXEC" := by
  rintro rfl
  have := hw.2
  revert this
  decide +kernel

theorem wsim_word {m ρ w l o} (W : World T rank g S) (hw : ordinary w) (h1 : ρ w = none) (h2 : T w = none)
    (ih : WSim env T rank g S m ρ l o) :
    WSim env T rank g S m ρ (.word w :: l) (.word w :: o) := by
  intro toks ht hg site im hS st hr hc jw
  obtain ⟨t, toks, rfl, ht1, ht2⟩ := splitCons ht
  obtain ⟨st', x, jw', k1, k2, k3⟩ := ih toks ht2 (fun t ht => hg t (by simp [ht])) site im
    (hS.mono (by simp +contextual)) st hr (hc.mono (by simp +contextual)) false
  refine ⟨st', .direct t :: x, jw', k1, by rw [Out.toksL, Out.toks]; simp [k2, ht1], ?_⟩
  intro rest hrest buf r h
  rw [List.cons_append]
  refine Walks.step (fun n => ?_) (k3 rest hrest (buf ++ [.direct t]) r (by simpa using h))
  rw [walk.eq_def]
  simp only [ht1]
  rw [if_neg (ordinary_exec hw), if_neg (by rw [isUnsupportedBuiltin, hw.2]; simp),
    if_neg (by rw [ctx_not_contains W hc hw (by simp) h1 h2]; simp)]
  rw [closeQuote_none, output_reading hr (by rw [ht1]; simp)]
  simp [vis, ht1]

/-- The source of a macro use starts with its name. -/
theorem use_head {ρ u x} (h : Holds T (.use ρ u x)) : ∃ w v, u = .word w :: v ∧ ordinary w ∧
    ((ρ w).isSome ∨ (T w).isSome) := by
  cases h with
  | param h1 h2 => exact ⟨_, _, rfl, h1, .inl (by simp [h2])⟩
  | value h1 h2 h3 => exact ⟨_, _, rfl, h1, .inr (by simp [h3])⟩
  | call h1 h2 h3 => exact ⟨_, _, rfl, h1, .inr (by simp [h3])⟩

theorem Same.ctx {st st' : St} {im ρ l} (h : Same st st') (hc : Ctx T rank g st.defs im ρ l) :
    Ctx T rank g st'.defs im ρ l := by rw [h.defs]; exact hc

theorem Walks.use {site im jw quote st st'} {t : Tok} {w : Text} (ht : t.sym = .word w) (hw : ordinary w)
    (hk : st.defs.containsKey w = true) (hi : im ≠ some w) {toks rest : List Tok} {buf buf' : List Out}
    {n r} (hu : defineUse n env (site.getD t.pos) st (t :: toks) buf = .ok (st', rest, buf'))
    (h : Walks env site im false false none st' rest (closeQuote st' quote buf') r) :
    Walks env site im false jw quote st (t :: toks) buf r := by
  obtain ⟨h0, k, hk'⟩ := h
  refine ⟨h0, max n k + 1, ?_⟩
  rw [walk.eq_def]
  simp only [ht]
  rw [if_neg (ordinary_exec hw), if_neg (by rw [isUnsupportedBuiltin, hw.2]; simp),
    if_pos ⟨hi, hk⟩]
  rw [defineUse_more (le_max_left n k) hu (by simp)]
  exact walk_more (le_max_right n k) hk' h0

theorem wsim_mac {m ρ u x l o} (W : World T rank g S) (hu : Holds T (.use ρ u x))
    (ihu : USim env T rank g S ρ u x) (ih : WSim env T rank g S m ρ l o) :
    WSim env T rank g S m ρ (u ++ l) (x ++ o) := by
  intro toks ht hg site im hS st hr hc jw
  obtain ⟨ut, lt, rfl, hut, hlt⟩ := splitAppend ht
  obtain ⟨w, v, rfl, hw, hm⟩ := use_head hu
  have hc' := hc
  obtain ⟨hk, hi⟩ := ctx_contains W hc hw (by simp) hm
  obtain ⟨t, vt, rfl, ht1, _⟩ := splitCons hut
  obtain ⟨st1, ox, s1, s2, s3⟩ := ihu (t :: vt) hut (fun t ht => hg t (List.mem_append_left _ ht))
    (site.getD t.pos) (hS.site (by simp)) im st hr
    (hc.mono (fun s hs => List.mem_append_left _ hs))
  obtain ⟨st', y, jw', k1, k2, k3⟩ := ih lt hlt (fun t ht => hg t (List.mem_append_right _ ht)) site im
    (hS.mono (fun t ht => List.mem_append_right _ ht)) st1 (by rw [s1.ifs]; exact hr)
    (s1.ctx (hc.mono (fun s hs => List.mem_append_right _ hs))) false
  refine ⟨st', ox :: y, jw', s1.trans k1, by rw [Out.toksL, List.map_append, s2, k2], ?_⟩
  intro rest hrest buf r h
  obtain ⟨n, hn⟩ := s3 (lt ++ rest)
  have hn' := hn buf
  rw [List.append_assoc, List.cons_append]
  refine Walks.use ht1 hw hk hi hn' ?_
  rw [closeQuote_none]
  exact k3 rest hrest _ r (by simpa using h)

theorem wsim_quote {ρ w u x l o} (W : World T rank g S) (hu : Holds T (.use ρ (.word w :: u) x))
    (hd : directiveWords.contains w = false)
    (ihu : USim env T rank g S ρ (.word w :: u) x) (ih : WSim env T rank g S .body ρ l o) :
    WSim env T rank g S .body ρ (.directive :: .word w :: u ++ l) (.dquote :: x ++ .dquote :: o) := by
  intro toks ht hg site im hS st hr hc jw
  simp only [List.cons_append] at ht
  obtain ⟨h, b, rfl, hh, ht⟩ := splitCons ht
  rw [← List.cons_append] at ht
  obtain ⟨ut, lt, rfl, hut, hlt⟩ := splitAppend ht
  obtain ⟨w', v, he, hw, hm⟩ := use_head hu
  obtain ⟨rfl, rfl⟩ : w = w' ∧ u = v := by simpa using he
  obtain ⟨hk, hi⟩ := ctx_contains W hc hw (by simp) hm
  obtain ⟨t, vt, rfl, ht1, _⟩ := splitCons hut
  obtain ⟨st1, ox, s1, s2, s3⟩ := ihu (t :: vt) hut (fun t ht => hg t (by simp only [List.mem_cons, List.mem_append]; right; left; simpa using ht))
    (site.getD t.pos) (hS.site (by simp)) im st hr
    (hc.mono (fun s hs => by simp only [List.cons_append, List.mem_cons, List.mem_append] at hs ⊢; tauto))
  obtain ⟨st', y, jw', k1, k2, k3⟩ := ih lt hlt (fun t ht => hg t (by simp [ht])) site im
    (hS.mono (fun t ht => by simp [ht])) st1 (by rw [s1.ifs]; exact hr)
    (s1.ctx (hc.mono (fun s hs => by simp [hs]))) false
  refine ⟨st', .direct ⟨.dquote, h.pos⟩ :: ox :: .direct ⟨.dquote, h.pos⟩ :: y, jw', s1.trans k1, by
    simp only [Out.toksL, Out.toks, List.map_append, s2, k2, List.map_cons,
      List.cons_append, List.nil_append], ?_⟩
  intro rest hrest buf r hwk
  obtain ⟨n, hn⟩ := s3 (lt ++ rest)
  have hn' := hn (buf ++ [.direct ⟨.dquote, h.pos⟩])
  have hr1 : st1.ifs.reading = true := by rw [s1.ifs]; exact hr
  have hfin := k3 rest hrest (buf ++ [.direct ⟨.dquote, h.pos⟩] ++ [ox] ++ [.direct ⟨.dquote, h.pos⟩]) r
    (by simpa using hwk)
  simp only [List.cons_append, List.append_assoc] at hn' ⊢
  have huse := Walks.use (quote := some h.pos) (jw := jw) ht1 hw hk hi hn'
    (by simpa [closeQuote, output, hr1] using hfin)
  refine Walks.step (fun n => ?_) huse
  rcases hS with ⟨h0, _⟩ | ⟨_, s, i, rfl, rfl, _, hpre⟩
  · simp at h0
  rw [walk.eq_def]
  simp only [hh]
  rw [if_neg (by simp only [List.head?_cons, Option.any_some, ht1, Sym.text, hd]; simp)]
  rw [if_pos (by
    have := hpre h (by simp)
    simp only [Option.isSome_some, Option.any_some, quotes, ht1, Sym.isWord, Sym.text, hk, true_and, Bool.and_true, Bool.true_and]
    rcases this with e | e <;> simp [e])]
  simp [output, hr]

theorem wsim_hash {m ρ l o} (W : World T rank g S) (hm : ¬ m.isArg)
    (hn : ∀ s, l.head? = some s → directiveWords.contains s.text = false ∧
        ∀ w, m = .body → s = .word w → ordinary w ∧ ρ w = none ∧ T w = none)
    (ih : WSim env T rank g S m ρ l o) :
    WSim env T rank g S m ρ (.directive :: l) (.directive :: o) := by
  intro toks ht hg site im hS st hr hc jw
  obtain ⟨t, toks, rfl, h1, h2⟩ := splitCons ht
  obtain ⟨st', x, jw', k1, k2, k3⟩ := ih toks h2 (fun t ht => hg t (by simp [ht])) site im
    (hS.mono (by simp +contextual)) st hr (hc.mono (by simp +contextual)) jw
  refine ⟨st', .direct t :: x, jw', k1, by rw [Out.toksL, Out.toks]; simp [k2, h1], ?_⟩
  intro rest hrest buf r h
  rw [List.cons_append]
  refine Walks.step (fun n => ?_) (k3 rest hrest (buf ++ [.direct t]) r (by simpa using h))
  have hd : ((toks ++ rest).head?.any fun c => directiveWords.contains c.sym.text) = false := by
    cases toks with
    | nil =>
      cases rest with
      | nil => rfl
      | cons c rest =>
        simp only [List.nil_append, List.head?_cons, Option.any_some, hrest c rfl]
        decide +kernel
    | cons c toks =>
      simp only [List.cons_append, List.head?_cons, Option.any_some]
      exact (hn c.sym (by rw [← h2]; rfl)).1
  rw [walk.eq_def]
  simp only [h1]
  rw [if_neg (by rw [hd]; simp), if_neg ?_]
  · simp [closeQuote, output, hr, h1]
  rintro ⟨hi, hq⟩
  rcases hS with ⟨_, _, rfl, _⟩ | ⟨rfl, s, i, rfl, rfl, _, _⟩
  · simp at hi
  simp only [Option.any_some] at hq
  cases toks with
  | nil =>
    cases rest with
    | nil => simp [quotes] at hq
    | cons c rest => simp [quotes, hrest c rfl, Sym.isWord] at hq
  | cons c toks =>
    obtain ⟨cs, cp⟩ := c
    simp only [List.cons_append, quotes, Bool.and_eq_true] at hq
    obtain ⟨w, rfl⟩ : ∃ w, cs = .word w := by
      cases cs <;> simp [Sym.isWord] at hq
      exact ⟨_, rfl⟩
    obtain ⟨e1, e2, e3⟩ := (hn (.word w) (by rw [← h2]; rfl)).2 w rfl rfl
    have := ctx_not_contains W hc e1 (by rw [← h2]; simp) e2 e3
    rw [Sym.text] at hq
    simp [this] at hq

/-! ### Arguments -/

theorem asim_done {d ρ} : ASim env T rank g S d d ρ [] [] := by
  intro toks ht _ site _ im st hr _
  obtain rfl := splitNil ht
  exact ⟨st, [], .refl st, rfl, fun rest args arg r h => by simpa using h⟩

theorem asim_step {d d' d1 ρ s l o}
    (hstep : ∀ t : Tok, t.sym = s → ∀ n site st rest args arg,
      readArgs (n + 1) env site false d st (t :: rest) args arg =
        readArgs n env site false d1 st rest args (arg ++ [t]))
    (ih : ASim env T rank g S d1 d' ρ l o) : ASim env T rank g S d d' ρ (s :: l) (s :: o) := by
  intro toks ht hg site hS im st hr hc
  obtain ⟨t, toks, rfl, h1, h2⟩ := splitCons ht
  obtain ⟨st', x, k1, k2, k3⟩ := ih toks h2 (fun t ht => hg t (by simp [ht])) site hS im st hr
    (hc.mono (by simp +contextual))
  refine ⟨st', t :: x, k1, by simp [k2, h1], ?_⟩
  intro rest args arg r h
  rw [List.cons_append]
  exact Reads.step (fun n => hstep t h1 n _ _ _ _ _) (k3 rest args _ r (by simpa using h))

theorem asim_sym {d d' ρ s l o} (hs : plainIn (.arg d d') s) (ih : ASim env T rank g S d d' ρ l o) :
    ASim env T rank g S d d' ρ (s :: l) (s :: o) := by
  refine asim_step (d1 := d) ?_ ih
  · intro t ht n site st rest args arg
    subst ht
    obtain ⟨s, p⟩ := t
    rw [readArgs.eq_def]
    cases s <;> simp [plainIn, inert, Mode.isArg] at hs <;> simp

theorem asim_lparen {d d' ρ l o} (ih : ASim env T rank g S (d + 1) d' ρ l o) :
    ASim env T rank g S d d' ρ (.lparen :: l) (.lparen :: o) :=
  asim_step (fun t ht n site st rest args arg => by rw [readArgs.eq_def]; simp [ht]) ih

theorem asim_rparen {d d' ρ l o} (ih : ASim env T rank g S d d' ρ l o) :
    ASim env T rank g S (d + 1) d' ρ (.rparen :: l) (.rparen :: o) :=
  asim_step (fun t ht n site st rest args arg => by rw [readArgs.eq_def]; simp [ht]) ih

theorem asim_word {d d' ρ w l o} (W : World T rank g S) (hw : ordinary w) (h1 : ρ w = none) (h2 : T w = none)
    (ih : ASim env T rank g S d d' ρ l o) :
    ASim env T rank g S d d' ρ (.word w :: l) (.word w :: o) := by
  intro toks ht hg site hS im st hr hc
  obtain ⟨t, toks, rfl, ht1, ht2⟩ := splitCons ht
  obtain ⟨st', x, k1, k2, k3⟩ := ih toks ht2 (fun t ht => hg t (by simp [ht])) site hS im st hr
    (hc.mono (by simp +contextual))
  refine ⟨st', t :: x, k1, by simp [k2, ht1], ?_⟩
  intro rest args arg r h
  rw [List.cons_append]
  refine Reads.step (fun n => ?_) (k3 rest args (arg ++ [t]) r (by simpa using h))
  rw [readArgs.eq_def]
  simp only [ht1, Bool.false_eq_true, if_false]
  rw [if_neg (by rw [ctx_not_contains W hc hw (by simp) h1 h2]; simp)]

theorem reads_string {site d st} {args : List (List Tok)} {r} {dq : Tok} (hq : dq.sym = .dquote) {rest : List Tok} :
    ∀ (x : List Tok), (∀ t ∈ x, t.sym ≠ .dquote) → ∀ arg,
    Reads env site false d st rest args (arg ++ (x ++ [dq])) r →
    Reads env site true d st (x ++ dq :: rest) args arg r := by
  intro x
  induction x with
  | nil =>
    intro _ arg h
    refine Reads.step (fun n => ?_) h
    rw [List.nil_append, readArgs.eq_def]
    simp [hq]
  | cons t x ih =>
    intro hx arg h
    rw [List.cons_append]
    refine Reads.step (q' := true) (fun n => ?_) (ih (fun t ht => hx t (by simp [ht])) (arg ++ [t]) (by simpa using h))
    rw [readArgs.eq_def]
    simp [hx t (by simp)]

theorem asim_string {d d' ρ x l o}
    (hx : ∀ s ∈ x, s ≠ .dquote ∧ s ≠ .newline ∧ s ≠ .eoi ∧ ∀ c, s ≠ .comment c)
    (ih : ASim env T rank g S d d' ρ l o) :
    ASim env T rank g S d d' ρ (.dquote :: x ++ .dquote :: l) (.dquote :: x ++ .dquote :: o) := by
  intro toks ht hg site hS im st hr hc
  simp only [List.cons_append] at ht
  obtain ⟨q1, b, rfl, h1, h2⟩ := splitCons ht
  obtain ⟨xt, b, rfl, h3, h2⟩ := splitAppend h2
  obtain ⟨q2, toks, rfl, h4, h2⟩ := splitCons h2
  obtain ⟨st', y, k1, k2, k3⟩ := ih toks h2 (fun t ht => hg t (by simp [ht])) site hS im st hr
    (hc.mono (by simp +contextual))
  refine ⟨st', q1 :: xt ++ q2 :: y, k1, ?_, ?_⟩
  · simp [h1, h3, h4, k2]
  intro rest args arg r h
  simp only [List.cons_append, List.append_assoc]
  refine Reads.step (q' := true) (fun n => ?_) (reads_string (arg := arg ++ [q1]) h4 xt (fun t ht => (hx t.sym (by rw [← h3]; exact List.mem_map_of_mem ht)).1)
    (k3 rest args _ r (by simpa using h)))
  rw [readArgs.eq_def]
  simp [h1]

theorem asim_mac {d d' ρ u x l o} (W : World T rank g S) (hu : Holds T (.use ρ u x))
    (ihu : USim env T rank g S ρ u x) (ih : ASim env T rank g S d d' ρ l o) :
    ASim env T rank g S d d' ρ (u ++ l) (x ++ o) := by
  intro toks ht hg site hS im st hr hc
  obtain ⟨ut, lt, rfl, hut, hlt⟩ := splitAppend ht
  obtain ⟨w, v, rfl, hw, hm⟩ := use_head hu
  obtain ⟨hk, hi⟩ := ctx_contains W hc hw (by simp) hm
  obtain ⟨t, vt, rfl, ht1, _⟩ := splitCons hut
  obtain ⟨st1, ox, s1, s2, s3⟩ := ihu (t :: vt) hut (fun t ht => hg t (List.mem_append_left _ ht))
    site hS im st hr (hc.mono (fun s hs => List.mem_append_left _ hs))
  obtain ⟨st', y, k1, k2, k3⟩ := ih lt hlt (fun t ht => hg t (List.mem_append_right _ ht)) site hS im
    st1 (by rw [s1.ifs]; exact hr) (s1.ctx (hc.mono (fun s hs => List.mem_append_right _ hs)))
  refine ⟨st', ox.toks ++ y, s1.trans k1, by rw [List.map_append, s2, k2], ?_⟩
  intro rest args arg r h
  obtain ⟨n, hn⟩ := s3 (lt ++ rest)
  have hn' := hn []
  obtain ⟨h0, k, hk'⟩ := k3 rest args (arg ++ ox.toks) r (by simpa using h)
  refine ⟨h0, max n k + 1, ?_⟩
  rw [List.append_assoc, List.cons_append, readArgs.eq_def]
  simp only [ht1, Bool.false_eq_true, if_false]
  rw [if_pos hk, ← List.cons_append, defineUse_more (le_max_left n k) hn' (by simp)]
  simp only [List.nil_append, Out.toksL, List.append_nil]
  exact readArgs_more (le_max_right n k) hk' h0

theorem lsim_last {d ρ a v} (ih : ASim env T rank g S d 0 ρ a v) : LSim env T rank g S d ρ a [v] := by
  intro toks ht hg site hS im st hr hc
  obtain ⟨st', x, k1, k2, k3⟩ := ih toks ht hg site hS im st hr hc
  refine ⟨st', [x], k1, by simp [k2], fun rp hrp rest args => ?_⟩
  have : Reads env site false 0 st' (rp :: rest) args ([] ++ x) (.ok (st', rest, args ++ actualToks [x])) := by
    refine ⟨by simp, 1, ?_⟩
    rw [readArgs.eq_def]
    simp only [hrp, List.nil_append, Bool.false_eq_true, if_false, if_true, actualToks, List.getLast?_singleton, Option.some.injEq]
    split <;> simp
  exact (k3 _ _ _ _ this).2

theorem actualToks_cons (x : List Tok) {xs : List (List Tok)} (h : xs ≠ []) :
    actualToks (x :: xs) = x :: actualToks xs := by
  cases xs with
  | nil => exact absurd rfl h
  | cons y ys =>
    simp only [actualToks, List.getLast?_cons_cons]
    split <;> simp

theorem holds_args_ne {c : Claim} (h : Holds T c) : ∀ {d ρ src vs}, c = .args d ρ src vs → vs ≠ [] := by
  intro d ρ src vs he
  cases h <;> simp at he
  · obtain ⟨_, _, _, rfl⟩ := he; simp
  · obtain ⟨_, _, _, rfl⟩ := he; simp

theorem lsim_more {d d' ρ a v l vs} (hne : vs ≠ []) (ih : ASim env T rank g S d d' ρ a v)
    (ihl : LSim env T rank g S d' ρ l vs) : LSim env T rank g S d ρ (a ++ .comma :: l) (v :: vs) := by
  intro toks ht hg site hS im st hr hc
  obtain ⟨at', b, rfl, ha, hb⟩ := splitAppend ht
  obtain ⟨cm, lt, rfl, hcm, hl⟩ := splitCons hb
  obtain ⟨st1, x, k1, k2, k3⟩ := ih at' ha (fun t ht => hg t (by simp [ht])) site hS im st hr
    (hc.mono (by simp +contextual))
  obtain ⟨st', xs, j1, j2, j3⟩ := ihl lt hl (fun t ht => hg t (by simp [ht])) site hS im st1
    (by rw [k1.ifs]; exact hr) (k1.ctx (hc.mono (by simp +contextual)))
  refine ⟨st', x :: xs, k1.trans j1, by simp [k2, j2], fun rp hrp rest args => ?_⟩
  obtain ⟨n, hn⟩ := j3 rp hrp rest (args ++ [x])
  have hxs : xs ≠ [] := by rintro rfl; exact hne j2.symm
  have : Reads env site false d' st1 (cm :: (lt ++ rp :: rest)) args ([] ++ x)
      (.ok (st', rest, args ++ actualToks (x :: xs))) := by
    refine ⟨by simp, n + 1, ?_⟩
    rw [readArgs.eq_def, actualToks_cons x hxs]
    simp only [hcm, List.nil_append, Bool.false_eq_true, if_false]
    rw [hn]; simp
  have := (k3 _ _ _ _ this).2
  simpa using this

/-! ### Use -/

theorem usim_param {ρ w v} (hw : ordinary w) (hv : ρ w = some v) :
    USim env T rank g S ρ [.word w] v := by
  intro toks ht hg site hS im st hr hc
  obtain ⟨t, b, rfl, ht1, hb⟩ := splitCons ht
  obtain rfl := splitNil hb
  have h1 := hc.args w (by simp)
  rw [hv] at h1
  obtain ⟨e, l, h1, h2, h3, h4⟩ := h1
  refine ⟨st, .mac t (l.map .direct), .refl st, by rw [Out.toks, toksL_direct, h3], fun rest => ⟨1, fun buf => ?_⟩⟩
  rw [defineUse.eq_def]
  simp only [List.cons_append, List.nil_append, currentWord, ht1, Sym.isWord, if_true]
  rw [getWithGen_ordinary ht1 hw (e := e) (by rw [getReadonly_eq, h1]) (by intro f hf; rw [h2] at hf; simp at hf)]
  simp only [h2, h4, if_true]

theorem noJoin_sym (l : List Tok) : (noJoin l).map Tok.sym = joined (l.map Tok.sym) := by
  simp only [noJoin, joined, List.filter_map]
  rfl

theorem walks_body {st : St} {site im jw} {toks : List Tok} {ρ l o} (W : World T rank g S)
    (ih : WSim env T rank g S .body ρ l o) (ht : toks.map Tok.sym = l)
    (hb : ∀ t ∈ toks, BodyTok g t) (hS : S site) (hr : st.ifs.reading = true)
    (hc : Ctx T rank g st.defs (some im) ρ l) :
    ∃ n st' x, Same st st' ∧ (Out.toksL x).map Tok.sym = o ∧
      walk n env (some site) (some im) false jw none st toks [] = .ok (st', [], x) := by
  obtain ⟨st', x, jw', k1, k2, k3⟩ := ih toks ht (fun t ht => W.good t (hb t ht)) (some site) (some im)
    (.inr ⟨rfl, site, im, rfl, rfl, hS, fun t ht => W.pre site hS t (hb t ht)⟩) st hr hc jw
  have := k3 [] (by intro t ht; simp at ht) [] (.ok (st', [], x)) ⟨by simp, 1, by rw [walk.eq_def]; simp⟩
  obtain ⟨_, n, hn⟩ := this
  exact ⟨n, st', x, k1, k2, by simpa using hn⟩

theorem usim_value {ρ w b x} (W : World T rank g S) (hw : ordinary w) (hρ : ρ w = none)
    (hT : T w = some (.value b)) (ih : WSim env T rank g S .body noArgs (joined b) x) :
    USim env T rank g S ρ [.word w] x := by
  intro toks ht hg site hS im st hr hc
  obtain ⟨t, bb, rfl, ht1, hb⟩ := splitCons ht
  obtain rfl := splitNil hb
  have h0 := hc.args w (by simp)
  rw [hρ] at h0
  simp only [ArgRep] at h0
  have h1 := W.agree w
  rw [hT] at h1
  obtain ⟨e, l, h1, h2, h3, h4⟩ := h1
  have hlow := hc.low w (by simp) (by simp [hT])
  have hctx : Ctx T rank g st.defs (some w) noArgs (joined b) := by
    refine ⟨hc.glob, fun w' hw' => ?_, hc.dom, fun w' hw' hT' nm hnm => ?_, fun nm hnm => ?_⟩
    · simp only [noArgs, ArgRep]
      by_contra hne
      obtain ⟨e', he'⟩ := Option.ne_none_iff_exists'.1 hne
      obtain ⟨f, ps, c, hf, hps⟩ := hc.dom w' e' he'
      exact W.apart.2 w b hT w' (mem_words.2 (mem_joined hw')) f ps c hf hps
    · have hr' := W.ranked w _ hT w' (mem_words.2 (mem_joined hw')) hT'
      rcases hnm with hnm | hnm
      · exact lt_trans hr' (hlow nm (.inl hnm))
      · obtain rfl := Option.some.inj hnm; exact hr'
    · rcases hnm with hnm | hnm
      · exact hc.name nm (.inl hnm)
      · obtain rfl := Option.some.inj hnm; exact h0
  obtain ⟨n, st', y, k1, k2, k3⟩ := walks_body (toks := noJoin l) (jw := true) W ih (by rw [noJoin_sym, h3])
    (fun t ht => ⟨w, e, h1, .inl ⟨l, h2, (List.mem_filter.1 ht).1⟩⟩) hS hr hctx
  refine ⟨st', .mac t y, k1, by rw [Out.toks, k2], fun rest => ⟨n + 1, fun buf => ?_⟩⟩
  rw [defineUse.eq_def]
  simp only [List.cons_append, List.nil_append, currentWord, ht1, Sym.isWord, if_true]
  rw [getWithGen_ordinary ht1 hw (e := e) (by rw [getReadonly_eq, h0, hc.glob]; exact h1) (by intro f hf; rw [h2] at hf; simp at hf)]
  simp only [h2]
  rw [if_neg h4]
  simp only [Sym.text]
  rw [k3]

theorem bindArgs_rep (p : Pragma) (nm : Text) : ∀ (as : List Tok) (ps : List Text) (xs : List (List Tok))
    (m : Inner) (ws : List Warn), as.map Tok.sym = ps.map .word → xs.length = ps.length → ∀ w,
    ∃ m', (bindArgs p nm (as.zip xs) m ws).1 = m' ∧
      match bind ps (xs.map (List.map Tok.sym)) w with
      | some v => ArgRep (m' w) (some v) ∧ w ∈ ps
      | none => m' w = m w := by
  intro as
  induction as with
  | nil =>
    intro ps xs m ws h1 h2 w
    cases ps with
    | nil => exact ⟨_, rfl, by simp [bind, noArgs, bindArgs]⟩
    | cons => simp at h1
  | cons a as ih =>
    intro ps xs m ws h1 h2 w
    cases ps with
    | nil => simp at h1
    | cons q ps =>
      cases xs with
      | nil => simp at h2
      | cons x xs =>
        simp only [List.map_cons, List.cons.injEq] at h1
        simp only [List.length_cons, Nat.add_right_cancel_iff] at h2
        refine ⟨_, rfl, ?_⟩
        rw [List.zip_cons_cons, bindArgs]
        obtain ⟨m', hm', h⟩ := ih ps xs (m.insert a.sym.text { tok := a, defn := .value x, src := .argument })
          (if checksPadding p nm then paddedWarns nm x ws else ws) h1.2 h2 w
        rw [hm']
        simp only [List.map_cons, bind]
        cases hb : bind ps (xs.map (List.map Tok.sym)) w with
        | some v =>
          rw [hb] at h
          exact ⟨h.1, by simp [h.2]⟩
        | none =>
          rw [hb] at h
          simp only at h ⊢
          rw [h, h1.1]
          simp only [Inner.insert, Sym.text]
          by_cases hw : w = q
          · simp only [hw, if_true]
            exact ⟨⟨_, x, rfl, rfl, rfl, rfl⟩, by simp⟩
          · simp [hw]

theorem actuals_map (xs : List (List Tok)) :
    (actualToks xs).map (List.map Tok.sym) = actuals (xs.map (List.map Tok.sym)) := by
  simp only [actualToks, actuals, List.getLast?_map]
  cases h : xs.getLast? with
  | none => simp
  | some y =>
    cases y with
    | nil => simp
    | cons => simp

theorem usim_call {ρ w ps b src vs x} (W : World T rank g S) (hw : ordinary w) (hρ : ρ w = none)
    (hT : T w = some (.func ps b)) (ihl : LSim env T rank g S 0 ρ src vs)
    (hlen : (actuals vs).length = ps.length)
    (ih : WSim env T rank g S .body (bind ps (actuals vs)) (joined b) x) :
    USim env T rank g S ρ (.word w :: .lparen :: src ++ [.rparen]) x := by
  intro toks ht hg site hS im st hr hc
  simp only [List.cons_append] at ht
  obtain ⟨t, bb, rfl, ht1, hb⟩ := splitCons ht
  obtain ⟨lp, bb, rfl, hlp, hb⟩ := splitCons hb
  obtain ⟨src', bb, rfl, hsrc, hb⟩ := splitAppend hb
  obtain ⟨rp, bb, rfl, hrp, hb⟩ := splitCons hb
  obtain rfl := splitNil hb
  have h0 := hc.args w (by simp)
  rw [hρ] at h0
  simp only [ArgRep] at h0
  have h1 := W.agree w
  rw [hT] at h1
  obtain ⟨e, f, h1, h2, h3, h4⟩ := h1
  obtain ⟨st1, xs, j1, j2, j3⟩ := ihl src' hsrc (fun t ht => hg t (by simp [ht])) site hS im st hr
    (hc.mono (by simp +contextual))
  have hlen' : (actualToks xs).length = ps.length := by
    rw [← hlen, ← j2, ← actuals_map, List.length_map]
  have hfa : f.args.length = ps.length := by
    have := congrArg List.length h3
    simpa using this
  have hrep := bindArgs_rep st1.pragma w f.args ps (actualToks xs) (fun _ => none) st1.warns h3 hlen'
  obtain ⟨p1, p2⟩ : ∃ p : Inner × List Warn, p = bindArgs st1.pragma w (f.args.zip (actualToks xs)) (fun _ => none) st1.warns := ⟨_, rfl⟩
  rw [← p2] at hrep
  obtain ⟨m, ws⟩ := p1
  let st2 : St := { st1 with warns := ws, defs := st1.defs.push w m }
  have hin : ∀ w', inner st2.defs w' = m w' := fun w' => rfl
  have htop : ∀ nm, top st2.defs = some nm ∨ some w = some nm → nm = w := by
    intro nm h
    rcases h with h | h
    · exact (Option.some.inj h).symm
    · exact (Option.some.inj h).symm
  have hbind : ∀ w', match bind ps (actuals vs) w' with
      | some v => ArgRep (m w') (some v) ∧ w' ∈ ps
      | none => m w' = none := by
    intro w'
    obtain ⟨m', hm', h⟩ := hrep w'
    obtain rfl : m = m' := hm'
    rw [actuals_map, j2] at h
    exact h
  have hmps : ∀ w' e', m w' = some e' → w' ∈ ps := by
    intro w' e' he'
    have := hbind w'
    cases hx : bind ps (actuals vs) w' with
    | some v => rw [hx] at this; exact this.2
    | none => rw [hx] at this; simp only at this; rw [this] at he'; simp at he'
  have hctx : Ctx T rank g st2.defs (some w) (bind ps (actuals vs)) (joined b) := by
    refine ⟨?_, fun w' hw' => ?_, fun w' e' he' => ⟨w, ps, b, hT, hmps w' e' he'⟩, fun w' hw' hT' nm hnm => ?_, fun nm hnm => ?_⟩
    · rw [show st2.defs.global = st1.defs.global from rfl, j1.defs]; exact hc.glob
    · rw [hin]
      have := hbind w'
      cases hx : bind ps (actuals vs) w' with
      | some v => rw [hx] at this; exact this.1
      | none => rw [hx] at this; exact this
    · rw [htop nm hnm]
      exact W.ranked w _ hT w' (mem_words'.2 (mem_joined hw')) hT'
    · rw [htop nm hnm, hin]
      by_contra hne
      obtain ⟨e', he'⟩ := Option.ne_none_iff_exists'.1 hne
      exact W.apart.1 w ps b hT (hmps w e' he')
  have hr2 : st2.ifs.reading = true := by
    rw [show st2.ifs = st1.ifs from rfl, j1.ifs]; exact hr
  obtain ⟨n, st3, y, k1, k2, k3⟩ := walks_body (toks := noJoin f.body) (jw := true) W ih (by rw [noJoin_sym, h4])
    (fun t ht => ⟨w, e, h1, .inr ⟨f, h2, (List.mem_filter.1 ht).1⟩⟩) hS hr2 hctx
  refine ⟨{ st3 with defs := st3.defs.pop }, .mac t y, ?_, by rw [Out.toks, k2], fun rest => ?_⟩
  · obtain ⟨w1, rfl⟩ := j1
    obtain ⟨w2, rfl⟩ := k1
    exact ⟨w2, rfl⟩
  obtain ⟨n', hn'⟩ := j3 rp hrp rest []
  refine ⟨max n n' + 1, fun buf => ?_⟩
  rw [defineUse.eq_def]
  simp only [List.cons_append, List.append_assoc, List.nil_append, currentWord, ht1, Sym.isWord, if_true]
  rw [getWithGen_ordinary ht1 hw (e := e) (by rw [getReadonly_eq, h0, hc.glob]; exact h1)
    (by
      intro f' hf'
      exact hg t (by simp) w ht1 e f' h1 hf')]
  simp only [h2, hlp]
  rw [if_neg (by simp), readArgs_more (le_max_right n n') hn' (by simp)]
  simp only [List.nil_append]
  rw [if_neg (by rw [hlen', hfa]; simp)]
  simp only [Sym.text]
  rw [← p2]
  simp only
  rw [walk_more (le_max_left n n') k3 (by simp)]

/-- Every claim of the specification is met. -/
theorem sim (W : World T rank g S) {c : Claim} (h : Holds T c) : Sim env T rank g S c := by
  induction h with
  | @done m ρ h => cases m <;> first | exact wsim_done | simp [Mode.isArg] at h
  | doneArg => exact asim_done
  | @sym m ρ s l o h _ ih => cases m <;> first | exact wsim_sym h ih | exact asim_sym h ih
  | @comment m ρ s l o h _ ih => cases m <;> first | exact wsim_comment ih | simp [Mode.isArg] at h
  | lparen _ ih => exact asim_lparen ih
  | rparen _ ih => exact asim_rparen ih
  | @string m ρ x l o h _ ih => cases m <;> first | exact wsim_string h ih | exact asim_string h ih
  | @word m ρ x l o h1 h2 h3 _ ih =>
    cases m <;> first | exact wsim_word W h1 h2 h3 ih | exact asim_word W h1 h2 h3 ih
  | @mac m ρ u x l o hu _ ihu ih =>
    cases m <;> first | exact wsim_mac W hu ihu ih | exact asim_mac W hu ihu ih
  | quote hu hd _ ihu ih => exact wsim_quote W hu hd ihu ih
  | @hash m ρ l o hm hn _ ih =>
    cases m <;> first | exact wsim_hash W hm hn ih | simp [Mode.isArg] at hm
  | param h1 h2 => exact usim_param h1 h2
  | value h1 h2 h3 _ ih => exact usim_value W h1 h2 h3 ih
  | call h1 h2 h3 _ h4 _ ihl ih => exact usim_call W h1 h2 h3 ihl h4 ih
  | lastArg _ ih => exact lsim_last ih
  | moreArgs _ h2 ih ihl => exact lsim_more (holds_args_ne h2 rfl) ih ihl
end

end Verif.Preproc.Subst
