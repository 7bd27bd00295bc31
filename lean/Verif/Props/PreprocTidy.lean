import Verif.Lib.PreprocTidy
import Verif.Props.PreprocStop
import Verif.Props.Tokenize
/-!
C123: preprocessing ends with a text or a report and does not crash.
-/
namespace Verif.Preproc
open Spec Ex

/-- C123, the part that holds. Preprocessing tidy sources (`Tidy`: files end with a line break, a macro body holds no directive and
does not end with the name of a macro that has parameters or is nothing, no `#if` asks for `__COUNTER_RESET__`) does not crash,
however macros, arguments, conditionals, pragmas and includes are nested and whatever mistakes the sources have.
Missing: a second `#else` outside of any conditional (`PErr.stray`, see C30). -/
theorem C123_no_crash_partial {env : Env} {calls : Text → Prop} (h : Tidy env calls) (n : Nat) (path : Text) :
    run n env path ≠ .error .panic := by
  rw [run]
  cases hl : env.load path with
  | error e =>
    rintro ⟨⟩
    exact h.loads path hl
  | ok toks =>
    have := (allSafe h n).file { files := [path] } toks [] ⟨by intro k e he; simp at he, by simp⟩
      ⟨rfl, path, [], toks, rfl, hl, List.suffix_rfl⟩
    dsimp only
    split
    · rename_i e he
      rw [he] at this
      rintro ⟨⟩
      exact this rfl
    · split <;> simp

/-- C123, with C31. Sources that are tidy and not circular are preprocessed to a text, or there is a report that names a token;
but for a stray `#else`. -/
theorem C123_ends_partial {env : Env} {calls : Text → Prop} {rank frank : Text → Nat} (h : Tidy env calls)
    (hac : Acyclic env rank frank) (path : Text) :
    ∃ k r, (∀ n, k ≤ n → run n env path = r) ∧
      ((∃ st out, r = .ok (st, out)) ∨ (∃ c t m, r = .error (.code c t m)) ∨ r = .error .stray) := by
  obtain ⟨r, hr, k, hk⟩ := C31_terminates_partial hac path
  refine ⟨k, r, hk, ?_⟩
  have h1 := C123_no_crash_partial h k path
  rw [hk k le_rfl] at h1
  match r with
  | .ok (st, out) => exact .inl ⟨st, out, rfl⟩
  | .error (.code c t m) => exact .inr (.inl ⟨c, t, m, rfl⟩)
  | .error .panic => exact absurd rfl h1
  | .error .stray => exact .inr (.inr rfl)
  | .error .fuel => exact absurd rfl hr

/-! ### Files end with a line break when their text does -/

theorem NextCase.lf_last {cl : Classes} {s r : Text} {p : Pair} (h : NextCase cl s p r)
    (hl : p.raw.getLast? = some '\n') : p.sym = .newline := by
  cases h with
  | @block s a r h =>
    have : ('/' :: '*' :: a ++ ['*', '/']).getLast? = some '/' := by
      rw [show '/' :: '*' :: a ++ ['*', '/'] = ('/' :: '*' :: a ++ ['*']) ++ ['/'] by simp, List.getLast?_append]
      rfl
    rw [this] at hl
    simp at hl
  | lf r => rfl
  | crlf r => rfl
  | plain r hne hp hk ho ht =>
    have := hp '\n' (List.mem_of_getLast? hl)
    simp [Plain] at this
  | _ => simp at hl

theorem pairs_lf {cl : Classes} (hcl : cl.Ascii) : ∀ (n : Nat) (s : Text) (ps : List Pair), s.getLast? = some '\n' →
    pairs cl n s = some ps → ∃ qs nl e, ps = qs ++ [nl, e] ∧ nl.sym = .newline ∧ e.sym = .eoi := by
  intro n
  induction n with
  | zero =>
    intro s ps hs h
    cases s with
    | nil => simp at hs
    | cons c s => simp [pairs] at h
  | succ n ih =>
    intro s ps hs h
    cases s with
    | nil => simp at hs
    | cons c s =>
      rw [pairs] at h
      split at h
      · simp at h
      · rename_i p r hn
        split at h
        · simp at h
        · rename_i qs hq
          simp only [Option.some.injEq] at h
          subst h
          have hc := next_cases hcl hn
          have heq := hc.eq.1
          rw [heq, List.getLast?_append] at hs
          cases r with
          | nil =>
            have h1 := hc.lf_last (by simpa using hs)
            rw [pairs.eq_def] at hq
            simp only [Option.some.injEq] at hq
            subst hq
            exact ⟨[], p, ⟨[], .eoi⟩, rfl, h1, rfl⟩
          | cons d r =>
            obtain ⟨qs', nl, e, rfl, h1, h2⟩ := ih (d :: r) qs (by simpa [List.getLast?_cons] using hs) hq
            exact ⟨p :: qs', nl, e, rfl, h1, h2⟩

theorem lexLoop_append (path : Text) : ∀ (ps qs : List Pair) (st : LexSt),
    ∃ st' l, lexLoop path st (ps ++ qs) = l ++ lexLoop path st' qs := by
  intro ps
  induction ps with
  | nil => intro qs st; exact ⟨st, [], rfl⟩
  | cons p ps ih =>
    intro qs st
    obtain ⟨st', l, h⟩ := ih qs { st.turn p with offset := st.offset + utf8 p.raw }
    rw [List.cons_append, lexLoop]
    dsimp only
    rw [h]
    exact ⟨st', _, by rw [List.append_assoc, ← List.append_assoc, ← List.append_assoc]⟩

/-- C123. A text that ends with a line break is read as tokens that do: what `Tidy` asks of files is that their text ends so. -/
theorem C123_last_line {cl : Classes} (hcl : cl.Ascii) {path src : Text} {toks : List Tok}
    (h : tokenise cl path (src ++ ['\n']) = some toks) :
    ∃ l nl e, toks = l ++ [nl, e] ∧ nl.sym = .newline ∧ e.sym = .eoi := by
  rw [tokenise] at h
  split at h
  · simp at h
  · rename_i ps hp
    simp only [Option.some.injEq] at h
    obtain ⟨qs, nl, e, rfl, h1, h2⟩ := pairs_lf hcl _ _ _ (by simp) hp
    obtain ⟨st, l, hl⟩ := lexLoop_append path qs [nl, e] {}
    rw [hl] at h
    subst h
    simp only [lexLoop, LexSt.stray, LexSt.turn, h1, h2]
    exact ⟨l, _, _, rfl, rfl, rfl⟩

/-! ### The theorems apply -/

namespace Ex

/-- A world with the one file `main`; anything else cannot be read. -/
def oneFile (src : String) : Env where
  load p := if p = kw "main" then
    match tokenise ascii p src.toList with
    | some t => .ok t
    | none => .error (.code 24 ⟨.eoi, ⟨⟨0, 0, 0⟩, ⟨0, 0, 0⟩, p⟩⟩)
    else .error (.code 24 ⟨.eoi, ⟨⟨0, 0, 0⟩, ⟨0, 0, 0⟩, p⟩⟩)
  locate _ _ := none
  fileMacro p := p
  fileName p := p
  compare _ _ _ := none

/-- What stands behind every `#if`. -/
def ifsOf : List Tok → List (List Tok)
  | [] => []
  | h :: l =>
    (match h.sym, l with
    | .directive, d :: r => if d.sym = .word (kw "if") then [r] else []
    | _, _ => []) ++ ifsOf l

theorem mem_ifsOf {pre : List Tok} : ∀ {h d : Tok} {l : List Tok}, h.sym = .directive → d.sym = .word (kw "if") →
    l ∈ ifsOf (pre ++ h :: d :: l) := by
  induction pre with
  | nil =>
    intro h d l hh hd
    rw [List.nil_append, ifsOf.eq_def]
    simp [hh, hd]
  | cons a pre ih =>
    intro h d l hh hd
    rw [List.cons_append, ifsOf.eq_def]
    exact List.mem_append_right _ (ih hh hd)

/-- The names of a source that are called. -/
def called (names : List String) (t : Text) : Bool := names.any fun s => kw s == t

/-- Whether a source is tidy. -/
def tidyB (names : List String) (all : List Tok) : Bool :=
  (match all.reverse with
    | e :: nl :: _ => decide (nl.sym = .newline) && decide (e.sym = .eoi)
    | _ => false) &&
  (defsOf all).all (fun x =>
    (logical false x.2).all (fun t => decide (t.sym ≠ .directive)) &&
    (match ((logical false x.2).filter fun t => t.sym ≠ .join).getLast? with
      | some ⟨.word w, _⟩ => !called names w
      | _ => true) &&
    (match x.2 with
      | t :: _ => !(t.sym == .lparen || t.sym == .newline || t.sym == .eoi) || called names x.1
      | [] => true)) &&
  (ifsOf all).all (fun l => (l.takeWhile fun t => t.sym ≠ .newline).all fun t => decide (t.sym.text ≠ kw "__COUNTER_RESET__"))

theorem lexLoop_path (path : Text) : ∀ (ps : List Pair) (st : LexSt), ∀ t ∈ lexLoop path st ps, t.pos.path = path := by
  intro ps
  induction ps with
  | nil => intro st t ht; simp [lexLoop] at ht
  | cons p ps ih =>
    intro st t ht
    rw [lexLoop] at ht
    simp only [List.mem_append] at ht
    rcases ht with (ht | ht) | ht
    · rw [LexSt.stray.eq_def] at ht
      split at ht
      · split at ht
        · simp only [List.mem_singleton] at ht; rw [ht]
        · simp at ht
      · simp at ht
    · split at ht
      · simp at ht
      · simp only [List.mem_singleton] at ht; rw [ht]
    · exact ih _ t ht

theorem tidy_oneFile {src : String} {names : List String} {all : List Tok} (ha : tokenise ascii (kw "main") src.toList = some all)
    (h : tidyB names all = true) (hn : called names (kw "main") = false)
    (hn' : called names (Defines.shortName (kw "main")) = false) :
    Tidy (oneFile src) (fun t => called names t = true) := by
  have hload : ∀ {p l}, (oneFile src).load p = .ok l → p = kw "main" ∧ l = all := by
    intro p l hl
    simp only [oneFile] at hl
    split at hl
    · rename_i hp
      subst hp
      rw [ha] at hl
      simp only [Except.ok.injEq] at hl
      exact ⟨rfl, hl.symm⟩
    · simp at hl
  simp only [tidyB, Bool.and_eq_true] at h
  obtain ⟨⟨h1, h2⟩, h3⟩ := h
  constructor
  · intro p l hl
    obtain ⟨-, rfl⟩ := hload hl
    split at h1
    · rename_i e nl r hr
      simp only [Bool.and_eq_true, decide_eq_true_eq] at h1
      refine ⟨r.reverse, nl, e, ?_, h1.1, h1.2⟩
      rw [← List.reverse_reverse l, hr]
      simp
    · simp at h1
  · intro p al pre h d ws nm l name hl hall hh hd hws hnm
    obtain ⟨-, rfl⟩ := hload hl
    have hm := mem_defsOf (pre := pre) (l := l) hh hd hws hnm
    rw [← hall] at hm
    have := List.all_eq_true.1 h2 _ hm
    simp only [Bool.and_eq_true] at this
    obtain ⟨⟨k1, k2⟩, k3⟩ := this
    refine ⟨?_, ?_, ?_⟩
    · rw [NoDir, List.isChain_iff_getElem]
      intro i hi he
      have hm := List.getElem_mem (Nat.lt_of_succ_lt hi)
      have := List.all_eq_true.1 k1 _ (List.mem_filter.1 hm).1
      simp only [decide_eq_true_eq] at this
      exact absurd he this
    · intro t w ht hw hc
      obtain ⟨y, q⟩ := t
      simp only at hw
      subst hw
      rw [ht] at k2
      simp only [Bool.not_eq_true'] at k2
      rw [k2] at hc
      simp at hc
    · intro t r hr ht
      subst hr
      simp only [Bool.or_eq_true, Bool.not_eq_true', Bool.or_eq_false_iff, beq_eq_false_iff_ne, ne_eq] at k3
      rcases k3 with k3 | k3
      · obtain ⟨⟨a, b⟩, c⟩ := k3
        rcases ht with ht | ht | ht
        · exact absurd ht a
        · exact absurd ht b
        · exact absurd ht c
      · exact k3
  · intro p al pre h d l hl hall hh hd t ht
    obtain ⟨-, rfl⟩ := hload hl
    have hm := mem_ifsOf (pre := pre) (l := l) hh hd
    rw [← hall] at hm
    have := List.all_eq_true.1 (List.all_eq_true.1 h3 _ hm) t ht
    simpa using this
  · intro p al hl t ht
    obtain ⟨rfl, rfl⟩ := hload hl
    have : t.pos.path = kw "main" := by
      rw [tokenise] at ha
      split at ha
      · simp at ha
      · simp only [Option.some.injEq] at ha
        exact lexLoop_path _ _ _ t (ha ▸ ht)
    simp only [oneFile]
    rw [this, hn, hn']
    simp
  · intro p
    simp only [oneFile]
    split
    · rw [show p = kw "main" by assumption, ha]; simp
    · simp

/-- A source with all kinds of macros, a conditional, and mistakes. -/
def tidySrc : String :=
  "#define DEBUG\n#define TWICE(x) x ## x\n#define ONE TWICE(1) \\\n  + TWICE(0)\n#if ONE == 1\n#else\nONE __COUNTER__ DEBUG\n#endif\n"

/-- The hypotheses of `C123_no_crash_partial` are met, and the source is reported for using `DEBUG`. -/
example : Tidy (oneFile tidySrc) (fun t => called ["DEBUG", "TWICE"] t = true) ∧
    errOf (run 200 (oneFile tidySrc) (kw "main")) = some (some (11, w "DEBUG")) := by
  refine ⟨tidy_oneFile (all := (tokenise ascii (kw "main") tidySrc.toList).getD []) ?_ ?_ ?_ ?_, ?_⟩ <;> decide +kernel

end Ex

/-! ### The code crashes -/

/-- C123 fails: a macro that stands for the name of a macro with parameters stops the program when it is used, also when it is
called like the other; written out it works. -/
theorem C123_violated_alias :
    aborts (run 200 (worldOf "#define QUOTE(x) #x\n#define Q QUOTE\na = Q(b);\n") (kw "main")) = true ∧
    aborts (run 200 (worldOf "#define QUOTE(x) #x\n#define Q QUOTE(b)\na = Q;\n") (kw "main")) = false := by
  decide +kernel

/-- C123 fails: a macro that is nothing is reported (PE11) when it is used in a line, but stops the program at the end of the body
of another macro. -/
theorem C123_violated_nothing :
    errOf (run 200 (worldOf "#define DEBUG\nDEBUG\n") (kw "main")) = some (some (11, w "DEBUG")) ∧
    aborts (run 200 (worldOf "#define DEBUG\n#define LEVEL DEBUG\nLEVEL\n") (kw "main")) = true := by
  decide +kernel

/-- C123 fails: `#if` in the last line of a file without a line break stops the program; with a line break it is reported. -/
theorem C123_violated_last_line :
    aborts (run 200 (worldOf "#define A 1\n#if A") (kw "main")) = true ∧
    aborts (run 200 (worldOf "#if") (kw "main")) = true ∧
    errOf (run 200 (worldOf "#define A 1\n#if A\n") (kw "main")) = some (some (18, w "if")) ∧
    errOf (run 200 (worldOf "#if\n") (kw "main")) = some (some (2, w "if")) := by
  decide +kernel

/-- C123 fails: `__COUNTER_RESET__` in an `#if` stops the program. -/
theorem C123_violated_reset :
    aborts (run 200 (worldOf "#if __COUNTER_RESET__\n#endif\n") (kw "main")) = true := by
  decide +kernel

/-- C123 fails: a directive in the body of a macro that goes beyond the body stops the program. -/
theorem C123_violated_directive :
    aborts (run 200 (worldOf "#define INC #include\nINC\n") (kw "main")) = true ∧
    aborts (run 200 (worldOf "#define CHECK #if A\nCHECK\n") (kw "main")) = true ∧
    aborts (run 200 (worldOf "#define DEF #define\nDEF\n") (kw "main")) = true := by
  decide +kernel

end Verif.Preproc
