import Verif.Props.Preproc
/-!
C32: macro definitions behave like a scoped map.
C35: pragma scopes.
-/
namespace Verif.Preproc
open Spec Ex

/-! ### C32 -/

/-- What can happen to the macro table: `#define`, `#undef`, a function-like macro entered with its arguments and
left again. -/
inductive DefEv
  | define (k : Text) (e : Entry) | undef (k : Text) | enter (name : Text) (args : List (Text × Entry)) | leave

/-- A function-like macro call binds its arguments one after the other, `processor/defines.rs:227-268`. -/
def argMap (l : List (Text × Entry)) : Inner := l.foldl (fun m p => m.insert p.1 p.2) fun _ => none

/-- The code's macro table after a history. -/
def Defines.step (d : Defines) : DefEv → Defines
  | .define k e => (d.remove k).2.insert k e
  | .undef k => (d.remove k).2
  | .enter n args => d.push n (argMap args)
  | .leave => d.pop

/-- Specification: a log of events per open call, newest first; the last log is the one of the file level. -/
structure Log where
  calls : List (Text × List (Text × Option Entry)) := []
  base : List (Text × Option Entry) := []

/-- Write an event down. -/
def Log.add (l : Log) (p : Text × Option Entry) : Log :=
  match l.calls with
  | [] => { l with base := p :: l.base }
  | (n, c) :: r => { l with calls := (n, p :: c) :: r }

/-- The log after a history. Leaving a call forgets what happened in it. -/
def Log.step (l : Log) : DefEv → Log
  | .define k e => l.add (k, some e)
  | .undef k => l.add (k, none)
  | .enter n args => { l with calls := (n, args.reverse.map fun p => (p.1, some p.2)) :: l.calls }
  | .leave => { l with calls := l.calls.tail }

/-- The newest entry about a name. -/
def newest (k : Text) (l : List (Text × Option Entry)) : Option Entry :=
  ((l.find? fun p => p.1 = k).map Prod.snd).getD none

/-- What a name means: the innermost call first, then the file level. -/
def Log.lookup (l : Log) (k : Text) : Option Entry :=
  match l.calls with
  | [] => newest k l.base
  | (_, c) :: _ => (newest k c).orElse fun _ => newest k l.base

theorem newest_cons (k : Text) (p : Text × Option Entry) (l : List (Text × Option Entry)) :
    newest k (p :: l) = if k = p.1 then p.2 else newest k l := by
  by_cases h : k = p.1
  · subst h; simp [newest]
  · rw [if_neg h]
    simp [newest, List.find?_cons, show ¬ p.1 = k from fun e => h e.symm]

theorem argMap_newest (args : List (Text × Entry)) (k : Text) :
    argMap args k = newest k (args.reverse.map fun p => (p.1, some p.2)) := by
  rcases args.eq_nil_or_concat with rfl | ⟨l, p, rfl⟩
  · rfl
  · rw [List.concat_eq_append, List.reverse_append]
    simp only [List.reverse_cons, List.reverse_nil, List.nil_append, List.cons_append, List.map_cons]
    rw [newest_cons, argMap, List.foldl_append]
    simp only [List.foldl_cons, List.foldl_nil, Inner.insert]
    by_cases h : k = p.1
    · simp [h]
    · rw [if_neg h, if_neg h]; exact argMap_newest l k
termination_by args.length

/-- The table holds what the log says. -/
structure Holds (d : Defines) (l : Log) : Prop where
  base : ∀ k, d.global k = newest k l.base
  calls : List.Forall₂ (fun a b => a.1 = b.1 ∧ ∀ k, a.2 k = newest k b.2) d.stack l.calls

theorem Holds.step {d : Defines} {l : Log} (h : Holds d l) (e : DefEv) : Holds (d.step e) (l.step e) := by
  obtain ⟨hb, hc⟩ := h
  obtain ⟨g, s, c⟩ := d
  obtain ⟨calls, base⟩ := l
  simp only at hb hc
  cases e with
  | enter n args => exact ⟨hb, .cons ⟨rfl, argMap_newest args⟩ hc⟩
  | leave =>
    refine ⟨hb, ?_⟩
    cases hc with
    | nil => exact .nil
    | cons _ hc => exact hc
  | undef k =>
    cases hc with
    | nil =>
      refine ⟨fun j => ?_, .nil⟩
      simp only [Defines.step, Defines.remove, Log.step, Log.add, newest_cons, Inner.remove, hb j]
    | cons h hc =>
      refine ⟨hb, .cons ⟨h.1, fun j => ?_⟩ hc⟩
      simp only [newest_cons, Inner.remove, h.2 j]
  | define k e =>
    cases hc with
    | nil =>
      refine ⟨fun j => ?_, .nil⟩
      simp only [Defines.step, Defines.remove, Defines.insert, Log.step, Log.add, newest_cons, Inner.insert,
        Inner.remove, hb j]
      split <;> rfl
    | cons h hc =>
      refine ⟨hb, .cons ⟨h.1, fun j => ?_⟩ hc⟩
      simp only [newest_cons, Inner.insert, Inner.remove, h.2 j]
      split <;> rfl

theorem holds_steps (h : List DefEv) : Holds (h.foldl Defines.step {}) (h.foldl Log.step {}) := by
  have : ∀ (h : List DefEv) d l, Holds d l → Holds (h.foldl Defines.step d) (h.foldl Log.step l) := by
    intro h
    induction h with
    | nil => exact fun _ _ hh => hh
    | cons e h ih => exact fun d l hh => ih _ _ (hh.step e)
  exact this h _ _ ⟨fun _ => rfl, .nil⟩

/-- C32. After every history of `#define`, `#undef` and calls entered and left, a name means what the newest event
about it in the innermost open call says (its arguments count as events at the entry), and otherwise what the newest
event about it at file level says. Leaving a call undoes everything that happened inside. -/
theorem C32_scoped_map (h : List DefEv) (k : Text) :
    (h.foldl Defines.step {}).getReadonly k = (h.foldl Log.step {}).lookup k := by
  have hh := holds_steps h
  revert hh
  generalize h.foldl Defines.step {} = d
  generalize h.foldl Log.step {} = l
  rintro ⟨hb, hc⟩
  obtain ⟨g, s, _⟩ := d
  obtain ⟨calls, base⟩ := l
  simp only at hb hc
  rw [Defines.getReadonly, Log.lookup]
  cases hc with
  | nil => exact hb k
  | @cons a b l1 l2 hh _ =>
    obtain ⟨a, m⟩ := a
    obtain ⟨b, c⟩ := b
    simp only at hh ⊢
    rw [← hh.2 k, ← hb k]
    cases m k <;> rfl

/-- C32. A name counts as a macro exactly when it is one of the generated built-ins or has a meaning, except that
the function-like macro being expanded does not see itself. -/
theorem C32_is_macro (h : List DefEv) (k : Text) :
    (h.foldl Defines.step {}).containsKey k = true ↔
      k ∈ builtinGen ∨ (((h.foldl Log.step {}).lookup k).isSome ∧
        (h.foldl Log.step {}).calls.head?.map Prod.fst ≠ some k) := by
  have hh := holds_steps h
  revert hh
  generalize h.foldl Defines.step {} = d
  generalize h.foldl Log.step {} = l
  rintro ⟨hb, hc⟩
  obtain ⟨g, s, _⟩ := d
  obtain ⟨calls, base⟩ := l
  simp only at hb hc
  rw [Defines.containsKey, Log.lookup, Bool.or_eq_true, List.contains_iff_mem]
  refine or_congr Iff.rfl ?_
  cases hc with
  | nil => simp [hb k]
  | @cons a b l1 l2 hh _ =>
    obtain ⟨a, m⟩ := a
    obtain ⟨b, c⟩ := b
    simp only at hh
    simp only [List.head?_cons, Option.map_some, ← hh.2 k, ← hb k, hh.1]
    by_cases hk : b = k
    · simp [hk]
    · rw [if_neg hk]
      cases m k <;> simp [hk]

/-- C32. A `#define` of a built-in name is refused (PE6), after any program. -/
theorem C32_builtins_fixed {env : Env} {path : Text} {pre : List Item} {toks : List Tok} {sp : Sp} {name : Text}
    {next : Sym} {tail : List Sym} {m : Macros} {out : List Sym} (hload : env.load path = .ok toks)
    (hsrc : toks.map Tok.sym = printItems pre ++
      (sp.ind ++ .directive :: .word (kw "define") :: (sp.mid ++ .word name :: next :: tail)))
    (hok : Item.okL pre = true) (hsp : sp.ok = true)
    (hev : evalItems env.compare (fun _ => none) pre = some (m, out)) (hb : isBuiltin name = true) :
    ∃ k c, c.sym = .word name ∧ ∀ n, k ≤ n → run n env path = .error (.code 6 c) := by
  obtain ⟨a, b, rfl, ha, hb'⟩ := splitAppend hsrc
  obtain ⟨ind, b, rfl, hi, hb'⟩ := splitAppend hb'
  obtain ⟨h, b, rfl, hh, hb'⟩ := splitCons hb'
  obtain ⟨c, b, rfl, hc, hb'⟩ := splitCons hb'
  obtain ⟨mid, b, rfl, hm, hb'⟩ := splitAppend hb'
  obtain ⟨x, b, rfl, hx, hb'⟩ := splitCons hb'
  obtain ⟨y, b, rfl, hy, hb'⟩ := splitCons hb'
  simp only [Spec.Sp.ok, Bool.and_eq_true] at hsp
  obtain ⟨st, o, ho⟩ := run_items (env := env) (st := { files := [path] }) (m := fun _ => none) (buf := []) pre rfl
    ⟨rfl, fun _ => rfl⟩ hok hev ha (by simp [NoEsc])
  have hr : st.ifs.reading = true := ho.keep.reading
  have hbi : blank (ind.map Tok.sym) = true := by rw [hi]; exact hsp.1.1
  have hcmd : ∀ buf, command 1 env st c (mid ++ x :: y :: b) buf = .error (.code 6 x) := by
    intro buf
    rw [command_define hr hc, directiveDefine, nextWord_blank (by rw [hm]; exact hsp.1.2) hx]
    simp only [hx, Sym.text, hb, if_true]
    rfl
  have hruns : Runs env { files := [path] } (a ++ (ind ++ h :: c :: (mid ++ x :: y :: b))) [] (.error (.code 6 x)) := by
    refine ho.emits _ _ ⟨by simp, 4, ?_⟩
    obtain ⟨z, l, hz, hne⟩ := first_ne_eoi hbi (t := h) (by rw [hh]; simp) (c :: (mid ++ x :: y :: b))
    rw [file.eq_def, hz]
    dsimp only
    rw [if_neg hne, ← hz, line.eq_def]
    dsimp only
    rw [skipWsOut_blank hbi (by rw [hh]; rfl)]
    dsimp only
    rw [directive.eq_def]
    dsimp only
    rw [if_pos hh, if_pos (by rw [hc]; rfl), hcmd]
  obtain ⟨hne, n, hn⟩ := hruns
  refine ⟨n, x, hx, fun k hk => ?_⟩
  rw [run, hload]
  simp only
  rw [file_more hk hn hne]

/-- C32 applies: a definition made inside a call hides the global one until the call is left. -/
example : ∃ (x y : Entry), x ≠ y ∧
    ([DefEv.define (kw "A") x, .enter (kw "F") [], .define (kw "A") y].foldl Log.step {}).lookup (kw "A") = some y ∧
    ([DefEv.define (kw "A") x, .enter (kw "F") [], .define (kw "A") y, .leave].foldl Log.step {}).lookup (kw "A")
      = some x :=
  ⟨⟨⟨.eoi, ⟨⟨0, 0, 0⟩, ⟨0, 0, 0⟩, []⟩⟩, .unit, .argument⟩, ⟨⟨.eoi, ⟨⟨0, 0, 0⟩, ⟨0, 0, 0⟩, []⟩⟩, .unit, .generated⟩,
    by decide, rfl, rfl⟩

example : isBuiltin (kw "__LINE__") = true ∧ isBuiltin (kw "__EXEC") = true := by decide +kernel

/-- The constants `__ARMA__` and `__ARMA3__` are in the list of built-ins, so they cannot be defined; but nothing
defines them, and `#ifdef __ARMA__` is false. -/
theorem C32_arma_undefined :
    outSyms (run 60 (world ([.directive, w "ifdef", .space, w "__ARMA__", .newline, w "a", .newline, .directive,
      w "else", .newline, w "b", .space, w "__ARMA__", .newline, .directive, w "endif", .newline, .eoi])) (kw "main")) =
    some [w "b", .space, w "__ARMA__", .newline] := by decide +kernel

/-! ### C35 -/

/-- What can happen to pragmas: a `#pragma hemtt suppress`/`flag`, the end of a text line, an `#include` entered and
left. -/
inductive PrEv
  | suppress (t : Tok) (s : Scope) | flag (t : Tok) (s : Scope) | lineEnd | enter | leave

/-- The stack of pragma sets of the open files; `command` keeps the outer ones while an include is processed. -/
def Pragma.step (l : List Pragma) (e : PrEv) : List Pragma :=
  match l, e with
  | p :: r, .suppress t s => (match p.addSuppress t s with | .ok p => p | .error _ => p) :: r
  | p :: r, .flag t s => (match p.addFlag t s with | .ok p => p | .error _ => p) :: r
  | p :: r, .lineEnd => p.clearLine :: r
  | p :: r, .enter => p.child :: p :: r
  | _ :: q :: r, .leave => q :: r
  | l, _ => l

/-- Specification: the events of every open file, newest first. -/
def prStep (l : List (List PrEv)) (e : PrEv) : List (List PrEv) :=
  match l, e with
  | c :: r, .enter => [] :: c :: r
  | _ :: q :: r, .leave => q :: r
  | c :: r, e => (e :: c) :: r
  | [], _ => []

/-- Does the event suppress `k` with scope `s`? -/
def PrEv.suppresses (k : Suppress) (s : Scope) : PrEv → Bool
  | .suppress t s' => Suppress.parse t.sym.text = some k && s' = s
  | _ => false

/-- Does the event set the flag with scope `s`? -/
def PrEv.flags (k : Flag) (s : Scope) : PrEv → Bool
  | .flag t s' => Flag.parse t.sym.text = some k && s' = s
  | _ => false

/-- Events since the last line end. -/
def sinceLine : List PrEv → List PrEv
  | [] => []
  | .lineEnd :: _ => []
  | e :: l => e :: sinceLine l

/-- Is the warning suppressed now? In this file by file or config scope, on this line by line scope, from an
including file by config scope. -/
def suppressedNow (k : Suppress) : List (List PrEv) → Bool
  | [] => false
  | c :: r => c.any (PrEv.suppresses k .file) || c.any (PrEv.suppresses k .config) ||
      (sinceLine c).any (PrEv.suppresses k .line) || r.any fun l => l.any (PrEv.suppresses k .config)

/-- Is the flag set now? What the documentation promises: flags have the same scopes. -/
def flaggedNow (k : Flag) : List (List PrEv) → Bool
  | [] => false
  | c :: r => c.any (PrEv.flags k .file) || c.any (PrEv.flags k .config) ||
      (sinceLine c).any (PrEv.flags k .line) || r.any fun l => l.any (PrEv.flags k .config)

/-- The widest scope in force in a file, from its events and whether an including file has config scope. -/
def widest (cfg fil lin : Bool) : Option Scope :=
  if cfg then some .config else if fil then some .file else if lin then some .line else none

/-- Some file of the list asks for config scope. -/
def outerConfig (k : Suppress) (r : List (List PrEv)) : Bool := r.any fun l => l.any (PrEv.suppresses k .config)

/-- The pragma stack holds what the events say. -/
def PrHolds : List Pragma → List (List PrEv) → Prop
  | [], [] => True
  | p :: l, c :: r => (∀ k, p.suppress k = widest (c.any (PrEv.suppresses k .config) || outerConfig k r)
      (c.any (PrEv.suppresses k .file)) ((sinceLine c).any (PrEv.suppresses k .line))) ∧ PrHolds l r
  | _, _ => False

theorem suppress_eq (k : Suppress) : k = .pw3PaddedArg := by cases k; rfl

theorem PrHolds.step {l : List Pragma} {r : List (List PrEv)} (h : PrHolds l r) (e : PrEv) :
    PrHolds (Pragma.step l e) (prStep r e) := by
  match l, r, h with
  | [], [], h =>
    cases e <;> exact h
  | p :: l, c :: r, h =>
    have h1 := h.1
    cases e with
    | enter =>
      refine ⟨fun k => ?_, h⟩
      simp only [Pragma.child, h1 k, List.any_nil, sinceLine, outerConfig, List.any_cons, Bool.false_or]
      cases c.any (PrEv.suppresses k .config) <;>
        cases (r.any fun l => l.any (PrEv.suppresses k .config)) <;>
        cases c.any (PrEv.suppresses k .file) <;>
        cases (sinceLine c).any (PrEv.suppresses k .line) <;> rfl
    | leave =>
      match l, r, h with
      | [], [], h => exact ⟨fun k => by simpa [sinceLine, PrEv.suppresses] using h1 k, trivial⟩
      | q :: l, d :: r, h => exact h.2
    | lineEnd =>
      refine ⟨fun k => ?_, h.2⟩
      simp only [Pragma.clearLine, h1 k, List.any_cons, sinceLine, PrEv.suppresses, Bool.false_or, List.any_nil]
      cases c.any (PrEv.suppresses k .config) <;> cases outerConfig k r <;>
        cases c.any (PrEv.suppresses k .file) <;>
        cases (sinceLine c).any (PrEv.suppresses k .line) <;> rfl
    | flag t s =>
      refine ⟨fun k => ?_, h.2⟩
      have : (match p.addFlag t s with | .ok p => p | .error _ => p).suppress k = p.suppress k := by
        rw [Pragma.addFlag]; split <;> rename_i h <;> split at h <;> simp at h <;> subst h <;> rfl
      simp only [this, h1 k, List.any_cons, sinceLine, PrEv.suppresses, Bool.false_or]
    | suppress t s =>
      refine ⟨fun k => ?_, h.2⟩
      simp only [List.any_cons, sinceLine]
      rw [Pragma.addSuppress]
      cases hp : Suppress.parse t.sym.text with
      | none => simp only [PrEv.suppresses, hp, h1 k]; simp
      | some j =>
        obtain rfl := suppress_eq j
        obtain rfl := suppress_eq k
        simp only [PrEv.suppresses, hp, h1, if_true]
        cases c.any (PrEv.suppresses .pw3PaddedArg .config) <;> cases outerConfig .pw3PaddedArg r <;>
          cases c.any (PrEv.suppresses .pw3PaddedArg .file) <;>
          cases (sinceLine c).any (PrEv.suppresses .pw3PaddedArg .line) <;> cases s <;> decide

/-- C35. After every history of pragmas, text lines, and includes entered and left, a warning is suppressed exactly
when some pragma says so: one with file or config scope in this file, one with line scope since the last text line
ended, or one with config scope in a file that includes this one. In particular nothing leaks out of an included
file, and a narrower pragma never takes away a wider one. -/
theorem C35_suppress (h : List PrEv) (k : Suppress) :
    ∃ p r, h.foldl Pragma.step [{}] = p :: r ∧ p.isSuppressed k = suppressedNow k (h.foldl prStep [[]]) := by
  have key : ∀ (h : List PrEv) l r, l ≠ [] → PrHolds l r →
      (h.foldl Pragma.step l) ≠ [] ∧ PrHolds (h.foldl Pragma.step l) (h.foldl prStep r) := by
    intro h
    induction h with
    | nil => exact fun _ _ hne hh => ⟨hne, hh⟩
    | cons e h ih =>
      intro l r hne hh
      refine ih _ _ ?_ (hh.step e)
      match l, hne with
      | [p], _ => cases e <;> simp [Pragma.step]
      | p :: q :: l, _ => cases e <;> simp [Pragma.step]
  obtain ⟨hne, hh⟩ := key h [{}] [[]] (by simp) ⟨fun k => rfl, trivial⟩
  revert hne hh
  generalize h.foldl Pragma.step [{}] = l
  generalize h.foldl prStep [[]] = r
  intro hne hh
  match l, r, hne, hh with
  | p :: l, c :: r, _, hh =>
    refine ⟨p, l, rfl, ?_⟩
    rw [Pragma.isSuppressed, hh.1 k, suppressedNow]
    simp only [outerConfig]
    cases c.any (PrEv.suppresses k .config) <;> cases c.any (PrEv.suppresses k .file) <;>
      cases (sinceLine c).any (PrEv.suppresses k .line) <;>
      cases (r.any fun l => l.any (PrEv.suppresses k .config)) <;> rfl

/-- Some file of the list asks for the flag with config scope. -/
def outerFlag (k : Flag) (r : List (List PrEv)) : Bool := r.any fun l => l.any (PrEv.flags k .config)

/-- The pragma stack holds the flags the events set; line scope is never left. -/
def FlHolds : List Pragma → List (List PrEv) → Prop
  | [], [] => True
  | p :: l, c :: r => (∀ k, p.flags k = widest (c.any (PrEv.flags k .config) || outerFlag k r)
      (c.any (PrEv.flags k .file)) (c.any (PrEv.flags k .line))) ∧ FlHolds l r
  | _, _ => False

theorem FlHolds.step {l : List Pragma} {r : List (List PrEv)} (h : FlHolds l r) (e : PrEv) :
    FlHolds (Pragma.step l e) (prStep r e) := by
  match l, r, h with
  | [], [], h =>
    cases e <;> exact h
  | p :: l, c :: r, h =>
    have h1 := h.1
    cases e with
    | enter =>
      refine ⟨fun k => ?_, h⟩
      simp only [Pragma.child, h1 k, List.any_nil, outerFlag, List.any_cons, Bool.false_or]
      cases c.any (PrEv.flags k .config) <;>
        cases (r.any fun l => l.any (PrEv.flags k .config)) <;>
        cases c.any (PrEv.flags k .file) <;>
        cases c.any (PrEv.flags k .line) <;> rfl
    | leave =>
      match l, r, h with
      | [], [], h => exact ⟨fun k => by simpa [PrEv.flags] using h1 k, trivial⟩
      | q :: l, d :: r, h => exact h.2
    | lineEnd =>
      refine ⟨fun k => ?_, h.2⟩
      simp only [Pragma.clearLine, h1 k, List.any_cons, PrEv.flags, Bool.false_or]
    | suppress t s =>
      refine ⟨fun k => ?_, h.2⟩
      have : (match p.addSuppress t s with | .ok p => p | .error _ => p).flags k = p.flags k := by
        rw [Pragma.addSuppress]; split <;> rename_i h <;> split at h <;> simp at h <;> subst h <;> rfl
      simp only [this, h1 k, List.any_cons, PrEv.flags, Bool.false_or]
    | flag t s =>
      refine ⟨fun k => ?_, h.2⟩
      simp only [List.any_cons]
      rw [Pragma.addFlag]
      cases hp : Flag.parse t.sym.text with
      | none => simp only [PrEv.flags, hp, h1 k]; simp
      | some j =>
        by_cases hj : k = j
        · subst hj
          simp only [PrEv.flags, hp, h1, if_true]
          cases c.any (PrEv.flags k .config) <;> cases outerFlag k r <;>
            cases c.any (PrEv.flags k .file) <;>
            cases c.any (PrEv.flags k .line) <;> cases s <;> simp <;> decide
        · have hj' : ¬ j = k := fun e => hj e.symm
          simp only [PrEv.flags, hp, h1, hj, if_false, Option.some.injEq, hj', decide_false, Bool.false_and, Bool.false_or]

theorem flags_hold (h : List PrEv) (k : Flag) : ∃ p r c d, h.foldl Pragma.step [{}] = p :: r ∧
    h.foldl prStep [[]] = c :: d ∧ p.isFlagged k = (c.any (PrEv.flags k .file) || c.any (PrEv.flags k .config) ||
      c.any (PrEv.flags k .line) || d.any fun l => l.any (PrEv.flags k .config)) := by
  have key : ∀ (h : List PrEv) l r, l ≠ [] → FlHolds l r →
      (h.foldl Pragma.step l) ≠ [] ∧ FlHolds (h.foldl Pragma.step l) (h.foldl prStep r) := by
    intro h
    induction h with
    | nil => exact fun _ _ hne hh => ⟨hne, hh⟩
    | cons e h ih =>
      intro l r hne hh
      refine ih _ _ ?_ (hh.step e)
      match l, hne with
      | [p], _ => cases e <;> simp [Pragma.step]
      | p :: q :: l, _ => cases e <;> simp [Pragma.step]
  obtain ⟨hne, hh⟩ := key h [{}] [[]] (by simp) ⟨fun k => rfl, trivial⟩
  revert hne hh
  generalize h.foldl Pragma.step [{}] = l
  generalize h.foldl prStep [[]] = r
  intro hne hh
  match l, r, hne, hh with
  | p :: l, c :: r, _, hh =>
    refine ⟨p, l, c, r, rfl, rfl, ?_⟩
    rw [Pragma.isFlagged, hh.1 k]
    simp only [outerFlag]
    cases c.any (PrEv.flags k .config) <;> cases c.any (PrEv.flags k .file) <;>
      cases c.any (PrEv.flags k .line) <;>
      cases (r.any fun l => l.any (PrEv.flags k .config)) <;> rfl

theorem prStep_mem {P : PrEv → Prop} {e : PrEv} (he : P e) {r : List (List PrEv)} (hr : ∀ l ∈ r, ∀ x ∈ l, P x) :
    ∀ l ∈ prStep r e, ∀ x ∈ l, P x := by
  intro l hl x hx
  match r, e with
  | [], .enter | [], .leave | [], .lineEnd | [], .flag _ _ | [], .suppress _ _ => simp [prStep] at hl
  | c :: r, .enter =>
    simp only [prStep, List.mem_cons] at hl
    rcases hl with rfl | hl
    · simp at hx
    · exact hr l (by simpa using hl) x hx
  | [c], .leave | c :: r, .lineEnd | c :: r, .flag _ _ | c :: r, .suppress _ _ =>
    simp only [prStep, List.mem_cons] at hl
    rcases hl with rfl | hl
    · rcases List.mem_cons.1 hx with rfl | hx
      · exact he
      · exact hr c (by simp) x hx
    · exact hr l (by simp [hl]) x hx
  | _ :: q :: r, .leave => exact hr l (List.mem_cons_of_mem _ hl) x hx

/-- C35. After every history in which no flag is set for a line only, a flag is set exactly when some pragma says so: one
with file or config scope in this file, or one with config scope in a file that includes this one. Missing: flags with
line scope, see `C35_line_flags_stay`. -/
theorem C35_flags_partial (h : List PrEv) (k : Flag) (hl : ∀ t, PrEv.flag t .line ∉ h) :
    ∃ p r, h.foldl Pragma.step [{}] = p :: r ∧ p.isFlagged k = flaggedNow k (h.foldl prStep [[]]) := by
  obtain ⟨p, r, c, d, h1, h2, h3⟩ := flags_hold h k
  refine ⟨p, r, h1, ?_⟩
  rw [h2, h3, flaggedNow]
  have mem : ∀ (h : List PrEv) (r : List (List PrEv)), (∀ e ∈ h, ∀ t, e ≠ .flag t .line) →
      (∀ l ∈ r, ∀ x ∈ l, ∀ t, x ≠ .flag t .line) → ∀ l ∈ h.foldl prStep r, ∀ x ∈ l, ∀ t, x ≠ .flag t .line := by
    intro h
    induction h with
    | nil => exact fun _ _ hr => hr
    | cons e h ih =>
      intro r he hr
      exact ih _ (fun x hx => he x (List.mem_cons_of_mem _ hx))
        (prStep_mem (P := fun x => ∀ t, x ≠ .flag t .line) (he e (List.mem_cons_self ..)) hr)
  have hc := mem h [[]] (fun e he t ht => hl t (ht ▸ he)) (by simp) c (by rw [h2]; simp)
  have none : ∀ l : List PrEv, (∀ x ∈ l, ∀ t, x ≠ .flag t .line) → l.any (PrEv.flags k .line) = false := by
    intro l hl
    rw [List.any_eq_false]
    intro x hx
    cases x with
    | flag t s =>
      cases s with
      | line => exact absurd rfl (hl _ hx t)
      | file => simp [PrEv.flags]
      | config => simp [PrEv.flags]
    | _ => simp [PrEv.flags]
  have sub : ∀ (l : List PrEv) x, x ∈ sinceLine l → x ∈ l := by
    intro l
    induction l with
    | nil => simp [sinceLine]
    | cons e l ih =>
      intro x hx
      cases e with
      | lineEnd => simp [sinceLine] at hx
      | _ =>
        simp only [sinceLine, List.mem_cons] at hx
        rcases hx with rfl | hx
        · simp
        · exact List.mem_cons_of_mem _ (ih x hx)
  rw [none c hc, none _ fun x hx => hc x (sub c x hx)]

/-- C35. A flag that a pragma sets, with whatever scope, is set while that scope lasts. -/
theorem C35_flags_set (h : List PrEv) (k : Flag) (hf : flaggedNow k (h.foldl prStep [[]]) = true) :
    ∃ p r, h.foldl Pragma.step [{}] = p :: r ∧ p.isFlagged k = true := by
  obtain ⟨p, r, c, d, h1, h2, h3⟩ := flags_hold h k
  refine ⟨p, r, h1, ?_⟩
  rw [h2, flaggedNow] at hf
  rw [h3]
  have sub : ∀ (l : List PrEv) x, x ∈ sinceLine l → x ∈ l := by
    intro l
    induction l with
    | nil => simp [sinceLine]
    | cons e l ih =>
      intro x hx
      cases e with
      | lineEnd => simp [sinceLine] at hx
      | _ =>
        simp only [sinceLine, List.mem_cons] at hx
        rcases hx with rfl | hx
        · simp
        · exact List.mem_cons_of_mem _ (ih x hx)
  have : (sinceLine c).any (PrEv.flags k .line) = true → c.any (PrEv.flags k .line) = true := by
    intro h
    obtain ⟨x, hx, hx'⟩ := List.any_eq_true.1 h
    exact List.any_eq_true.2 ⟨x, sub c x hx, hx'⟩
  simp only [Bool.or_eq_true] at hf ⊢
  rcases hf with ((hf | hf) | hf) | hf
  · exact Or.inl (Or.inl (Or.inl hf))
  · exact Or.inl (Or.inl (Or.inr hf))
  · exact Or.inl (Or.inr (this hf))
  · exact Or.inr hf

example : ∃ h : List PrEv, (∀ t, PrEv.flag t .line ∉ h) ∧ flaggedNow .pw3IgnoreFormat (h.foldl prStep [[]]) = true ∧
    ((h ++ [PrEv.leave]).foldl prStep [[]]).length = 1 ∧
    flaggedNow .pw3IgnoreFormat ((h ++ [PrEv.leave]).foldl prStep [[]]) = false :=
  ⟨[.lineEnd, .enter, .flag ⟨w "pw3_ignore_format", ⟨⟨0, 0, 0⟩, ⟨0, 0, 0⟩, []⟩⟩ .file], by simp, by decide +kernel,
    by decide +kernel, by decide +kernel⟩

/-- C35 is violated for flags: a flag set for one line is still set after the line. -/
theorem C35_line_flags_stay : ∃ (h : List PrEv) (p : Pragma), h.foldl Pragma.step [{}] = [p] ∧
    flaggedNow .pw3IgnoreFormat (h.foldl prStep [[]]) = false ∧ p.isFlagged .pw3IgnoreFormat = true :=
  ⟨[.flag ⟨w "pw3_ignore_format", ⟨⟨0, 0, 0⟩, ⟨0, 0, 0⟩, []⟩⟩ .line, .lineEnd], _, rfl, by decide +kernel,
    by decide +kernel⟩

/-- C35. Whatever an included file does, the including file goes on with its own pragmas and as itself. -/
theorem C35_no_leak {n : Nat} {env : Env} {st st' : St} {cmd : Tok} {toks toks' : List Tok} {buf buf' : List Out}
    (hr : st.ifs.reading = true) (hc : cmd.sym = w "include")
    (h : command n env st cmd toks buf = .ok (st', toks', buf')) :
    st'.files = st.files ∧ st'.pragma.isSuppressed = st.pragma.isSuppressed ∧
      st'.pragma.isFlagged = st.pragma.isFlagged := by
  cases n with
  | zero => simp [command] at h
  | succ n =>
    rw [command.eq_def] at h
    dsimp only at h
    rw [if_neg (by rw [hc]; decide +kernel), if_neg (by rw [hc]; decide +kernel), if_pos hr,
      if_pos (by rw [hc]; rfl)] at h
    split at h
    · simp at h
    · split at h
      · simp at h
      · simp only [Except.ok.injEq, Prod.mk.injEq] at h
        obtain ⟨rfl, _, _⟩ := h
        exact ⟨rfl, rfl, rfl⟩

/-- C35. Every text line, in a selected branch or not, ends line scope for suppressions: none of them is in force
with line scope afterwards. -/
theorem C35_line_ends {n : Nat} {env : Env} {st st' : St} {ind toks toks' : List Tok} {t : Tok} {buf buf' : List Out}
    (hb : ∀ i ∈ ind, i.sym.isWs = true) (hw : t.sym.isWs = false) (hd : t.sym ≠ .directive)
    (h : line n env st (ind ++ t :: toks) buf = .ok (st', toks', buf')) (k : Suppress) :
    st'.pragma.suppress k ≠ some .line := by
  have hb' : blank (ind.map Tok.sym) = true := by
    simpa [blank] using hb
  have h := line_more (show n ≤ n + 2 by omega) h (by simp)
  rw [line_text hb' hw hd] at h
  have clear : ∀ p : Pragma, p.clearLine.suppress k ≠ some .line := by
    intro p
    simp only [Pragma.clearLine]
    intro h
    cases hp : p.suppress k with
    | none => rw [hp] at h; simp at h
    | some x => rw [hp] at h; cases x <;> simp [Option.filter, Scope.rank] at h
  split at h
  · split at h
    · simp at h
    · simp only [Except.ok.injEq, Prod.mk.injEq] at h
      obtain ⟨rfl, _, _⟩ := h
      exact clear _
  · simp only [Except.ok.injEq, Prod.mk.injEq] at h
    obtain ⟨rfl, _, _⟩ := h
    exact clear _

/-- C35 applies: config scope reaches into an included file, file scope does not. -/
example : ∃ t : Tok, suppressedNow .pw3PaddedArg ([PrEv.suppress t .config, .enter].foldl prStep [[]]) = true ∧
    suppressedNow .pw3PaddedArg ([PrEv.suppress t .file, .enter].foldl prStep [[]]) = false ∧
    suppressedNow .pw3PaddedArg ([PrEv.suppress t .file, .enter, .leave].foldl prStep [[]]) = true :=
  ⟨⟨w "pw3_padded_arg", ⟨⟨0, 0, 0⟩, ⟨0, 0, 0⟩, []⟩⟩, by decide +kernel, by decide +kernel, by decide +kernel⟩

end Verif.Preproc
