import Verif.Lib.PreprocStopFile
import Verif.Props.Preproc
/-!
C31: preprocessing terminates unless macros or includes are circular.
-/
namespace Verif.Preproc
open Spec Ex

/-- C31, the part that holds. If the macros and the includes of the files are not circular (`Acyclic`: a rank goes down
from every macro name to the words of its body, and a rank goes down along `#include`), preprocessing any file ends,
with a result or with an error, however macros, arguments, conditionals and includes are nested.
Missing: the rank is asked for every definition written in some file, also for those in branches that are skipped, and
macro bodies are asked to hold no directives. -/
theorem C31_terminates_partial {env : Env} {rank frank : Text → Nat} (hac : Acyclic env rank frank) (path : Text) :
    ∃ r, r ≠ .error .fuel ∧ ∃ k, ∀ n, k ≤ n → run n env path = r := by
  cases hl : env.load path with
  | error e =>
    refine ⟨.error e, ?_, 0, fun n _ => by rw [run, hl]⟩
    rintro ⟨⟩; exact hac.loads path hl
  | ok toks =>
    obtain ⟨k, hk⟩ := (fileStops hac path toks { files := [path] } [] [] hl rfl
      ⟨⟨by intro k e he; simp at he, by simp⟩, rfl⟩).stable file_stable
    refine ⟨run k env path, ?_, k, fun n hn => ?_⟩
    · obtain ⟨_, h, _⟩ := hk k le_rfl
      rw [run, hl]
      dsimp only
      split
      · rename_i e he; rintro ⟨⟩; exact h he
      · split <;> simp
    · rw [run, run, hl]
      dsimp only
      rw [(hk n hn).1]

/-! ### The theorem applies: `#define ONE TWO THREE`, `#define TWO 2`, a function macro and a use -/

namespace Ex

/-- A small file with nested macros. -/
def acyclicSrc : List Sym :=
  [.directive, w "define", .space, w "ONE", .space, w "TWO", .space, w "F", .lparen, w "x", .rparen, .newline,
   .directive, w "define", .space, w "F", .lparen, w "a", .rparen, w "TWO", .space, w "a", .newline,
   .directive, w "define", .space, w "TWO", .space, .digit 2, .newline,
   w "ONE", .newline, .eoi]

/-- The rank for it. -/
def acyclicRank (t : Text) : Nat :=
  if t = kw "ONE" then 3 else if t = kw "F" then 2 else if t = kw "TWO" then 1 else
  if t = kw "__FILE__" ∨ t = kw "__FILE_NAME__" ∨ t = kw "__FILE_SHORT__" then 1 else 0

/-- All `#define NAME` in a list of tokens. -/
def defsOf : List Tok → List (Text × List Tok)
  | [] => []
  | h :: l =>
    (match h.sym, l with
    | .directive, d :: r =>
      if d.sym = .word (kw "define") then
        match skipWs r with
        | ⟨.word n, _⟩ :: r' => [(n, r')]
        | _ => []
      else []
    | _, _ => []) ++ defsOf l

theorem mem_defsOf {pre : List Tok} : ∀ {h d : Tok} {ws : List Tok} {nm : Tok} {l : List Tok} {name : Text},
    h.sym = .directive → d.sym = .word (kw "define") →
    blank (ws.map Tok.sym) = true → nm.sym = .word name →
    (name, l) ∈ defsOf (pre ++ h :: d :: (ws ++ nm :: l)) := by
  induction pre with
  | nil =>
    intro h d ws nm l name hh hd hws hnm
    obtain ⟨s, p⟩ := nm
    simp only at hnm
    subst hnm
    rw [List.nil_append, defsOf.eq_def]
    simp only [hh, if_pos hd]
    rw [skipWs_blank hws rfl]
    simp
  | cons a pre ih =>
    intro h d ws nm l name hh hd hws hnm
    rw [List.cons_append, defsOf.eq_def]
    exact List.mem_append_right _ (ih hh hd hws hnm)

theorem acyclic_example : Acyclic (world acyclicSrc) acyclicRank (fun _ => 0) where
  defs := by
    intro p all pre h d ws nm l name hl hall hh hd hws hnm
    simp only [world] at hl
    split at hl
    · rename_i hp
      simp only [Except.ok.injEq] at hl
      have := mem_defsOf (pre := pre) (l := l) hh hd hws hnm
      rw [← hall, ← hl, hp] at this
      have key : ∀ x ∈ defsOf (tk (kw "main") 1 0 acyclicSrc),
          (logical false x.2).all (fun t => match t.sym with
            | .word w => decide (acyclicRank w < acyclicRank x.1)
            | _ => true) = true ∧
          (logical false x.2).all (fun t => decide (t.sym ≠ .directive)) = true := by decide +kernel
      obtain ⟨k1, k2⟩ := key _ this
      refine ⟨fun t ht w hw => ?_, ?_⟩
      · have := List.all_eq_true.1 k1 t ht
        rw [hw] at this
        simpa using this
      · rw [NoDir, List.isChain_iff_getElem]
        intro i hi he
        have hm := List.getElem_mem (Nat.lt_of_succ_lt hi)
        have := List.all_eq_true.1 k2 _ (List.mem_filter.1 hm).1
        simp only [decide_eq_true_eq] at this
        exact absurd he this
    · simp at hl
  incs := by
    intros
    simp_all [world]
  names := by
    rintro p ⟨all, hl⟩
    simp only [world] at hl
    split at hl
    · rename_i hp
      subst hp
      simp only [world]
      decide +kernel
    · simp at hl
  paths := by
    intro p all hl t ht
    simp only [world] at hl
    split at hl
    · rename_i hp
      simp only [Except.ok.injEq] at hl
      refine ⟨all, ?_⟩
      have key : ∀ (x : List Sym) l o, ∀ t ∈ tk p l o x, t.pos.path = p := by
        intro x
        induction x with
        | nil => intro l o t ht; simp [tk] at ht
        | cons s r ih =>
          intro l o t ht
          simp only [tk, List.mem_cons] at ht
          rcases ht with rfl | ht
          · rfl
          · exact ih _ _ t ht
      have := key _ _ _ t (hl ▸ ht)
      simp only [world]
      rw [this, if_pos hp, hl]
    · simp at hl
  loads := by
    intro p
    simp only [world]
    split <;> simp

example : outSyms (run 60 (world acyclicSrc) (kw "main")) =
    some [.digit 2, .space, .digit 2, .space, w "x", .newline] := by decide +kernel

end Ex

/-! ### Where it fails -/

/-- Reading the rest of a file never ends. -/
def Loops (env : Env) (st : St) (toks : List Tok) (buf : List Out) : Prop := ∀ n, file n env st toks buf = .error .fuel

theorem Loops.of_line {env st toks buf st' toks' buf' n} {t : Tok} {l : List Tok}
    (ht : toks = t :: l) (he : t.sym ≠ .eoi)
    (h : line n env st toks buf = .ok (st', toks', buf')) (hr : Loops env st' toks' buf') : Loops env st toks buf := by
  intro k
  by_contra hk
  have h1 := file_more (Nat.le_add_right k (n + 1)) rfl hk
  apply hk
  rw [← h1, ← Nat.add_assoc, file.eq_def, ht]
  dsimp only
  rw [if_neg he, ← ht, line_more (Nat.le_add_left n k) h (by simp)]
  exact hr _

theorem Loops.here {env st toks buf} {t : Tok} {l : List Tok}
    (ht : toks = t :: l) (he : t.sym ≠ .eoi)
    (h : ∀ n, line n env st toks buf = .error .fuel) : Loops env st toks buf := by
  intro k
  cases k with
  | zero => rw [file.eq_def]
  | succ k =>
    rw [file.eq_def, ht]
    dsimp only
    rw [if_neg he, ← ht, h]

theorem Loops.directive {env st} {h c : Tok} (hh : h.sym = .directive) {w : Text} (hc : c.sym = .word w)
    {toks : List Tok} {buf : List Out} {n st' toks' buf'}
    (hcmd : command n env st c toks buf = .ok (st', toks', buf')) (hr : Loops env st' toks' buf') :
    Loops env st (h :: c :: toks) buf := by
  refine Loops.of_line rfl (by rw [hh]; simp) (n := n + 2) ?_ hr
  refine line_directive (ind := []) rfl hh hc ?_
  rw [← hcmd]; simp [vis]

/-- Two macros whose bodies are each other's names. -/
theorem walk_mutual {env : Env} {a b : Text} (hab : a ≠ b) (ha : isBuiltin a = false) (hb : isBuiltin b = false)
    (ha' : isUnsupportedBuiltin a = false) (hb' : isUnsupportedBuiltin b = false)
    (hae : a ≠ kw "__EXEC") (hbe : b ≠ kw "__EXEC")
    {st : St} (hs : st.defs.stack = []) {ta tb : Tok} (hta : ta.sym = .word a) (htb : tb.sym = .word b)
    {ea eb : Entry} (hga : st.defs.global a = some ea) (hgb : st.defs.global b = some eb)
    (hda : ea.defn = .value [tb]) (hdb : eb.defn = .value [ta])
    (hsa : ea.src ≠ .argument) (hsb : eb.src ≠ .argument) :
    ∀ n site t rest buf,
      (∀ im, im ≠ some a → t.sym = .word a → walk n env site im false true none st (t :: rest) buf = .error .fuel) ∧
      (∀ im, im ≠ some b → t.sym = .word b → walk n env site im false true none st (t :: rest) buf = .error .fuel) := by
  have gen : ∀ k, isBuiltin k = false → builtinGen.contains k = false := by
    intro k hk
    simp only [isBuiltin, Bool.or_eq_false_iff] at hk
    tauto
  intro n
  induction n using Nat.strong_induction_on with
  | _ n ih =>
  have step : ∀ {x y : Text} {tx ty : Tok} {e : Entry}, x ≠ y → isBuiltin x = false →
      isUnsupportedBuiltin x = false → x ≠ kw "__EXEC" → st.defs.global x = some e →
      e.defn = .value [ty] → e.src ≠ .argument → ty.sym = .word y →
      (∀ m < n, ∀ site im, im ≠ some y → walk m env site im false true none st [ty] [] = .error .fuel) →
      ∀ site im rest buf, im ≠ some x → tx.sym = .word x → walk n env site im false true none st (tx :: rest) buf = .error .fuel := by
    intro x y tx ty e hxy hx hx' hxe hgx hdx hsx hty ih site im rest buf him htx
    cases n with
    | zero => rw [walk.eq_def]
    | succ n =>
      have hck : st.defs.containsKey x = true := by
        simp [Defines.containsKey, hs, hgx]
      rw [walk.eq_def]
      simp only [htx]
      rw [if_neg hxe, if_neg (by simp [hx']), if_pos ⟨him, hck⟩]
      have : ∀ site, defineUse n env site st (tx :: rest) buf = .error .fuel := by
        intro site
        cases n with
        | zero => rw [defineUse.eq_def]
        | succ n =>
          have hgen : st.defs.getWithGen env tx site = (some e, st.defs) := by
            simp only [Defines.getWithGen, htx, Sym.text, gen x hx, Bool.false_eq_true, if_false,
              Defines.getReadonly, hs, hgx, hdx]
          rw [defineUse_eq htx hgen, useWith.eq_def]
          simp only [hdx]
          rw [if_neg hsx]
          have hnj : noJoin [ty] = [ty] := by simp [noJoin, hty]
          rw [hnj, ih n (by omega) (some site) (some tx.sym.text) (by rw [htx]; simp [Sym.text, hxy])]
      rw [this]
  intro site t rest buf
  exact ⟨fun im him ht => step hab ha ha' hae hga hda hsa htb
      (fun m hm site im him => (ih m hm site tb [] []).2 im him htb) site im rest buf him ht,
    fun im him ht => step (Ne.symm hab) hb hb' hbe hgb hdb hsb hta
      (fun m hm site im him => (ih m hm site ta [] []).1 im him hta) site im rest buf him ht⟩

/-- C31 is violated. `#define A B`, `#define B A` and a use of `A`: however long it is given, preprocessing does not
end, whatever follows in the file. -/
theorem C31_violated_mutual {env : Env} {path : Text} {a b : Text} (hab : a ≠ b) (ha : isBuiltin a = false)
    (hb : isBuiltin b = false) (hae : a ≠ kw "__EXEC") (hbe : b ≠ kw "__EXEC")
    {toks : List Tok} {rest : List Sym} (hload : env.load path = .ok toks)
    (hsrc : toks.map Tok.sym =
      [.directive, .word (kw "define"), .space, .word a, .space, .word b, .newline,
       .directive, .word (kw "define"), .space, .word b, .space, .word a, .newline, .word a] ++ rest) (n : Nat) :
    run n env path = .error .fuel := by
  simp only [List.cons_append, List.nil_append] at hsrc
  obtain ⟨d1, l, rfl, h1, hsrc⟩ := splitCons hsrc
  obtain ⟨d2, l, rfl, h2, hsrc⟩ := splitCons hsrc
  obtain ⟨d3, l, rfl, h3, hsrc⟩ := splitCons hsrc
  obtain ⟨d4, l, rfl, h4, hsrc⟩ := splitCons hsrc
  obtain ⟨d5, l, rfl, h5, hsrc⟩ := splitCons hsrc
  obtain ⟨d6, l, rfl, h6, hsrc⟩ := splitCons hsrc
  obtain ⟨d7, l, rfl, h7, hsrc⟩ := splitCons hsrc
  obtain ⟨e1, l, rfl, k1, hsrc⟩ := splitCons hsrc
  obtain ⟨e2, l, rfl, k2, hsrc⟩ := splitCons hsrc
  obtain ⟨e3, l, rfl, k3, hsrc⟩ := splitCons hsrc
  obtain ⟨e4, l, rfl, k4, hsrc⟩ := splitCons hsrc
  obtain ⟨e5, l, rfl, k5, hsrc⟩ := splitCons hsrc
  obtain ⟨e6, l, rfl, k6, hsrc⟩ := splitCons hsrc
  obtain ⟨e7, l, rfl, k7, hsrc⟩ := splitCons hsrc
  obtain ⟨u, l, rfl, hu, hsrc⟩ := splitCons hsrc
  have unsup : ∀ k, isBuiltin k = false → isUnsupportedBuiltin k = false := by
    intro k hk
    simp only [isBuiltin, isUnsupportedBuiltin, Bool.or_eq_false_iff] at hk ⊢
    tauto
  rw [run, hload]
  dsimp only
  suffices h : Loops env { files := [path] } (d1 :: d2 :: d3 :: d4 :: d5 :: d6 :: d7 :: e1 :: e2 :: e3 :: e4 :: e5 ::
      e6 :: e7 :: u :: l) [] by rw [h n]
  have dd := fun (st : St) rest => directiveDefine_value (st := st) (mid := [d3]) (by simp [h3, blank, Sym.isWs]) h4 ha (g := [d5])
    (body := [d6]) (by simp [h5, blank, Sym.isWs]) (by simp) (by simp [h6, oneLine]) (by simp [h6, Sym.isWs])
    (by simp [h6]) h7 rest
  have de := fun (st : St) rest => directiveDefine_value (st := st) (mid := [e3]) (by simp [k3, blank, Sym.isWs]) k4 hb (g := [e5])
    (body := [e6]) (by simp [k5, blank, Sym.isWs]) (by simp) (by simp [k6, oneLine]) (by simp [k6, Sym.isWs])
    (by simp [k6]) k7 rest
  simp only [List.cons_append, List.nil_append] at dd de
  refine Loops.directive (n := 1) h1 h2 (by rw [command_define rfl h2, dd]; rfl) ?_
  refine Loops.directive (n := 1) k1 k2 (by rw [command_define rfl k2, de]; rfl) ?_
  have hgen := walk_mutual (env := env) hab ha hb (unsup a ha) (unsup b hb) hae hbe
    (st := defined' (defined' { files := [path] } d4 (.value [d6])) e4 (.value [e6])) (by
      simp [defined', Defines.remove, Defines.insert])
    k6 h6 (ea := ⟨d4, .value [d6], .source [path]⟩) (eb := ⟨e4, .value [e6], .source [path]⟩)
    (by simp [defined', Defines.remove, Defines.insert, Inner.insert, Inner.remove, h4, k4, Sym.text, hab])
    (by simp [defined', Defines.remove, Defines.insert, Inner.insert, Inner.remove, h4, k4, Sym.text])
    rfl rfl (by simp) (by simp)
  refine Loops.here rfl (by rw [hu]; simp) fun n => ?_
  match n with
  | 0 => rw [line.eq_def]
  | 1 =>
    rw [line.eq_def]
    dsimp only
    rw [directive.eq_def]
  | n + 2 =>
    have := line_text (env := env) (n := n)
      (st := defined' (defined' { files := [path] } d4 (.value [d6])) e4 (.value [e6])) (ind := []) rfl
      (t := u) (by rw [hu]; rfl) (by rw [hu]; simp) (toks := l) (buf := [])
    rw [List.nil_append] at this
    rw [this, if_pos (show IfStates.reading _ = true from rfl), (hgen (n + 1) none u l _).1 none (by simp) hu]

example : ∃ toks : List Tok, toks.map Tok.sym = [.directive, .word (kw "define"), .space, .word (kw "A"), .space,
    .word (kw "B"), .newline, .directive, .word (kw "define"), .space, .word (kw "B"), .space, .word (kw "A"), .newline,
    .word (kw "A")] ++ [.newline, .eoi] ∧ isBuiltin (kw "A") = false ∧ isBuiltin (kw "B") = false :=
  ⟨tk (kw "main") 1 0 _, tk_sym _ _ _ _, by decide +kernel, by decide +kernel⟩

/-- C31 is violated. A file that starts by including itself is read for ever. -/
theorem C31_violated_include {env : Env} {path name : Text} {toks : List Tok} {rest : List Sym} {b : Bool}
    (hload : env.load path = .ok toks)
    (hsrc : toks.map Tok.sym = [.directive, .word (kw "include"), .space, .dquote, .word name, .dquote, .newline] ++ rest)
    (hloc : env.locate path name = some (path, b)) (n : Nat) : run n env path = .error .fuel := by
  simp only [List.cons_append, List.nil_append] at hsrc
  obtain ⟨d1, l, rfl, h1, hsrc⟩ := splitCons hsrc
  obtain ⟨d2, l, rfl, h2, hsrc⟩ := splitCons hsrc
  obtain ⟨d3, l, rfl, h3, hsrc⟩ := splitCons hsrc
  obtain ⟨d4, l, rfl, h4, hsrc⟩ := splitCons hsrc
  obtain ⟨d5, l, rfl, h5, hsrc⟩ := splitCons hsrc
  obtain ⟨d6, l, rfl, h6, hsrc⟩ := splitCons hsrc
  obtain ⟨d7, l, rfl, h7, hsrc⟩ := splitCons hsrc
  rw [run, hload]
  dsimp only
  suffices h : ∀ n (st : St) fs buf, st.files = path :: fs → st.ifs.reading = true →
      file n env st (d1 :: d2 :: d3 :: d4 :: d5 :: d6 :: d7 :: l) buf = .error .fuel by
    rw [h n _ [] _ rfl rfl]
  clear n
  intro n
  induction n using Nat.strong_induction_on with
  | _ n ih =>
  intro st fs buf hfs hr
  have hcmd : ∀ k < n, ∀ buf, command k env st d2 (d3 :: d4 :: d5 :: d6 :: d7 :: l) buf = .error .fuel := by
    intro k hk buf
    have hit : includeTarget env st (d3 :: d4 :: d5 :: d6 :: d7 :: l) =
        .ok (path, d1 :: d2 :: d3 :: d4 :: d5 :: d6 :: d7 :: l, if b then [.includeCase [d5]] else [], l) := by
      have : toksText [d5] = name := by simp [toksText, h5, Sym.text]
      simp [includeTarget, skipWs, h3, h4, h5, h6, h7, Sym.isWs, readPath, expectNothing, hfs, this, hloc, hload]
    cases k with
    | zero => rw [command.eq_def]
    | succ k =>
      have htxt : d2.sym.text = kw "include" := by rw [h2]; rfl
      rw [command.eq_def]
      dsimp only
      rw [if_neg (by rw [htxt]; decide +kernel), if_neg (by rw [htxt]; decide +kernel), if_pos hr, if_pos htxt, hit]
      dsimp only
      rw [ih k (by omega) { st with
        pragma := st.pragma.child, files := path :: st.files, included := st.included ++ [path],
        warns := st.warns ++ if b then [.includeCase [d5]] else [] } st.files buf rfl hr]
  have hdir : ∀ k < n, ∀ buf, directive k env st (d1 :: d2 :: d3 :: d4 :: d5 :: d6 :: d7 :: l) buf = .error .fuel := by
    intro k hk buf
    cases k with
    | zero => rw [directive.eq_def]
    | succ k =>
      rw [directive.eq_def]
      dsimp only
      rw [if_pos h1, if_pos (by rw [h2]; rfl), hcmd k (by omega)]
  have hline : ∀ k < n, ∀ buf, line k env st (d1 :: d2 :: d3 :: d4 :: d5 :: d6 :: d7 :: l) buf = .error .fuel := by
    intro k hk buf
    cases k with
    | zero => rw [line.eq_def]
    | succ k =>
      rw [line.eq_def]
      simp only [skipWsOut, h1, Sym.isWs, Bool.false_eq_true, if_false]
      rw [hdir k (by omega)]
  cases n with
  | zero => rw [file.eq_def]
  | succ n =>
    rw [file.eq_def]
    dsimp only
    rw [if_neg (by rw [h1]; simp), hline n (by omega)]

/-- A world where `main` includes itself. -/
example : ∃ env : Env, ∃ toks b, env.load (kw "main") = .ok toks ∧
    toks.map Tok.sym = [.directive, .word (kw "include"), .space, .dquote, .word (kw "main"), .dquote, .newline] ++
      [w "x", .newline, .eoi] ∧ env.locate (kw "main") (kw "main") = some (kw "main", b) :=
  ⟨{ world [.directive, w "include", .space, .dquote, w "main", .dquote, .newline, w "x", .newline, .eoi] with
      locate := fun _ t => some (t, false) }, _, false, rfl, tk_sym _ _ _ _, rfl⟩

end Verif.Preproc
