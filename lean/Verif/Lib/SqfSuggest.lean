import Verif.Spec.SqfGame
import Verif.Model.SqfLint
import Verif.Props.SqfLex
/-!
How the texts that lints suggest are read.
-/
namespace Verif.SqfLint
open Verif.Sqf Verif.SqfLex Verif.SqfParse

variable {S V : Type} {G : Game S V}

mutual
theorem eval_erase : ∀ (e : Expr) (s : S), G.eval (eraseE e) s = G.eval e s
  | .code ss _ _, s => by simp only [eraseE, Game.eval, eraseSs_idem ss]
  | .str .., s => rfl
  | .num .., s => rfl
  | .bool .., s => rfl
  | .arr es _, s => by simp only [eraseE, Game.eval, evals_erase es s]
  | .carr es _, s => by simp only [eraseE, Game.eval, evals_erase es s]
  | .nular .., s => rfl
  | .un c e _, s => by simp only [eraseE, Game.eval, eval_erase e s]
  | .bin c l r _, s => by simp only [eraseE, Game.eval, eval_erase l s, fun s => eval_erase r s]
  | .var .., s => rfl
theorem evals_erase : ∀ (es : List Expr) (s : S), G.evals (eraseEs es) s = G.evals es s
  | [], s => rfl
  | e :: es, s => by simp only [eraseEs, Game.evals, eval_erase e s, fun s => evals_erase es s]
theorem eraseE_idem : ∀ e : Expr, eraseE (eraseE e) = eraseE e
  | .code ss _ _ => by simp only [eraseE, eraseSs_idem ss]
  | .str .. => rfl
  | .num .. => rfl
  | .bool .. => rfl
  | .arr es _ => by simp only [eraseE, eraseEs_idem es]
  | .carr es _ => by simp only [eraseE, eraseEs_idem es]
  | .nular .. => rfl
  | .un c e _ => by simp only [eraseE, eraseE_idem e]
  | .bin c l r _ => by simp only [eraseE, eraseE_idem l, eraseE_idem r]
  | .var .. => rfl
theorem eraseEs_idem : ∀ es : List Expr, eraseEs (eraseEs es) = eraseEs es
  | [] => rfl
  | e :: es => by simp only [eraseEs, eraseE_idem e, eraseEs_idem es]
theorem eraseS_idem : ∀ s : Stmt, eraseS (eraseS s) = eraseS s
  | .assignGlobal n e _ => by simp only [eraseS, eraseE_idem e]
  | .assignLocal n e _ => by simp only [eraseS, eraseE_idem e]
  | .expr e _ => by simp only [eraseS, eraseE_idem e]
theorem eraseSs_idem : ∀ ss : List Stmt, eraseSs (eraseSs ss) = eraseSs ss
  | [] => rfl
  | s :: ss => by simp only [eraseSs, eraseS_idem s, eraseSs_idem ss]
end

/-- Trees that differ in their positions have the same value. -/
theorem eval_congr {e e' : Expr} (h : eraseE e' = eraseE e) (s : S) : G.eval e' s = G.eval e s := by
  rw [← eval_erase e', h, eval_erase]

theorem readAs {env : Env} {F : F32} (hdb : env.db.Plain) {p : Nat} (hp : 1 ≤ p) (hp' : p ≤ 10) {e : Expr} {t : Text} (h : Reads F env.db p e t) :
    ReadAs env F p t e := by
  obtain ⟨ts, e', he, hd, hl⟩ := h 0
  have h1 := hl [] [] (by simp [Safe]) (.done (by simp))
  rw [List.append_nil, List.append_nil] at h1
  refine ⟨?_, ts, e', lex_iff.2 h1, he, hd⟩
  obtain ⟨ss, h2, h3⟩ := (C50_program (F := F) hdb).2 [.expr e' (0, 0)] ts h1 (.last (.expr (hd.weaken_le hp' hp)))
  refine ⟨ss, h2, h3.trans ?_⟩
  simp only [eraseSs, eraseS, he]

theorem readAs_source {env : Env} {F : F32} (hdb : env.db.Plain) {e : Expr} {t : Text} (h : Printable F env.db e) (ht : source F e = t) :
    ReadAs env F 1 t e := ht ▸ readAs hdb (by decide) (by decide) (reads_low (source_reads hdb e h))

theorem Reads.to {F : F32} {db : Db} {p q : Nat} {e : Expr} {s : Text} (h : Reads F db p e s) (hq : q ≤ p) (hp : p ≤ 10) :
    Reads F db q e s := by
  intro n
  obtain ⟨ts, e', he, hd, hl⟩ := h n
  exact ⟨ts, e', he, hd.weaken_le hp hq, hl⟩

theorem reads_binp {F : F32} {db : Db} {c : BinCmd} {e1 e2 : Expr} {s1 s2 : Text} {sp : Span}
    (hw : ∀ n, c = .named n → IsWord n) (hc : binOf db (binName c) = some c) (h1 : Reads F db 10 e1 s1)
    (h2 : Reads F db 10 e2 s2) : Reads F db (prec c) (.bin c e1 e2 sp) (s1 ++ [' '] ++ binText c ++ [' '] ++ s2) := by
  intro n
  have hp := prec_pos c
  obtain ⟨ts1, e1', he1, hd1, hl1⟩ := h1 n
  obtain ⟨ts2, e2', he2, hd2, hl2⟩ := h2 (n + s1.length + 1 + (binText c).length + 1)
  refine ⟨ts1 ++ (binName c, (n + s1.length + 1, n + s1.length + 1 + (binText c).length)) :: ts2, .bin c e1' e2' (n + s1.length + 1, n + s1.length + 1 + (binText c).length),
    by simp only [eraseE, he1, he2], ?_, ?_⟩
  · rw [code_append, code_cons (bin_noComment c)]
    exact Der.bin hc rfl (hd1.weaken_le (by omega) (by omega)) (hd2.weaken_le (by omega) (by omega))
  · intro us r hr hu
    have h3 := layout_blank (hl2 us r hr (by convert hu using 1; simp; omega))
    have h4 := layout_blank (layout_tok (spells_bin hw) (ends_safe (safe_blank _) (bin_noComment c)) h3)
    have h5 := hl1 _ _ (safe_blank _) h4
    simpa using h5

/-- `!` right before its operand. -/
theorem reads_not {F : F32} {db : Db} {e : Expr} {s : Text} {sp : Span} (h : Reads F db 10 e s)
    (hs : ∃ c t, s = c :: t ∧ c ≠ '=') : Reads F db 10 (.un .not e sp) (['!'] ++ s) := by
  intro n
  obtain ⟨ts, e', he, hd, hl⟩ := h (n + 1)
  refine ⟨(.op .not, (n, n + 1)) :: ts, .un .not e' (n, n + 1), by simp only [eraseE, he], ?_, ?_⟩
  · rw [code_cons rfl]
    exact .un rfl hd
  · intro us r hr hu
    have h1 := hl us r hr (by convert hu using 1; simp; omega)
    have h2 := layout_tok (n := n) (t := .op .not) (s := ['!']) (.op (o := .not)) (r := s ++ r) ?_ h1
    · simpa using h2
    · obtain ⟨c, t, rfl, hc⟩ := hs
      intro d hd'
      cases hd'
      exact hc

/-- Two elements with `, ` between them. -/
theorem reads_two {F : F32} {db : Db} {a b : Expr} {s t : Text} {sp : Span} (ha : Reads F db 10 a s) (hb : Reads F db 10 b t) :
    Reads F db 10 (.arr [a, b] sp) (['['] ++ (s ++ [',', ' '] ++ t) ++ [']']) := by
  refine reads_arr fun n => ?_
  obtain ⟨ts, a', he, hd, hl⟩ := ha n
  obtain ⟨us, b', he', hd', hl'⟩ := hb (n + s.length + 1 + 1)
  refine ⟨ts ++ (.ctl .separator, (n + s.length, n + s.length + 1)) :: us, [a', b'], by simp only [eraseEs, he, he'], ?_, ?_⟩
  · rw [code_append, code_cons rfl]
    exact .cons (hd.weaken_le (by omega) (by omega)) (.one (hd'.weaken_le (by omega) (by omega)))
  · intro vs r hr hu
    have h1 := layout_blank (hl' vs r hr (by convert hu using 1; simp; omega))
    have h2 := layout_tok (n := n + s.length) (t := .ctl .separator) (s := [',']) (.ctl (c := .separator)) trivial h1
    have h3 := hl _ _ (safe_comma _) h2
    simpa using h3

theorem word_of {n : Bytes} (c : Char) (s : Text) (h : n = enc (c :: s)) (hc : isFirst c = true) (hs : ∀ x ∈ s, isName x = true) : IsWord n :=
  ⟨c, s, h, hc, hs⟩

theorem word_select : IsWord (ascii "select") :=
  word_of 's' ['e', 'l', 'e', 'c', 't'] (by decide +kernel) (by decide) (by decide)
theorem word_in : IsWord (ascii "in") := word_of 'i' ['n'] (by decide +kernel) (by decide) (by decide)
theorem word_parseNumber : IsWord (ascii "parseNumber") :=
  word_of 'p' ['a', 'r', 's', 'e', 'N', 'u', 'm', 'b', 'e', 'r'] (by decide +kernel) (by decide) (by decide)
theorem word_isNull : IsWord (ascii "isNull") := word_of 'i' ['s', 'N', 'u', 'l', 'l'] (by decide +kernel) (by decide) (by decide)
theorem word_objectParent : IsWord (ascii "objectParent") :=
  word_of 'o' ['b', 'j', 'e', 'c', 't', 'P', 'a', 'r', 'e', 'n', 't'] (by decide +kernel) (by decide) (by decide)

/-- The double quotes around a string in the suggestion. -/
def requote : Expr → Expr
  | .str s sp _ => .str s sp .double
  | e => e

/-- A constant as the suggestions write it. -/
theorem reads_constant {F : F32} {db : Db} (hdb : db.Plain) {a : Expr} {sp : Span} {src : Bytes} {sp' : Span} {c : Text × Bool}
    (h : extractConstant F (.code [.expr a sp] src sp') = some c) (hp : Printable F db a) (hq : NoQuote a) :
    Constant a ∧ Reads F db 10 (requote a) (quoted c) := by
  cases a with
  | num x q =>
    cases h
    exact ⟨.num, source_reads hdb (.num x q) hp⟩
  | bool b q =>
    cases h
    exact ⟨.bool, source_reads hdb (.bool b q) hp⟩
  | var n q =>
    cases h
    exact ⟨.var, source_reads hdb (.var n q) hp⟩
  | str s q w =>
    cases h
    refine ⟨.str, source_reads hdb (.str s q .double) ?_⟩
    obtain ⟨t, rfl, ht⟩ := hq
    exact ⟨t, rfl, ht⟩
  | _ => cases h

theorem eval_requote (a : Expr) (s : S) : G.eval (requote a) s = G.eval a s := by
  cases a <;> rfl

end Verif.SqfLint
