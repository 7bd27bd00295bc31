import Verif.Lib.SqfLex
import Verif.Props.SqfParse
/-! Printed expressions are read back: the steps. -/
namespace Verif.SqfLex
open Verif.Sqf Verif.SqfParse
open Verif.Prefix (isWs)

/-! ### UTF-8 -/

theorem dec_enc (t : Text) : dec (enc t) = t := by
  have h : (enc t).toByteArray = t.utf8Encode := rfl
  rw [dec, h, List.utf8Decode?_utf8Encode]
  simp

theorem enc_inj {s t : Text} (h : enc s = enc t) : s = t := by rw [← dec_enc s, h, dec_enc]

/-! ### Positions do not matter -/

mutual
theorem Der.respan {db : Db} {flex : Bool} {p : Nat} {e : Expr} {ts : List Tok} (h : Der db flex p e ts) :
    ∀ us : List Tok, us.map Prod.fst = ts.map Prod.fst → ∃ e', eraseE e' = eraseE e ∧ Der db flex p e' us := by
  intro us hu
  match h with
  | .num =>
    simp only [List.map_cons, List.map_nil, List.map_eq_singleton_iff] at hu
    obtain ⟨⟨t, sp⟩, rfl, rfl⟩ := hu
    exact ⟨_, by simp only [eraseE], .num⟩
  | .str =>
    simp only [List.map_cons, List.map_nil, List.map_eq_singleton_iff] at hu
    obtain ⟨⟨t, sp⟩, rfl, rfl⟩ := hu
    exact ⟨_, by simp only [eraseE], .str⟩
  | .tru h =>
    simp only [List.map_cons, List.map_nil, List.map_eq_singleton_iff] at hu
    obtain ⟨⟨t, sp⟩, rfl, rfl⟩ := hu
    exact ⟨_, by simp only [eraseE], .tru h⟩
  | .fls h =>
    simp only [List.map_cons, List.map_nil, List.map_eq_singleton_iff] at hu
    obtain ⟨⟨t, sp⟩, rfl, rfl⟩ := hu
    exact ⟨_, by simp only [eraseE], .fls h⟩
  | .nular h h1 h2 =>
    simp only [List.map_cons, List.map_nil, List.map_eq_singleton_iff] at hu
    obtain ⟨⟨t, sp⟩, rfl, rfl⟩ := hu
    exact ⟨_, by simp only [eraseE], .nular h h1 h2⟩
  | .var h =>
    simp only [List.map_cons, List.map_nil, List.map_eq_singleton_iff] at hu
    obtain ⟨⟨t, sp⟩, rfl, rfl⟩ := hu
    exact ⟨_, by simp only [eraseE], .var h⟩
  | .paren h =>
    simp only [List.cons_append, List.map_cons, List.map_append, List.map_nil, List.map_eq_cons_iff, List.map_eq_append_iff,
      List.map_eq_nil_iff] at hu
    obtain ⟨⟨t1, s1⟩, l, rfl, rfl, vs, ws, rfl, hv, ⟨t2, s2⟩, l2, rfl, rfl, rfl⟩ := hu
    obtain ⟨e', he, hd⟩ := Der.respan h vs hv
    exact ⟨e', he, .paren hd⟩
  | .arr0 =>
    simp only [List.map_cons, List.map_nil, List.map_eq_cons_iff, List.map_eq_nil_iff] at hu
    obtain ⟨⟨t1, s1⟩, l, rfl, rfl, ⟨t2, s2⟩, l2, rfl, rfl, rfl⟩ := hu
    exact ⟨.arr [] (0, 0), by simp only [eraseE], .arr0⟩
  | .arr h =>
    simp only [List.cons_append, List.map_cons, List.map_append, List.map_nil, List.map_eq_cons_iff, List.map_eq_append_iff,
      List.map_eq_nil_iff] at hu
    obtain ⟨⟨t1, s1⟩, l, rfl, rfl, vs, ws, rfl, hv, ⟨t2, s2⟩, l2, rfl, rfl, rfl⟩ := hu
    obtain ⟨es', he, hd⟩ := DerList.respan h vs hv
    exact ⟨.arr es' (0, 0), by simp only [eraseE, he], .arr hd⟩
  | .code h =>
    simp only [List.cons_append, List.map_cons, List.map_append, List.map_nil, List.map_eq_cons_iff, List.map_eq_append_iff,
      List.map_eq_nil_iff] at hu
    obtain ⟨⟨t1, s1⟩, l, rfl, rfl, vs, ws, rfl, hv, ⟨t2, s2⟩, l2, rfl, rfl, rfl⟩ := hu
    obtain ⟨ss', he, hd⟩ := DerBlock.respan h vs hv
    exact ⟨.code ss' [] (0, 0), by simp only [eraseE, he], .code hd⟩
  | .un hc h =>
    simp only [List.map_cons, List.map_eq_cons_iff] at hu
    obtain ⟨⟨t1, s1⟩, l, rfl, rfl, hv⟩ := hu
    obtain ⟨e', he, hd⟩ := Der.respan h l hv
    exact ⟨_, by simp only [eraseE, he], .un hc hd⟩
  | .bin hc hp hl hr =>
    simp only [List.map_cons, List.map_append, List.map_eq_cons_iff, List.map_eq_append_iff] at hu
    obtain ⟨vs, ws, rfl, hv, ⟨t2, s2⟩, l2, rfl, rfl, hw⟩ := hu
    obtain ⟨e1, he1, hd1⟩ := Der.respan hl vs hv
    obtain ⟨e2, he2, hd2⟩ := Der.respan hr l2 hw
    exact ⟨_, by simp only [eraseE, he1, he2], .bin hc hp hd1 hd2⟩
  | .weaken hp h =>
    obtain ⟨e', he, hd⟩ := Der.respan h us hu
    exact ⟨e', he, .weaken hp hd⟩
theorem DerList.respan {db : Db} {flex : Bool} {es : List Expr} {ts : List Tok} (h : DerList db flex es ts) :
    ∀ us : List Tok, us.map Prod.fst = ts.map Prod.fst → ∃ es', eraseEs es' = eraseEs es ∧ DerList db flex es' us := by
  intro us hu
  match h with
  | .one h =>
    obtain ⟨e', he, hd⟩ := Der.respan h us hu
    exact ⟨[e'], by simp only [eraseEs, he], .one hd⟩
  | .cons h1 h2 =>
    simp only [List.map_cons, List.map_append, List.map_eq_cons_iff, List.map_eq_append_iff] at hu
    obtain ⟨vs, ws, rfl, hv, ⟨t2, s2⟩, l2, rfl, rfl, hw⟩ := hu
    obtain ⟨e1, he1, hd1⟩ := Der.respan h1 vs hv
    obtain ⟨e2, he2, hd2⟩ := DerList.respan h2 l2 hw
    exact ⟨e1 :: e2, by simp only [eraseEs, he1, he2], .cons hd1 hd2⟩
theorem DerStmt.respan {db : Db} {flex : Bool} {s : Stmt} {ts : List Tok} (h : DerStmt db flex s ts) :
    ∀ us : List Tok, us.map Prod.fst = ts.map Prod.fst → ∃ s', eraseS s' = eraseS s ∧ DerStmt db flex s' us := by
  intro us hu
  match h with
  | .expr h =>
    obtain ⟨e', he, hd⟩ := Der.respan h us hu
    exact ⟨.expr e' (0, 0), by simp only [eraseS, he], .expr hd⟩
  | .global hn h =>
    simp only [List.map_cons, List.map_eq_cons_iff] at hu
    obtain ⟨⟨t1, s1⟩, l, rfl, rfl, ⟨t2, s2⟩, l2, rfl, rfl, hv⟩ := hu
    obtain ⟨e', he, hd⟩ := Der.respan h l2 hv
    exact ⟨.assignGlobal _ e' (0, 0), by simp only [eraseS, he], .global hn hd⟩
  | .priv hm hn h =>
    simp only [List.map_cons, List.map_eq_cons_iff] at hu
    obtain ⟨⟨t1, s1⟩, l, rfl, rfl, ⟨t2, s2⟩, l2, rfl, rfl, ⟨t3, s3⟩, l3, rfl, rfl, hv⟩ := hu
    obtain ⟨e', he, hd⟩ := Der.respan h l3 hv
    exact ⟨.assignLocal _ e' (0, 0), by simp only [eraseS, he], .priv hm hn hd⟩
theorem DerBlock.respan {db : Db} {flex : Bool} {ss : List Stmt} {ts : List Tok} (h : DerBlock db flex ss ts) :
    ∀ us : List Tok, us.map Prod.fst = ts.map Prod.fst → ∃ ss', eraseSs ss' = eraseSs ss ∧ DerBlock db flex ss' us := by
  intro us hu
  match h with
  | .nil =>
    rw [List.map_nil, List.map_eq_nil_iff] at hu
    subst hu
    exact ⟨[], rfl, .nil⟩
  | .last h =>
    obtain ⟨s', he, hd⟩ := DerStmt.respan h us hu
    exact ⟨[s'], by simp only [eraseSs, he], .last hd⟩
  | .cons h1 h2 =>
    simp only [List.map_cons, List.map_append, List.map_eq_cons_iff, List.map_eq_append_iff] at hu
    obtain ⟨vs, ws, rfl, hv, ⟨t2, s2⟩, l2, rfl, rfl, hw⟩ := hu
    obtain ⟨e1, he1, hd1⟩ := DerStmt.respan h1 vs hv
    obtain ⟨e2, he2, hd2⟩ := DerBlock.respan h2 l2 hw
    exact ⟨e1 :: e2, by simp only [eraseSs, he1, he2], .cons hd1 hd2⟩
  | .skip hf h =>
    simp only [List.map_cons, List.map_eq_cons_iff] at hu
    obtain ⟨⟨t1, s1⟩, l, rfl, rfl, hv⟩ := hu
    obtain ⟨e', he, hd⟩ := DerBlock.respan h l hv
    exact ⟨e', he, .skip hf hd⟩
end

theorem Layout.move {F : F32} {n : Nat} {ts : List Tok} {s : Text} (h : Layout F n ts s) :
    ∀ m, ∃ us, us.map Prod.fst = ts.map Prod.fst ∧ Layout F m us s := by
  induction h with
  | done hw => exact fun m => ⟨[], rfl, .done hw⟩
  | tok hw hs hr _ ih =>
    intro m
    obtain ⟨us, he, hu⟩ := ih (m + _ + _)
    exact ⟨_ :: us, by simp [he], .tok hw hs hr hu⟩

/-! ### Texts one behind the other -/

/-- Text before which any token may end. -/
def Safe (r : Text) : Prop := ∀ c ∈ r.head?, c = ' ' ∨ c = ',' ∨ c = ']' ∨ c = ')' ∨ c = '}'

theorem Safe.noConst {r : Text} (h : Safe r) : NoConst r := by
  cases r with
  | nil => trivial
  | cons c r =>
    rcases h c (by simp) with rfl | rfl | rfl | rfl | rfl <;>
      exact ⟨by decide, by decide, by decide, fun e => absurd e (by decide), fun e => absurd e (by decide)⟩

theorem Safe.ne {r : Text} (h : Safe r) : ∀ c ∈ r.head?, c ≠ '>' ∧ c ≠ '=' ∧ c ≠ '/' ∧ c ≠ '*' ∧ isHex c = false ∧
    isDigit c = false := by
  intro c hc
  rcases h c hc with rfl | rfl | rfl | rfl | rfl <;> decide

def isComment : Token → Bool
  | .comment _ => true
  | _ => false

theorem ends_safe {t : Token} {s r : Text} (h : Safe r) (ht : isComment t = false) : Ends t s r := by
  cases t with
  | comment => cases ht
  | num => exact h.noConst
  | ident => exact h.noConst
  | str => exact h.noConst
  | ctl => trivial
  | op o =>
    cases o
    case greater => exact fun c hc => ⟨(h.ne c hc).1, (h.ne c hc).2.1⟩
    case less => exact fun c hc => (h.ne c hc).2.1
    case not => exact fun c hc => (h.ne c hc).2.1
    case assign => exact fun c hc => (h.ne c hc).2.1
    case div =>
      refine ⟨fun c hc => (h.ne c hc).2.2.1, ?_⟩
      rintro r' rfl
      exact absurd rfl (h.ne '*' (by simp)).2.2.2.1
    all_goals trivial

theorem noConst_append {a r : Text} (h : NoConst a) (hr : Safe r) : NoConst (a ++ r) := by
  match a, h with
  | [], _ => exact hr.noConst
  | [c], h =>
    exact ⟨h.1, h.2.1, h.2.2.1, fun _ d hd => (hr.ne d hd).2.2.2.2.2, fun _ d hd => (hr.ne d hd).2.2.2.2.1⟩
  | c :: b :: a, h => exact h

theorem ends_append {t : Token} {s a r : Text} (h : Ends t s a) (hr : Safe r) (h0 : a = [] → isComment t = false)
    (hb : ∀ a', t = .op .div → a ≠ '*' :: a') : Ends t s (a ++ r) := by
  cases a with
  | nil => exact ends_safe hr (h0 rfl)
  | cons c a =>
    cases t with
    | num => exact noConst_append (a := c :: a) h hr
    | ident => exact noConst_append (a := c :: a) h hr
    | str => exact noConst_append (a := c :: a) h hr
    | ctl => trivial
    | comment =>
      rw [ends_comment] at h ⊢
      rcases h with h | h | h | h
      · exact .inl h
      · cases h
      · exact .inr (.inr (.inl ⟨h.1, h.2.trans (List.prefix_append _ _)⟩))
      · exact .inr (.inr (.inr (h.trans (List.prefix_append _ _))))
    | op o =>
      cases o
      case div =>
        refine ⟨h.1, fun r' e => ?_⟩
        rw [List.cons_append, List.cons.injEq] at e
        exact absurd (by rw [e.1]) (hb a rfl)
      all_goals exact h

theorem Layout.nil {F : F32} {n : Nat} {ts : List Tok} {s : Text} (h : Layout F n ts s) (h0 : s = []) : ts = [] := by
  cases h with
  | done => rfl
  | tok h1 h2 h3 h4 =>
    obtain ⟨c, s', rfl, -⟩ := h2.head
    simp at h0

theorem layout_append {F : F32} {n : Nat} {ts : List Tok} {s : Text} (h : Layout F n ts s) : ∀ {us : List Tok} {r : Text},
    (∀ t ∈ ts.getLast?, isComment t.1 = false) → ¬ ['/', '*'] <:+: s → Safe r → Layout F (n + s.length) us r →
    Layout F n (ts ++ us) (s ++ r) := by
  induction h with
  | done hw => exact fun _ _ _ h => .ws hw h rfl
  | @tok n w t p ts a hw hs hr h ih =>
    intro us r hl hb hsafe hu
    have hlast : ∀ t ∈ ts.getLast?, isComment t.1 = false := by
      intro x hx
      refine hl x ?_
      rw [List.getLast?_cons]
      rw [Option.mem_def] at hx
      simp [hx]
    have hb' : ¬ ['/', '*'] <:+: a := fun hi => hb (hi.trans (List.suffix_append _ _).isInfix)
    rw [List.append_assoc, List.cons_append]
    refine .tok hw hs (ends_append hr hsafe ?_ ?_) (ih hlast hb' hsafe ?_)
    · rintro rfl
      have := h.nil rfl
      subst this
      exact hl (t, _) rfl
    · rintro a' rfl rfl
      cases hs
      exact hb ⟨w, a', by simp [opText]⟩
    · rw [List.length_append, List.length_append] at hu
      rwa [Nat.add_assoc, Nat.add_assoc, ← Nat.add_assoc w.length]

theorem layout_tok {F : F32} {n : Nat} {t : Token} {s : Text} {ts : List Tok} {r : Text} (hs : Spells F t s)
    (hr : Ends t s r) (h : Layout F (n + s.length) ts r) : Layout F n ((t, (n, n + s.length)) :: ts) (s ++ r) :=
  .tok' (w := []) (by simp) hs hr (by simp) rfl h

theorem code_append (ts us : List Tok) : code (ts ++ us) = code ts ++ code us := List.filter_append ..

theorem code_cons {t : Token} {sp : Span} {ts : List Tok} (h : isComment t = false) : code ((t, sp) :: ts) = (t, sp) :: code ts := by
  cases t <;> first | rfl | cases h

theorem code_comment {t : Token} {sp : Span} {ts : List Tok} (h : isComment t = true) : code ((t, sp) :: ts) = code ts := by
  cases t <;> first | simp [code]; done | cases h

theorem code_map {ts us : List Tok} (h : us.map Prod.fst = ts.map Prod.fst) : (code us).map Prod.fst = (code ts).map Prod.fst := by
  induction ts generalizing us with
  | nil => rw [List.map_nil, List.map_eq_nil_iff] at h; rw [h]
  | cons t ts ih =>
    simp only [List.map_cons, List.map_eq_cons_iff] at h
    obtain ⟨u, us', rfl, hu, ht⟩ := h
    obtain ⟨u, su⟩ := u
    obtain ⟨t, st⟩ := t
    simp only at hu
    subst hu
    cases hk : isComment u with
    | true => rw [code_comment hk, code_comment hk, ih ht]
    | false => rw [code_cons hk, code_cons hk, List.map_cons, List.map_cons, ih ht]

/-! ### Expressions that can be printed -/

/-- A word. -/
def IsWord (n : Bytes) : Prop := ∃ c s, n = enc (c :: s) ∧ isFirst c = true ∧ ∀ x ∈ s, isName x = true

mutual
/-- Numbers whose digits can be read, strings without their own quote, words that mean what they are used for, and code whose
text is that code; there is no `/*` in the text of the code and no comment at its end. -/
def Printable (F : F32) (db : Db) : Expr → Prop
  | .num x _ => NumText F x (F.display x)
  | .str s _ w => ∃ t, s = enc t ∧ quote w ∉ t
  | .bool _ _ => True
  | .nular n _ => IsWord n ∧ db.hasNular n = true ∧ asciiLower n ≠ ascii "true" ∧ asciiLower n ≠ ascii "false"
  | .var n _ => IsWord n ∧ IsVar db n
  | .arr es _ => Printables F db es
  | .carr _ _ => False
  | .code ss src _ => ¬ ['/', '*'] <:+: dec src ∧ ∃ ts, lex F (dec src) = some ts ∧
      (∀ t ∈ ts.getLast?, isComment t.1 = false) ∧ DerBlock db true ss (SqfParse.code ts)
  | .un c e _ => (∀ n, c = .named n → IsWord n ∧ db.hasUnary n = true) ∧ Printable F db e
  | .bin c l r _ => (∀ n, c = .named n → IsWord n ∧ db.hasBinary n = true) ∧ Printable F db l ∧ Printable F db r
def Printables (F : F32) (db : Db) : List Expr → Prop
  | [] => True
  | e :: es => Printable F db e ∧ Printables F db es
end

/-- Wherever it stands, the text is read as the expression. -/
def Reads (F : F32) (db : Db) (p : Nat) (e : Expr) (s : Text) : Prop := ∀ n, ∃ ts e', eraseE e' = eraseE e ∧
  Der db true p e' (SqfParse.code ts) ∧ ∀ us r, Safe r → Layout F (n + s.length) us r → Layout F n (ts ++ us) (s ++ r)

theorem spells_word {F : F32} {n : Bytes} (h : IsWord n) : Spells F (.ident n) (dec n) := by
  obtain ⟨c, s, rfl, hc, hs⟩ := h
  rw [dec_enc]
  exact .name hc hs

theorem spells_un {F : F32} {c : UnCmd} (h : ∀ n, c = .named n → IsWord n) : Spells F (unName c) (unText c) := by
  cases c with
  | named n => exact spells_word (h n rfl)
  | plus => exact .op (o := .add)
  | minus => exact .op (o := .sub)
  | not => exact .op (o := .not)

theorem spells_bin {F : F32} {c : BinCmd} (h : ∀ n, c = .named n → IsWord n) : Spells F (binName c) (binText c) := by
  cases c
  case named n => exact spells_word (h n rfl)
  case els => exact .name (c := 'e') (s := ['l', 's', 'e']) (by decide) (by decide)
  case max => exact .name (c := 'm') (s := ['a', 'x']) (by decide) (by decide)
  case min => exact .name (c := 'm') (s := ['i', 'n']) (by decide) (by decide)
  case mod => exact .name (c := 'm') (s := ['o', 'd']) (by decide) (by decide)
  case atan2 => exact .name (c := 'a') (s := ['t', 'a', 'n', '2']) (by decide) (by decide)
  case or => exact .op (o := .or)
  case and => exact .op (o := .and)
  case eq => exact .op (o := .eq)
  case notEq => exact .op (o := .notEq)
  case greater => exact .op (o := .greater)
  case less => exact .op (o := .less)
  case greaterEq => exact .op (o := .greaterEq)
  case lessEq => exact .op (o := .lessEq)
  case configPath => exact .op (o := .configPath)
  case associate => exact .op (o := .associate)
  case add => exact .op (o := .add)
  case sub => exact .op (o := .sub)
  case mul => exact .op (o := .mul)
  case div => exact .op (o := .div)
  case rem => exact .op (o := .rem)
  case exp => exact .op (o := .exp)
  case select => exact .op (o := .select)

theorem un_noComment (c : UnCmd) : isComment (unName c) = false := by cases c <;> rfl
theorem bin_noComment (c : BinCmd) : isComment (binName c) = false := by cases c <;> rfl

theorem safe_blank (r : Text) : Safe (' ' :: r) := by intro c hc; cases hc; simp
theorem safe_comma (r : Text) : Safe (',' :: r) := by intro c hc; cases hc; simp
theorem safe_square (r : Text) : Safe (']' :: r) := by intro c hc; cases hc; simp
theorem safe_round (r : Text) : Safe (')' :: r) := by intro c hc; cases hc; simp
theorem safe_curly (r : Text) : Safe ('}' :: r) := by intro c hc; cases hc; simp

theorem layout_blank {F : F32} {n : Nat} {ts : List Tok} {s : Text} (h : Layout F (n + 1) ts s) : Layout F n ts (' ' :: s) :=
  .ws (w := [' ']) (by decide) h rfl

/-- One token. -/
theorem reads_one {F : F32} {db : Db} {t : Token} {s : Text} {e : Expr} (hs : Spells F t s) (ht : isComment t = false)
    (h : ∀ sp, ∃ e', eraseE e' = eraseE e ∧ Der db true 10 e' [(t, sp)]) : Reads F db 10 e s := by
  intro n
  obtain ⟨e', he, hd⟩ := h (n, n + s.length)
  refine ⟨[(t, (n, n + s.length))], e', he, ?_, ?_⟩
  · rw [code_cons ht]; exact hd
  · intro us r hr hl
    exact layout_tok hs (ends_safe hr ht) hl

theorem reads_enclose {F : F32} {db : Db} {e : Expr} {s : Text} (h : Reads F db 1 e s) :
    Reads F db 10 e (['('] ++ s ++ [')']) := by
  intro n
  obtain ⟨ts, e', he, hd, hl⟩ := h (n + 1)
  refine ⟨(.ctl .roundOpen, (n, n + 1)) :: ts ++ [(.ctl .roundClose, (n + 1 + s.length, n + 1 + s.length + 1))], e', he, ?_, ?_⟩
  · rw [List.cons_append, code_cons rfl, code_append]
    exact .paren hd
  · intro us r hr hu
    have h1 : Layout F (n + 1 + s.length) ((.ctl .roundClose, (n + 1 + s.length, n + 1 + s.length + 1)) :: us) (')' :: r) := by
      refine layout_tok (s := [')']) (.ctl (c := .roundClose)) trivial ?_
      convert hu using 1
      simp; omega
    have h2 := layout_tok (n := n) (s := ['(']) (.ctl (c := .roundOpen)) trivial (hl _ _ (safe_round r) h1)
    simpa using h2

theorem reads_un {F : F32} {db : Db} {c : UnCmd} {e : Expr} {s : Text} {sp : Span} (hw : ∀ n, c = .named n → IsWord n)
    (hc : unOf db (unName c) = some c) (h : Reads F db 10 e s) : Reads F db 10 (.un c e sp) (unText c ++ [' '] ++ s) := by
  intro n
  obtain ⟨ts, e', he, hd, hl⟩ := h (n + (unText c).length + 1)
  refine ⟨(unName c, (n, n + (unText c).length)) :: ts, .un c e' (n, n + (unText c).length), by simp only [eraseE, he], ?_, ?_⟩
  · rw [code_cons (un_noComment c)]
    exact .un hc hd
  · intro us r hr hu
    have h1 := layout_blank (hl us r hr (by convert hu using 1; simp; omega))
    have h2 := layout_tok (spells_un hw) (ends_safe (safe_blank _) (un_noComment c)) h1
    simpa using h2

theorem reads_bin {F : F32} {db : Db} {c : BinCmd} {e1 e2 : Expr} {s1 s2 : Text} {sp : Span}
    (hw : ∀ n, c = .named n → IsWord n) (hc : binOf db (binName c) = some c) (h1 : Reads F db 10 e1 s1)
    (h2 : Reads F db 10 e2 s2) : Reads F db 1 (.bin c e1 e2 sp) (s1 ++ [' '] ++ binText c ++ [' '] ++ s2) := by
  intro n
  have hp := prec_pos c
  obtain ⟨ts1, e1', he1, hd1, hl1⟩ := h1 n
  obtain ⟨ts2, e2', he2, hd2, hl2⟩ := h2 (n + s1.length + 1 + (binText c).length + 1)
  refine ⟨ts1 ++ (binName c, (n + s1.length + 1, n + s1.length + 1 + (binText c).length)) :: ts2, .bin c e1' e2' (n + s1.length + 1, n + s1.length + 1 + (binText c).length),
    by simp only [eraseE, he1, he2], ?_, ?_⟩
  · rw [code_append, code_cons (bin_noComment c)]
    exact (Der.bin hc rfl (hd1.weaken_le (by omega) (by omega)) (hd2.weaken_le (by omega) (by omega))).weaken_le
      (by omega) hp.1
  · intro us r hr hu
    have h3 := layout_blank (hl2 us r hr (by convert hu using 1; simp; omega))
    have h4 := layout_blank (layout_tok (spells_bin hw) (ends_safe (safe_blank _) (bin_noComment c)) h3)
    have h5 := hl1 _ _ (safe_blank _) h4
    simpa using h5

/-- The elements of an array. -/
def ReadsList (F : F32) (db : Db) (es : List Expr) (s : Text) : Prop := ∀ n, ∃ ts es', eraseEs es' = eraseEs es ∧
  DerList db true es' (SqfParse.code ts) ∧ ∀ us r, Safe r → Layout F (n + s.length) us r → Layout F n (ts ++ us) (s ++ r)

theorem reads_arr {F : F32} {db : Db} {es : List Expr} {s : Text} {sp : Span} (h : ReadsList F db es s) :
    Reads F db 10 (.arr es sp) (['['] ++ s ++ [']']) := by
  intro n
  obtain ⟨ts, es', he, hd, hl⟩ := h (n + 1)
  refine ⟨(.ctl .squareOpen, (n, n + 1)) :: ts ++ [(.ctl .squareClose, (n + 1 + s.length, n + 1 + s.length + 1))],
    .arr es' (0, 0), by simp only [eraseE, he], ?_, ?_⟩
  · rw [List.cons_append, code_cons rfl, code_append]
    exact .arr hd
  · intro us r hr hu
    have h1 : Layout F (n + 1 + s.length) ((.ctl .squareClose, (n + 1 + s.length, n + 1 + s.length + 1)) :: us) (']' :: r) := by
      refine layout_tok (s := [']']) (.ctl (c := .squareClose)) trivial ?_
      convert hu using 1
      simp; omega
    have h2 := layout_tok (n := n) (s := ['[']) (.ctl (c := .squareOpen)) trivial (hl _ _ (safe_square r) h1)
    simpa using h2

theorem reads_code {F : F32} {db : Db} {ss : List Stmt} {src : Bytes} {sp : Span} (h : Printable F db (.code ss src sp)) :
    Reads F db 10 (.code ss src sp) (['{'] ++ dec src ++ ['}']) := by
  intro n
  rw [Printable] at h
  obtain ⟨hb, us0, hlex, hlast, hd⟩ := h
  obtain ⟨ts, hts, hL⟩ := (lex_iff.1 hlex).move (n + 1)
  obtain ⟨ss', he, hd'⟩ := DerBlock.respan hd (SqfParse.code ts) (code_map hts)
  refine ⟨(.ctl .curlyOpen, (n, n + 1)) :: ts ++
    [(.ctl .curlyClose, (n + 1 + (dec src).length, n + 1 + (dec src).length + 1))], .code ss' [] (0, 0),
    by simp only [eraseE, he], ?_, ?_⟩
  · rw [List.cons_append, code_cons rfl, code_append]
    exact .code hd'
  · intro us r hr hu
    have h1 : Layout F (n + 1 + (dec src).length)
        ((.ctl .curlyClose, (n + 1 + (dec src).length, n + 1 + (dec src).length + 1)) :: us) ('}' :: r) := by
      refine layout_tok (s := ['}']) (.ctl (c := .curlyClose)) trivial ?_
      convert hu using 1
      simp; omega
    have hlast' : ∀ t ∈ ts.getLast?, isComment t.1 = false := by
      intro t ht
      have e : ts.getLast?.map Prod.fst = us0.getLast?.map Prod.fst := by
        rw [← List.getLast?_map, ← List.getLast?_map, hts]
      rw [Option.mem_def] at ht
      rw [ht, Option.map_some] at e
      obtain ⟨x, hx, hx2⟩ := Option.map_eq_some_iff.1 e.symm
      rw [← hx2]
      exact hlast x hx
    have h2 := layout_tok (n := n) (s := ['{']) (.ctl (c := .curlyOpen)) trivial
      (layout_append hL hlast' hb (safe_curly r) h1)
    simpa using h2

theorem escape_of {q : Char} {s : Text} (h : q ∉ s) : escape q s = s := by
  induction s with
  | nil => rfl
  | cons a s ih =>
    simp only [List.mem_cons, not_or] at h
    have := ih h.2
    simp only [escape] at this
    simp [escape, Ne.symm h.1, this]

theorem Reads.weaken {F : F32} {db : Db} {e : Expr} {s : Text} (h : Reads F db 10 e s) : Reads F db 1 e s := by
  intro n
  obtain ⟨ts, e', he, hd, hl⟩ := h n
  exact ⟨ts, e', he, hd.weaken_le (by omega) (by omega), hl⟩

theorem reads_enclosed {F : F32} {db : Db} {e : Expr} {s : Text} (h : Reads F db (if isBinary e then 1 else 10) e s) :
    Reads F db 10 e (enclose (isBinary e) s) := by
  cases hb : isBinary e with
  | true => rw [hb, if_pos rfl] at h; exact reads_enclose h
  | false => rw [hb] at h; exact h

theorem reads_low {F : F32} {db : Db} {e : Expr} {s : Text} (h : Reads F db (if isBinary e then 1 else 10) e s) :
    Reads F db 1 e s := by
  cases hb : isBinary e with
  | true => rw [hb, if_pos rfl] at h; exact h
  | false => rw [hb] at h; exact h.weaken

mutual
theorem source_reads {F : F32} {db : Db} (hdb : db.Plain) : ∀ e : Expr, Printable F db e →
    Reads F db (if isBinary e then 1 else 10) e (source F e)
  | .num x sp, h => by
    rw [Printable] at h
    rw [source]
    exact reads_one (.num h) rfl fun sp => ⟨_, by simp only [eraseE], .num⟩
  | .str s sp w, h => by
    rw [Printable] at h
    obtain ⟨t, rfl, ht⟩ := h
    rw [source, dec_enc]
    have := Spells.str (F := F) (s := t) (w := w)
    rw [escape_of ht] at this
    exact reads_one this rfl fun sp => ⟨_, by simp only [eraseE], .str⟩
  | .bool b sp, h => by
    rw [source]
    cases b with
    | true =>
      exact reads_one (.name (c := 't') (s := ['r', 'u', 'e']) (by decide) (by decide)) rfl
        fun sp => ⟨_, by simp only [eraseE], .tru (by decide)⟩
    | false =>
      exact reads_one (.name (c := 'f') (s := ['a', 'l', 's', 'e']) (by decide) (by decide)) rfl
        fun sp => ⟨_, by simp only [eraseE], .fls (by decide)⟩
  | .nular n sp, h => by
    rw [Printable] at h
    rw [source]
    exact reads_one (spells_word h.1) rfl fun sp => ⟨_, by simp only [eraseE], .nular h.2.1 h.2.2.1 h.2.2.2⟩
  | .var n sp, h => by
    rw [Printable] at h
    rw [source]
    exact reads_one (spells_word h.1) rfl fun sp => ⟨_, by simp only [eraseE], .var h.2⟩
  | .arr es sp, h => by
    rw [Printable] at h
    rw [source]
    cases es with
    | nil =>
      intro n
      refine ⟨[(.ctl .squareOpen, (n, n + 1)), (.ctl .squareClose, (n + 1, n + 1 + 1))], .arr [] (0, 0), by simp only [eraseE],
        ?_, ?_⟩
      · rw [code_cons rfl, code_cons rfl]; exact .arr0
      · intro us r hr hu
        rw [sources] at hu ⊢
        have h1 := layout_tok (F := F) (s := [']']) (.ctl (c := .squareClose)) trivial (n := n + 1) hu
        exact layout_tok (F := F) (s := ['[']) (.ctl (c := .squareOpen)) trivial (n := n) h1
    | cons e es => exact reads_arr (sources_reads hdb (e :: es) (by simp) h)
  | .carr es sp, h => by rw [Printable] at h; exact h.elim
  | .code ss src sp, h => by rw [source]; exact reads_code h
  | .un c e sp, h => by
    rw [Printable] at h
    rw [source]
    exact reads_un (fun n hn => (h.1 n hn).1) (unName_of fun n hn => (h.1 n hn).2) (reads_enclosed (source_reads hdb e h.2))
  | .bin c l r sp, h => by
    rw [Printable] at h
    rw [source]
    exact reads_bin (fun n hn => (h.1 n hn).1) (binName_of hdb fun n hn => (h.1 n hn).2)
      (reads_enclosed (source_reads hdb l h.2.1)) (reads_enclosed (source_reads hdb r h.2.2))
theorem sources_reads {F : F32} {db : Db} (hdb : db.Plain) : ∀ es : List Expr, es ≠ [] → Printables F db es →
    ReadsList F db es (sources F es)
  | [], h0, _ => absurd rfl h0
  | [e], _, h => by
    rw [Printables] at h
    rw [sources]
    intro n
    obtain ⟨ts, e', he, hd, hl⟩ := reads_low (source_reads hdb e h.1) n
    exact ⟨ts, [e'], by simp only [eraseEs, he], .one hd, hl⟩
  | e :: e2 :: es, _, h => by
    rw [Printables] at h
    rw [sources]
    intro n
    obtain ⟨ts, e', he, hd, hl⟩ := reads_low (source_reads hdb e h.1) n
    obtain ⟨ts2, es', he2, hd2, hl2⟩ := sources_reads hdb (e2 :: es) (by simp) h.2 (n + (source F e).length + 1)
    refine ⟨ts ++ (.ctl .separator, (n + (source F e).length, n + (source F e).length + 1)) :: ts2, e' :: es', ?_, ?_, ?_⟩
    · rw [eraseEs, he, he2]; simp only [eraseEs]
    · rw [code_append, code_cons rfl]
      exact .cons hd hd2
    · intro us r hr hu
      have h3 := hl2 us r hr (by convert hu using 1; simp; omega)
      have h4 := layout_tok (F := F) (s := [',']) (.ctl (c := .separator)) trivial (n := n + (source F e).length) h3
      have h5 := hl _ _ (safe_comma _) h4
      simpa using h5
end

end Verif.SqfLex
