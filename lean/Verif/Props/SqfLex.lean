import Verif.Lib.SqfSource
/-!
C50: the SQF lexer reads a text as its tokens, whatever the layout.
C51: the text an expression is printed as is that expression.

`Layout` in Verif.Lib.SqfText is the specification of the first, the grammar of C28 together with it that of the second.
-/
namespace Verif.SqfLex
open Verif.Sqf Verif.SqfParse
open Verif.Prefix (isWs)

/-- C50: the lexer accepts exactly the texts that consist of tokens, each as long as it can be, with white space between
them, and returns these tokens with their positions. -/
theorem C50_lex {F : F32} {s : Text} {ts : List Tok} : lex F s = some ts ↔ Layout F 0 ts s := lex_iff

theorem layout_spans {F : F32} {n : Nat} {ts : List Tok} {s : Text} (h : Layout F n ts s) :
    (∀ x ∈ ts, n ≤ x.2.1 ∧ x.2.1 < x.2.2 ∧ x.2.2 ≤ n + s.length ∧
      Spells F x.1 ((s.drop (x.2.1 - n)).take (x.2.2 - x.2.1))) ∧
    ts.Pairwise (fun x y => x.2.2 ≤ y.2.1) ∧
    ∀ i c, s[i]? = some c → (∀ x ∈ ts, ¬ (x.2.1 ≤ n + i ∧ n + i < x.2.2)) → isWs c = true := by
  induction h with
  | done hw => exact ⟨by simp, .nil, fun i c hc _ => hw c (List.mem_of_getElem? hc)⟩
  | @tok n w t p ts r hw hs hr h ih =>
    obtain ⟨ih1, ih2, ih3⟩ := ih
    have hp : 0 < p.length := by
      obtain ⟨c, s', rfl, -⟩ := hs.head
      simp
    refine ⟨?_, ?_, ?_⟩
    · intro x hx
      simp only [List.length_append]
      rcases List.mem_cons.1 hx with rfl | hx
      · refine ⟨by simp, by simp only; omega, by simp only; omega, ?_⟩
        have e : ((w ++ p ++ r).drop (n + w.length - n)).take (n + w.length + p.length - (n + w.length)) = p := by
          rw [Nat.add_sub_cancel_left, Nat.add_sub_cancel_left, List.append_assoc, List.drop_left, List.take_left]
        simp only
        rw [e]
        exact hs
      · obtain ⟨h1, h2, h3, h4⟩ := ih1 x hx
        refine ⟨by omega, h2, by omega, ?_⟩
        have e : (w ++ p ++ r).drop (x.2.1 - n) = r.drop (x.2.1 - (n + w.length + p.length)) := by
          rw [List.drop_append, List.drop_eq_nil_of_le (by rw [List.length_append]; omega), List.nil_append,
            List.length_append]
          congr 1
          omega
        rw [e]
        exact h4
    · refine List.pairwise_cons.2 ⟨fun y hy => (ih1 y hy).1, ih2⟩
    · intro i c hc hx
      by_cases h1 : i < w.length
      · rw [List.append_assoc, List.getElem?_append_left h1] at hc
        exact hw c (List.mem_of_getElem? hc)
      · by_cases h2 : i < w.length + p.length
        · exact absurd ⟨by simp only; omega, by simp only; omega⟩ (hx _ (List.mem_cons_self ..))
        · rw [List.getElem?_append_right (by rw [List.length_append]; omega)] at hc
          refine ih3 _ c hc fun x hx' => ?_
          have := hx x (List.mem_cons_of_mem _ hx')
          rw [List.length_append]
          intro hh
          exact this (by omega)

/-- C50: the positions of the tokens are right: at its position each token is written in the text, they do not overlap, and
between them there is nothing but white space. -/
theorem C50_span {F : F32} {s : Text} {ts : List Tok} (h : lex F s = some ts) :
    (∀ t b e, (t, (b, e)) ∈ ts → b < e ∧ e ≤ s.length ∧ Spells F t ((s.drop b).take (e - b))) ∧
    ts.Pairwise (fun x y => x.2.2 ≤ y.2.1) ∧
    ∀ i c, s[i]? = some c → (∀ x ∈ ts, ¬ (x.2.1 ≤ i ∧ i < x.2.2)) → isWs c = true := by
  obtain ⟨h1, h2, h3⟩ := layout_spans (lex_iff.1 h)
  refine ⟨fun t b e hx => ?_, h2, fun i c hc hx => h3 i c hc (by simpa using hx)⟩
  have := h1 _ hx
  simp only [Nat.zero_add, Nat.sub_zero] at this
  exact this.2

/-- C50: tokens written one after the other with a blank behind each are read as these tokens. Only a comment to the end of
the line is left out, which needs a line of its own. -/
theorem C50_blank {F : F32} {l : List (Token × Text)} (h : ∀ p ∈ l, Spells F p.1 p.2 ∧ ¬ ['/', '/'] <+: p.2) :
    ∃ ts, lex F (l.flatMap fun p => p.2 ++ [' ']) = some ts ∧ ts.map Prod.fst = l.map Prod.fst := by
  have key : ∀ n, ∃ ts, Layout F n ts (l.flatMap fun p => p.2 ++ [' ']) ∧ ts.map Prod.fst = l.map Prod.fst := by
    induction l with
    | nil => exact fun n => ⟨[], .done (by simp), rfl⟩
    | cons p l ih =>
      intro n
      obtain ⟨t, s⟩ := p
      obtain ⟨hs, hc⟩ := h (t, s) (by simp)
      obtain ⟨ts, hl, he⟩ := ih (fun p hp => h p (by simp [hp])) (n + s.length + 1)
      refine ⟨(t, (n, n + s.length)) :: ts, ?_, by simp [he]⟩
      have hE : Ends t s (' ' :: l.flatMap fun p => p.2 ++ [' ']) := by
        cases hk : isComment t with
        | false => exact ends_safe (safe_blank _) hk
        | true =>
          cases hs with
          | block => exact .inl (by simp)
          | line => exact absurd (by simp) hc
          | op => cases hk
          | ctl => cases hk
          | num => cases hk
          | name => cases hk
          | str => cases hk
      have := layout_tok hs hE (layout_blank hl)
      simpa using this
  obtain ⟨ts, hl, he⟩ := key 0
  exact ⟨ts, lex_iff.2 hl, he⟩

/-- C50: from text to program: a text is read as a program if and only if its tokens are that program according to the
grammar. -/
theorem C50_program {env : Env} {F : F32} (hdb : env.db.Plain) {s : Text} :
    (∀ ss, compile env F s = some ss → ∃ ts, Layout F 0 ts s ∧ DerBlock env.db true ss (SqfParse.code ts)) ∧
    (∀ ss ts, Layout F 0 ts s → DerBlock env.db true ss (SqfParse.code ts) →
      ∃ ss', compile env F s = some ss' ∧ eraseSs ss' = eraseSs ss) := by
  constructor
  · intro ss h
    obtain ⟨ts, h1, h2⟩ := Option.bind_eq_some_iff.1 h
    exact ⟨ts, lex_iff.1 h1, C28_sound hdb.special h2⟩
  · intro ss ts h1 h2
    obtain ⟨ss', h3, h4⟩ := C28_complete hdb h2
    exact ⟨ss', by rw [compile, lex_iff.2 h1]; exact h3, h4⟩

/-- C50: white space and comments do not matter: two texts with the same tokens are the same program. -/
theorem C50_layout {env : Env} {F : F32} (hdb : env.db.Plain) {s s' : Text} {ts ts' : List Tok} (h : lex F s = some ts)
    (h' : lex F s' = some ts') (he : (SqfParse.code ts).map Prod.fst = (SqfParse.code ts').map Prod.fst) {ss : List Stmt}
    (hc : compile env F s = some ss) : ∃ ss', compile env F s' = some ss' ∧ eraseSs ss' = eraseSs ss := by
  obtain ⟨us, h1, h2⟩ := Option.bind_eq_some_iff.1 hc
  rw [h] at h1
  cases h1
  obtain ⟨ss1, e1, hd⟩ := DerBlock.respan (C28_sound hdb.special h2) (SqfParse.code ts') he.symm
  obtain ⟨ss2, h3, e2⟩ := (C50_program (F := F) hdb).2 ss1 ts' (lex_iff.1 h') hd
  exact ⟨ss2, h3, e2.trans e1⟩

/-- C51: the text an expression is printed as is read as that expression, if its numbers can be read, its strings do not
contain their own quote, and the text kept of each piece of code is that code. -/
theorem C51_source {env : Env} {F : F32} (hdb : env.db.Plain) {e : Expr} (h : Printable F env.db e) :
    ∃ ss, compile env F (source F e) = some ss ∧ eraseSs ss = eraseSs [.expr e (0, 0)] := by
  obtain ⟨ts, e', he, hd, hl⟩ := reads_low (source_reads hdb e h) 0
  have h1 := hl [] [] (by simp [Safe]) (.done (by simp))
  rw [List.append_nil, List.append_nil] at h1
  obtain ⟨ss, h2, h3⟩ := (C50_program (F := F) hdb).2 [.expr e' (0, 0)] ts h1 (.last (.expr hd))
  refine ⟨ss, h2, h3.trans ?_⟩
  simp only [eraseSs, eraseS, he]

theorem escape_fix {q : Char} {s : Text} (h : escape q s = s) : q ∉ s := by
  induction s with
  | nil => simp
  | cons a s ih =>
    by_cases ha : a = q
    · exfalso
      have h1 : ∀ t : Text, t.length ≤ (escape q t).length := by
        intro t
        induction t with
        | nil => simp
        | cons b t iht =>
          have : escape q (b :: t) = (if b = q then [q, q] else [b]) ++ escape q t := rfl
          rw [this]
          split <;> simp <;> omega
      have h2 : escape q (a :: s) = q :: q :: escape q s := by simp [escape, ha]
      have h3 := congrArg List.length h
      rw [h2] at h3
      have := h1 s
      simp at h3
      omega
    · have h2 : escape q (a :: s) = a :: escape q s := by simp [escape, ha]
      rw [h2, List.cons.injEq] at h
      simp only [List.mem_cons, not_or]
      exact ⟨Ne.symm ha, ih h.2⟩

/-- C51: exactly the strings without their own quote are printed so that they can be read again. -/
theorem C51_string {F : F32} {s : Text} {w : Wrapper} {sp : Span} :
    (∃ sp', lex F (source F (.str (enc s) sp w)) = some [(.str (enc s) w, sp')]) ↔ quote w ∉ s := by
  rw [source, dec_enc]
  constructor
  · rintro ⟨sp', h⟩
    generalize hx : [quote w] ++ s ++ [quote w] = x at h
    obtain ⟨b, e⟩ := sp'
    have hL := lex_iff.1 h
    cases hL with
    | @tok _ ws _ p _ r hw hs hr hd =>
      have hq : isWs (quote w) = false := by cases w <;> decide
      have hws : ws = [] := by
        cases ws with
        | nil => rfl
        | cons a ws =>
          have : a = quote w := by simpa using (congrArg List.head? hx).symm
          have h1 := hw a (by simp)
          rw [this, hq] at h1
          cases h1
      subst hws
      have hr0 : r = [] := by
        have hall : ∀ c ∈ r, isWs c = true := by
          cases hd with
          | done hw => exact hw
        cases r using List.reverseRec with
        | nil => rfl
        | append_singleton r c =>
          have : c = quote w := by
            have := congrArg List.getLast? hx
            rw [← List.append_assoc, List.getLast?_concat, List.getLast?_concat] at this
            exact (Option.some.inj this).symm
          have h1 := hall c (by simp)
          rw [this, hq] at h1
          cases h1
      subst hr0
      generalize ht : Token.str (enc s) w = t at hs
      cases hs with
      | @str u w' =>
        simp only [Token.str.injEq] at ht
        obtain ⟨h1, rfl⟩ := ht
        have := enc_inj h1
        subst this
        refine escape_fix ?_
        simp only [List.nil_append, List.append_nil] at hx
        exact (List.append_cancel_left (List.append_cancel_right hx)).symm
      | _ => cases ht
  · intro h
    have := Spells.str (F := F) (s := s) (w := w)
    rw [escape_of h] at this
    have h1 := layout_tok (n := 0) (r := []) this trivial (.done (by simp))
    rw [List.append_nil] at h1
    exact ⟨_, lex_iff.2 h1⟩

/-- C51: a number that is printed with digits only, and is 2^32 or more, cannot be read at all. -/
theorem C51_large {F : F32} {x : UInt32} {sp : Span} (hd : Digits (F.display x)) (hv : 2 ^ 32 ≤ value 10 (F.display x)) :
    lex F (source F (.num x sp)) = none := by
  rw [source]
  cases hl : lex F (F.display x) with
  | none => rfl
  | some ts =>
    exfalso
    have hL := lex_iff.1 hl
    generalize F.display x = s at hd hv hL
    clear hl
    have hnw : ∀ {c : Char}, isDigit c = true → isWs c = false := by
      intro c hc
      cases hw : isWs c with
      | false => rfl
      | true =>
        have := ws_noName hw
        rw [name_of_digit hc] at this
        cases this
    cases hL with
    | done hw =>
      obtain ⟨c, s', rfl, hc⟩ := hd.cons
      have := hw c (by simp)
      rw [hnw hc] at this
      cases this
    | @tok _ w t p ts r hw hs hr h =>
      have hws : w = [] := by
        cases w with
        | nil => rfl
        | cons a w =>
          have h1 := hw a (by simp)
          rw [hnw (hd.2 a (by simp))] at h1
          cases h1
      subst hws
      rw [List.nil_append] at hd hv
      obtain ⟨c, s', hp, -, -, h2⟩ := hs.head
      have hc : isDigit c = true := hd.2 c (by rw [hp]; simp)
      cases hk : isConst t with
      | false =>
        have := (h2 hk).1
        rw [name_of_digit hc] at this
        cases this
      | true =>
        have hr' := (ends_const hk).1 hr
        have hr0 : r = [] := by
          cases r with
          | nil => rfl
          | cons a r =>
            have := hr'.1
            rw [name_of_digit (hd.2 a (by simp))] at this
            cases this
        subst hr0
        rw [List.append_nil] at hd hv
        cases hs with
        | num hn =>
          cases hn with
          | int _ hv' => omega
          | @hex q d hq _ _ _ =>
            rcases hq with rfl | rfl
            · exact absurd (hd.2 '$' (by simp)) (by decide)
            · exact absurd (hd.2 'x' (by simp)) (by decide)
          | frac => exact absurd (hd.2 '.' (by simp)) (by decide)
          | @exp w d c g x hw _ hc =>
            have := hd.2 c (by simp)
            rcases hc with rfl | rfl <;> exact absurd this (by decide)
        | name hc' =>
          simp only [List.cons.injEq] at hp
          rw [hp.1, (digit_ne hc).2.2.2.2.2.2.2.1] at hc'
          cases hc'
        | @str u w =>
          simp only [List.cons_append, List.nil_append, List.cons.injEq] at hp
          rw [← hp.1] at hc
          exact absurd hc (by cases w <;> decide)
        | op => cases hk
        | ctl => cases hk
        | block => cases hk
        | line => cases hk

/-! ### Examples -/

/-- Numbers as far as the examples need them: whole numbers are their own bit pattern. -/
def sampleF : F32 where
  parse _ := 0x3f800000
  ofNat n := UInt32.ofNat n
  display x := if x = 5 then ['5'] else ['1', '0', '0', '0', '0', '0', '0', '0', '0', '0', '0']

/-- The longest operator is taken, `>=` and not `>`; a quote is written twice; the comment is a token. -/
example : lex sampleF "a>=\"x\"\"y\" /* c */ + 0x1F;".toList = some [(.ident (ascii "a"), (0, 1)), (.op .greaterEq, (1, 3)),
    (.str (ascii "x\"y") .double, (3, 9)), (.comment (ascii "/* c */"), (10, 17)), (.op .add, (18, 19)), (.num 31, (20, 24)),
    (.ctl .terminator, (24, 25))] := by decide +kernel

/-- Constants without anything between them are refused, as is a fraction with an exponent but no whole part. -/
example : lex sampleF "1a".toList = none ∧ lex sampleF ".5e3".toList = none ∧ lex sampleF "a\"b\"".toList = none := by
  decide +kernel

/-- The hypotheses of `C50_blank`. -/
example : (∀ p ∈ [(Token.op .div, ['/']), (.op .mul, ['*']), (.num 5, ['5'])], Spells sampleF p.1 p.2 ∧ ¬ ['/', '/'] <+: p.2) ∧
    lex sampleF "/ * 5 ".toList = some [(.op .div, (0, 1)), (.op .mul, (2, 3)), (.num 5, (4, 5))] := by
  refine ⟨?_, by decide +kernel⟩
  intro p hp
  simp only [List.mem_cons, List.not_mem_nil, or_false] at hp
  rcases hp with rfl | rfl | rfl
  · exact ⟨.op (o := .div), by decide⟩
  · exact ⟨.op (o := .mul), by decide⟩
  · exact ⟨.num (.int (F := sampleF) (d := ['5']) ⟨by simp, by decide⟩ (by decide)), by decide⟩

/-- The hypotheses of `C50_layout` and its conclusion: a comment and blanks make no difference. -/
example : (lex sampleF "x=5".toList).map (fun ts => (SqfParse.code ts).map Prod.fst) =
      (lex sampleF " x /* five */ = 5".toList).map (fun ts => (SqfParse.code ts).map Prod.fst) ∧
    (compile (sampleEnv sampleDb) sampleF "x=5".toList).isSome = true := by decide +kernel

/-- `hint ([{x = 5},'a'] isEqualTo player)` -/
def sampleExpr : Expr := .un (.named (ascii "hint")) (.bin (.named (ascii "isEqualTo"))
  (.arr [.code [.assignGlobal (ascii "x") (.num 5 (4, 5)) (0, 0)] (ascii "x = 5") (0, 0), .str (ascii "a") (0, 0) .single] (0, 0))
  (.nular (ascii "player") (0, 0)) (0, 0)) (0, 0)

example : Printable sampleF sampleDb sampleExpr ∧ source sampleF sampleExpr = "hint ([{x = 5},'a'] isEqualTo player)".toList := by
  constructor
  · have w : ∀ c s, isFirst c = true → (∀ x ∈ s, isName x = true) → IsWord (enc (c :: s)) :=
      fun c s h1 h2 => ⟨c, s, rfl, h1, h2⟩
    have n5 : NumText sampleF 5 ['5'] := .int (F := sampleF) (d := ['5']) ⟨by simp, by decide⟩ (by decide)
    simp only [sampleExpr, Printable, Printables]
    refine ⟨?_, ?_, ⟨⟨by decide +kernel, [(.ident (ascii "x"), (0, 1)), (.op .assign, (2, 3)), (.num 5, (4, 5))], by decide +kernel,
      by decide +kernel, ?_⟩, ⟨['a'], by decide +kernel, by decide⟩, trivial⟩, ?_, by decide +kernel⟩
    · rintro n hn
      cases hn
      exact ⟨w 'h' ['i', 'n', 't'] (by decide) (by decide), by decide +kernel⟩
    · rintro n hn
      cases hn
      exact ⟨w 'i' ['s', 'E', 'q', 'u', 'a', 'l', 'T', 'o'] (by decide) (by decide), by decide +kernel⟩
    · exact .last (.global (by unfold IsVar; decide +kernel) (Der.num.weaken_le (by omega) (by omega)))
    · exact w 'p' ['l', 'a', 'y', 'e', 'r'] (by decide) (by decide)
  · decide +kernel

/-- C51, violated: a string with its own quote in it is printed as something else, a large number as something that cannot
be read; Rust prints `1e10` as `10000000000`. -/
theorem C51_violated : ∃ (F : F32) (a b : Expr), lex F (source F a) = none ∧ lex F (source F b) = none ∧
    a = .str (ascii "say \"hi\"") (0, 0) .double ∧ b = .num 0x501502f9 (0, 0) :=
  ⟨sampleF, _, _, by decide +kernel, by decide +kernel, rfl, rfl⟩

/-- The hypotheses of `C51_large`. -/
example : Digits (sampleF.display 0x501502f9) ∧ 2 ^ 32 ≤ value 10 (sampleF.display 0x501502f9) :=
  ⟨⟨by decide, by decide⟩, by decide⟩

end Verif.SqfLex
