import Verif.Lib.SqfSuggest
import Verif.Lib.SqfToy
/-!
C66-C69: what lints suggest to write instead is read as intended and has the same value.
-/
namespace Verif.SqfLint
open Verif.Sqf Verif.SqfLex Verif.SqfParse

variable {S V : Type} {G : Game S V} {env : Env} {F : F32} {lower : Bytes → Bytes}

/-! ### C66: conditional assignments -/

/-- C66: what is reported: `if` and `else` with a literal or a variable on both sides, unless the condition is `isNil`. -/
theorem C66_reported {e : Expr} : (ifAssign F lower e).isSome = true ↔
    ∃ n m cond l r a b p p' p'', e = .bin (.named n) (.un (.named m) cond p) (.bin .els l r p') p'' ∧ lower n = ascii "then" ∧
      Block l a ∧ Block r b ∧ Constant a ∧ Constant b ∧
      ¬ ∃ k x q, cond = .un (.named k) x q ∧ lower k = ascii "isnil" := by
  have key : ∀ {l : Expr}, (∃ c, extractConstant F l = some c) ↔ ∃ a, Block l a ∧ Constant a := by
    intro l
    constructor
    · rintro ⟨c, h⟩
      unfold extractConstant at h
      split at h
      · exact ⟨_, ⟨_, _, _, rfl⟩, .bool⟩
      · exact ⟨_, ⟨_, _, _, rfl⟩, .num⟩
      · exact ⟨_, ⟨_, _, _, rfl⟩, .str⟩
      · exact ⟨_, ⟨_, _, _, rfl⟩, .var⟩
      · cases h
    · rintro ⟨a, ⟨sp, src, sp', rfl⟩, h⟩
      cases h <;> exact ⟨_, rfl⟩
  have hnil : ∀ {c : Expr}, isNilCheck lower c = true ↔ ∃ k x q, c = .un (.named k) x q ∧ lower k = ascii "isnil" := by
    intro c
    constructor
    · intro h
      unfold isNilCheck at h
      split at h
      · exact ⟨_, _, _, rfl, by simpa using h⟩
      · cases h
    · rintro ⟨k, x, q, rfl, h⟩
      simp [isNilCheck, h]
  constructor
  · intro h
    unfold ifAssign at h
    split at h
    · rename_i n m cond p l r p' p''
      split at h
      · rename_i hn
        split at h
        · rename_i a b ha hb
          split at h
          · cases h
          · rename_i hx
            obtain ⟨a', h1, h2⟩ := key.1 ⟨_, ha⟩
            obtain ⟨b', h3, h4⟩ := key.1 ⟨_, hb⟩
            exact ⟨n, m, cond, l, r, a', b', p, p', p'', rfl, hn, h1, h3, h2, h4, fun hc => hx (hnil.2 hc)⟩
        · cases h
      · cases h
    · cases h
  · rintro ⟨n, m, cond, l, r, a, b, p, p', p'', rfl, hn, hl, hr, ha, hb, hx⟩
    obtain ⟨c, hc⟩ := key.2 ⟨a, hl, ha⟩
    obtain ⟨d, hd⟩ := key.2 ⟨b, hr, hb⟩
    have : isNilCheck lower cond = false := by
      rw [Bool.eq_false_iff]
      exact fun h => hx (hnil.1 h)
    simp [ifAssign, hn, hc, hd, this]

/-- The parts of a report. -/
theorem if_parts {e cond l r : Expr} {n m : Bytes} {p p' p'' : Span} {rep : IfAssign}
    (he : e = .bin (.named n) (.un (.named m) cond p) (.bin .els l r p') p'') (h : ifAssign F lower e = some rep) :
    lower n = ascii "then" ∧ extractConstant F l = some rep.lhs ∧ extractConstant F r = some rep.rhs ∧ rep.cond = source F cond := by
  subst he
  rw [ifAssign] at h
  split at h
  · rename_i hn
    split at h
    · rename_i a b ha hb
      split at h
      · cases h
      · cases h
        exact ⟨hn, ha, hb, rfl⟩
    · cases h
  · cases h

theorem eval_if (hG : G.Laws) {e cond l r a b : Expr} {n m : Bytes} {p p' p'' : Span}
    (he : e = .bin (.named n) (.un (.named m) cond p) (.bin .els l r p') p'') (hn : asciiLower n = ascii "then")
    (hm : asciiLower m = ascii "if") (hl : Block l a) (hr : Block r b) (ha : Constant a) (hb : Constant b) {s s' : S} {c : Bool}
    (hc : Decides G cond s c s') : G.eval e s = G.eval (if c then a else b) s' := by
  obtain ⟨_, _, _, rfl⟩ := hl
  obtain ⟨_, _, _, rfl⟩ := hr
  have h1 : ∀ x sp, Constant x → G.call (G.code (eraseSs [.expr x sp])) s' = G.eval x s' := by
    intro x sp hx
    have := hG.call_ x s' hx
    simpa only [eraseSs, eraseS] using this
  unfold Decides at hc
  subst he
  simp only [Game.eval, hc, hG.if_ m c s' hm, hG.else_, hG.then_ n c _ _ s' hn]
  cases c
  · simpa using h1 b _ hb
  · simpa using h1 a _ ha

/-- C66: the suggestion with `select` is read as an array of the two and a selection, and has the value of the `if`, if the
condition is true or false and both branches have a value before and after it. -/
theorem C66_select (hdb : env.db.Plain) (hlow : PlainLower lower) (hG : G.Laws) (hsel : env.db.hasBinary (ascii "select") = true)
    {e cond l r a b : Expr} {n m : Bytes} {p p' p'' : Span} {rep : IfAssign}
    (he : e = .bin (.named n) (.un (.named m) cond p) (.bin .els l r p') p'') (hn : IsWord n) (hm : asciiLower m = ascii "if")
    (hl : Block l a) (hr : Block r b) (hc : Printable F env.db cond) (ha : Printable F env.db a) (hb : Printable F env.db b)
    (qa : NoQuote a) (qb : NoQuote b) (h : ifAssign F lower e = some rep) (h10 : ¬ (rep.lhs.1 = ['1'] ∧ rep.rhs.1 = ['0'])) :
    ∃ e', ReadAs env F 4 rep.suggestion e' ∧
      ∀ s c s', Decides G cond s c s' → Settled G a s s' → Settled G b s s' → G.eval e' s = G.eval e s := by
  obtain ⟨h1, h2, h3, h4⟩ := if_parts he h
  rw [hlow n hn] at h1
  obtain ⟨ka, ra⟩ : Constant a ∧ Reads F env.db 10 (requote a) (quoted rep.lhs) := by
    obtain ⟨_, _, _, rfl⟩ := hl
    exact reads_constant hdb h2 ha qa
  obtain ⟨kb, rb⟩ : Constant b ∧ Reads F env.db 10 (requote b) (quoted rep.rhs) := by
    obtain ⟨_, _, _, rfl⟩ := hr
    exact reads_constant hdb h3 hb qb
  refine ⟨.bin (.named (ascii "select")) (.arr [requote b, requote a] (0, 0)) cond (0, 0), ?_, ?_⟩
  · have hR := reads_binp (c := .named (ascii "select")) (sp := (0, 0)) (fun n hn => by cases hn; exact word_select)
      (binName_of hdb fun n hn => by cases hn; exact hsel) (reads_two (sp := (0, 0)) rb ra)
      (reads_enclose (reads_low (source_reads hdb cond hc)))
    refine readAs hdb (by decide) (by decide) ?_
    have e1 : rep.suggestion = ['['] ++ (quoted rep.rhs ++ [',', ' '] ++ quoted rep.lhs) ++ [']'] ++ [' '] ++
        binText (.named (ascii "select")) ++ [' '] ++ (['('] ++ source F cond ++ [')']) := by
      unfold IfAssign.suggestion
      rw [if_neg h10, h4]
      have : binText (.named (ascii "select")) = "select".toList := by decide +kernel
      rw [this]
      simp
    rw [e1]
    exact hR
  · rintro s c s' hd ⟨va, sa, sa'⟩ ⟨vb, sb, sb'⟩
    rw [eval_if hG he h1 hm hl hr ka kb hd]
    unfold Decides at hd
    simp only [Game.eval, Game.evals, eval_requote, sb, sa, hd, hG.select_ _ _ _ _ _ (show asciiLower (ascii "select") = ascii "select" by decide +kernel)]
    cases c <;> simp [sa', sb']

/-- C66: literals have the same value always. -/
theorem C66_literal {a : Expr} (h : Literally a) (s s' : S) : Settled G a s s' := by
  cases h <;> exact ⟨_, rfl, rfl⟩

/-- C66: the suggestion with `parseNumber` is read as intended only if the condition is not a binary command: there are no
parentheses around it. It is false of others, see `C66_violated`. -/
theorem C66_parse_number (hdb : env.db.Plain) (hlow : PlainLower lower) (hG : G.Laws) (hpn : env.db.hasUnary (ascii "parseNumber") = true)
    {e cond l r : Expr} {n m : Bytes} {x y : UInt32} {p p' p'' q q' : Span} {rep : IfAssign}
    (he : e = .bin (.named n) (.un (.named m) cond p) (.bin .els l r p') p'') (hn : IsWord n) (hm : asciiLower m = ascii "if")
    (hl : Block l (.num x q)) (hr : Block r (.num y q')) (hc : Printable F env.db cond)
    (h : ifAssign F lower e = some rep) (h10 : rep.lhs.1 = ['1'] ∧ rep.rhs.1 = ['0'])
    (hF : ∀ x, (F.display x = ['1'] → x = oneBits) ∧ (F.display x = ['0'] → x = zeroBits)) (hb : ∀ c l r sp, cond ≠ .bin c l r sp) :
    ∃ e', ReadAs env F 10 rep.suggestion e' ∧ ∀ s c s', Decides G cond s c s' → G.eval e' s = G.eval e s := by
  obtain ⟨h1, h2, h3, h4⟩ := if_parts he h
  rw [hlow n hn] at h1
  have hb' : isBinary cond = false := by
    cases cond <;> first | rfl | exact absurd rfl (hb _ _ _ _)
  have hx : x = oneBits := by
    obtain ⟨_, _, _, rfl⟩ := hl
    simp only [extractConstant, Option.some.injEq] at h2
    exact (hF x).1 (by rw [← h10.1, ← h2])
  have hy : y = zeroBits := by
    obtain ⟨_, _, _, rfl⟩ := hr
    simp only [extractConstant, Option.some.injEq] at h3
    exact (hF y).2 (by rw [← h10.2, ← h3])
  refine ⟨.un (.named (ascii "parseNumber")) cond (0, 0), ?_, ?_⟩
  · have hs := source_reads hdb cond hc
    rw [hb'] at hs
    have hR := reads_un (c := .named (ascii "parseNumber")) (sp := (0, 0)) (fun n hn => by cases hn; exact word_parseNumber)
      (unName_of fun n hn => by cases hn; exact hpn) hs
    refine readAs hdb (by decide) (by decide) ?_
    convert hR using 1
    rw [IfAssign.suggestion, if_pos h10, h4]
    have : unText (.named (ascii "parseNumber")) = "parseNumber".toList := by decide +kernel
    rw [this]
    simp
  · intro s c s' hd
    rw [eval_if hG he h1 hm hl hr .num .num hd]
    unfold Decides at hd
    simp only [Game.eval, hd, hG.parseNumber_ _ _ _ (show asciiLower (ascii "parseNumber") = ascii "parsenumber" by decide +kernel), hx, hy]
    cases c <;> rfl

/-! ### C67: selecting 0 or 1 -/

theorem lower_parseNumber : asciiLower (ascii "parseNumber") = ascii "parsenumber" := by decide +kernel
theorem text_parseNumber : unText (.named (ascii "parseNumber")) ++ [' '] = "parseNumber ".toList := by decide +kernel

/-- C67: only conditions that cannot be an index are reported: a string, a truth value, or a command that compares or
combines, or that the wiki says returns truth values. -/
theorem C67_condition {O : FloatOps} {bools : Bytes → Bool} {e : Expr} {t : Text} (h : selectParseNumber F O lower bools e = some t) :
    ∃ n x y cond p q sp sp', e = .bin (.named n) (.arr [.num x p, .num y q] sp) cond sp' ∧ lower n = ascii "select" ∧
      ((∃ s q w, cond = .str s q w) ∨ (∃ b q, cond = .bool b q) ∨ ∃ k, commandName cond = some k ∧
        (k ∈ [ascii "==", ascii "!=", ascii "<", ascii "<=", ascii ">", ascii ">=", ascii "&&", ascii "||"] ∨ bools k = true)) := by
  unfold selectParseNumber at h
  split at h
  · rename_i n x p y q sp cond sp'
    split at h
    · cases h
    · rename_i hn
      split at h
      · cases h
      · rename_i hs
        refine ⟨n, x, y, cond, p, q, sp, sp', rfl, by simpa using hn, ?_⟩
        have hk : ∀ k, safeCommand bools k = true →
            k ∈ [ascii "==", ascii "!=", ascii "<", ascii "<=", ascii ">", ascii ">=", ascii "&&", ascii "||"] ∨ bools k = true := by
          intro k hk
          rw [safeCommand, Bool.or_eq_true, List.contains_iff_mem] at hk
          exact hk
        cases cond with
        | str s q w => exact .inl ⟨s, q, w, rfl⟩
        | bool b q => exact .inr (.inl ⟨b, q, rfl⟩)
        | nular k q => exact .inr (.inr ⟨k, rfl, hk _ (by simpa [safeCond] using hs)⟩)
        | un k a q => exact .inr (.inr ⟨_, rfl, hk _ (by simpa [safeCond] using hs)⟩)
        | bin k a b q => exact .inr (.inr ⟨_, rfl, hk _ (by simpa [safeCond] using hs)⟩)
        | _ => simp [safeCond] at hs
  · cases h

theorem reads_parseNumber (hpn : env.db.hasUnary (ascii "parseNumber") = true) {e : Expr} {t : Text} (h : Reads F env.db 10 e t) :
    Reads F env.db 10 (.un (.named (ascii "parseNumber")) e (0, 0)) ("parseNumber ".toList ++ t) := by
  have := reads_un (c := .named (ascii "parseNumber")) (sp := (0, 0)) (fun n hn => by cases hn; exact word_parseNumber)
    (unName_of fun n hn => by cases hn; exact hpn) h
  rwa [text_parseNumber] at this

/-- The condition or its negation, as the suggestion writes it. -/
theorem parse_text (hdb : env.db.Plain) (hpn : env.db.hasUnary (ascii "parseNumber") = true) (hG : G.Laws) {negate : Bool} {cond : Expr}
    (hc : Printable F env.db cond) : ∃ d, Reads F env.db 10 (.un (.named (ascii "parseNumber")) d (0, 0)) (parseNumberText F negate cond) ∧
      ∀ s c s', Decides G cond s c s' → G.eval d s = some (G.bool (if negate then !c else c), s') := by
  have hs := source_reads hdb cond hc
  have hlow := reads_low hs
  have neg : ∀ s c s', Decides G cond s c s' → G.eval (.un .not cond (0, 0)) s = some (G.bool !c, s') := by
    intro s c s' hd
    unfold Decides at hd
    simp only [Game.eval, hd, hG.not_]
  have plain : ∀ t, Reads F env.db 10 cond t →
      ∃ d, Reads F env.db 10 (.un (.named (ascii "parseNumber")) d (0, 0)) ("parseNumber ".toList ++ t) ∧
      ∀ s c s', Decides G cond s c s' → G.eval d s = some (G.bool c, s') :=
    fun t ht => ⟨cond, reads_parseNumber hpn ht, fun s c s' hd => hd⟩
  have negated : ∃ d, Reads F env.db 10 (.un (.named (ascii "parseNumber")) d (0, 0))
        ("parseNumber ".toList ++ (['!', '('] ++ source F cond ++ [')'])) ∧
      ∀ s c s', Decides G cond s c s' → G.eval d s = some (G.bool !c, s') :=
    ⟨.un .not cond (0, 0), reads_parseNumber hpn (reads_not (reads_enclose hlow) ⟨'(', _, rfl, by decide⟩), neg⟩
  cases negate with
  | false =>
    cases cond with
    | bin c l r sp => exact plain _ (reads_enclose hlow)
    | un c x sp => exact plain _ (reads_enclose hlow)
    | _ => exact plain _ hs
  | true =>
    cases cond with
    | un c x sp => exact negated
    | bin c l r sp =>
      rw [Printable] at hc
      have flip : ∀ c', (c' = .eq ∨ c' = .notEq) → Printable F env.db (.bin c' l r sp) := by
        rintro c' (rfl | rfl) <;> (rw [Printable]; exact ⟨fun n hn => (nomatch hn), hc.2⟩)
      cases c with
      | eq =>
        refine ⟨.bin .notEq l r sp, reads_parseNumber hpn (reads_enclose (reads_low (source_reads hdb _ (flip _ (.inr rfl))))), ?_⟩
        intro s c s' hd
        unfold Decides at hd
        simp only [Game.eval] at hd ⊢
        cases h1 : G.eval l s with
        | none => rw [h1] at hd; cases hd
        | some v =>
          obtain ⟨v, s1⟩ := v
          simp only [h1] at hd ⊢
          cases h2 : G.eval r s1 with
          | none => rw [h2] at hd; cases hd
          | some w =>
            obtain ⟨w, s2⟩ := w
            simp only [h2] at hd ⊢
            simpa using (hG.notEq_ _ _ _ _ _).1 hd
      | notEq =>
        refine ⟨.bin .eq l r sp, reads_parseNumber hpn (reads_enclose (reads_low (source_reads hdb _ (flip _ (.inl rfl))))), ?_⟩
        intro s c s' hd
        unfold Decides at hd
        simp only [Game.eval] at hd ⊢
        cases h1 : G.eval l s with
        | none => rw [h1] at hd; cases hd
        | some v =>
          obtain ⟨v, s1⟩ := v
          simp only [h1] at hd ⊢
          cases h2 : G.eval r s1 with
          | none => rw [h2] at hd; cases hd
          | some w =>
            obtain ⟨w, s2⟩ := w
            simp only [h2] at hd ⊢
            refine (hG.notEq_ _ _ _ _ _).2 ?_
            simpa using hd
      | _ => exact negated
    | _ => exact negated

/-- C67: the suggestion for a choice between exactly 0 and 1 is read as intended and has the same value, if the condition is
true or false. -/
theorem C67_same_value (hdb : env.db.Plain) (hlow : PlainLower lower) (hG : G.Laws) (hpn : env.db.hasUnary (ascii "parseNumber") = true)
    {O : FloatOps} {bools : Bytes → Bool} {e cond : Expr} {n : Bytes} {x y : UInt32} {p q sp sp' : Span} {t : Text}
    (he : e = .bin (.named n) (.arr [.num x p, .num y q] sp) cond sp') (hn : IsWord n) (hc : Printable F env.db cond)
    (hxy : (x = zeroBits ∧ y = oneBits) ∨ (x = oneBits ∧ y = zeroBits)) (h : selectParseNumber F O lower bools e = some t) :
    ∃ e', ReadAs env F 10 t e' ∧ ∀ s c s', Decides G cond s c s' → G.eval e' s = G.eval e s := by
  subst he
  rw [selectParseNumber] at h
  split at h
  · cases h
  rename_i h1
  simp only [ne_eq, Decidable.not_not] at h1
  rw [hlow n hn] at h1
  split at h
  · cases h
  have ht : t = parseNumberText F (decide (absBits y < epsilon)) cond := by
    have key : ∀ (pr : UInt32 × UInt32) T, (if absBits pr.1 > epsilon ∨ absBits (O.sub pr.2 one) > epsilon then none
        else some T) = some t → t = T := by
      intro pr T h
      split at h
      · cases h
      · exact (Option.some.inj h).symm
    exact key (if absBits y < epsilon then (y, x) else (x, y)) _ h
  obtain ⟨d, hr, hv⟩ := parse_text (negate := decide (absBits y < epsilon)) hdb hpn hG hc
  refine ⟨_, readAs hdb (by decide) (by decide) (ht ▸ hr), fun s c s' hd => ?_⟩
  have h3 := hv s c s' hd
  unfold Decides at hd
  simp only [Game.eval, Game.evals, h3, hd, hG.parseNumber_ _ _ _ lower_parseNumber, hG.select_ n _ _ _ _ h1]
  rcases hxy with ⟨rfl, rfl⟩ | ⟨rfl, rfl⟩
  · have : decide (absBits oneBits < epsilon) = false := by decide +kernel
    rw [this]
    cases c <;> rfl
  · have : decide (absBits zeroBits < epsilon) = true := by decide +kernel
    rw [this]
    cases c <;> rfl

/-! ### C68: looking for a text -/

/-- C68: the suggestion is read as intended and has the same value, if the text looked for has no double quote in it. -/
theorem C68_same_value (hdb : env.db.Plain) (hlow : PlainLower lower) (hG : G.Laws) (hin : env.db.hasBinary (ascii "in") = true)
    {O : FloatOps} {e hay : Expr} {n needle : Bytes} {w : Wrapper} {p q q1 q2 q3 : Span} {t : Text}
    (he : e = .bin .greater (.bin (.named n) hay (.str needle p w) q) (.un .minus (.num oneBits q1) q2) q3) (hn : IsWord n)
    (hh : Printable F env.db hay) (hq : NoQuote (.str needle p w)) (h : findInStr O lower e = some t) :
    Constant hay ∧ ∃ e', ReadAs env F 4 t e' ∧
      ∀ s v b, G.eval hay s = some (v, s) → G.has v needle = some b → G.eval e' s = G.eval e s := by
  subst he
  rw [findInStr.eq_def] at h
  dsimp only at h
  split at h
  · cases h
  split at h
  · cases h
  rename_i h1
  simp only [ne_eq, Decidable.not_not] at h1
  rw [hlow n hn] at h1
  obtain ⟨hk, ht⟩ : Constant hay ∧ t = ['"'] ++ dec needle ++ ['"'] ++ " in ".toList ++ source F hay := by
    split at h
    · cases h; exact ⟨.str, rfl⟩
    · cases h; exact ⟨.var, rfl⟩
    · cases h
  refine ⟨hk, .bin (.named (ascii "in")) (.str needle p .double) hay (0, 0), ?_, ?_⟩
  · have r1 : Reads F env.db 10 (.str needle p .double) (['"'] ++ dec needle ++ ['"']) := by
      refine source_reads hdb (.str needle p .double) ?_
      obtain ⟨u, hu, hu'⟩ := hq
      exact ⟨u, hu, hu'⟩
    have r2 : Reads F env.db 10 hay (source F hay) := by
      have := source_reads hdb hay hh
      cases hk <;> exact this
    have hR := reads_binp (c := .named (ascii "in")) (sp := (0, 0)) (fun n hn => by cases hn; exact word_in)
      (binName_of hdb fun n hn => by cases hn; exact hin) r1 r2
    refine readAs hdb (by decide) (by decide) ?_
    rw [ht]
    have : binText (.named (ascii "in")) = "in".toList := by decide +kernel
    rw [this] at hR
    have e2 : ['"'] ++ dec needle ++ ['"'] ++ " in ".toList ++ source F hay =
      ['"'] ++ dec needle ++ ['"'] ++ [' '] ++ "in".toList ++ [' '] ++ source F hay := by simp
    rw [e2]
    exact hR
  · intro s v b hv hb
    have hi := hG.in_ _ v needle b s (show asciiLower (ascii "in") = ascii "in" by decide +kernel) hb
    simp only [Game.eval, hv, hi, hG.minus_]
    cases b with
    | true =>
      obtain ⟨k, hk, hf⟩ := (hG.find_ n v needle s h1).1 hb
      simp only [hf, hG.greater_ k s hk]
    | false => simp only [(hG.find_ n v needle s h1).2 hb, hG.greater_not_]

/-! ### C69: comparing with truth values, and with the vehicle -/

theorem name_start {n : Bytes} (h : IsWord n) : ∃ c t, dec n = c :: t ∧ c ≠ '=' := by
  obtain ⟨c, s, rfl, hc, -⟩ := h
  refine ⟨c, s, dec_enc _, ?_⟩
  rintro rfl
  exact absurd hc (by decide)

/-- C69: a variable compared with a truth value: what is suggested is read as the variable or its negation, and has the same
value if the variable is true or false. -/
theorem C69_bool (hdb : env.db.Plain) (hG : G.Laws) {e : Expr} {t : Text} (hp : Printable F env.db e) (h : boolStatic e = some t) :
    ∃ c v k q q' sp, (c = .eq ∨ c = .notEq) ∧ (e = .bin c (.var v q) (.bool k q') sp ∨ e = .bin c (.bool k q') (.var v q) sp) ∧
      ∃ e', ReadAs env F 10 t e' ∧ ∀ s b, G.read v s = some (G.bool b) → G.eval e' s = G.eval e s := by
  have ne : ∀ a b s, G.bin .notEq (G.bool a) (G.bool b) s = some (G.bool !(a == b), s) :=
    fun a b s => (hG.notEq_ _ _ _ _ _).1 (hG.eq_ a b s)
  have main : ∀ c v k (q : Span), (c = BinCmd.eq ∨ c = .notEq) → IsWord v ∧ IsVar env.db v →
      t = (if k then (if c = .notEq then ['!'] ++ dec v else dec v) else if c = .notEq then dec v else ['!'] ++ dec v) →
      ∃ e', ReadAs env F 10 t e' ∧ ∀ s b, G.read v s = some (G.bool b) →
        G.eval e' s = some (G.bool (if c = .eq then b == k else !(b == k)), s) := by
    intro c v k q hc hv ht
    have r0 : Reads F env.db 10 (.var v q) (dec v) := source_reads hdb (.var v q) hv
    have r1 : Reads F env.db 10 (.un .not (.var v q) (0, 0)) ('!' :: dec v) := reads_not r0 (name_start hv.1)
    have e0 : ∀ s b, G.read v s = some (G.bool b) → G.eval (.var v q) s = some (G.bool b, s) := by
      intro s b hb; simp only [Game.eval, hb]
    have e1 : ∀ s b, G.read v s = some (G.bool b) → G.eval (.un .not (.var v q) (0, 0)) s = some (G.bool !b, s) := by
      intro s b hb; simp only [Game.eval, hb, hG.not_]
    rcases hc with rfl | rfl <;> cases k <;> simp at ht
    · exact ⟨_, readAs hdb (by decide) (by decide) (ht ▸ r1), fun s b hb => by rw [e1 s b hb]; cases b <;> rfl⟩
    · exact ⟨_, readAs hdb (by decide) (by decide) (ht ▸ r0), fun s b hb => by rw [e0 s b hb]; cases b <;> rfl⟩
    · exact ⟨_, readAs hdb (by decide) (by decide) (ht ▸ r0), fun s b hb => by rw [e0 s b hb]; cases b <;> rfl⟩
    · exact ⟨_, readAs hdb (by decide) (by decide) (ht ▸ r1), fun s b hb => by rw [e1 s b hb]; cases b <;> rfl⟩
  unfold boolStatic at h
  split at h
  · rename_i c l r sp
    split at h
    · rename_i hc
      obtain ⟨⟨v, k⟩, hv, ht⟩ := Option.map_eq_some_iff.1 h
      dsimp only at ht
      rw [Printable] at hp
      rw [Option.or_eq_some_iff] at hv
      rcases hv with hv | ⟨-, hv⟩
      · unfold staticBool at hv
        split at hv
        · rename_i v' q k' q'
          cases hv
          obtain ⟨e', h1, h2⟩ := main c v k q hc hp.2.1 ht.symm
          refine ⟨c, v, k, q, q', sp, hc, .inl rfl, e', h1, fun s b hb => ?_⟩
          rw [h2 s b hb]
          simp only [Game.eval, hb]
          rcases hc with rfl | rfl
          · rw [hG.eq_]; simp
          · rw [ne]; simp
        · cases hv
      · unfold staticBool at hv
        split at hv
        · rename_i v' q k' q'
          cases hv
          obtain ⟨e', h1, h2⟩ := main c v k q hc hp.2.2 ht.symm
          refine ⟨c, v, k, q, q', sp, hc, .inr rfl, e', h1, fun s b hb => ?_⟩
          rw [h2 s b hb]
          simp only [Game.eval, hb]
          rcases hc with rfl | rfl
          · rw [hG.eq_]; cases b <;> cases k <;> rfl
          · rw [ne]; cases b <;> cases k <;> rfl
        · cases hv
    · cases h
  · cases h

/-- C69: an object compared with its vehicle: what is suggested is read as intended, and has the same value if the object
exists. -/
theorem C69_vehicle (hdb : env.db.Plain) (hlow : PlainLower lower) (hG : G.Laws) (h1 : env.db.hasUnary (ascii "isNull") = true)
    (h2 : env.db.hasUnary (ascii "objectParent") = true) {e : Expr} {t : Text} (hp : Printable F env.db e)
    (h : inVehicleCheck lower e = some t) :
    ∃ c n o o' q sp, (c = .eq ∨ c = .notEq) ∧ eraseE o = eraseE o' ∧
      (e = .bin c (.un (.named n) o q) o' sp ∨ e = .bin c o' (.un (.named n) o q) sp) ∧
      ∃ e', ReadAs env F 10 t e' ∧ ∀ s x y, G.eval o s = some (x, s) → G.inside x s = some y → G.eval e' s = G.eval e s := by
  have main : ∀ (c : BinCmd) (l r : Expr) (v : Bytes), (c = .eq ∨ c = .notEq) → Printable F env.db l → Printable F env.db r →
      inVehicle lower l r = some v →
      t = (if c = .notEq then "!isNull".toList else "isNull".toList) ++ " objectParent ".toList ++ dec v →
      ∃ n o q, l = .un (.named n) o q ∧ asciiLower n = ascii "vehicle" ∧ eraseE o = eraseE r ∧
        ∃ e', ReadAs env F 10 t e' ∧ ∀ s x y, G.eval o s = some (x, s) → G.inside x s = some y →
          G.eval e' s = some (G.bool (if c = .eq then y.isNone else !y.isNone), s) := by
    intro c l r v hc hl hr hv ht
    unfold inVehicle at hv
    split at hv
    · rename_i n o q
      split at hv
      · cases hv
      rename_i hn
      rw [Printable] at hl
      have hn' : asciiLower n = ascii "vehicle" := by
        rw [← hlow n (hl.1 n rfl).1]; simpa using hn
      obtain ⟨ho, hr', hs⟩ : eraseE o = eraseE r ∧ Reads F env.db 10 o (dec v) ∧ True := by
        split at hv
        · split at hv
          · rename_i hvw; cases hv; subst hvw; exact ⟨rfl, source_reads hdb (.var _ _) hl.2, trivial⟩
          · cases hv
        · split at hv
          · rename_i hvw; subst hvw
            have a1 := hl.2; have a2 := hr
            simp only [Printable] at a1 a2
            have := a1.2.1
            rw [a2.2.1] at this; cases this
          · cases hv
        · split at hv
          · rename_i hvw; subst hvw
            have a1 := hl.2; have a2 := hr
            simp only [Printable] at a1 a2
            have := a2.2.1
            rw [a1.2.1] at this; cases this
          · cases hv
        · split at hv
          · rename_i hvw; cases hv; subst hvw; exact ⟨rfl, source_reads hdb (.nular _ _) hl.2, trivial⟩
          · cases hv
        · cases hv
      have r1 := reads_un (c := .named (ascii "objectParent")) (sp := (0, 0)) (fun n hn => by cases hn; exact word_objectParent)
        (unName_of fun n hn => by cases hn; exact h2) hr'
      have r2 := reads_un (c := .named (ascii "isNull")) (sp := (0, 0)) (fun n hn => by cases hn; exact word_isNull)
        (unName_of fun n hn => by cases hn; exact h1) r1
      have t1 : unText (.named (ascii "objectParent")) = "objectParent".toList := by decide +kernel
      have t2 : unText (.named (ascii "isNull")) = "isNull".toList := by decide +kernel
      rw [t1, t2] at r2
      have l1 : asciiLower (ascii "objectParent") = ascii "objectparent" := by decide +kernel
      have l2 : asciiLower (ascii "isNull") = ascii "isnull" := by decide +kernel
      have ev : ∀ s x y, G.eval o s = some (x, s) → G.inside x s = some y →
          G.eval (.un (.named (ascii "isNull")) (.un (.named (ascii "objectParent")) o (0, 0)) (0, 0)) s = some (G.bool y.isNone, s) := by
        intro s x y hx hy
        simp only [Game.eval, hx, hG.objectParent_ _ x y s l1 hy]
        cases y with
        | none => exact hG.isNull_null _ s l2
        | some y => exact hG.isNull_vehicle _ x y s l2 hy
      refine ⟨n, o, q, rfl, hn', ho, ?_⟩
      rcases hc with rfl | rfl
      · refine ⟨_, readAs hdb (by decide) (by decide) (e := .un (.named (ascii "isNull")) (.un (.named (ascii "objectParent")) o (0, 0)) (0, 0)) ?_, fun s x y hx hy => ?_⟩
        · rw [ht]
          have e2 : "isNull".toList ++ " objectParent ".toList ++ dec v = "isNull".toList ++ [' '] ++ ("objectParent".toList ++ [' '] ++ dec v) := by
            simp
          simpa [e2] using r2
        · rw [ev s x y hx hy]; rfl
      · refine ⟨_, readAs hdb (by decide) (by decide) (e := .un .not (.un (.named (ascii "isNull")) (.un (.named (ascii "objectParent")) o (0, 0)) (0, 0)) (0, 0)) ?_, fun s x y hx hy => ?_⟩
        · rw [ht]
          have := reads_not (sp := (0, 0)) r2 ⟨'i', _, rfl, by decide⟩
          simpa using this
        · rw [Game.eval, ev s x y hx hy]
          simp [hG.not_]
    · cases hv
  have vals : ∀ c n o r q s x y, (c = BinCmd.eq ∨ c = .notEq) → asciiLower n = ascii "vehicle" → eraseE o = eraseE r →
      G.eval o s = some (x, s) → G.inside x s = some y → ∀ sp,
      G.eval (.bin c (.un (.named n) o q) r sp) s = some (G.bool (if c = .eq then y.isNone else !y.isNone), s) ∧
      G.eval (.bin c r (.un (.named n) o q) sp) s = some (G.bool (if c = .eq then y.isNone else !y.isNone), s) := by
    intro c n o r q s x y hc hn hor hx hy sp
    have hr : G.eval r s = some (x, s) := by rw [← eval_congr hor, hx]
    have hv := hG.vehicle_ n x y s hn hy
    have eqs : G.bin .eq (y.getD x) x s = some (G.bool y.isNone, s) ∧ G.bin .eq x (y.getD x) s = some (G.bool y.isNone, s) := by
      cases y with
      | none => exact ⟨hG.same_object x _ s hy, hG.same_object x _ s hy⟩
      | some y => exact (hG.other_object x y s hy).symm
    simp only [Game.eval, hx, hr, hv]
    rcases hc with rfl | rfl
    · simpa using eqs
    · exact ⟨(hG.notEq_ _ _ _ _ _).1 eqs.1, (hG.notEq_ _ _ _ _ _).1 eqs.2⟩
  unfold inVehicleCheck at h
  split at h
  · rename_i c l r sp
    split at h
    · rename_i hc
      obtain ⟨v, hv, ht⟩ := Option.map_eq_some_iff.1 h
      rw [Printable] at hp
      rw [Option.or_eq_some_iff] at hv
      rcases hv with hv | ⟨-, hv⟩
      · obtain ⟨n, o, q, rfl, hn, ho, e', he, hev⟩ := main c l r v hc hp.2.1 hp.2.2 hv ht.symm
        refine ⟨c, n, o, r, q, sp, hc, ho, .inl rfl, e', he, fun s x y hx hy => ?_⟩
        rw [hev s x y hx hy, (vals c n o r q s x y hc hn ho hx hy sp).1]
      · obtain ⟨n, o, q, rfl, hn, ho, e', he, hev⟩ := main c r l v hc hp.2.2 hp.2.1 hv ht.symm
        refine ⟨c, n, o, l, q, sp, hc, ho, .inr rfl, e', he, fun s x y hx hy => ?_⟩
        rw [hev s x y hx hy, (vals c n o l q s x y hc hn ho hx hy sp).2]
    · cases h
  · cases h

/-! ### Examples -/

def sugDb : Db := Db.a3 [(ascii "private", .unary), (ascii "if", .unary), (ascii "then", .binary), (ascii "select", .binary),
  (ascii "in", .binary), (ascii "find", .binary), (ascii "parseNumber", .unary), (ascii "isNull", .unary),
  (ascii "objectParent", .unary), (ascii "vehicle", .unary), (ascii "player", .nular)]

theorem sug_plain : sugDb.Plain := by
  refine ⟨C28_db_a3 _ (by decide +kernel), fun n h => ?_, fun n h => ?_⟩
  · simp only [sugDb, Db.a3, List.foldl, Db.insert, Db.hasUnary, Db.empty, Bool.or_false, Bool.or_eq_true,
      decide_eq_true_eq] at h
    simp only [sugDb, Db.a3, List.foldl, Db.insert, Db.hasNular, Db.empty]
    rcases h with h | h | h | h | h | h <;> rw [h] <;> decide +kernel
  · simp only [sugDb, Db.a3, List.foldl, Db.insert, Db.hasUnary, h, Db.empty]
    decide +kernel

/-- Numbers as far as the examples need them. -/
def sugF : F32 where
  parse _ := 0
  ofNat n := if n = 1 then oneBits else UInt32.ofNat n
  display x := if x = 5 then ['5'] else if x = oneBits then ['1'] else if x = 0 then ['0'] else ['?']

def sugO : FloatOps where
  neg := id
  sqrt := id
  add x _ := x
  sub x y := if x = y then 0 else x
  mul x _ := x
  div x _ := x
  rem x _ := x
  finite _ := true

def block (e : Expr) : Expr := .code [.expr e (0, 0)] [] (0, 0)
def ifThen (c a b : Expr) : Expr :=
  .bin (.named (ascii "then")) (.un (.named (ascii "if")) c (0, 0)) (.bin .els (block a) (block b) (0, 0)) (0, 0)
def v (n : String) : Expr := .var (ascii n) (0, 0)
def k (x : UInt32) : Expr := .num x (0, 0)

/-- The variables of the examples. -/
def vars : Vars := fun n => if n = ascii "_c" then some (.bool true) else if n = ascii "_d" then some (.bool false)
  else if n = ascii "_n" then some (.num 10) else if n = ascii "_s" then some (.str (ascii "hay")) else none

theorem word_c : IsWord (ascii "_c") := word_of '_' ['c'] (by decide +kernel) (by decide) (by decide)
theorem word_n : IsWord (ascii "_n") := word_of '_' ['n'] (by decide +kernel) (by decide) (by decide)
theorem parse_ok : ∀ n, UnCmd.named (ascii "parseNumber") = .named n → IsWord n ∧ (sampleEnv sugDb).db.hasUnary n = true := by
  intro n hn
  cases hn
  exact ⟨word_parseNumber, by decide +kernel⟩
theorem compile_none {s : Text} (h : lex sugF s = none) : compile (sampleEnv sugDb) sugF s = none := by
  rw [compile, h]; rfl
theorem plain_ascii : PlainLower asciiLower := fun _ _ => rfl

/-- C66: `if (_n > 5) then {1} else {0}` is to be written `parseNumber _n > 5`, which compares the parsed number with 5;
`if (_c) then {"1"} else {"0"}` is to be written `parseNumber _c`, which is no string; of
`if (_d) then {_nothing} else {5}` the suggestion fails if the variable is not defined; and a string with a double quote in it
ruins the suggestion. -/
theorem C66_violated :
    (∃ e rep, e = ifThen (.bin .greater (v "_n") (k 5) (0, 0)) (k oneBits) (k 0) ∧ ifAssign sugF asciiLower e = some rep ∧
      rep.suggestion = "parseNumber _n > 5".toList ∧
      ReadAs (sampleEnv sugDb) sugF 1 rep.suggestion (.bin .greater (.un (.named (ascii "parseNumber")) (v "_n") (0, 0)) (k 5) (0, 0)) ∧
      toy.eval e vars = some (.num oneBits, vars) ∧
      toy.eval (.bin .greater (.un (.named (ascii "parseNumber")) (v "_n") (0, 0)) (k 5) (0, 0)) vars = none) ∧
    (∃ e rep, e = ifThen (v "_c") (.str (ascii "1") (0, 0) .double) (.str (ascii "0") (0, 0) .double) ∧
      ifAssign sugF asciiLower e = some rep ∧ rep.suggestion = "parseNumber _c".toList ∧
      ReadAs (sampleEnv sugDb) sugF 1 rep.suggestion (.un (.named (ascii "parseNumber")) (v "_c") (0, 0)) ∧
      toy.eval e vars = some (.str (ascii "1"), vars) ∧
      toy.eval (.un (.named (ascii "parseNumber")) (v "_c") (0, 0)) vars = some (.num oneBits, vars)) ∧
    (∃ e rep, e = ifThen (v "_d") (v "_nothing") (k 5) ∧
      ifAssign sugF asciiLower e = some rep ∧ rep.suggestion = "[5, _nothing] select (_d)".toList ∧
      toy.eval e vars = some (.num 5, vars) ∧
      toy.eval (.bin (.named (ascii "select")) (.arr [k 5, v "_nothing"] (0, 0)) (v "_d") (0, 0)) vars = none) ∧
    (∃ e rep, e = ifThen (v "_c") (.str (ascii "\"") (0, 0) .single) (.str [] (0, 0) .single) ∧
      ifAssign sugF asciiLower e = some rep ∧ compile (sampleEnv sugDb) sugF rep.suggestion = none) := by
  have num5 : NumText sugF 5 ['5'] := .int (F := sugF) (d := ['5']) ⟨by simp, by decide⟩ (by decide)
  refine ⟨⟨_, ⟨"_n > 5".toList, (['1'], false), (['0'], false)⟩, rfl, by decide +kernel, by decide +kernel,
      readAs_source sug_plain ?_ (by decide +kernel), rfl, rfl⟩,
    ⟨_, ⟨"_c".toList, (['1'], true), (['0'], true)⟩, rfl, by decide +kernel, by decide +kernel,
      readAs_source sug_plain ?_ (by decide +kernel), rfl, rfl⟩,
    ⟨_, ⟨"_d".toList, ("_nothing".toList, false), (['5'], false)⟩, rfl, by decide +kernel, by decide +kernel, rfl, rfl⟩,
    ⟨_, ⟨"_c".toList, (['"'], true), ([], true)⟩, rfl, by decide +kernel, compile_none (by decide +kernel)⟩⟩
  · simp only [v, k, Printable]
    exact ⟨fun n hn => (nomatch hn), ⟨parse_ok, word_n, by unfold IsVar; decide +kernel⟩, num5⟩
  · simp only [v, Printable]
    exact ⟨parse_ok, word_c, by unfold IsVar; decide +kernel⟩

/-- The hypotheses of `C66_select`, and its conclusion: `if (_c) then {5} else {"x"}`. -/
example : ∃ e', ReadAs (sampleEnv sugDb) sugF 4 "[\"x\", 5] select (_c)".toList e' ∧
    toy.eval e' vars = some (.num 5, vars) := by
  have wv : IsWord (ascii "_c") := word_of '_' ['c'] (by decide +kernel) (by decide) (by decide)
  have wt : IsWord (ascii "then") := word_of 't' ['h', 'e', 'n'] (by decide +kernel) (by decide) (by decide)
  obtain ⟨e', h1, h2⟩ := C66_select (G := toy) (env := sampleEnv sugDb) (F := sugF) (lower := asciiLower) sug_plain plain_ascii toy_laws (by decide +kernel)
    (e := ifThen (v "_c") (k 5) (.str (ascii "x") (0, 0) .single)) (cond := v "_c") (a := k 5) (b := .str (ascii "x") (0, 0) .single)
    (rep := ⟨"_c".toList, (['5'], false), (['x'], true)⟩) rfl wt (by decide +kernel) ⟨_, _, _, rfl⟩ ⟨_, _, _, rfl⟩
    (by rw [v, Printable]; exact ⟨wv, by unfold IsVar; decide +kernel⟩)
    (by rw [k, Printable]; exact .int (F := sugF) (d := ['5']) ⟨by simp, by decide⟩ (by decide))
    (by rw [Printable]; exact ⟨['x'], by decide +kernel, by decide⟩) trivial ⟨['x'], by decide +kernel, by decide⟩ (by decide +kernel)
    (by decide)
  exact ⟨e', h1, (h2 vars true vars rfl (C66_literal .num _ _) (C66_literal .str _ _)).trans rfl⟩

/-- The hypotheses of `C66_parse_number` and its conclusion: `if (_c) then {1} else {0}`. -/
example : ∃ e', ReadAs (sampleEnv sugDb) sugF 10 "parseNumber _c".toList e' ∧ toy.eval e' vars = some (.num oneBits, vars) := by
  have wv : IsWord (ascii "_c") := word_of '_' ['c'] (by decide +kernel) (by decide) (by decide)
  have wt : IsWord (ascii "then") := word_of 't' ['h', 'e', 'n'] (by decide +kernel) (by decide) (by decide)
  obtain ⟨e', h1, h2⟩ := C66_parse_number (G := toy) (env := sampleEnv sugDb) (F := sugF) (lower := asciiLower) sug_plain plain_ascii toy_laws
    (by decide +kernel) (e := ifThen (v "_c") (k oneBits) (k 0)) (cond := v "_c") (x := oneBits) (y := 0)
    (rep := ⟨"_c".toList, (['1'], false), (['0'], false)⟩) rfl wt (by decide +kernel) ⟨_, _, _, rfl⟩ ⟨_, _, _, rfl⟩
    (by rw [v, Printable]; exact ⟨wv, by unfold IsVar; decide +kernel⟩) (by decide +kernel) (by decide)
    (by
      intro x
      simp only [sugF]
      constructor <;> intro h <;> split at h <;> try split at h
      all_goals first | (exact absurd h (by decide)) | assumption | skip
      all_goals split at h <;> first | (exact absurd h (by decide)) | assumption)
    (by intro c l r sp h; cases h)
  exact ⟨e', h1, (h2 vars true vars rfl).trans rfl⟩

/-- C67: numbers that are only nearly 0 are taken for 0: `[0.0000001, 1] select (_n == 5)` has the value 0.0000001 in the
toy game for a variable that is not 5, the suggestion the value 0. -/
theorem C67_violated : ∃ e t e', e = .bin (.named (ascii "select")) (.arr [k 0x33d6bf95, k oneBits] (0, 0)) (.bin .eq (v "_n") (k 5) (0, 0)) (0, 0) ∧
    selectParseNumber sugF sugO asciiLower (fun _ => false) e = some t ∧ t = "parseNumber (_n == 5)".toList ∧
    ReadAs (sampleEnv sugDb) sugF 1 t e' ∧
    toy.eval e vars = some (.num 0x33d6bf95, vars) ∧ toy.eval e' vars = some (.num zeroBits, vars) :=
  ⟨_, _, .un (.named (ascii "parseNumber")) (.bin .eq (v "_n") (k 5) (0, 0)) (0, 0), rfl, by decide +kernel, rfl,
    readAs_source sug_plain (by
      simp only [v, k, Printable]
      exact ⟨parse_ok, fun n hn => (nomatch hn), ⟨word_n, by unfold IsVar; decide +kernel⟩, .int (F := sugF) (d := ['5']) ⟨by simp, by decide⟩ (by decide)⟩)
      (by decide +kernel), rfl, rfl⟩

/-- The hypotheses of `C67_same_value` and its conclusion: `[1, 0] select (_n == 5)`. -/
example : ∃ e', ReadAs (sampleEnv sugDb) sugF 10 "parseNumber (_n != 5)".toList e' ∧ toy.eval e' vars = some (.num oneBits, vars) := by
  have wv : IsWord (ascii "_n") := word_of '_' ['n'] (by decide +kernel) (by decide) (by decide)
  obtain ⟨e', h1, h2⟩ := C67_same_value (G := toy) (env := sampleEnv sugDb) (F := sugF) (lower := asciiLower) (O := sugO) (bools := fun _ => false)
    sug_plain plain_ascii toy_laws (by decide +kernel)
    (e := .bin (.named (ascii "select")) (.arr [k oneBits, k 0] (0, 0)) (.bin .eq (v "_n") (k 5) (0, 0)) (0, 0))
    (t := "parseNumber (_n != 5)".toList) rfl word_select
    (by
      simp only [v, k, Printable]
      exact ⟨fun n hn => (nomatch hn), ⟨wv, by unfold IsVar; decide +kernel⟩, .int (F := sugF) (d := ['5']) ⟨by simp, by decide⟩ (by decide)⟩)
    (.inr ⟨rfl, rfl⟩) (by decide +kernel)
  exact ⟨e', h1, (h2 vars false vars rfl).trans rfl⟩

/-- C68: a double quote in the text looked for ruins the suggestion. -/
theorem C68_violated : ∃ e t, e = .bin .greater (.bin (.named (ascii "find")) (v "_s") (.str (ascii "\"") (0, 0) .single) (0, 0))
      (.un .minus (k oneBits) (0, 0)) (0, 0) ∧
    findInStr sugO asciiLower e = some t ∧ t = "\"\"\" in _s".toList ∧ compile (sampleEnv sugDb) sugF t = none ∧
    toy.eval e vars = some (.bool false, vars) :=
  ⟨_, _, rfl, by decide +kernel, rfl, compile_none (by decide +kernel), rfl⟩

/-- The hypotheses of `C68_same_value` and its conclusion: `_s find 'ay' > -1`. -/
example : ∃ e', ReadAs (sampleEnv sugDb) sugF 4 "\"ay\" in _s".toList e' ∧ toy.eval e' vars = some (.bool true, vars) := by
  have wv : IsWord (ascii "_s") := word_of '_' ['s'] (by decide +kernel) (by decide) (by decide)
  have wf : IsWord (ascii "find") := word_of 'f' ['i', 'n', 'd'] (by decide +kernel) (by decide) (by decide)
  obtain ⟨-, e', h1, h2⟩ := C68_same_value (G := toy) (env := sampleEnv sugDb) (F := sugF) (lower := asciiLower) (O := sugO)
    sug_plain plain_ascii toy_laws (by decide +kernel)
    (e := .bin .greater (.bin (.named (ascii "find")) (v "_s") (.str (ascii "ay") (0, 0) .single) (0, 0)) (.un .minus (k oneBits) (0, 0)) (0, 0))
    (t := "\"ay\" in _s".toList) rfl wf (by rw [v, Printable]; exact ⟨wv, by unfold IsVar; decide +kernel⟩)
    ⟨['a', 'y'], by decide +kernel, by decide⟩ (by decide +kernel)
  exact ⟨e', h1, (h2 vars (.str (ascii "hay")) true rfl rfl).trans rfl⟩

/-- The hypotheses of `C69_bool` and its conclusion: `_d != true` is `!_d`. -/
example : ∃ e', ReadAs (sampleEnv sugDb) sugF 10 "!_d".toList e' ∧ toy.eval e' vars = some (.bool true, vars) := by
  have wv : IsWord (ascii "_d") := word_of '_' ['d'] (by decide +kernel) (by decide) (by decide)
  obtain ⟨c, w, b, q, q', sp, -, he, e', h1, h2⟩ := C69_bool (G := toy) (env := sampleEnv sugDb) (F := sugF) sug_plain toy_laws
    (e := .bin .notEq (v "_d") (.bool true (0, 0)) (0, 0)) (t := "!_d".toList)
    (by
      simp only [v, Printable]
      exact ⟨fun n hn => (nomatch hn), ⟨wv, by unfold IsVar; decide +kernel⟩, trivial⟩) (by decide +kernel)
  refine ⟨e', h1, ?_⟩
  rcases he with he | he <;> cases he
  exact (h2 vars false rfl).trans rfl

/-- The hypotheses of `C69_vehicle` and its conclusion: `vehicle player != player`. -/
example : ∃ e', ReadAs (sampleEnv sugDb) sugF 10 "!isNull objectParent player".toList e' ∧ toy.eval e' vars = some (.bool true, vars) := by
  have wp : IsWord (ascii "player") := word_of 'p' ['l', 'a', 'y', 'e', 'r'] (by decide +kernel) (by decide) (by decide)
  have wv : IsWord (ascii "vehicle") := word_of 'v' ['e', 'h', 'i', 'c', 'l', 'e'] (by decide +kernel) (by decide) (by decide)
  obtain ⟨c, n, o, o', q, sp, -, -, he, e', h1, h2⟩ := C69_vehicle (G := toy) (env := sampleEnv sugDb) (F := sugF) (lower := asciiLower) sug_plain
    plain_ascii toy_laws (by decide +kernel) (by decide +kernel)
    (e := .bin .notEq (.un (.named (ascii "vehicle")) (.nular (ascii "player") (0, 0)) (0, 0)) (.nular (ascii "player") (0, 0)) (0, 0))
    (t := "!isNull objectParent player".toList)
    (by
      simp only [Printable]
      refine ⟨fun n hn => (nomatch hn), ⟨fun n hn => ?_, wp, by decide +kernel⟩, wp, by decide +kernel⟩
      cases hn
      exact ⟨wv, by decide +kernel⟩) (by decide +kernel)
  refine ⟨e', h1, ?_⟩
  rcases he with he | he <;> cases he
  exact (h2 vars (.obj 1) _ rfl rfl).trans rfl

/-- C69: without the condition that the object exists the values need not agree: in the toy game, as in the wiki's description
of `==`, no object is not equal to itself, but its parent is none. -/
theorem C69_null_violated : ∃ s : Vars,
    inVehicleCheck asciiLower (.bin .eq (.un (.named (ascii "vehicle")) (v "_o") (0, 0)) (v "_o") (0, 0)) =
      some "isNull objectParent _o".toList ∧
    toy.eval (.bin .eq (.un (.named (ascii "vehicle")) (v "_o") (0, 0)) (v "_o") (0, 0)) s = some (.bool false, s) ∧
    toy.eval (.un (.named (ascii "isNull")) (.un (.named (ascii "objectParent")) (v "_o") (0, 0)) (0, 0)) s = some (.bool true, s) :=
  ⟨fun _ => some (.obj 0), by decide +kernel, rfl, rfl⟩

end Verif.SqfLint
