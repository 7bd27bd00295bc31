import Verif.Lib.ConfigSound
/-! The config parser reads what is written in the text. -/
namespace Verif.ConfigParse
open Verif.Prefix (isWs trim)
open Verif.Rap (Num)
open Verif.SqfLex (Digits isDigit isHex isAlpha isName escape just digits many1 just_some just_append just_ne many1_append many1_none
  digits_append digits_none NoConst)

/-! ### White space -/

theorem ws_append {w s : Text} (h : Blank w) : ws (w ++ s) = ws s := SqfLex.dropWhile_all h
theorem ws_solid {c : Char} {s : Text} (h : isWs c = false) : ws (c :: s) = c :: s := by simp [ws, h]
theorem ws_nil : ws [] = [] := rfl
theorem ws_blank {w : Text} (h : Blank w) : ws w = [] := by
  have := ws_append (s := []) h
  rwa [List.append_nil] at this
theorem ws_ws (s : Text) : ws (ws s) = ws s := by
  induction s with
  | nil => rfl
  | cons c s ih =>
    cases h : isWs c with
    | true => simpa [ws, h] using ih
    | false => rw [ws_solid h, ws_solid h]
theorem ws_length (s : Text) : (ws s).length ≤ s.length := by
  obtain ⟨w, -, h⟩ := ws_spec s
  conv_rhs => rw [h]
  simp
/-- Text that begins with `c` behind white space. -/
theorem ws_to {w s : Text} {c : Char} (h : Blank w) (hc : isWs c = false) : ws (w ++ c :: s) = c :: s := by
  rw [ws_append h, ws_solid hc]

theorem tok_mk (p s : Text) : tok p (p ++ s) = .ok () s := by rw [tok, just_append]
theorem tok_fail {c d : Char} {p s : Text} (h : c ≠ d) : tok (c :: p) (d :: s) = .fail := by rw [tok, just_ne h]
theorem tok_nil {c : Char} {p : Text} : tok (c :: p) [] = .fail := rfl
theorem tokP_mk {w s : Text} {c : Char} {p : Text} (hc : isWs c = false) (h : Blank w) :
    tokP (c :: p) (w ++ (c :: p ++ s)) = .ok () (ws s) := by
  rw [tokP, List.cons_append, ws_to h hc, ← List.cons_append, tok_mk]; rfl
theorem tokP_at {s e : Text} {c : Char} (h : ws s = c :: e) : tokP [c] s = .ok () (ws e) := by
  rw [tokP, h, show c :: e = [c] ++ e from rfl, tok_mk]; rfl
theorem tokP_fail {s e : Text} {c d : Char} {p : Text} (h : ws s = d :: e) (hd : c ≠ d) : tokP (c :: p) s = .fail := by
  rw [tokP, h, tok_fail hd]; rfl
theorem tokP_nil {s : Text} {c : Char} {p : Text} (h : ws s = []) : tokP (c :: p) s = .fail := by
  rw [tokP, h]; rfl

/-! ### Numbers -/

theorem solid_of_name {c : Char} (h : isName c = true) : isWs c = false := by
  cases hw : isWs c with
  | false => rfl
  | true => rw [SqfLex.ws_noName hw] at h; cases h

section
variable {α : Type} {F : Fl α}

theorem intNum_unique {v : Nat} {n : Num} (h : IntNum v n) : intNum v = n := by
  rw [intNum]
  cases h with
  | small h => rw [if_neg (by omega)]
  | large h => rw [if_pos (by omega)]

theorem unsigned_complete {n : Num} {s r : Text} (h : Unsigned F n s) (hr : NoConst r) : unsigned F (s ++ r) = some (n, r) := by
  cases h with
  | int hd hv hn =>
    have hdr := digits_append hd hr.digit
    have h16 : numberHex (s ++ r) = none := by
      obtain ⟨c, s', rfl, hc⟩ := hd.cons
      have h2 : just ['0', 'x'] (c :: s' ++ r) = none := by
        rw [List.cons_append, just]
        split
        · cases s' with
          | nil => exact hr.ne_of_name (by decide) _
          | cons b s' => exact just_ne (Ne.symm (SqfLex.digit_ne (hd.2 b (by simp))).2.2.1)
        · rfl
      rw [numberHex, h2]; rfl
    rw [unsigned, SqfLex.numberExp_stop hdr hr, SqfLex.numberBasic_stop hdr hr, h16, numberInt, hdr]
    rw [Option.bind_some]
    simp only [hv, if_true, Option.map_some, intNum_unique hn]
    rfl
  | @hex d _ h0 hd hv hn =>
    have hdr : many1 isHex (d ++ r) = some (d, r) := many1_append h0 hd hr.hex
    have hx : numberHex (['0', 'x'] ++ d ++ r) = some (SqfLex.value 16 d, r) := by
      rw [numberHex, List.append_assoc, just_append, Option.bind_some, hdr, Option.bind_some]
      simp only [hv, if_true]
    have hdg : digits (['0', 'x'] ++ d ++ r) = some (['0'], 'x' :: d ++ r) :=
      digits_append (d := ['0']) ⟨by simp, by simp; decide⟩ (by simp; decide)
    have he : SqfLex.numberExp F.f32 (['0', 'x'] ++ d ++ r) = none := by
      rw [SqfLex.numberExp, SqfLex.whole_noDot hdg (just_ne (by decide)), hdg]
      rfl
    have hb : SqfLex.numberBasic F.f32 (['0', 'x'] ++ d ++ r) = none := by
      rw [SqfLex.numberBasic, hdg]
      rfl
    rw [unsigned, he, hb, hx, Option.map_some, intNum_unique hn]; rfl
  | @frac w d hw hd =>
    have hdr := digits_append hd hr.digit
    rcases hw with rfl | hw
    · have h1 : digits ([] ++ ['.'] ++ d ++ r) = none := digits_none (by simp; decide)
      have hb : SqfLex.numberBasic F.f32 ([] ++ ['.'] ++ d ++ r) = some (F.f32.parse ([] ++ ['.'] ++ d), r) := by
        rw [SqfLex.numberBasic, h1]
        show (just ['.'] (['.'] ++ (d ++ r))).bind _ = _
        rw [just_append, Option.bind_some, hdr]
        rfl
      rw [unsigned, SqfLex.numberExp_none h1, hb]
      rfl
    · have h1 : digits (w ++ ['.'] ++ d ++ r) = some (w, ['.'] ++ (d ++ r)) := by
        rw [List.append_assoc, List.append_assoc]
        exact digits_append hw (by simp; decide)
      have h2 : just ['.'] (['.'] ++ (d ++ r)) = some (d ++ r) := just_append _ _
      have he : SqfLex.numberExp F.f32 (w ++ ['.'] ++ d ++ r) = none := by
        rw [SqfLex.numberExp, SqfLex.whole_dot h1 h2, hdr, Option.bind_some]
        simp only [hr.letterE, Option.bind_none]
      have hb : SqfLex.numberBasic F.f32 (w ++ ['.'] ++ d ++ r) = some (F.f32.parse (w ++ ['.'] ++ d), r) := by
        rw [SqfLex.numberBasic, h1, Option.getD_some, h2, Option.bind_some, hdr]
        rfl
      rw [unsigned, he, hb]
      rfl
  | @exp w d c g x hw hd hc hg hx =>
    have hxr := digits_append hx hr.digit
    have hcd : isDigit c = false ∧ c ≠ '.' := by rcases hc with rfl | rfl <;> decide
    have hE : ∀ s, SqfLex.letterE (c :: s) = some (c, s) := by intro s; rcases hc with rfl | rfl <;> rfl
    have hS : SqfLex.sign (g ++ (x ++ r)) = (g, x ++ r) := by
      rcases hg with rfl | rfl | rfl
      · obtain ⟨a, x', rfl, ha⟩ := hx.cons
        exact SqfLex.sign_digit ha
      · rfl
      · rfl
    have hd1 : digits (d ++ (c :: (g ++ (x ++ r)))) = some (d, c :: (g ++ (x ++ r))) :=
      digits_append hd (by simpa using hcd.1)
    have hW : SqfLex.whole (w ++ d ++ [c] ++ g ++ x ++ r) = (w, d ++ (c :: (g ++ (x ++ r)))) := by
      rcases hw with rfl | ⟨w', hw', rfl⟩
      · have := SqfLex.whole_noDot hd1 (just_ne (Ne.symm hcd.2))
        simpa using this
      · have h1 : digits (w' ++ (['.'] ++ (d ++ (c :: (g ++ (x ++ r)))))) =
            some (w', ['.'] ++ (d ++ (c :: (g ++ (x ++ r))))) := digits_append hw' (by simp; decide)
        have := SqfLex.whole_dot h1 (just_append _ _)
        simpa using this
    have he : SqfLex.numberExp F.f32 (w ++ d ++ [c] ++ g ++ x ++ r) = some (F.f32.parse (w ++ d ++ [c] ++ g ++ x), r) := by
      rw [SqfLex.numberExp, hW, hd1, Option.bind_some]
      simp only [hE, Option.bind_some, hS, hxr, Option.map_some]
    rw [unsigned, he]
    rfl

/-- Numbers begin with a digit or a dot. -/
theorem Unsigned.head {n : Num} {t : Text} (h : Unsigned F n t) : ∃ c t', t = c :: t' ∧ (isDigit c = true ∨ c = '.') := by
  cases h with
  | int hd => obtain ⟨c, s, rfl, hc⟩ := hd.cons; exact ⟨c, s, rfl, .inl hc⟩
  | hex => exact ⟨'0', _, rfl, .inl (by decide)⟩
  | frac hw hd =>
    rcases hw with rfl | hw
    · exact ⟨'.', _, rfl, .inr rfl⟩
    · obtain ⟨c, s, rfl, hc⟩ := hw.cons; exact ⟨c, _, rfl, .inl hc⟩
  | exp hw hd =>
    rcases hw with rfl | ⟨w', hw, rfl⟩
    · obtain ⟨c, s, rfl, hc⟩ := hd.cons; exact ⟨c, _, rfl, .inl hc⟩
    · obtain ⟨c, s, rfl, hc⟩ := hw.cons; exact ⟨c, _, rfl, .inl hc⟩

theorem Lit.head {n : Num} {t : Text} (h : Lit F n t) : ∃ c t', t = c :: t' ∧ (isDigit c = true ∨ c = '.' ∨ c = '-') := by
  cases h with
  | pos h => obtain ⟨c, t', e, h⟩ := h.head; exact ⟨c, t', e, h.elim .inl fun h => .inr (.inl h)⟩
  | neg => exact ⟨'-', _, rfl, .inr (.inr rfl)⟩

theorem negate_unique {n m : Num} (h : Minus F n m) : negate F n = m := by cases h <;> rfl

theorem number_complete {n : Num} {l r : Text} (h : Lit F n l) (hr : NoConst r) : number F (l ++ r) = some (n, r) := by
  cases h with
  | pos h =>
    obtain ⟨c, t, rfl, hc⟩ := h.head
    have : just ['-'] (c :: t ++ r) = none := by
      refine just_ne ?_
      rintro rfl
      rcases hc with hc | hc
      · revert hc; decide
      · revert hc; decide
    rw [number, this]
    exact unsigned_complete h hr
  | @neg n m t h hm =>
    rw [number, show ('-' :: t ++ r : Text) = ['-'] ++ (t ++ r) from rfl, just_append]
    simp only
    rw [unsigned_complete h hr, Option.map_some, negate_unique hm]

/-- What stands behind a value: white space, then a semicolon, a comma or a closing brace. -/
def Stop (r : Text) : Prop := ∃ w c r', Blank w ∧ (c = ';' ∨ c = ',' ∨ c = '}') ∧ r = w ++ c :: r'

theorem stop_solid {c : Char} (h : c = ';' ∨ c = ',' ∨ c = '}') : isWs c = false := by
  rcases h with rfl | rfl | rfl <;> decide

theorem Stop.noConst {r : Text} (h : Stop r) : NoConst r := by
  obtain ⟨w, c, r', hw, hc, rfl⟩ := h
  cases w with
  | nil =>
    refine ⟨?_, ?_, ?_, ?_, ?_⟩ <;> rcases hc with rfl | rfl | rfl <;> first | decide | (intro h; exact absurd h (by decide))
  | cons a w => exact SqfLex.noConst_ws (r := c :: r') (hw a (by simp))

theorem unsigned_none {c : Char} {s : Text} (h : isDigit c = false) (h1 : c ≠ '.') : unsigned F (c :: s) = none := by
  have hd : digits (c :: s) = none := digits_none (by simpa using h)
  have h0 : ('0' : Char) ≠ c := by rintro rfl; revert h; decide
  rw [unsigned, SqfLex.numberExp_none hd, SqfLex.numberBasic_none hd h1, numberHex, just_ne h0, numberInt, hd]
  rfl
theorem number_none {c : Char} {s : Text} (h : isDigit c = false) (h1 : c ≠ '.') (h2 : c ≠ '-') : number F (c :: s) = none := by
  rw [number, just_ne (Ne.symm h2)]
  exact unsigned_none h h1
theorem number_nil : number F [] = none := rfl
theorem piece_none {c : Char} {s : Text} (h : isDigit c = false) (h1 : c ≠ '.') (h2 : c ∉ mathChars) : piece F (c :: s) = none := by
  rw [piece, number_none h h1 (by rintro rfl; exact h2 (by decide))]
  simp [h2]
theorem pieces_none {c : Char} {s : Text} (h : isDigit c = false) (h1 : c ≠ '.') (h2 : c ∉ mathChars) (f : Nat) :
    pieces F f (c :: s) = ([], c :: s) := by
  cases f with
  | zero => rfl
  | succ f => rw [pieces, piece_none h h1 h2]
theorem numeric_none {c : Char} {s : Text} (h : isDigit c = false) (h1 : c ≠ '.') (h2 : c ∉ mathChars) :
    numeric F (c :: s) = none := by
  rw [numeric, math, pieces_none h h1 h2, number_none h h1 (by rintro rfl; exact h2 (by decide))]
  rfl
theorem numeric_nil : numeric F [] = none := rfl

theorem pieces_space (f : Nat) (r : Text) :
    pieces F (f + 1) (' ' :: r) = ([' '] :: (pieces F f r).1, (pieces F f r).2) := by
  have : piece F (' ' :: r) = some ([' '], r) := by
    rw [piece, number_none (by decide) (by decide) (by decide)]
    rfl
  rw [pieces, this]

/-- Blanks are pieces; other white space and what follows is none. -/
theorem pieces_stop : ∀ (r : Text), Stop r → ∀ f, r.length ≤ f → ∃ k r', pieces F f r = (List.replicate k [' '], r') ∧
    r = List.replicate k ' ' ++ r' ∧ (r.head? ≠ some ' ' → k = 0)
  | [], ⟨w, c, r', _, _, e⟩, _, _ => by cases w <;> cases e
  | a :: r, h, f, hf => by
    by_cases ha : a = ' '
    · subst ha
      obtain ⟨w, c, r', hw, hc, e⟩ := h
      cases w with
      | nil => cases e; rcases hc with hc | hc | hc <;> cases hc
      | cons b w =>
        cases e
        cases f with
        | zero => simp at hf
        | succ f =>
          obtain ⟨k, r2, h1, h2, -⟩ := pieces_stop (w ++ c :: r') ⟨w, c, r', fun x hx => hw x (by simp [hx]), hc, rfl⟩ f
            (by simpa using hf)
          refine ⟨k + 1, r2, ?_, ?_, ?_⟩
          · show pieces F (f + 1) (' ' :: (w ++ c :: r')) = _
            rw [pieces_space, h1]; rfl
          · show ' ' :: (w ++ c :: r') = _
            rw [List.replicate_succ, List.cons_append, ← h2]
          · simp
    · have hn := h.noConst
      have hd : isDigit a = false := SqfLex.false_of hn.1 SqfLex.name_of_digit
      have hx : a ≠ '.' ∧ a ∉ mathChars := by
        obtain ⟨w, c, r', hw, hc, e⟩ := h
        cases w with
        | nil => cases e; rcases hc with rfl | rfl | rfl <;> decide
        | cons b w =>
          cases e
          have hw := hw a (by simp)
          constructor
          · rintro rfl; revert hw; decide
          · intro hm
            have : ∀ x ∈ mathChars, isWs x = true → x = ' ' := by decide
            exact ha (this a hm hw)
      exact ⟨0, a :: r, pieces_none hd hx.1 hx.2 f, rfl, fun _ => rfl⟩

theorem blank_replicate (k : Nat) : Blank (List.replicate k ' ') := by
  intro c hc
  rw [(List.mem_replicate.1 hc).2]; decide

theorem trim_spaces (u : Text) (k : Nat) : trim (u ++ List.replicate k ' ') = trim u := by
  have hr : ∀ x : Text, (x ++ List.replicate k ' ').reverse.dropWhile isWs = x.reverse.dropWhile isWs := by
    intro x
    rw [List.reverse_append, List.reverse_replicate]
    exact SqfLex.dropWhile_all (blank_replicate k)
  by_cases hb : ∀ c ∈ u, isWs c = true
  · have h1 : (u ++ List.replicate k ' ').dropWhile isWs = [] := ws_blank (Blank.append hb (blank_replicate k))
    have h2 : u.dropWhile isWs = [] := ws_blank hb
    rw [trim, trim, h1, h2]
  · have : (u ++ List.replicate k ' ').dropWhile isWs = u.dropWhile isWs ++ List.replicate k ' ' := by
      clear hr
      induction u with
      | nil => exact absurd (by simp) hb
      | cons c u ih =>
        cases hc : isWs c with
        | false => simp [hc]
        | true =>
          simp only [List.cons_append, List.dropWhile_cons, hc, if_true]
          exact ih fun h => hb fun x hx => by
            rcases List.mem_cons.1 hx with rfl | hx
            · exact hc
            · exact h x hx
    rw [trim, trim, this, hr]

theorem becomes_evaluate {u : Text} {v : α} (h : Math.eval F.f64 u = some v) : ∃ m, evaluate F u = some m ∧ Becomes F v m := by
  refine ⟨_, by rw [evaluate, h]; rfl, ?_⟩
  dsimp only
  split
  · rename_i z hz
    split
    · rename_i hr; exact .i32 hz hr.1 hr.2
    · exact .i64 hz (by omega) rfl
  · rename_i hz; exact .f32 hz

/-- A number is read as it is written. -/
theorem numeric_complete {n : Num} {s r : Text} (h : Writing F n s r) (hr : Stop r) :
    ∃ r', numeric F s = some (n, r') ∧ ws r' = ws r := by
  obtain ⟨l, hl, rfl, hb⟩ := h
  have hnum := number_complete hl hr.noConst
  have hp : piece F (l ++ r) = some (numText F n, r) := by unfold piece; rw [hnum]; rfl
  obtain ⟨c, t, rfl, -⟩ := hl.head
  obtain ⟨k, r', h1, h2, h3⟩ := pieces_stop (F := F) r hr (t ++ r).length (by simp)
  have hps : pieces F (c :: t ++ r).length (c :: t ++ r) = (numText F n :: List.replicate k [' '], r') := by
    rw [List.cons_append, List.length_cons, pieces, ← List.cons_append, hp]
    simp only [h1]
  have hws : ws r' = ws r := by rw [h2, ws_append (blank_replicate k)]
  have hfl : (numText F n :: List.replicate k [' ']).flatten = numText F n ++ List.replicate k ' ' := by
    rw [List.flatten_cons]
    congr 1
    clear h1 h2 h3 hps
    induction k with
    | zero => rfl
    | succ k ih => rw [List.replicate_succ, List.flatten_cons, ih]; rfl
  rw [numeric, math, hps]
  simp only
  split
  · exact ⟨r, by rw [Option.none_or, hnum], rfl⟩
  · rename_i hk
    rw [hfl, trim_spaces]
    have hk0 : k ≠ 0 := by
      rintro rfl
      simp at hk
    have hsp : r.head? = some ' ' := by
      by_contra hne
      exact hk0 (h3 hne)
    cases he : Math.eval F.f64 (trim (numText F n)) with
    | none =>
      refine ⟨r, ?_, rfl⟩
      rw [evaluate, he, hnum]; rfl
    | some v =>
      obtain ⟨m, hm, hbm⟩ := becomes_evaluate he
      refine ⟨r', ?_, hws⟩
      rw [hm, hb hsp v m he hbm]; rfl
end

/-! ### Strings and expressions -/

theorem dropBreaks_append {x u : Text} (h : ¬ ['\\', '\n'] <:+: x) (hu : x.getLast? = some '\\' → u.head? ≠ some '\n') :
    dropBreaks (x ++ u) = x ++ dropBreaks u := by
  induction x with
  | nil => rfl
  | cons c x ih =>
    have ih := ih (fun hi => h (hi.trans (List.suffix_cons c x).isInfix)) (fun hl => hu (by
      cases x with
      | nil => cases hl
      | cons d x => rw [List.getLast?_cons_cons]; exact hl))
    rw [List.cons_append, List.cons_append]
    cases hx : x ++ u with
    | nil =>
      have := List.append_eq_nil_iff.1 hx
      rw [this.1, this.2]; rfl
    | cons d y =>
      rw [dropBreaks, if_neg, ← hx, ih]
      rintro ⟨rfl, rfl⟩
      cases x with
      | nil =>
        rw [List.nil_append] at hx
        exact hu rfl (by rw [hx]; rfl)
      | cons e x =>
        cases hx
        exact h ⟨[], x, rfl⟩

theorem dropBreaks_unique {u v : Text} (h : Unbroken u v) : dropBreaks u = v := by
  obtain ⟨vs, rfl, rfl, hx⟩ := h
  induction vs with
  | nil => rfl
  | cons a vs ih =>
    have ih := ih fun x hx' => hx x (by simp [hx'])
    cases vs with
    | nil =>
      have := dropBreaks_append (x := a) (u := []) (hx a (by simp)) (by simp)
      simpa [dropBreaks] using this
    | cons b vs =>
      have h2 := dropBreaks_append (x := a) (u := '\\' :: '\n' :: ((b :: vs).intersperse ['\\', '\n']).flatten) (hx a (by simp))
        (by simp)
      rw [dropBreaks, if_pos ⟨rfl, rfl⟩, ih] at h2
      simpa using h2

theorem sqfString_complete {t r : Text} (hr : ∀ c ∈ r.head?, c ≠ '"') : SqfLex.string '"' (quoted t ++ r) = some (t, r) := by
  rw [quoted, SqfLex.string, List.append_assoc, List.append_assoc, just_append, Option.bind_some, List.singleton_append,
    SqfLex.content_complete hr]
  show (just ['"'] (['"'] ++ r)).map _ = _
  rw [just_append]; rfl

theorem Stop.noQuote {r : Text} (h : Stop r) : ∀ c ∈ r.head?, c ≠ '"' := by
  have := h.noConst
  cases r with
  | nil => simp
  | cons c r => simpa using this.2.2.1

theorem segments_stop {r : Text} (h : Stop r) (f : Nat) : segments f r = ([], r) := by
  obtain ⟨w, c, r', hw, hc, rfl⟩ := h
  cases f with
  | zero => rfl
  | succ f =>
    have : just ['\\', 'n'] (ws (w ++ c :: r')) = none := by
      rw [ws_to hw (stop_solid hc)]
      refine just_ne ?_
      rcases hc with rfl | rfl | rfl <;> decide
    rw [segments, this]; rfl

theorem blank_noQuote {w s : Text} (h : Blank w) : ∀ c ∈ (w ++ ['\\', 'n'] ++ s).head?, c ≠ '"' := by
  cases w with
  | nil => simp
  | cons a w =>
    have := h a (by simp)
    simp only [List.cons_append, List.head?_cons, Option.mem_def, Option.some.injEq, forall_eq']
    rintro rfl
    revert this; decide

theorem Segs.nonempty {ts : List Text} {s : Text} (h : Segs ts s) : ∃ s', s = '"' :: s' := by
  cases h <;> exact ⟨_, rfl⟩

/-- The first string and the ones behind it. -/
theorem segs_complete {ts : List Text} {s : Text} (h : Segs ts s) {r : Text} (hr : Stop r) :
    ∃ t ts' e, ts = t :: ts' ∧ SqfLex.string '"' (s ++ r) = some (t, e) ∧ e.length < (s ++ r).length ∧
      ∀ f, e.length ≤ f → segments f e = (ts', r) := by
  induction h with
  | @one t => exact ⟨t, [], r, rfl, sqfString_complete hr.noQuote, by simp [quoted]; omega, fun f _ => segments_stop hr f⟩
  | @cons t w w' ts s hw hw' hs ih =>
    have e1 : quoted t ++ w ++ ['\\', 'n'] ++ w' ++ s ++ r = quoted t ++ (w ++ ['\\', 'n'] ++ (w' ++ (s ++ r))) := by simp
    obtain ⟨t', ts', e, rfl, h1, h2, h3⟩ := ih
    refine ⟨t, t' :: ts', _, rfl, by rw [e1]; exact sqfString_complete (blank_noQuote hw), by rw [e1]; simp [quoted]; omega, ?_⟩
    intro f hf
    obtain ⟨s', rfl⟩ := hs.nonempty
    cases f with
    | zero => simp at hf
    | succ f =>
      have e2 : (just ['\\', 'n'] (ws (w ++ ['\\', 'n'] ++ (w' ++ ('"' :: s' ++ r))))).bind (fun r => SqfLex.string '"' (ws r)) =
          some (t', e) := by
        rw [List.append_assoc, List.cons_append, ws_to hw (by decide), ← List.cons_append, just_append, Option.bind_some]
        rw [List.cons_append, ws_to hw' (by decide), ← List.cons_append]
        exact h1
      rw [segments, e2]
      simp only [h3 f (by simp at hf h2; omega)]

theorem string_complete {v t r : Text} (h : Str v t) (hr : Stop r) : string (t ++ r) = some (v, r) := by
  obtain ⟨ts, hs, hu⟩ := h
  obtain ⟨x, ts', e, rfl, h1, -, h2⟩ := segs_complete hs hr
  rw [string, h1, Option.map_some]
  simp only [h2 _ (Nat.le_refl _), dropBreaks_unique hu]

/-! Expressions -/

/-- Balanced text, piece by piece. -/
inductive NB : Text → Prop
  | nil : NB []
  | run {t e} : t ≠ [] → (∀ c ∈ t, c ≠ '(' ∧ c ≠ ')') → (∀ c ∈ e.head?, c = '(' ∨ c = ')') → NB e → NB (t ++ e)
  | grp {t e} : NB t → t ≠ [] → NB e → NB ('(' :: (t ++ ')' :: e))

theorem NB.append {a b : Text} (ha : NB a) (hb : NB b) : NB (a ++ b) := by
  induction ha with
  | nil => exact hb
  | @run t e h0 h1 h2 h3 ih =>
    rw [List.append_assoc]
    by_cases he : e = []
    · subst he
      rw [List.nil_append]
      cases hb with
      | nil => exact .run h0 h1 (by simp) .nil
      | @run t' e' h0' h1' h2' h3' =>
        rw [← List.append_assoc]
        exact .run (by simp [h0]) (by
          intro c hc
          rcases List.mem_append.1 hc with hc | hc
          · exact h1 c hc
          · exact h1' c hc) h2' h3'
      | grp a1 a2 a3 => exact .run h0 h1 (by simp) (.grp a1 a2 a3)
    · refine .run h0 h1 ?_ ih
      cases e with
      | nil => exact absurd rfl he
      | cons c e => simpa using h2
  | @grp t e h1 h2 h3 ih1 ih2 =>
    have : '(' :: (t ++ ')' :: e) ++ b = '(' :: (t ++ ')' :: (e ++ b)) := by simp
    rw [this]
    exact .grp h1 h2 ih2

theorem Bal.nb {e : Text} (h : Bal e) : NB e ∧ e ≠ [] := by
  induction h with
  | @text t h0 h1 => exact ⟨by have := NB.run h0 h1 (by simp) .nil; rwa [List.append_nil] at this, h0⟩
  | @group t h ih =>
    refine ⟨?_, by simp⟩
    have := NB.grp ih.1 ih.2 .nil
    simpa using this
  | append _ _ ih1 ih2 => exact ⟨ih1.1.append ih2.1, by simp [ih1.2]⟩

theorem plain_complete {t r : Text} (h0 : t ≠ []) (h1 : ∀ c ∈ t, c ≠ '(' ∧ c ≠ ')') (hr : ∀ c ∈ r.head?, c = '(' ∨ c = ')') :
    plain (t ++ r) = some (t, r) := by
  refine many1_append h0 (fun c hc => by simpa using h1 c hc) fun c hc => ?_
  rcases hr c hc with rfl | rfl <;> decide

theorem group_none {c : Char} {s : Text} (h : c ≠ '(') (f : Nat) : group f (c :: s) = none := by
  cases f with
  | zero => rfl
  | succ f => rw [group, just_ne (Ne.symm h)]; rfl

theorem parts_complete {e : Text} (h : NB e) : ∀ (r : Text) (f : Nat), 2 * (e ++ ')' :: r).length ≤ f →
    (parts f (e ++ ')' :: r)).1.flatten = e ∧ (parts f (e ++ ')' :: r)).2 = ')' :: r ∧ (e ≠ [] → (parts f (e ++ ')' :: r)).1 ≠ []) := by
  induction h with
  | nil =>
    intro r f hf
    cases f with
    | zero => simp at hf
    | succ f =>
      have : (group f (')' :: r)).or (plain (')' :: r)) = none := by
        rw [group_none (by decide), Option.none_or]
        exact many1_none (by simp)
      rw [List.nil_append, parts, this]
      simp
  | @run t e h0 h1 h2 h3 ih =>
    intro r f hf
    cases f with
    | zero => simp at hf
    | succ f =>
      have hp : (group f (t ++ e ++ ')' :: r)).or (plain (t ++ e ++ ')' :: r)) = some (t, e ++ ')' :: r) := by
        cases t with
        | nil => exact absurd rfl h0
        | cons c t =>
          rw [List.append_assoc, List.cons_append, group_none (h1 c (by simp)).1, Option.none_or, ← List.cons_append]
          refine plain_complete h0 h1 ?_
          cases e with
          | nil => simp
          | cons d e => simpa using h2
      have hl : t.length ≠ 0 := by simpa using h0
      obtain ⟨i1, i2, -⟩ := ih r f (by simp at hf ⊢; omega)
      rw [parts, hp]
      simp [i1, i2]
  | @grp t e h1 h2 h3 ih1 ih2 =>
    intro r f hf
    cases f with
    | zero => simp at hf
    | succ f =>
      cases f with
      | zero => simp at hf; omega
      | succ f =>
        have hs : '(' :: (t ++ ')' :: e) ++ ')' :: r = ['('] ++ (t ++ ')' :: (e ++ ')' :: r)) := by simp
        have hg : group (f + 1) (['('] ++ (t ++ ')' :: (e ++ ')' :: r))) = some (['('] ++ t ++ [')'], e ++ ')' :: r) := by
          obtain ⟨i1, i2, i3⟩ := ih1 (e ++ ')' :: r) f (by simp at hf ⊢; omega)
          rw [group, just_append, Option.bind_some]
          simp only [i2, if_neg (i3 h2), i1]
          rfl
        obtain ⟨i1, i2, -⟩ := ih2 r (f + 1) (by simp at hf ⊢; omega)
        rw [hs, parts, hg, Option.some_or]
        simp [i1, i2]

theorem eval_complete {e r : Text} (h : Bal e) :
    eval (['_', '_', 'E', 'V', 'A', 'L'] ++ ['('] ++ e ++ [')'] ++ r) = .ok e r := by
  have hs : ['_', '_', 'E', 'V', 'A', 'L'] ++ ['('] ++ e ++ [')'] ++ r =
      ['_', '_', 'E', 'V', 'A', 'L'] ++ (['('] ++ (e ++ ')' :: r)) := by simp
  have hg : group (2 * (['('] ++ (e ++ ')' :: r)).length + 1) (['('] ++ (e ++ ')' :: r)) = some (['('] ++ e ++ [')'], r) := by
    obtain ⟨i1, i2, i3⟩ := parts_complete h.nb.1 r (2 * (['('] ++ (e ++ ')' :: r)).length) (by simp)
    rw [group, just_append, Option.bind_some]
    simp only [i2, if_neg (i3 h.nb.2), i1]
    rfl
  rw [eval, hs, tok_mk]
  simp only [R.bind]
  rw [hg, Option.some_or]
  simp only [lift]
  rw [show (['('] ++ e ++ [')'] : Text) = '(' :: (e ++ [')']) by simp, unwrap, List.getLast?_concat, if_pos rfl, List.dropLast_concat]

theorem eval_fail {c : Char} {s : Text} (h : c ≠ '_') : eval (c :: s) = .fail := by
  rw [eval, tok_fail (Ne.symm h)]; rfl

/-! ### Arrays and values -/

section
variable {α : Type} {F : Fl α}

theorem Str.head {v t : Text} (h : Str v t) : ∃ t', t = '"' :: t' := by
  obtain ⟨ts, hs, -⟩ := h
  exact hs.nonempty

theorem Writing.head {n : Num} {s r : Text} (h : Writing F n s r) :
    ∃ c s', s = c :: s' ∧ (isDigit c = true ∨ c = '.' ∨ c = '-') ∧ r.length < s.length := by
  obtain ⟨l, hl, rfl, -⟩ := h
  obtain ⟨c, t, rfl, hc⟩ := hl.head
  exact ⟨c, t ++ r, rfl, hc, by simp; omega⟩

/-- The first characters of numbers. -/
theorem numHead_ne {c : Char} (h : isDigit c = true ∨ c = '.' ∨ c = '-') : isWs c = false ∧ c ≠ '{' ∧ c ≠ '"' ∧ c ≠ '_' ∧ c ≠ '=' ∧
    c ≠ '+' ∧ c ≠ '}' ∧ c ≠ ',' := by
  rcases h with h | rfl | rfl
  · refine ⟨solid_of_name (SqfLex.name_of_digit h), ?_, ?_, ?_, ?_, ?_, ?_, ?_⟩ <;> (rintro rfl; revert h; decide)
  · decide
  · decide

theorem Itm.head {i : Item} {s r : Text} (h : Itm (Writing F) i s r) : ∃ c s', s = c :: s' ∧ isWs c = false := by
  cases h with
  | str hs => obtain ⟨t, rfl⟩ := hs.head; exact ⟨'"', _, rfl, by decide⟩
  | num hn => obtain ⟨c, s', e, hc, -⟩ := hn.head; exact ⟨c, s', e, (numHead_ne hc).1⟩
  | arr ha => cases ha; exact ⟨'{', _, rfl, by decide⟩

mutual
theorem Arr.shorter {is : List Item} {s r : Text} (h : Arr (Writing F) is s r) : r.length < s.length := by
  match h with
  | .mk h => have := h.shorter; simp at this ⊢; omega
theorem Items.shorter {is : List Item} {s r : Text} (h : Items (Writing F) is s r) : r.length ≤ s.length := by
  match h with
  | .nil _ => simp
  | .last _ _ h => have := h.shorter; simp at this ⊢; omega
  | .cons _ _ h h' => have := h.shorter; have := h'.shorter; simp at *; omega
theorem Itm.shorter {i : Item} {s r : Text} (h : Itm (Writing F) i s r) : r.length < s.length := by
  match h with
  | .str h => obtain ⟨t, rfl⟩ := h.head; simp only [List.length_append, List.length_cons]; omega
  | .num h => exact h.head.choose_spec.choose_spec.2.2
  | .arr h => exact h.shorter
end

theorem string_none {c : Char} {s : Text} (h : c ≠ '"') : string (c :: s) = none := by
  rw [string, SqfLex.string, just_ne (Ne.symm h)]; rfl
theorem array_fail {c : Char} {s : Text} (hw : isWs c = false) (h : c ≠ '{') (f : Nat) : array F f (c :: s) = .fail := by
  cases f with
  | zero => rw [array]
  | succ f => rw [array, tokP_fail (ws_solid hw) (Ne.symm h)]; rfl

theorem items_stop {r : Text} (f : Nat) : items F f ('}' :: r) = .ok [] ('}' :: r) := by
  cases f with
  | zero => rw [items]
  | succ f =>
    have : item F f ('}' :: r) = .fail := by
      cases f with
      | zero => rw [item]
      | succ f =>
        have hw : ws ('}' :: r) = '}' :: r := ws_solid (by decide)
        rw [item, hw, array_fail (by decide) (by decide), arrayValue, string_none (by decide),
          numeric_none (by decide) (by decide) (by decide)]
        simp [R.map, R.bind, R.or, lift, orSkipItem, hw]
    rw [items, this]

mutual
theorem array_complete {is : List Item} {s r : Text} (h : Arr (Writing F) is s r) (f : Nat) (hf : 3 * s.length + 1 ≤ f) :
    array F f s = .ok is (ws r) := by
  match h with
  | .mk (s := s) h =>
    cases f with
    | zero => omega
    | succ f =>
      rw [array, tokP_at (ws_solid (by decide))]
      simp only [R.bind]
      rw [items_complete h f (by simp at hf; omega)]
      simp only
      rw [tokP_at (ws_solid (by decide))]
termination_by f
theorem item_complete {i : Item} {s r : Text} (h : Itm (Writing F) i s r) (hr : Stop r) (f : Nat) (hf : 3 * s.length + 2 ≤ f) :
    item F f s = .ok i (ws r) := by
  cases f with
  | zero => omega
  | succ f =>
    obtain ⟨c, s', hs, hc⟩ := h.head
    have hw : ws s = s := by rw [hs]; exact ws_solid hc
    rw [item, hw]
    match h with
    | .str (t := t) (r := r) h =>
      obtain ⟨t', rfl⟩ := h.head
      have h1 := string_complete h hr
      have h2 : array F f ('"' :: t' ++ r) = .fail := array_fail (by decide) (by decide) f
      rw [h2, arrayValue, h1]
      rfl
    | .num h =>
      obtain ⟨d, s2, rfl, hd, -⟩ := h.head
      have hd := numHead_ne hd
      obtain ⟨r', h1, h2⟩ := numeric_complete h hr
      rw [array_fail hd.1 hd.2.1, arrayValue, string_none hd.2.2.1, h1]
      show R.ok _ _ = _
      rw [← h2]
    | .arr h =>
      rw [array_complete h f (by omega)]
      show R.ok _ (ws (ws r)) = _
      rw [ws_ws]
termination_by f
theorem items_complete {is : List Item} {s r : Text} (h : Items (Writing F) is s ('}' :: r)) (f : Nat) (hf : 3 * s.length + 3 ≤ f) :
    items F f (ws s) = .ok is ('}' :: r) := by
  match h with
  | .nil hw =>
    rw [ws_to hw (by decide)]
    exact items_stop f
  | .last (s := s) (w := w) (w' := w') hw hw' h =>
    cases f with
    | zero => omega
    | succ f =>
      obtain ⟨c, s', hs, hc⟩ := h.head
      have e : ws (w ++ s) = s := by rw [hs]; exact ws_to hw hc
      have hi := item_complete h ⟨w', '}', r, hw', by simp, rfl⟩ f (by simp at hf; omega)
      rw [e, items, hi, ws_to hw' (by decide)]
      simp only
      rw [tokP_fail (ws_solid (by decide)) (by decide)]
  | .cons (s := s) (s' := s') (w := w) (w' := w') hw hw' h h' =>
    cases f with
    | zero => omega
    | succ f =>
      obtain ⟨c, s2, hs, hc⟩ := h.head
      have e : ws (w ++ s) = s := by rw [hs]; exact ws_to hw hc
      have hlen := h.shorter
      have hi := item_complete h ⟨w', ',', s', hw', by simp, rfl⟩ f (by simp at hf; omega)
      rw [e, items, hi, ws_to hw' (by decide)]
      simp only
      rw [tokP_at (ws_solid (by decide))]
      simp only
      rw [items_complete h' f (by simp at hf hlen; omega)]
      rfl
termination_by f
end

theorem Scalar.head {v : Val} {s r : Text} (h : Scalar (Writing F) v s r) : ∃ c s', s = c :: s' ∧ isWs c = false ∧ c ≠ '{' ∧ c ≠ '=' ∧
    c ≠ '+' ∧ r.length < s.length := by
  cases h with
  | str hs => obtain ⟨t, rfl⟩ := hs.head; exact ⟨'"', _, rfl, by decide, by decide, by decide, by decide, by
      simp only [List.length_append, List.length_cons]; omega⟩
  | num hn =>
    obtain ⟨c, s', e, hc, hl⟩ := hn.head
    have := numHead_ne hc
    exact ⟨c, s', e, this.1, this.2.1, this.2.2.2.2.1, this.2.2.2.2.2.1, hl⟩
  | expr => exact ⟨'_', _, rfl, by decide, by decide, by decide, by decide, by simp; omega⟩

theorem scalar_complete {v : Val} {s r : Text} (h : Scalar (Writing F) v s r) (hr : Stop r) :
    ∃ r', value F s = .ok v r' ∧ ws r' = ws r := by
  cases h with
  | @str x t _ h =>
    obtain ⟨t', rfl⟩ := h.head
    have h1 := string_complete h hr
    refine ⟨r, ?_, rfl⟩
    have h2 : ∀ f, array F f ('"' :: t' ++ r) = .fail := array_fail (by decide) (by decide)
    have h3 : eval ('"' :: t' ++ r) = .fail := eval_fail (by decide)
    rw [value, h1, h2, h3]
    rfl
  | num h =>
    obtain ⟨c, s', rfl, hc, -⟩ := h.head
    have hd := numHead_ne hc
    obtain ⟨r', h1, h2⟩ := numeric_complete h hr
    refine ⟨r', ?_, h2⟩
    rw [value, eval_fail hd.2.2.2.1, array_fail hd.1 hd.2.1, string_none hd.2.2.1, h1]
    rfl
  | expr h =>
    refine ⟨r, ?_, rfl⟩
    rw [value, eval_complete h]
    rfl

theorem arrayValue_complete {is : List Item} {s r : Text} (h : Arr (Writing F) is s r) : value F s = .ok (.uarr is) (ws r) := by
  have h1 := array_complete h (3 * s.length + 3) (by omega)
  have h2 : eval s = .fail := by cases h; exact eval_fail (by decide)
  rw [value, h1, h2]
  rfl

theorem Arr.head {is : List Item} {s r : Text} (h : Arr (Writing F) is s r) : ∃ s', s = '{' :: s' := by cases h; exact ⟨_, rfl⟩

/-! ### Properties -/

theorem Name.ident {n : Text} (h : Name n) : ∀ c ∈ n, isIdent c = true := by
  intro c hc
  have := h.2 c hc
  simpa [isIdent, or_assoc] using this
theorem Name.head {n : Text} (h : Name n) : ∃ c n', n = c :: n' ∧ isWs c = false := by
  cases n with
  | nil => exact absurd rfl h.1
  | cons c n =>
    refine ⟨c, n, rfl, solid_of_name ?_⟩
    rw [SqfLex.isName_iff]
    have := h.2 c (by simp)
    tauto
theorem ws_noIdent {c : Char} (h : isWs c = true) : isIdent c = false := by
  have := SqfLex.ws_noName h
  cases hi : isIdent c with
  | false => rfl
  | true =>
    have : isName c = true := by
      rw [SqfLex.isName_iff]
      simp [isIdent] at hi
      tauto
    rw [SqfLex.ws_noName h] at this; cases this

/-- A name cannot go on here. -/
def Apart (r : Text) : Prop := ∀ c ∈ r.head?, isIdent c = false
theorem apart_of {w s : Text} {c : Char} (h : Blank w) (hc : isIdent c = false) : Apart (w ++ c :: s) := by
  cases w with
  | nil => simpa [Apart] using hc
  | cons a w => simpa [Apart] using ws_noIdent (h a (by simp))

theorem ident_complete {n r : Text} (h : Name n) (hr : Apart r) : ident (n ++ r) = .ok n r := by
  rw [ident, many1_append h.1 h.ident hr]; rfl
theorem padIdent_complete {n w r : Text} (h : Name n) (hw : Blank w) (hr : Apart r) : padded ident (w ++ (n ++ r)) = .ok n (ws r) := by
  obtain ⟨c, n', rfl, hc⟩ := h.head
  rw [padded, List.cons_append, ws_to hw hc, ← List.cons_append, ident_complete h hr]; rfl
theorem padIdent_ws {s n r : Text} (h : padded ident (ws s) = .ok n r) : padded ident s = .ok n r := by
  rwa [padded, ws_ws] at h
theorem padIdent_fail {s : Text} (h : ∀ c ∈ (ws s).head?, isIdent c = false) : padded ident s = .fail := by
  rw [padded, ident, many1_none h]; rfl

theorem className_complete {n s r : Text} (h : Cls n s r) (hr : Apart r) : className s = .ok n (ws r) := by
  cases h with
  | mk hn hw =>
    rename_i w
    have := tokP_mk (w := []) (s := w ++ (n ++ r)) (c := 'c') (p := ['l', 'a', 's', 's', ' ']) (by decide) .nil
    rw [className, List.append_assoc, List.append_assoc]
    rw [List.nil_append] at this
    rw [this]
    show padded ident (ws (w ++ (n ++ r))) = _
    rw [padded, ws_ws]
    exact padIdent_complete hn hw hr

theorem parent_complete {w w' p r : Text} (hw : Blank w) (hw' : Blank w') (hp : Name p) (hr : Apart r) :
    parent (w ++ [':'] ++ w' ++ p ++ r) = .ok p (ws r) := by
  have := tokP_mk (w := w) (s := w' ++ (p ++ r)) (c := ':') (p := []) (by decide) hw
  have e : w ++ [':'] ++ w' ++ p ++ r = w ++ ([':'] ++ (w' ++ (p ++ r))) := by simp
  rw [parent, e, this]
  show padded ident (ws (w' ++ (p ++ r))) = _
  rw [padded, ws_ws]
  exact padIdent_complete hp hw' hr
theorem parent_fail {s e : Text} {c : Char} (h : ws s = c :: e) (hc : ':' ≠ c) : parent s = .fail := by
  rw [parent, tokP_fail h hc]; rfl

theorem Rhs.head {v : Val} {b : Bool} {s r : Text} (h : Rhs (Writing F) v b s r) : ∃ c s', ws s = c :: s' ∧ (c = '[' ∨ c = '=') ∧
    Apart s := by
  cases h with
  | arr h1 => exact ⟨'[', _, by simp only [List.append_assoc]; exact ws_to h1 (by decide), .inl rfl,
      by simp only [List.append_assoc]; exact apart_of h1 (by decide)⟩
  | app h1 => exact ⟨'[', _, by simp only [List.append_assoc]; exact ws_to h1 (by decide), .inl rfl,
      by simp only [List.append_assoc]; exact apart_of h1 (by decide)⟩
  | val h1 => exact ⟨'=', _, by simp only [List.append_assoc]; exact ws_to h1 (by decide), .inr rfl,
      by simp only [List.append_assoc]; exact apart_of h1 (by decide)⟩
  | oddVal h1 => exact ⟨'[', _, by simp only [List.append_assoc]; exact ws_to h1 (by decide), .inl rfl,
      by simp only [List.append_assoc]; exact apart_of h1 (by decide)⟩
  | oddArr h1 => exact ⟨'=', _, by simp only [List.append_assoc]; exact ws_to h1 (by decide), .inr rfl,
      by simp only [List.append_assoc]; exact apart_of h1 (by decide)⟩
  | noEqVal h1 => exact ⟨'[', _, by simp only [List.append_assoc]; exact ws_to h1 (by decide), .inl rfl,
      by simp only [List.append_assoc]; exact apart_of h1 (by decide)⟩
  | noEqArr h1 => exact ⟨'[', _, by simp only [List.append_assoc]; exact ws_to h1 (by decide), .inl rfl,
      by simp only [List.append_assoc]; exact apart_of h1 (by decide)⟩

/-- A word that is followed by a blank and by no name is no keyword. -/
theorem keyword_fail {k n s : Text} (hk : ∀ c ∈ k, isIdent c = true) (hn : Name n) (hs : Apart s)
    (hx : ∃ c s', ws s = c :: s' ∧ isIdent c = false) :
    (tokP (k ++ [' ']) (n ++ s)).bind (fun _ r => padded ident r) = .fail := by
  obtain ⟨d, n', hd, hdw⟩ := hn.head
  cases hj : just (k ++ [' ']) (n ++ s) with
  | none =>
    have : tokP (k ++ [' ']) (n ++ s) = .fail := by
      rw [tokP, hd, List.cons_append, ws_solid hdw, ← List.cons_append, ← hd, tok, hj]; rfl
    rw [this]; rfl
  | some r =>
    have e := just_some hj
    have h1 := (SqfLex.takeWhile_append_stop hn.ident hs).2
    have h2 := (SqfLex.takeWhile_append_stop (d := k) (r := ' ' :: r) hk (by simp; decide)).2
    rw [e, List.append_assoc] at h1
    have hsr : s = ' ' :: r := by rw [← h1]; exact h2
    have : tokP (k ++ [' ']) (n ++ s) = .ok () (ws r) := by
      rw [tokP, hd, List.cons_append, ws_solid hdw, ← List.cons_append, ← hd, tok, hj]; rfl
    rw [this]
    show padded ident (ws r) = .fail
    refine padIdent_fail ?_
    rw [ws_ws]
    obtain ⟨x, s', h3, h4⟩ := hx
    have h5 : ws s = ws r := by rw [hsr]; exact ws_append (w := [' ']) (by intro c hc; simp at hc; subst hc; decide)
    rw [← h5, h3]
    simpa using h4

theorem className_entry {n s : Text} (hn : Name n) (hs : Apart s) (hx : ∃ c s', ws s = c :: s' ∧ isIdent c = false) :
    className (n ++ s) = .fail :=
  keyword_fail (k := ['c', 'l', 'a', 's', 's']) (by decide) hn hs hx
theorem delete_entry {n s : Text} (hn : Name n) (hs : Apart s) (hx : ∃ c s', ws s = c :: s' ∧ isIdent c = false) :
    delete (n ++ s) = .fail := by
  have h := keyword_fail (k := ['d', 'e', 'l', 'e', 't', 'e']) (by decide) hn hs hx
  rw [delete]
  show R.bind (tokP (['d', 'e', 'l', 'e', 't', 'e'] ++ [' ']) (n ++ s)) _ = _
  cases ht : tokP (['d', 'e', 'l', 'e', 't', 'e'] ++ [' ']) (n ++ s) with
  | fail => rfl
  | halt => rw [ht] at h; cases h
  | ok u r =>
    rw [ht] at h
    have h : padded ident r = .fail := h
    have hr : ws r = r := by
      simp only [tokP, bind_ok] at ht
      obtain ⟨_, _, _, ht⟩ := ht
      cases ht
      exact ws_ws _
    show (ident r).bind _ = _
    rw [padded, hr] at h
    cases hi : ident r with
    | fail => rfl
    | halt => rw [hi] at h; cases h
    | ok => rw [hi] at h; cases h

/-- What stands behind a name is read. -/
theorem rhs_complete {v : Val} {b : Bool} {s r : Text} (h : Rhs (Writing F) v b s r) (hr : Stop r) :
    ((arrayRhs F s).map fun v => (v, true)).or ((plainRhs F s).map fun v => (v, false)) = .ok (v, b) (ws r) := by
  have key : ∀ w s, Blank w → (∃ r', orSkip
      (((tokP ['='] (ws s)).bind fun _ e =>
          orSkip (padded (fun x => ((array F (3 * x.length + 3) x).map (Val.arr false)).or (value F x)) e) e).or
        (padded (fun x => (((tokP ['+', '='] x).bind fun _ e => (array F (3 * e.length + 3) e).map (Val.arr true)).or
          (value F x))) (ws s)))
      (ws s) = .ok v r' ∧ r' = ws r) → b = true →
      ((arrayRhs F (w ++ (['[', ']'] ++ s))).map fun v => (v, true)).or
        ((plainRhs F (w ++ (['[', ']'] ++ s))).map fun v => (v, false)) = .ok (v, b) (ws r) := by
    rintro w s hw ⟨r', h0, rfl⟩ rfl
    have h1 : arrayRhs F (w ++ (['[', ']'] ++ s)) = .ok v (ws r) := by
      rw [arrayRhs, tokP_mk (by decide) hw]; exact h0
    rw [h1]; rfl
  have key2 : ∀ w s, Blank w → (∃ r', value F (ws s) = .ok v r' ∧ ws r' = ws r) → b = false →
      ((arrayRhs F (w ++ (['='] ++ s))).map fun v => (v, true)).or
        ((plainRhs F (w ++ (['='] ++ s))).map fun v => (v, false)) = .ok (v, b) (ws r) := by
    rintro w s hw ⟨r', h0, h'⟩ rfl
    have h1 : arrayRhs F (w ++ (['='] ++ s)) = .fail := by
      have := tokP_fail (s := w ++ (['='] ++ s)) (c := '[') (p := [']']) (ws_to hw (by decide)) (by decide)
      rw [arrayRhs, this]; rfl
    have h2 : plainRhs F (w ++ (['='] ++ s)) = .ok v (ws r) := by
      rw [plainRhs, tokP_mk (by decide) hw]
      show R.bind (orSkip (value F (ws (ws s))) _) _ = _
      rw [ws_ws, h0]
      exact congrArg _ h'
    rw [h1, h2]; rfl
  have eqv : ∀ w s, Blank w → (∃ r', ((array F (3 * (ws s).length + 3) (ws s)).map (Val.arr false)).or (value F (ws s)) = .ok v r' ∧
      ws r' = ws r) → ∃ r', orSkip
      (((tokP ['='] (ws (w ++ (['='] ++ s)))).bind fun _ e =>
          orSkip (padded (fun x => ((array F (3 * x.length + 3) x).map (Val.arr false)).or (value F x)) e) e).or
        (padded (fun x => (((tokP ['+', '='] x).bind fun _ e => (array F (3 * e.length + 3) e).map (Val.arr true)).or
          (value F x))) (ws (w ++ (['='] ++ s)))))
      (ws (w ++ (['='] ++ s))) = .ok v r' ∧ r' = ws r := by
    rintro w s hw ⟨r', h1, h2⟩
    refine ⟨_, ?_, rfl⟩
    have e : ws (w ++ (['='] ++ s)) = '=' :: s := ws_to hw (by decide)
    rw [e, tokP_at (ws_solid (by decide))]
    have h3 : padded (fun x => ((array F (3 * x.length + 3) x).map (Val.arr false)).or (value F x)) (ws s) = .ok v (ws r) := by
      rw [padded, ws_ws, h1, ← h2]; rfl
    simp only [R.bind]
    rw [h3]; rfl
  have noeq : ∀ c s, isWs c = false → c ≠ '=' → c ≠ '+' → (∃ r', value F (c :: s) = .ok v r' ∧ ws r' = ws r) → ∃ r', orSkip
      (((tokP ['='] (c :: s)).bind fun _ e =>
          orSkip (padded (fun x => ((array F (3 * x.length + 3) x).map (Val.arr false)).or (value F x)) e) e).or
        (padded (fun x => (((tokP ['+', '='] x).bind fun _ e => (array F (3 * e.length + 3) e).map (Val.arr true)).or
          (value F x))) (c :: s)))
      (c :: s) = .ok v r' ∧ r' = ws r := by
    rintro c s hw h1 h2 ⟨r', h3, h4⟩
    refine ⟨_, ?_, rfl⟩
    have e := ws_solid (s := s) hw
    rw [tokP_fail e (Ne.symm h1)]
    have h5 : padded (fun x => (((tokP ['+', '='] x).bind fun _ e => (array F (3 * e.length + 3) e).map (Val.arr true)).or
          (value F x))) (c :: s) = .ok v (ws r) := by
      rw [padded, e, tokP_fail e (Ne.symm h2), ← h4]
      show (value F (c :: s)).bind _ = _
      rw [h3]; rfl
    rw [h5]; rfl
  cases h with
  | @arr w1 w2 w3 is s r h1 h2 h3 h4 =>
    obtain ⟨s', rfl⟩ := h4.head
    simp only [List.append_assoc]
    refine key _ _ h1 (eqv _ _ h2 ⟨ws r, ?_, ws_ws r⟩) rfl
    rw [ws_to h3 (by decide), array_complete h4 _ (by omega)]; rfl
  | @app w1 w2 w3 is s r h1 h2 h3 h4 =>
    obtain ⟨s', rfl⟩ := h4.head
    simp only [List.append_assoc]
    refine key _ _ h1 ⟨_, ?_, rfl⟩ rfl
    have e : ws (w2 ++ (['+', '='] ++ (w3 ++ '{' :: s'))) = '+' :: '=' :: (w3 ++ '{' :: s') := ws_to h2 (by decide)
    rw [e, tokP_fail (ws_solid (by decide)) (by decide)]
    have h5 := tokP_mk (w := []) (c := '+') (p := ['=']) (s := w3 ++ '{' :: s') (by decide) .nil
    rw [ws_to h3 (by decide)] at h5
    have h6 : tokP ['+', '='] ('+' :: '=' :: (w3 ++ '{' :: s')) = .ok () ('{' :: s') := h5
    have h7 : padded (fun x => (((tokP ['+', '='] x).bind fun _ e => (array F (3 * e.length + 3) e).map (Val.arr true)).or
          (value F x))) ('+' :: '=' :: (w3 ++ '{' :: s')) = .ok (.arr true is) (ws r) := by
      rw [padded, ws_solid (by decide), h6]
      simp only [R.bind]
      rw [array_complete h4 _ (by omega)]
      show R.ok _ (ws (ws r)) = _
      rw [ws_ws]
    rw [h7]; rfl
  | @val w1 w2 v s r h1 h2 h3 =>
    obtain ⟨c, s', rfl, hc, -⟩ := h3.head
    simp only [List.append_assoc]
    refine key2 _ _ h1 ?_ rfl
    rw [ws_to h2 hc]
    exact scalar_complete h3 hr
  | @oddVal w1 w2 w3 v s r h1 h2 h3 h4 =>
    obtain ⟨c, s', rfl, hc, hb, -⟩ := h4.head
    simp only [List.append_assoc]
    refine key _ _ h1 (eqv _ _ h2 ?_) rfl
    rw [ws_to h3 hc, array_fail hc hb]
    exact scalar_complete h4 hr
  | @oddArr w1 w2 is s r h1 h2 h3 =>
    obtain ⟨s', rfl⟩ := h3.head
    simp only [List.append_assoc]
    refine key2 _ _ h1 ⟨ws r, ?_, ws_ws r⟩ rfl
    rw [ws_to h2 (by decide)]
    exact arrayValue_complete h3
  | @noEqVal w1 w2 v s r h1 h2 h3 =>
    obtain ⟨c, s', rfl, hc, -, he, hp, -⟩ := h3.head
    simp only [List.append_assoc]
    refine key _ _ h1 ?_ rfl
    rw [ws_to h2 hc]
    exact noeq _ _ hc he hp (scalar_complete h3 hr)
  | @noEqArr w1 w2 is s r h1 h2 h3 =>
    obtain ⟨s', rfl⟩ := h3.head
    simp only [List.append_assoc]
    refine key _ _ h1 ?_ rfl
    rw [ws_to h2 (by decide)]
    exact noeq _ _ (by decide) (by decide) (by decide) ⟨_, arrayValue_complete h3, ws_ws r⟩

theorem Rhs.shorter {v : Val} {b : Bool} {s r : Text} (h : Rhs (Writing F) v b s r) : r.length < s.length := by
  cases h with
  | arr _ _ _ h => have := h.shorter; simp; omega
  | app _ _ _ h => have := h.shorter; simp; omega
  | val _ _ h => obtain ⟨_, _, -, -, -, -, -, h⟩ := h.head; simp; omega
  | oddVal _ _ _ h => obtain ⟨_, _, -, -, -, -, -, h⟩ := h.head; simp; omega
  | oddArr _ _ h => have := h.shorter; simp; omega
  | noEqVal _ _ h => obtain ⟨_, _, -, -, -, -, -, h⟩ := h.head; simp; omega
  | noEqArr _ _ h => have := h.shorter; simp; omega
theorem Cls.shorter {n s r : Text} (h : Cls n s r) : r.length + 6 ≤ s.length := by
  cases h; simp; omega
mutual
theorem Body.shorter {p : Prp} {s r : Text} (h : Body (Writing F) p s r) : r.length ≤ s.length := by
  match h with
  | .entry _ h => have := h.shorter; simp; omega
  | .del _ _ => simp; omega
  | .ext h => have := h.shorter; omega
  | .noBraces h _ _ _ => have := h.shorter; simp at this; omega
  | .root h _ h' => have := h.shorter; have := h'.shorter; simp at *; omega
  | .child h _ _ _ _ h' => have := h.shorter; have := h'.shorter; simp at *; omega
theorem Props.shorter {ps : List Prp} {s r : Text} (h : Props (Writing F) ps s r) : r.length ≤ s.length := by
  match h with
  | .nil _ => simp
  | .cons _ h _ h' => have := h.shorter; have := h'.shorter; simp at *; omega
  | .miss _ h h' => have := h.shorter; have := h'.shorter; simp at *; omega
end

theorem Cls.head {n s r : Text} (h : Cls n s r) : ∃ s', s = 'c' :: s' := by cases h; exact ⟨_, rfl⟩
theorem Body.head {p : Prp} {s r : Text} (h : Body (Writing F) p s r) : ∃ c s', s = c :: s' ∧ isWs c = false := by
  cases h with
  | entry h =>
    obtain ⟨c, n', rfl, hc⟩ := h.head
    exact ⟨c, _, rfl, hc⟩
  | del => exact ⟨'d', _, rfl, by decide⟩
  | ext h => obtain ⟨s', h⟩ := h.head; exact ⟨'c', s', h, by decide⟩
  | noBraces h => obtain ⟨s', h⟩ := h.head; exact ⟨'c', s', h, by decide⟩
  | root h => obtain ⟨s', h⟩ := h.head; exact ⟨'c', s', h, by decide⟩
  | child h => obtain ⟨s', h⟩ := h.head; exact ⟨'c', s', h, by decide⟩

theorem classes_fail {body : Text → R (List Prp)} {s : Text} (h : className s = .fail) :
    ((classLocal body s).or (classMissing s)).or (classExternal s) = .fail := by
  rw [classLocal, classMissing, classExternal, h]; rfl

theorem property_end {r : Text} (hr : r = [] ∨ ∃ e, r = '}' :: e) (f : Nat) : property F f r = .fail := by
  cases f with
  | zero => rw [property]
  | succ f =>
    have hi : padded ident r = .fail := by
      refine padIdent_fail ?_
      rcases hr with rfl | ⟨e, rfl⟩
      · simp [ws]
      · rw [ws_solid (by decide)]; simp; decide
    have hk : ∀ c p, c ≠ '}' → tokP (c :: p) r = .fail := by
      intro c p hc
      rcases hr with rfl | ⟨e, rfl⟩
      · exact tokP_nil rfl
      · exact tokP_fail (ws_solid (by decide)) hc
    have hc : className r = .fail := by rw [className, hk _ _ (by decide)]; rfl
    have hd : delete r = .fail := by rw [delete, hk _ _ (by decide)]; rfl
    rw [property, classes_fail hc, hd, entry, hi]; rfl

theorem semicolon_complete {p : Prp} {r' w s : Text} (hw : Blank w) (h : ws r' = ws (w ++ ';' :: s)) :
    semicolon p r' = .ok p (ws s) := by
  rw [ws_to hw (by decide)] at h
  rw [semicolon, tokP_at h]

theorem tokP_ws (p s : Text) : tokP p (ws s) = tokP p s := by rw [tokP, ws_ws]; rfl
theorem parent_ws (s : Text) : parent (ws s) = parent s := by rw [parent, tokP_ws]; rfl
theorem rhs_ws (s : Text) : ((arrayRhs F (ws s)).map fun v => (v, true)).or ((plainRhs F (ws s)).map fun v => (v, false)) =
    ((arrayRhs F s).map fun v => (v, true)).or ((plainRhs F s).map fun v => (v, false)) := by
  rw [arrayRhs, plainRhs, tokP_ws, tokP_ws]; rfl

mutual
theorem property_complete {p : Prp} {s w e : Text} (h : Body (Writing F) p s (w ++ ';' :: e)) (hw : Blank w) (hp : Ended p) (f : Nat)
    (hf : 2 * s.length + 1 ≤ f) : property F f s = .ok p (ws e) := by
  cases f with
  | zero => omega
  | succ f =>
    have hap : Apart (w ++ ';' :: e) := apart_of hw (by decide)
    have hst : Stop (w ++ ';' :: e) := ⟨w, ';', e, hw, by simp, rfl⟩
    have hse : ws (w ++ ';' :: e) = ';' :: e := ws_to hw (by decide)
    have main : ∀ r', ws r' = ws (w ++ ';' :: e) →
        ((((classLocal (properties F f) s).or (classMissing s)).or (classExternal s)).or (delete s)).or (entry F s) = .ok p r' →
        property F f.succ s = .ok p (ws e) := by
      intro r' h1 h2
      rw [property, h2]
      exact semicolon_complete hw h1
    match h with
    | .entry (n := n) (s := s1) (v := v) (b := b) hn hr =>
      have hh := hr.head
      obtain ⟨c, s2, h1, h2, h3⟩ := hh
      have hx : ∃ c s', ws s1 = c :: s' ∧ isIdent c = false := ⟨c, s2, h1, by rcases h2 with rfl | rfl <;> decide⟩
      have h4 := className_entry hn h3 hx
      have h5 := delete_entry hn h3 hx
      refine main _ (ws_ws _) ?_
      rw [classes_fail h4, h5]
      show entry F (n ++ s1) = _
      have h6 := padIdent_complete (w := []) hn .nil h3
      rw [entry, show padded ident (n ++ s1) = _ from h6]
      show R.bind (R.or (R.map _ (arrayRhs F (ws s1))) (R.map _ (plainRhs F (ws s1)))) _ = _
      rw [rhs_ws, rhs_complete hr hst]
      rfl
    | .del (n := n) (w := w1) hn hw1 =>
      refine main _ rfl ?_
      have h1 : className (['d', 'e', 'l', 'e', 't', 'e', ' '] ++ w1 ++ n ++ (w ++ ';' :: e)) = .fail := by
        have := tokP_fail (s := ['d', 'e', 'l', 'e', 't', 'e', ' '] ++ w1 ++ n ++ (w ++ ';' :: e)) (c := 'c')
          (p := ['l', 'a', 's', 's', ' ']) (ws_solid (by decide)) (by decide)
        rw [className, this]; rfl
      have h2 : delete (['d', 'e', 'l', 'e', 't', 'e', ' '] ++ w1 ++ n ++ (w ++ ';' :: e)) = .ok (.del n) (w ++ ';' :: e) := by
        have := tokP_mk (w := []) (s := w1 ++ (n ++ (w ++ ';' :: e))) (c := 'd') (p := ['e', 'l', 'e', 't', 'e', ' ']) (by decide) .nil
        rw [List.nil_append] at this
        rw [List.append_assoc, List.append_assoc, delete, this]
        obtain ⟨c, n', rfl, hc⟩ := hn.head
        show R.bind (ident (ws (w1 ++ (c :: (n' ++ _))))) _ = _
        rw [ws_to hw1 hc, ← List.cons_append, ident_complete hn hap]
        rfl
      rw [classes_fail h1, h2]; rfl
    | .ext (n := n) hc =>
      have h1 := className_complete hc hap
      have h2 : parent (ws (w ++ ';' :: e)) = .fail := parent_fail (by rw [ws_ws]; exact hse) (by decide)
      refine main _ (ws_ws _) ?_
      rw [classLocal, classMissing, classExternal, h1]
      simp only [R.bind, orNot, h2, R.map, R.or, ws_ws]
      rw [hse]
      rfl
    | .noBraces (p := q) (w := w1) (w' := w2) hc h1 h2 h3 =>
      have h4 := className_complete hc (by simp only [List.append_assoc]; exact apart_of h1 (by decide))
      have h5 := parent_complete h1 h2 h3 hap
      rw [← parent_ws] at h5
      refine main _ (ws_ws _) ?_
      rw [classLocal, classMissing, classExternal, h4]
      simp only [R.bind, orNot, h5, R.map, R.or, ws_ws]
      rw [hse]
      rfl
    | .root (n := n) (w := w1) (s' := s1) (ps := ps) hc h1 h2 =>
      have hl := hc.shorter
      have h4 := className_complete hc (by simp only [List.append_assoc]; exact apart_of h1 (by decide))
      have h6 : ws (w1 ++ ['{'] ++ s1) = '{' :: s1 := by rw [List.append_assoc]; exact ws_to h1 (by decide)
      have h5 : parent (ws (w1 ++ ['{'] ++ s1)) = .fail := parent_fail (by rw [ws_ws]; exact h6) (by decide)
      have h7 := properties_complete h2 (.inr ⟨_, rfl⟩) (by rwa [Ended] at hp) f (by simp at hl hf; omega)
      refine main _ rfl ?_
      have h8 : classLocal (properties F f) s = .ok (.loc n none ps false) (w ++ ';' :: e) := by
        rw [classLocal, h4]
        simp only [R.bind, orNot, h5, R.map, R.or, ws_ws]
        rw [h6, show ('{' :: s1) = ['{'] ++ s1 from rfl, tok_mk]
        simp only [padded, h7, R.bind]
        rw [ws_solid (by decide), show ('}' :: (w ++ ';' :: e)) = ['}'] ++ (w ++ ';' :: e) from rfl, tok_mk]
      rw [h8]; rfl
    | .child (n := n) (w := w1) (w' := w2) (w'' := w3) (s' := s1) (p := q) (ps := ps) hc h1 h2 h3 h4 h5 =>
      have hl := hc.shorter
      have h6 := className_complete hc (by simp only [List.append_assoc]; exact apart_of h1 (by decide))
      have h7 := parent_complete (r := w3 ++ ['{'] ++ s1) h1 h2 h3 (by simp only [List.append_assoc]; exact apart_of h4 (by decide))
      rw [← parent_ws] at h7
      have h8 : ws (w3 ++ ['{'] ++ s1) = '{' :: s1 := by rw [List.append_assoc]; exact ws_to h4 (by decide)
      have h9 := properties_complete h5 (.inr ⟨_, rfl⟩) (by rwa [Ended] at hp) f (by simp at hl hf; omega)
      refine main _ rfl ?_
      have h10 : classLocal (properties F f) s = .ok (.loc n (some q) ps false) (w ++ ';' :: e) := by
        rw [classLocal, h6]
        simp only [← List.append_assoc] at h7 ⊢
        simp only [R.bind, orNot, h7, R.map, R.or, ws_ws]
        simp only [List.append_assoc] at h8 ⊢
        rw [h8, show ('{' :: s1) = ['{'] ++ s1 from rfl, tok_mk]
        simp only [padded, h9, R.bind]
        rw [ws_solid (by decide), show ('}' :: (w ++ ';' :: e)) = ['}'] ++ (w ++ ';' :: e) from rfl, tok_mk]
      rw [h10]; rfl
termination_by f
theorem properties_complete {ps : List Prp} {s r : Text} (h : Props (Writing F) ps s r) (hr : r = [] ∨ ∃ e, r = '}' :: e)
    (hp : AllEnded ps) (f : Nat) (hf : 2 * s.length + 2 ≤ f) : properties F f (ws s) = .ok ps r := by
  cases f with
  | zero => omega
  | succ f =>
    have hwr : ws r = r := by
      rcases hr with rfl | ⟨e, rfl⟩
      · rfl
      · exact ws_solid (by decide)
    match h with
    | .nil hw =>
      rw [ws_append hw, hwr, properties, hwr, property_end hr]
    | .cons (s := s1) (w := w1) (p := p) (s' := s2) hw h1 hw1 h2 =>
      obtain ⟨c, s3, hs, hc⟩ := h1.head
      have e : ws (w1 ++ s1) = s1 := by rw [hs]; exact ws_to hw hc
      have e2 : ws s1 = s1 := by rw [hs]; exact ws_solid hc
      have hl := h1.shorter
      rw [AllEnded] at hp
      rw [properties, e, e2, property_complete h1 hw1 hp.1 f (by simp at hf; omega)]
      simp only
      rw [ws_ws, properties_complete h2 hr hp.2 f (by simp at hf hl; omega)]
      rfl
    | .miss (p := p) _ _ _ => rw [AllEnded, Ended] at hp; exact hp.1.elim
termination_by f
end

theorem config_complete {ps : List Prp} {s : Text} (h : Written (Writing F) ps s) (hp : AllEnded ps) : config F s = .ok ps [] := by
  have h1 := properties_complete h (.inl rfl) hp (2 * s.length + 2) (le_refl _)
  rw [config]
  have hn : property F (2 * s.length + 1) [] = .fail := property_end (.inl rfl) _
  rw [properties, ws_ws] at h1
  rw [properties]
  cases hq : property F (2 * s.length + 1) (ws s) with
  | halt x => rw [hq] at h1; cases h1
  | ok q r =>
    rw [hq] at h1
    simp only at h1 ⊢
    rw [h1]; rfl
  | fail =>
    rw [hq] at h1
    injection h1 with h1 h2
    subst h1
    simp only [R.bind, h2]
    by_cases hs : s = []
    · subst hs; rfl
    · rw [if_neg hs]; rfl
end

end Verif.ConfigParse
