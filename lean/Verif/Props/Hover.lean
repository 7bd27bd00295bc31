import Verif.Model.Hover
/-!
C118: hovering over a script in the editor.
-/
namespace Verif.Hover
open Verif.Sqf Verif.SqfLint

mutual
/-- An expression and all that are in it. -/
def parts : Expr → List Expr
  | .code ss src sp => .code ss src sp :: partsSs ss
  | .str s sp w => [.str s sp w]
  | .num x sp => [.num x sp]
  | .bool b sp => [.bool b sp]
  | .arr es sp => .arr es sp :: partsEs es
  | .carr es sp => .carr es sp :: partsEs es
  | .nular n sp => [.nular n sp]
  | .un c e sp => .un c e sp :: parts e
  | .bin c l r sp => .bin c l r sp :: (parts l ++ parts r)
  | .var n sp => [.var n sp]
def partsEs : List Expr → List Expr
  | [] => []
  | e :: es => parts e ++ partsEs es
def partsS : Stmt → List Expr
  | .assignGlobal _ e _ | .assignLocal _ e _ | .expr e _ => parts e
def partsSs : List Stmt → List Expr
  | [] => []
  | s :: ss => partsS s ++ partsSs ss
end

/-- The cursor is behind the beginning of the first token of the expression, and before the end of the token that follows its
last one. -/
def Behind (m : Mapping) (off : Nat) (e : Expr) : Prop :=
  ∃ a b, m (fullSpan e).1 = some a ∧ m (fullSpan e).2 = some b ∧ a.start < off ∧ off < b.stop

/-- The operands of a command. -/
def operands : Expr → List Expr
  | .un _ e _ => [e]
  | .bin _ l r _ => [l, r]
  | _ => []

/-- The cursor is not in an operand, nor in the token that follows it. -/
def Outside (m : Mapping) (off : Nat) (e : Expr) : Prop :=
  ∀ o ∈ operands e, ∃ a b, m (fullSpan o).1 = some a ∧ m (fullSpan o).2 = some b ∧ (off < a.start ∨ b.stop ≤ off)

theorem ends_some {m : Mapping} {sp : Span} {a b : Nat} (h : ends m sp = some (a, b)) :
    ∃ x y, m sp.1 = some x ∧ m sp.2 = some y ∧ a = x.start ∧ b = y.stop := by
  unfold ends at h
  split at h
  · rename_i x y h1 h2
    injection h with h
    injection h with h3 h4
    exact ⟨x, y, h1, h2, h3.symm, h4.symm⟩
  · cases h

theorem within_true {m : Mapping} {off : Nat} {e : Expr} (h : within m off (fullSpan e) = true) : Behind m off e := by
  unfold within at h
  split at h
  · rename_i a b he
    obtain ⟨x, y, h1, h2, rfl, rfl⟩ := ends_some he
    simp only [ge_iff_le, Bool.not_eq_true', Bool.or_eq_false_iff, decide_eq_false_iff_not, Nat.not_le] at h
    exact ⟨x, y, h1, h2, h.1, h.2⟩
  · cases h

/-- What a place that was found is. -/
def Found (m : Mapping) (off : Nat) (x : Expr) : Prop := Behind m off x ∧ Outside m off x

theorem leaf_some {m : Mapping} {off : Nat} {e x : Expr} {sp : Span} (h : leaf m off e sp = some x) : x = e := by
  unfold leaf at h
  split at h
  · split at h
    · exact (Option.some.inj h).symm
    · cases h
  · cases h

theorem leaf_found {m : Mapping} {off : Nat} {e x : Expr} {sp : Span} (hp : e ∈ parts e) (ho : operands e = [])
    (hs : fullSpan e = sp) (h : (if within m off sp then leaf m off e sp else none) = some x) :
    x ∈ parts e ∧ Found m off x := by
  split at h
  · rename_i hw
    have := leaf_some h
    subst this
    exact ⟨hp, within_true (hs ▸ hw), by unfold Outside; simp [ho]⟩
  · cases h

mutual
theorem locate_found (m : Mapping) (off : Nat) : ∀ (e x : Expr), locate m off e = some x → x ∈ parts e ∧ Found m off x
  | .code ss src sp, x, h => by
    rw [locate] at h
    split at h
    · obtain ⟨h1, h2⟩ := locateSs_found m off ss x h
      exact ⟨by rw [parts]; exact List.mem_cons_of_mem _ h1, h2⟩
    · cases h
  | .str s sp w, x, h => by rw [locate] at h; exact leaf_found (by simp [parts]) rfl rfl h
  | .num n sp, x, h => by rw [locate] at h; exact leaf_found (by simp [parts]) rfl rfl h
  | .var n sp, x, h => by rw [locate] at h; exact leaf_found (by simp [parts]) rfl rfl h
  | .bool b sp, x, h => by rw [locate] at h; exact leaf_found (by simp [parts]) rfl rfl h
  | .arr es sp, x, h => by
    rw [locate] at h
    split at h
    · obtain ⟨h1, h2⟩ := locateEs_found m off es x h
      exact ⟨by rw [parts]; exact List.mem_cons_of_mem _ h1, h2⟩
    · cases h
  | .carr es sp, x, h => by
    rw [locate] at h
    split at h
    · obtain ⟨h1, h2⟩ := locateEs_found m off es x h
      exact ⟨by rw [parts]; exact List.mem_cons_of_mem _ h1, h2⟩
    · cases h
  | .nular n sp, x, h => by
    rw [locate] at h
    split at h
    · rename_i hw
      have := (Option.some.inj h).symm
      subst this
      exact ⟨by simp [parts], within_true hw, by simp [Outside, operands]⟩
    · cases h
  | .un c e sp, x, h => by
    rw [locate] at h
    split at h
    · rename_i hw
      split at h
      · cases h
      · rename_i a b he
        split at h
        · obtain ⟨h1, h2⟩ := locate_found m off e x h
          exact ⟨by rw [parts]; exact List.mem_cons_of_mem _ h1, h2⟩
        · rename_i hn
          have := (Option.some.inj h).symm
          subst this
          refine ⟨by simp [parts], within_true hw, ?_⟩
          intro o ho
          rw [operands, List.mem_singleton] at ho
          subst ho
          obtain ⟨y, z, h1, h2, rfl, rfl⟩ := ends_some he
          exact ⟨y, z, h1, h2, by omega⟩
    · cases h
  | .bin c l r sp, x, h => by
    rw [locate] at h
    split at h
    · rename_i hw
      split at h
      · cases h
      · rename_i a b he
        split at h
        · obtain ⟨h1, h2⟩ := locate_found m off l x h
          exact ⟨by rw [parts]; exact List.mem_cons_of_mem _ (List.mem_append_left _ h1), h2⟩
        · rename_i hn
          split at h
          · cases h
          · rename_i a' b' he'
            split at h
            · obtain ⟨h1, h2⟩ := locate_found m off r x h
              exact ⟨by rw [parts]; exact List.mem_cons_of_mem _ (List.mem_append_right _ h1), h2⟩
            · rename_i hn'
              have := (Option.some.inj h).symm
              subst this
              refine ⟨by simp [parts], within_true hw, ?_⟩
              intro o ho
              simp only [operands, List.mem_cons, List.not_mem_nil, or_false] at ho
              rcases ho with rfl | rfl
              · obtain ⟨y, z, h1, h2, rfl, rfl⟩ := ends_some he
                exact ⟨y, z, h1, h2, by omega⟩
              · obtain ⟨y, z, h1, h2, rfl, rfl⟩ := ends_some he'
                exact ⟨y, z, h1, h2, by omega⟩
    · cases h
theorem locateEs_found (m : Mapping) (off : Nat) : ∀ (es : List Expr) (x : Expr), locateEs m off es = some x →
    x ∈ partsEs es ∧ Found m off x
  | [], x, h => by rw [locateEs] at h; cases h
  | e :: es, x, h => by
    rw [locateEs] at h
    split at h
    · rename_i y hy
      have := Option.some.inj h
      subst this
      obtain ⟨h1, h2⟩ := locate_found m off e y hy
      exact ⟨by rw [partsEs]; exact List.mem_append_left _ h1, h2⟩
    · obtain ⟨h1, h2⟩ := locateEs_found m off es x h
      exact ⟨by rw [partsEs]; exact List.mem_append_right _ h1, h2⟩
theorem locateS_found (m : Mapping) (off : Nat) : ∀ (s : Stmt) (x : Expr), locateS m off s = some x →
    x ∈ partsS s ∧ Found m off x
  | .assignGlobal _ e _, x, h => by rw [locateS] at h; rw [partsS]; exact locate_found m off e x h
  | .assignLocal _ e _, x, h => by rw [locateS] at h; rw [partsS]; exact locate_found m off e x h
  | .expr e _, x, h => by rw [locateS] at h; rw [partsS]; exact locate_found m off e x h
theorem locateSs_found (m : Mapping) (off : Nat) : ∀ (ss : List Stmt) (x : Expr), locateSs m off ss = some x →
    x ∈ partsSs ss ∧ Found m off x
  | [], x, h => by rw [locateSs] at h; cases h
  | s :: ss, x, h => by
    rw [locateSs] at h
    split at h
    · rename_i y hy
      have := Option.some.inj h
      subst this
      obtain ⟨h1, h2⟩ := locateS_found m off s y hy
      exact ⟨by rw [partsSs]; exact List.mem_append_left _ h1, h2⟩
    · obtain ⟨h1, h2⟩ := locateSs_found m off ss x h
      exact ⟨by rw [partsSs]; exact List.mem_append_right _ h1, h2⟩
end

/-- **C118**. What is shown is the documentation of a command of the script in whose range the cursor is, and in the range of
none of whose operands it is. -/
theorem C118_shown {m : Mapping} {lineOffset : Nat → Option Nat} {ss : List Stmt} {line character start : Nat} {n : Bytes}
    (hl : (lineOffset line).getD 0 = start) (h : hover m lineOffset ss line character = some n) :
    ∃ x ∈ partsSs ss, commandName x = some n ∧ Behind m (start + character) x ∧ Outside m (start + character) x := by
  unfold hover at h
  rw [hl, Option.bind_eq_some_iff] at h
  obtain ⟨x, h1, h2⟩ := h
  obtain ⟨h3, h4, h5⟩ := locateSs_found m _ ss x h1
  exact ⟨x, h3, h2, h4, h5⟩

/-- **C118**. A statement that is one command without operands: its documentation is shown while the cursor is behind its first
character. -/
theorem C118_nular {m : Mapping} {lineOffset : Nat → Option Nat} {n : Bytes} {sp sp' : Span} {line character start : Nat}
    {a b : Place} (hl : (lineOffset line).getD 0 = start) (ha : m sp.1 = some a) (hb : m sp.2 = some b)
    (h1 : a.start < start + character) (h2 : start + character < b.stop) :
    hover m lineOffset [.expr (.nular n sp) sp'] line character = some n := by
  have hw : within m (start + character) sp = true := by
    simp only [within, ends, ha, hb, ge_iff_le, Bool.not_eq_true', Bool.or_eq_false_iff, decide_eq_false_iff_not, Nat.not_le]
    exact ⟨h1, h2⟩
  simp [hover, locateSs, locateS, locate, hl, hw, commandName]

/-- **C118**. A statement that is a command with two operands: the documentation of the command is shown while the cursor is in its
range and not in the range of an operand. -/
theorem C118_binary {m : Mapping} {lineOffset : Nat → Option Nat} {c : BinCmd} {l r : Expr} {sp sp' : Span}
    {line character start : Nat} (hl : (lineOffset line).getD 0 = start)
    (hb : Behind m (start + character) (.bin c l r sp)) (ho : Outside m (start + character) (.bin c l r sp)) :
    hover m lineOffset [.expr (.bin c l r sp) sp'] line character = some c.asStr := by
  obtain ⟨a, b, h1, h2, h3, h4⟩ := hb
  have hw : within m (start + character) (fullSpan (.bin c l r sp)) = true := by
    simp only [within, ends, h1, h2, ge_iff_le, Bool.not_eq_true', Bool.or_eq_false_iff, decide_eq_false_iff_not, Nat.not_le]
    exact ⟨h3, h4⟩
  obtain ⟨a1, b1, p1, p2, p3⟩ := ho l (by simp [operands])
  obtain ⟨a2, b2, q1, q2, q3⟩ := ho r (by simp [operands])
  have e1 : ends m (fullSpan l) = some (a1.start, b1.stop) := by simp only [ends, p1, p2]
  have e2 : ends m (fullSpan r) = some (a2.start, b2.stop) := by simp only [ends, q1, q2]
  have n1 : ¬ (a1.start ≤ start + character ∧ start + character < b1.stop) := by omega
  have n2 : ¬ (a2.start ≤ start + character ∧ start + character < b2.stop) := by omega
  have e : locate m (start + character) (.bin c l r sp) = some (.bin c l r sp) := by
    rw [locate, if_pos hw, e1]
    dsimp only
    rw [if_neg n1, e2]
    dsimp only
    rw [if_neg n2]
  simp [hover, locateSs, locateS, e, hl, commandName]

/-- **C118**, what does not hold of the code: with the cursor at the first character of a command without operands its
documentation is not shown, whatever is around it. -/
theorem C118_violated_first {m : Mapping} {ss : List Stmt} {n : Bytes} {sp : Span} {off : Nat} {a : Place}
    (ha : m sp.1 = some a) (ho : a.start = off) : locateSs m off ss ≠ some (.nular n sp) := by
  intro h
  obtain ⟨_, ⟨x, y, h1, _, h3, _⟩, _⟩ := locateSs_found m off ss _ h
  rw [show (fullSpan (.nular n sp)).1 = sp.1 from rfl, ha] at h1
  cases h1
  omega

/-- **C118**, what does not hold of the code: nothing that reaches to the end of the text is shown, as there is no token behind
it. -/
theorem C118_violated_end {m : Mapping} {ss : List Stmt} {x : Expr} {off : Nat} (hm : m (fullSpan x).2 = none) :
    locateSs m off ss ≠ some x := by
  intro h
  obtain ⟨_, ⟨_, y, _, h2, _⟩, _⟩ := locateSs_found m off ss _ h
  rw [hm] at h2
  cases h2

/-- **C118**, what does not hold of the code: with an operator directly behind a variable, as in `a+b`, nothing is shown for the
operator. -/
theorem C118_violated_operator {m : Mapping} {lineOffset : Nat → Option Nat} {c : BinCmd} {v : Bytes} {r : Expr}
    {sp sp' vs : Span} {line character : Nat} {a o : Place} (ha : m vs.1 = some a) (ho : m vs.2 = some o)
    (h1 : a.stop ≤ o.start) (h2 : a.start ≤ o.start) (hc : o.start ≤ (lineOffset line).getD 0 + character)
    (hc' : (lineOffset line).getD 0 + character < o.stop) :
    hover m lineOffset [.expr (.bin c (.var v vs) r sp) sp'] line character = none := by
  have e1 : ends m (fullSpan (.var v vs)) = some (a.start, o.stop) := by simp only [ends, fullSpan, ha, ho]
  have e2 : locate m ((lineOffset line).getD 0 + character) (.var v vs) = none := by
    rw [locate]
    split
    · rw [leaf, ha]
      exact if_neg (by omega)
    · rfl
  have e : locate m ((lineOffset line).getD 0 + character) (.bin c (.var v vs) r sp) = none := by
    rw [locate]
    split
    · rw [e1]
      dsimp only
      rw [if_pos (by omega), e2]
    · rfl
  simp [hover, locateSs, locateS, e]

mutual
theorem locate_file (m m' : Mapping) (off : Nat) (hm : ∀ sp, ends m sp = ends m' sp)
    (hp : ∀ i, (m i).map (fun p => (p.start, p.stop)) = (m' i).map (fun p => (p.start, p.stop))) :
    ∀ e : Expr, locate m off e = locate m' off e
  | .code ss src sp => by rw [locate, locate, within, within, hm, locateSs_file m m' off hm hp ss]
  | .str s sp w => by rw [locate, locate, within, within, hm, leaf_file m m' off hp]
  | .num n sp => by rw [locate, locate, within, within, hm, leaf_file m m' off hp]
  | .var n sp => by rw [locate, locate, within, within, hm, leaf_file m m' off hp]
  | .bool b sp => by rw [locate, locate, within, within, hm, leaf_file m m' off hp]
  | .arr es sp => by rw [locate, locate, within, within, hm, locateEs_file m m' off hm hp es]
  | .carr es sp => by rw [locate, locate, within, within, hm, locateEs_file m m' off hm hp es]
  | .nular n sp => by rw [locate, locate, within, within, hm]
  | .un c e sp => by rw [locate, locate, within, within, hm, hm, locate_file m m' off hm hp e]
  | .bin c l r sp => by
    rw [locate, locate, within, within, hm, hm, hm, locate_file m m' off hm hp l, locate_file m m' off hm hp r]
theorem locateEs_file (m m' : Mapping) (off : Nat) (hm : ∀ sp, ends m sp = ends m' sp)
    (hp : ∀ i, (m i).map (fun p => (p.start, p.stop)) = (m' i).map (fun p => (p.start, p.stop))) :
    ∀ es : List Expr, locateEs m off es = locateEs m' off es
  | [] => by rw [locateEs, locateEs]
  | e :: es => by rw [locateEs, locateEs, locate_file m m' off hm hp e, locateEs_file m m' off hm hp es]
theorem locateS_file (m m' : Mapping) (off : Nat) (hm : ∀ sp, ends m sp = ends m' sp)
    (hp : ∀ i, (m i).map (fun p => (p.start, p.stop)) = (m' i).map (fun p => (p.start, p.stop))) :
    ∀ s : Stmt, locateS m off s = locateS m' off s
  | .assignGlobal _ e _ => by rw [locateS, locateS, locate_file m m' off hm hp e]
  | .assignLocal _ e _ => by rw [locateS, locateS, locate_file m m' off hm hp e]
  | .expr e _ => by rw [locateS, locateS, locate_file m m' off hm hp e]
theorem locateSs_file (m m' : Mapping) (off : Nat) (hm : ∀ sp, ends m sp = ends m' sp)
    (hp : ∀ i, (m i).map (fun p => (p.start, p.stop)) = (m' i).map (fun p => (p.start, p.stop))) :
    ∀ ss : List Stmt, locateSs m off ss = locateSs m' off ss
  | [] => by rw [locateSs, locateSs]
  | s :: ss => by rw [locateSs, locateSs, locateS_file m m' off hm hp s, locateSs_file m m' off hm hp ss]
theorem leaf_file (m m' : Mapping) (off : Nat)
    (hp : ∀ i, (m i).map (fun p => (p.start, p.stop)) = (m' i).map (fun p => (p.start, p.stop))) (e : Expr) (sp : Span) :
    leaf m off e sp = leaf m' off e sp := by
  have := hp sp.1
  unfold leaf
  cases h : m sp.1 with
  | none => cases h' : m' sp.1 with
    | none => rfl
    | some q => rw [h, h'] at this; cases this
  | some p => cases h' : m' sp.1 with
    | none => rw [h, h'] at this; cases this
    | some q =>
      rw [h, h'] at this
      simp only [Option.map_some, Option.some.injEq, Prod.mk.injEq] at this
      simp only [this.1, this.2]
end

/-- **C118**, what does not hold of the code: the file that a token is from is not looked at. What comes from an included file
is shown, or hides what is in the script, as if it were in the script at the same offset. -/
theorem C118_violated_file (m : Mapping) (other : Nat → Bytes) (lineOffset : Nat → Option Nat) (ss : List Stmt)
    (line character : Nat) :
    hover (fun i => (m i).map fun p => { p with file := other i }) lineOffset ss line character =
      hover m lineOffset ss line character := by
  unfold hover
  rw [locateSs_file _ m]
  · intro sp
    unfold ends
    dsimp only
    cases m sp.1 <;> cases m sp.2 <;> rfl
  · intro i
    cases m i <;> rfl

/-- **C118**, what does not hold of the code: where a line begins is known from the line end before it in the preprocessed text. The
line ends of directives are not there (`libs/preprocessor/src/processor/whitespace.rs:55-73`), so in the line behind a directive
what is shown is what is at that column of the first line. -/
theorem C118_violated_line {m : Mapping} {lineOffset : Nat → Option Nat} {line : Nat} (h : lineOffset line = none)
    (h0 : lineOffset 0 = none) (ss : List Stmt) (character : Nat) :
    hover m lineOffset ss line character = hover m lineOffset ss 0 character := by
  unfold hover
  rw [h, h0]

/-! ### Commands inside of others -/

/-- The expression of a statement. -/
def exprOf : Stmt → Expr
  | .assignGlobal _ e _ | .assignLocal _ e _ | .expr e _ => e

/-- What is directly in an expression. -/
def kids : Expr → List Expr
  | .code ss _ _ => ss.map exprOf
  | .arr es _ | .carr es _ => es
  | .un _ e _ => [e]
  | .bin _ l r _ => [l, r]
  | _ => []

/-- Where an expression begins in the file and where the token that follows it ends, if there is one. -/
def Reach (m : Mapping) (e : Expr) (a b : Nat) : Prop :=
  ∃ p q, m (fullSpan e).1 = some p ∧ m (fullSpan e).2 = some q ∧ p.start = a ∧ q.stop = b

/-- The one is inside of the other. -/
def Inside (m : Mapping) (c e : Expr) : Prop := ∃ a b a' b', Reach m c a b ∧ Reach m e a' b' ∧ a' ≤ a ∧ b ≤ b'

/-- The one ends, with the token that follows it, before the other begins. -/
def Before (m : Mapping) (c d : Expr) : Prop := ∃ a b a' b', Reach m c a b ∧ Reach m d a' b' ∧ b ≤ a'

/-- Expressions that stand in the file as they are written: what is in one of them stands inside of it, one after the other. -/
def Laid (m : Mapping) (l : List Expr) : Prop :=
  ∀ p ∈ l, (∃ a b, Reach m p a b) ∧ (∀ c ∈ kids p, Inside m c p) ∧ (kids p).Pairwise (Before m)

theorem Reach.ends {m : Mapping} {e : Expr} {a b : Nat} (h : Reach m e a b) : ends m (fullSpan e) = some (a, b) := by
  obtain ⟨p, q, h1, h2, rfl, rfl⟩ := h
  simp only [Hover.ends, h1, h2]

theorem Reach.uniq {m : Mapping} {e : Expr} {a b a' b' : Nat} (h : Reach m e a b) (h' : Reach m e a' b') : a = a' ∧ b = b' := by
  have := h.ends.symm.trans h'.ends
  injection this with this
  injection this with h1 h2
  exact ⟨h1, h2⟩

theorem Reach.within {m : Mapping} {e : Expr} {a b off : Nat} (h : Reach m e a b) :
    within m off (fullSpan e) = true ↔ a < off ∧ off < b := by
  rw [Hover.within, h.ends]
  simp

theorem Inside.trans {m : Mapping} {x y z : Expr} (h1 : Inside m x y) (h2 : Inside m y z) : Inside m x z := by
  obtain ⟨a, b, c, d, r1, r2, h3, h4⟩ := h1
  obtain ⟨c', d', e, f, r3, r4, h5, h6⟩ := h2
  obtain ⟨rfl, rfl⟩ := r2.uniq r3
  exact ⟨a, b, e, f, r1, r4, by omega, by omega⟩

theorem self_mem (e : Expr) : e ∈ parts e := by cases e <;> simp [parts]

theorem self_inside {m : Mapping} {e : Expr} {l : List Expr} (h : Laid m l) (he : e ∈ l) : Inside m e e := by
  obtain ⟨⟨a, b, r⟩, _⟩ := h e he
  exact ⟨a, b, a, b, r, r, le_rfl, le_rfl⟩

theorem Laid.sub {m : Mapping} {l l' : List Expr} (h : Laid m l) (hs : ∀ x ∈ l', x ∈ l) : Laid m l' := fun p hp => h p (hs p hp)

mutual
/-- What is in an expression stands inside of it. -/
theorem inside_of (m : Mapping) : ∀ (e x : Expr), Laid m (parts e) → x ∈ parts e → Inside m x e
  | .code ss src sp, x, h, hx => by
    rw [parts, List.mem_cons] at hx
    rcases hx with rfl | hx
    · exact self_inside h (self_mem _)
    · obtain ⟨s, hs, hi⟩ := insideSs_of m ss x (h.sub (by intro y hy; rw [parts]; exact List.mem_cons_of_mem _ hy)) hx
      exact hi.trans ((h _ (self_mem _)).2.1 _ (List.mem_map.mpr ⟨s, hs, rfl⟩))
  | .str s sp w, x, h, hx => by
    rw [parts, List.mem_singleton] at hx; subst hx; exact self_inside h (self_mem _)
  | .num n sp, x, h, hx => by
    rw [parts, List.mem_singleton] at hx; subst hx; exact self_inside h (self_mem _)
  | .var n sp, x, h, hx => by
    rw [parts, List.mem_singleton] at hx; subst hx; exact self_inside h (self_mem _)
  | .bool b sp, x, h, hx => by
    rw [parts, List.mem_singleton] at hx; subst hx; exact self_inside h (self_mem _)
  | .nular n sp, x, h, hx => by
    rw [parts, List.mem_singleton] at hx; subst hx; exact self_inside h (self_mem _)
  | .arr es sp, x, h, hx => by
    rw [parts, List.mem_cons] at hx
    rcases hx with rfl | hx
    · exact self_inside h (self_mem _)
    · obtain ⟨s, hs, hi⟩ := insideEs_of m es x (h.sub (by intro y hy; rw [parts]; exact List.mem_cons_of_mem _ hy)) hx
      exact hi.trans ((h _ (self_mem _)).2.1 _ hs)
  | .carr es sp, x, h, hx => by
    rw [parts, List.mem_cons] at hx
    rcases hx with rfl | hx
    · exact self_inside h (self_mem _)
    · obtain ⟨s, hs, hi⟩ := insideEs_of m es x (h.sub (by intro y hy; rw [parts]; exact List.mem_cons_of_mem _ hy)) hx
      exact hi.trans ((h _ (self_mem _)).2.1 _ hs)
  | .un c e sp, x, h, hx => by
    rw [parts, List.mem_cons] at hx
    rcases hx with rfl | hx
    · exact self_inside h (self_mem _)
    · exact (inside_of m e x (h.sub (by intro y hy; rw [parts]; exact List.mem_cons_of_mem _ hy)) hx).trans
        ((h _ (self_mem _)).2.1 _ (by simp [kids]))
  | .bin c l r sp, x, h, hx => by
    rw [parts, List.mem_cons, List.mem_append] at hx
    rcases hx with rfl | hx | hx
    · exact self_inside h (self_mem _)
    · exact (inside_of m l x (h.sub (by intro y hy; rw [parts]; exact List.mem_cons_of_mem _ (List.mem_append_left _ hy))) hx).trans
        ((h _ (self_mem _)).2.1 _ (by simp [kids]))
    · exact (inside_of m r x (h.sub (by intro y hy; rw [parts]; exact List.mem_cons_of_mem _ (List.mem_append_right _ hy))) hx).trans
        ((h _ (self_mem _)).2.1 _ (by simp [kids]))
theorem insideEs_of (m : Mapping) : ∀ (es : List Expr) (x : Expr), Laid m (partsEs es) → x ∈ partsEs es → ∃ e ∈ es, Inside m x e
  | [], x, _, hx => by rw [partsEs] at hx; cases hx
  | e :: es, x, h, hx => by
    rw [partsEs, List.mem_append] at hx
    rcases hx with hx | hx
    · exact ⟨e, List.mem_cons_self, inside_of m e x (h.sub (by intro y hy; rw [partsEs]; exact List.mem_append_left _ hy)) hx⟩
    · obtain ⟨e', he, hi⟩ := insideEs_of m es x (h.sub (by intro y hy; rw [partsEs]; exact List.mem_append_right _ hy)) hx
      exact ⟨e', List.mem_cons_of_mem _ he, hi⟩
theorem insideS_of (m : Mapping) : ∀ (s : Stmt) (x : Expr), Laid m (partsS s) → x ∈ partsS s → Inside m x (exprOf s)
  | .assignGlobal _ e _, x, h, hx => by rw [partsS] at h hx; exact inside_of m e x h hx
  | .assignLocal _ e _, x, h, hx => by rw [partsS] at h hx; exact inside_of m e x h hx
  | .expr e _, x, h, hx => by rw [partsS] at h hx; exact inside_of m e x h hx
theorem insideSs_of (m : Mapping) : ∀ (ss : List Stmt) (x : Expr), Laid m (partsSs ss) → x ∈ partsSs ss →
    ∃ s ∈ ss, Inside m x (exprOf s)
  | [], x, _, hx => by rw [partsSs] at hx; cases hx
  | s :: ss, x, h, hx => by
    rw [partsSs, List.mem_append] at hx
    rcases hx with hx | hx
    · exact ⟨s, List.mem_cons_self, insideS_of m s x (h.sub (by intro y hy; rw [partsSs]; exact List.mem_append_left _ hy)) hx⟩
    · obtain ⟨s', hs, hi⟩ := insideSs_of m ss x (h.sub (by intro y hy; rw [partsSs]; exact List.mem_append_right _ hy)) hx
      exact ⟨s', List.mem_cons_of_mem _ hs, hi⟩
end

/-- Nothing is found in an expression in which the cursor is not. -/
theorem locate_none {m : Mapping} {off : Nat} (e : Expr) (h : within m off (fullSpan e) = false) : locate m off e = none := by
  have h' : ¬ within m off (fullSpan e) = true := by rw [h]; decide
  cases e <;> (rw [locate]; exact if_neg h')

theorem locateS_eq (m : Mapping) (off : Nat) (s : Stmt) : locateS m off s = locate m off (exprOf s) := by
  cases s <;> rfl

/-- The cursor in something that stands inside of an expression is in that expression. -/
theorem within_of_inside {m : Mapping} {off : Nat} {x e : Expr} (hb : Behind m off x) (hi : Inside m x e) :
    within m off (fullSpan e) = true := by
  obtain ⟨p, q, h1, h2, h3, h4⟩ := hb
  obtain ⟨a, b, a', b', r1, r2, h5, h6⟩ := hi
  obtain ⟨rfl, rfl⟩ := r1.uniq ⟨p, q, h1, h2, rfl, rfl⟩
  exact r2.within.mpr ⟨by omega, by omega⟩

/-- The cursor in something is not in what stands before it. -/
theorem not_within_of_before {m : Mapping} {off : Nat} {x d e : Expr} (hb : Behind m off x) (hi : Inside m x d) (hd : Before m e d) :
    within m off (fullSpan e) = false := by
  obtain ⟨p, q, h1, h2, h3, h4⟩ := hb
  obtain ⟨a, b, a', b', r1, r2, h5, h6⟩ := hi
  obtain ⟨rfl, rfl⟩ := r1.uniq ⟨p, q, h1, h2, rfl, rfl⟩
  obtain ⟨c, c', f, f', r3, r4, h7⟩ := hd
  obtain ⟨rfl, rfl⟩ := r4.uniq r2
  rw [← Bool.not_eq_true, r3.within]
  omega

mutual
theorem locate_all (m : Mapping) (off : Nat) : ∀ (e x : Expr), Laid m (parts e) → x ∈ parts e → commandName x ≠ none →
    Behind m off x → Outside m off x → locate m off e = some x
  | .code ss src sp, x, h, hx, hc, hb, ho => by
    have hw := within_of_inside hb (inside_of m _ x h hx)
    rw [parts, List.mem_cons] at hx
    rcases hx with rfl | hx
    · exact absurd rfl hc
    rw [locate, if_pos hw]
    exact locateSs_all m off ss x (h.sub (by intro y hy; rw [parts]; exact List.mem_cons_of_mem _ hy))
      (h _ (self_mem _)).2.2 hx hc hb ho
  | .str s sp w, x, h, hx, hc, hb, ho => by
    rw [parts, List.mem_singleton] at hx; subst hx; exact absurd rfl hc
  | .num n sp, x, h, hx, hc, hb, ho => by
    rw [parts, List.mem_singleton] at hx; subst hx; exact absurd rfl hc
  | .var n sp, x, h, hx, hc, hb, ho => by
    rw [parts, List.mem_singleton] at hx; subst hx; exact absurd rfl hc
  | .bool b sp, x, h, hx, hc, hb, ho => by
    rw [parts, List.mem_singleton] at hx; subst hx; exact absurd rfl hc
  | .nular n sp, x, h, hx, hc, hb, ho => by
    have hw := within_of_inside hb (inside_of m _ x h hx)
    rw [parts, List.mem_singleton] at hx
    subst hx
    rw [locate, if_pos (show within m off sp = true from hw)]
  | .arr es sp, x, h, hx, hc, hb, ho => by
    have hw := within_of_inside hb (inside_of m _ x h hx)
    rw [parts, List.mem_cons] at hx
    rcases hx with rfl | hx
    · exact absurd rfl hc
    rw [locate, if_pos hw]
    exact locateEs_all m off es x (h.sub (by intro y hy; rw [parts]; exact List.mem_cons_of_mem _ hy))
      (h _ (self_mem _)).2.2 hx hc hb ho
  | .carr es sp, x, h, hx, hc, hb, ho => by
    have hw := within_of_inside hb (inside_of m _ x h hx)
    rw [parts, List.mem_cons] at hx
    rcases hx with rfl | hx
    · exact absurd rfl hc
    rw [locate, if_pos hw]
    exact locateEs_all m off es x (h.sub (by intro y hy; rw [parts]; exact List.mem_cons_of_mem _ hy))
      (h _ (self_mem _)).2.2 hx hc hb ho
  | .un c e sp, x, h, hx, hc, hb, ho => by
    have hw := within_of_inside hb (inside_of m _ x h hx)
    have hl : Laid m (parts e) := h.sub (by intro y hy; rw [parts]; exact List.mem_cons_of_mem _ hy)
    obtain ⟨⟨a, b, hr⟩, _⟩ := hl e (self_mem e)
    rw [parts, List.mem_cons] at hx
    rw [locate, if_pos hw, hr.ends]
    dsimp only
    rcases hx with rfl | hx
    · obtain ⟨p, q, h1, h2, h3⟩ := ho e (by simp [operands])
      obtain ⟨rfl, rfl⟩ := hr.uniq ⟨p, q, h1, h2, rfl, rfl⟩
      rw [if_neg (by omega)]
    · have := hr.within.mp (within_of_inside hb (inside_of m e x hl hx))
      rw [if_pos (by omega)]
      exact locate_all m off e x hl hx hc hb ho
  | .bin c l r sp, x, h, hx, hc, hb, ho => by
    have hw := within_of_inside hb (inside_of m _ x h hx)
    have hl : Laid m (parts l) := h.sub (by intro y hy; rw [parts]; exact List.mem_cons_of_mem _ (List.mem_append_left _ hy))
    have hr : Laid m (parts r) := h.sub (by intro y hy; rw [parts]; exact List.mem_cons_of_mem _ (List.mem_append_right _ hy))
    obtain ⟨⟨a, b, h1⟩, _⟩ := hl l (self_mem l)
    obtain ⟨⟨a', b', h2⟩, _⟩ := hr r (self_mem r)
    have hbf : Before m l r := by
      have := (h _ (self_mem _)).2.2
      simp only [kids] at this
      exact (List.pairwise_cons.mp this).1 r (by simp)
    rw [parts, List.mem_cons, List.mem_append] at hx
    rw [locate, if_pos hw, h1.ends]
    dsimp only
    rcases hx with rfl | hx | hx
    · obtain ⟨p, q, p1, p2, p3⟩ := ho l (by simp [operands])
      obtain ⟨rfl, rfl⟩ := h1.uniq ⟨p, q, p1, p2, rfl, rfl⟩
      rw [if_neg (by omega), h2.ends]
      dsimp only
      obtain ⟨p', q', q1, q2, q3⟩ := ho r (by simp [operands])
      obtain ⟨rfl, rfl⟩ := h2.uniq ⟨p', q', q1, q2, rfl, rfl⟩
      rw [if_neg (by omega)]
    · have := h1.within.mp (within_of_inside hb (inside_of m l x hl hx))
      rw [if_pos (by omega)]
      exact locate_all m off l x hl hx hc hb ho
    · have hin := inside_of m r x hr hx
      have := h2.within.mp (within_of_inside hb hin)
      obtain ⟨c1, c2, d1, d2, s1, s2, s3⟩ := hbf
      obtain ⟨rfl, rfl⟩ := s1.uniq h1
      obtain ⟨rfl, rfl⟩ := s2.uniq h2
      rw [if_neg (by omega), h2.ends]
      dsimp only
      rw [if_pos (by omega)]
      exact locate_all m off r x hr hx hc hb ho
theorem locateEs_all (m : Mapping) (off : Nat) : ∀ (es : List Expr) (x : Expr), Laid m (partsEs es) → es.Pairwise (Before m) →
    x ∈ partsEs es → commandName x ≠ none → Behind m off x → Outside m off x → locateEs m off es = some x
  | [], x, _, _, hx, _, _, _ => by rw [partsEs] at hx; cases hx
  | e :: es, x, h, hp, hx, hc, hb, ho => by
    have h1 : Laid m (parts e) := h.sub (by intro y hy; rw [partsEs]; exact List.mem_append_left _ hy)
    have h2 : Laid m (partsEs es) := h.sub (by intro y hy; rw [partsEs]; exact List.mem_append_right _ hy)
    rw [partsEs, List.mem_append] at hx
    rw [locateEs]
    rcases hx with hx | hx
    · rw [locate_all m off e x h1 hx hc hb ho]
    · obtain ⟨d, hd, hi⟩ := insideEs_of m es x h2 hx
      rw [locate_none e (not_within_of_before hb hi ((List.pairwise_cons.mp hp).1 d hd))]
      exact locateEs_all m off es x h2 (List.pairwise_cons.mp hp).2 hx hc hb ho
theorem locateS_all (m : Mapping) (off : Nat) : ∀ (s : Stmt) (x : Expr), Laid m (partsS s) → x ∈ partsS s → commandName x ≠ none →
    Behind m off x → Outside m off x → locateS m off s = some x
  | .assignGlobal _ e _, x, h, hx, hc, hb, ho => by
    rw [partsS] at h hx; rw [locateS]; exact locate_all m off e x h hx hc hb ho
  | .assignLocal _ e _, x, h, hx, hc, hb, ho => by
    rw [partsS] at h hx; rw [locateS]; exact locate_all m off e x h hx hc hb ho
  | .expr e _, x, h, hx, hc, hb, ho => by
    rw [partsS] at h hx; rw [locateS]; exact locate_all m off e x h hx hc hb ho
theorem locateSs_all (m : Mapping) (off : Nat) : ∀ (ss : List Stmt) (x : Expr), Laid m (partsSs ss) →
    (ss.map exprOf).Pairwise (Before m) → x ∈ partsSs ss → commandName x ≠ none → Behind m off x → Outside m off x →
    locateSs m off ss = some x
  | [], x, _, _, hx, _, _, _ => by rw [partsSs] at hx; cases hx
  | s :: ss, x, h, hp, hx, hc, hb, ho => by
    have h1 : Laid m (partsS s) := h.sub (by intro y hy; rw [partsSs]; exact List.mem_append_left _ hy)
    have h2 : Laid m (partsSs ss) := h.sub (by intro y hy; rw [partsSs]; exact List.mem_append_right _ hy)
    rw [partsSs, List.mem_append] at hx
    rw [locateSs]
    rw [List.map_cons] at hp
    rcases hx with hx | hx
    · rw [locateS_all m off s x h1 hx hc hb ho]
    · obtain ⟨d, hd, hi⟩ := insideSs_of m ss x h2 hx
      rw [locateS_eq, locate_none (exprOf s) (not_within_of_before hb hi ((List.pairwise_cons.mp hp).1 _ (List.mem_map.mpr ⟨d, hd, rfl⟩)))]
      exact locateSs_all m off ss x h2 (List.pairwise_cons.mp hp).2 hx hc hb ho
end

/-- **C118**. However deep a command is in a script, its documentation is shown if the cursor is on it behind its first
character and in none of its operands nor in the token behind them. The script is asked to stand in the file as it is written, each
expression with the token that follows it before the next one (`Laid`): no macros that move parts of it. -/
theorem C118_nested {m : Mapping} {lineOffset : Nat → Option Nat} {ss : List Stmt} {x : Expr} {n : Bytes} {line character start : Nat}
    (hl : (lineOffset line).getD 0 = start) (h : Laid m (partsSs ss)) (hp : (ss.map exprOf).Pairwise (Before m)) (hx : x ∈ partsSs ss)
    (hn : commandName x = some n) (hb : Behind m (start + character) x) (ho : Outside m (start + character) x) :
    hover m lineOffset ss line character = some n := by
  rw [hover, hl, locateSs_all m _ ss x h hp hx (by rw [hn]; nofun) hb ho]
  exact hn

/-- The tokens of `player;`, each at its place. -/
def samplePlayer : Mapping := fun i =>
  if i < 6 then some ⟨ascii "x.sqf", 0, 6⟩ else if i = 6 then some ⟨ascii "x.sqf", 6, 7⟩ else none

example : hover samplePlayer (fun _ => some 0) [.expr (.nular (ascii "player") (0, 6)) (0, 6)] 0 3 = some (ascii "player") :=
  C118_nular (start := 0) (a := ⟨ascii "x.sqf", 0, 6⟩) (b := ⟨ascii "x.sqf", 6, 7⟩) rfl rfl rfl (by decide) (by decide)
example : hover samplePlayer (fun _ => some 0) [.expr (.nular (ascii "player") (0, 6)) (0, 6)] 0 0 = none := by
  decide +kernel

/-- The tokens of `hint str player; player`, each at its place, and one behind. -/
def sampleNested : Mapping := fun i =>
  if i < 4 then some ⟨ascii "x.sqf", 0, 4⟩ else if i < 5 then some ⟨ascii "x.sqf", 4, 5⟩ else if i < 8 then some ⟨ascii "x.sqf", 5, 8⟩
  else if i < 9 then some ⟨ascii "x.sqf", 8, 9⟩ else if i < 15 then some ⟨ascii "x.sqf", 9, 15⟩
  else if i < 16 then some ⟨ascii "x.sqf", 15, 16⟩ else if i < 17 then some ⟨ascii "x.sqf", 16, 17⟩
  else if i < 23 then some ⟨ascii "x.sqf", 17, 23⟩ else if i = 23 then some ⟨ascii "x.sqf", 23, 24⟩ else none

def inner : Expr := .nular (ascii "player") (9, 15)
def middle : Expr := .un (.named (ascii "str")) inner (5, 8)
def outer : Expr := .un (.named (ascii "hint")) middle (0, 4)
def second : Expr := .nular (ascii "player") (17, 23)

/-- The hypotheses of `C118_nested` are met: the cursor on `str`, which is in `hint`. -/
example : hover sampleNested (fun _ => some 0) [.expr outer (0, 15), .expr second (17, 23)] 0 7 = some (ascii "str") := by
  have r1 : Reach sampleNested inner 9 16 := ⟨_, _, rfl, rfl, rfl, rfl⟩
  have r2 : Reach sampleNested middle 5 16 := ⟨_, _, rfl, rfl, rfl, rfl⟩
  have r3 : Reach sampleNested outer 0 16 := ⟨_, _, rfl, rfl, rfl, rfl⟩
  have r4 : Reach sampleNested second 17 24 := ⟨_, _, rfl, rfl, rfl, rfl⟩
  refine C118_nested (start := 0) (x := middle) rfl ?_ ?_ ?_ rfl ⟨_, _, rfl, rfl, by decide, by decide⟩ ?_
  · intro p hp
    have hp : p = outer ∨ p = middle ∨ p = inner ∨ p = second := by
      simpa [partsSs, partsS, parts, outer, middle, inner, second] using hp
    rcases hp with rfl | rfl | rfl | rfl
    · exact ⟨⟨_, _, r3⟩, by rintro c hc; obtain rfl := List.mem_singleton.mp hc; exact ⟨_, _, _, _, r2, r3, by decide, by decide⟩, by
        simp [kids, outer]⟩
    · exact ⟨⟨_, _, r2⟩, by rintro c hc; obtain rfl := List.mem_singleton.mp hc; exact ⟨_, _, _, _, r1, r2, by decide, by decide⟩, by
        simp [kids, middle]⟩
    · exact ⟨⟨_, _, r1⟩, (by intro c hc; cases hc), (by simp [kids, inner])⟩
    · exact ⟨⟨_, _, r4⟩, (by intro c hc; cases hc), (by simp [kids, second])⟩
  · simp only [List.map_cons, List.map_nil, exprOf, List.pairwise_cons, List.mem_singleton, forall_eq, List.not_mem_nil, false_imp_iff,
      implies_true, List.Pairwise.nil, and_true]
    exact ⟨_, _, _, _, r3, r4, by decide⟩
  · simp [partsSs, partsS, parts, outer]
    right; left; exact self_mem _
  · intro o ho
    obtain rfl := List.mem_singleton.mp ho
    exact ⟨_, _, rfl, rfl, Or.inl (by decide)⟩

end Verif.Hover
