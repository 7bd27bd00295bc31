import Verif.Model.CaseFix
import Mathlib.Tactic.IntervalCases
/-!
The tool that fixes letter case, seen word by word.
-/
namespace Verif.CaseFix

/-- A letter without its case. -/
def lowerC (c : Char) : Char := if 'A' ≤ c ∧ c ≤ 'Z' then Char.ofNat (c.toNat + 32) else c

/-- Two texts that differ in the case of letters only. -/
def SameButCase (a b : Text) : Prop := a.map lowerC = b.map lowerC

/-- A table that finds commands whatever the case, under the name it was asked for but for case. -/
structure CaseTable (cmd : Table) : Prop where
  same : ∀ w c, cmd w = some c → SameButCase w c
  stable : ∀ w c, cmd w = some c → cmd c = some c

/-- Text in pieces: words and the characters between them. -/
inductive Item
  | word (w : Text) | sep (c : Char)
  deriving DecidableEq, Repr

def unlex : List Item → Text
  | [] => []
  | .word w :: ts => w ++ unlex ts
  | .sep c :: ts => c :: unlex ts

def noWord : List Item → Prop
  | .word _ :: _ => False
  | _ => True

def WF : List Item → Prop
  | [] => True
  | .sep c :: ts => isWord c = false ∧ WF ts
  | .word w :: ts => w ≠ [] ∧ (∀ c ∈ w, isWord c = true) ∧ noWord ts ∧ WF ts

/-- `quotes`, `comment`, `macro_`. -/
structure Mode where
  q : Bool := false
  c : Comment := .no
  m : Bool := false
  deriving DecidableEq, Repr

def Mode.code (M : Mode) : Prop := M.q = false ∧ M.c = .no ∧ M.m = false

instance (M : Mode) : Decidable M.code := by unfold Mode.code; infer_instance

/-- The mode behind a character that is no part of a word, nor the bracket behind a word. -/
def after (M : Mode) (prev : Option Char) (x : Char) : Mode :=
  if x = '"' ∧ M.c = .no then { M with q := !M.q }
  else if x = '/' ∧ M.q = false ∧ M.c = .no then if prev = some '/' then { M with c := .single } else M
  else if x = '\n' ∧ M.q = false then if M.c = .single then { M with c := .no } else M
  else if x = '*' ∧ M.q = false ∧ M.c = .no then if prev = some '/' then { M with c := .multi } else M
  else if x = '/' ∧ M.q = false ∧ M.c = .multi then if prev = some '*' then { M with c := .no } else M
  else if (x = ')' ∨ x = ',') ∧ M.q = false ∧ M.c = .no ∧ M.m = true then { M with m := false }
  else M

def replace (cmd : Table) (w : Text) : Text := (cmd w).getD w

/-- The tool, word by word. -/
def pass (cmd : Table) (M : Mode) (prev : Option Char) : List Item → List Item
  | [] => []
  | .word w :: .sep x :: ts =>
    if M.code then
      if x = '(' then
        .word (if w = "LOG".toList then w else replace cmd w) :: .sep x ::
          pass cmd { M with m := isUpper w } (some x) ts
      else .word (replace cmd w) :: .sep x :: pass cmd (after M none x) (some x) ts
    else .word w :: .sep x :: pass cmd (after M none x) (some x) ts
  | .word w :: ts => .word (if M.code then replace cmd w else w) :: pass cmd M none ts
  | .sep x :: ts => .sep x :: pass cmd (after M prev x) (some x) ts

theorem lex_exists (t : Text) : ∃ ts, WF ts ∧ unlex ts = t := by
  induction t with
  | nil => exact ⟨[], trivial, rfl⟩
  | cons c t ih =>
    obtain ⟨ts, h1, rfl⟩ := ih
    by_cases hc : isWord c = true
    · match ts, h1 with
      | [], _ => exact ⟨[.word [c]], ⟨by simp, by simpa using hc, trivial, trivial⟩, rfl⟩
      | .sep x :: ts, h1 => exact ⟨.word [c] :: .sep x :: ts, ⟨by simp, by simpa using hc, trivial, h1⟩, rfl⟩
      | .word w :: ts, ⟨h1, h2, h3, h4⟩ =>
        exact ⟨.word (c :: w) :: ts, ⟨by simp, by simpa using ⟨hc, h2⟩, h3, h4⟩, rfl⟩
    · exact ⟨.sep c :: ts, ⟨by simpa using hc, h1⟩, rfl⟩

def St.mode (s : St) : Mode := ⟨s.quotes, s.comment, s.macro_⟩

/-- What is known of the last character written. -/
def PrevOk (s : St) (prev : Option Char) : Prop :=
  match prev with
  | some x => s.out.getLast? = some x
  | none => s.out.getLast? ≠ some '/' ∧ s.out.getLast? ≠ some '*'

theorem prevOk_iff {s : St} {prev : Option Char} (h : PrevOk s prev) (x : Char) (hx : x = '/' ∨ x = '*') :
    s.out.getLast? = some x ↔ prev = some x := by
  cases prev with
  | none =>
    unfold PrevOk at h
    rcases hx with rfl | rfl
    · simp [h.1]
    · simp [h.2]
  | some y =>
    unfold PrevOk at h
    rw [h]

theorem step_sep {cmd : Table} {s : St} {prev : Option Char} {x : Char} (hb : s.buffer = []) (hx : isWord x = false)
    (hp : PrevOk s prev) :
    step cmd s x = ⟨s.out ++ [x], [], (after s.mode prev x).q, (after s.mode prev x).c, (after s.mode prev x).m⟩ := by
  have h1 := prevOk_iff hp '/' (Or.inl rfl)
  have h2 := prevOk_iff hp '*' (Or.inr rfl)
  obtain ⟨out, buffer, q, c, m⟩ := s
  dsimp only at hb h1 h2
  subst hb
  simp only [step, after, checkBuffer, St.push, St.mode, hx, Bool.false_eq_true, false_and, if_false, if_true, h1, h2,
    List.append_nil, ne_eq, not_true_eq_false]
  by_cases e1 : x = '"' ∧ c = .no
  · cases q <;> simp [e1]
  · simp only [e1, if_false]
    by_cases e2 : x = '/' ∧ q = false ∧ c = .no
    · by_cases e : prev = some '/' <;> simp [e2, e]
    · simp only [e2, if_false]
      by_cases e3 : x = '\n' ∧ q = false
      · by_cases e : c = .single <;> simp [e3, e]
      · simp only [e3, if_false]
        by_cases e4 : x = '*' ∧ q = false ∧ c = .no
        · by_cases e : prev = some '/' <;> simp [e4, e]
        · simp only [e4, if_false]
          by_cases e5 : x = '/' ∧ q = false ∧ c = .multi
          · by_cases e : prev = some '*' <;> simp [e5, e]
          · simp only [e5, if_false]
            by_cases e6 : x = '(' ∧ q = false ∧ c = .no ∧ m = false
            · simp [e6]
            · simp only [e6, if_false]
              by_cases e7 : (x = ')' ∨ x = ',') ∧ q = false ∧ c = .no ∧ m = true
              · simp [e7]
              · simp only [e7, if_false]
                split <;> rfl

theorem word_cases {c : Char} (h : isWord c = true) : c ≠ '"' ∧ c ≠ '/' ∧ c ≠ '\n' ∧ c ≠ '*' ∧ c ≠ '(' ∧ c ≠ ')' ∧ c ≠ ',' := by
  refine ⟨?_, ?_, ?_, ?_, ?_, ?_, ?_⟩ <;> rintro rfl <;> exact absurd h (by decide)

theorem step_word_code {cmd : Table} {s : St} {c : Char} (hc : isWord c = true) (hm : s.mode.code) :
    step cmd s c = { s with buffer := s.buffer ++ [c] } := by
  unfold step
  rw [if_pos ⟨hc, hm⟩]

theorem step_word_other {cmd : Table} {s : St} {c : Char} (hc : isWord c = true) (hb : s.buffer = []) (hm : ¬ s.mode.code) :
    step cmd s c = s.push c := by
  obtain ⟨h1, h2, h3, h4, h5, h6, h7⟩ := word_cases hc
  have : ¬ (isWord c = true ∧ s.quotes = false ∧ s.comment = .no ∧ s.macro_ = false) := fun h => hm h.2
  unfold step checkBuffer
  rw [if_neg this]
  simp only [h1, h2, h3, h4, h5, h6, h7, false_and, or_self, if_false, hb, if_true]
  split <;> rfl

theorem fold_word_code {cmd : Table} (w : Text) (s : St) (hw : ∀ c ∈ w, isWord c = true) (hm : s.mode.code) :
    w.foldl (step cmd) s = { s with buffer := s.buffer ++ w } := by
  induction w generalizing s with
  | nil => simp
  | cons c w ih =>
    rw [List.foldl_cons, step_word_code (hw c (List.mem_cons_self ..)) hm,
      ih { s with buffer := s.buffer ++ [c] } (fun x hx => hw x (List.mem_cons_of_mem _ hx)) hm]
    simp

theorem fold_word_other {cmd : Table} (w : Text) (s : St) (hw : ∀ c ∈ w, isWord c = true) (hb : s.buffer = [])
    (hm : ¬ s.mode.code) : w.foldl (step cmd) s = { s with out := s.out ++ w } := by
  induction w generalizing s with
  | nil => simp
  | cons c w ih =>
    rw [List.foldl_cons, step_word_other (hw c (List.mem_cons_self ..)) hb hm, St.push,
      ih { s with out := s.out ++ [c] } (fun x hx => hw x (List.mem_cons_of_mem _ hx)) hb hm]
    simp

theorem checkBuffer_word (cmd : Table) (s : St) (h : s.buffer ≠ []) :
    checkBuffer cmd s = { s with out := s.out ++ replace cmd s.buffer, buffer := [] } := by
  unfold checkBuffer replace
  rw [if_neg h]
  cases cmd s.buffer <;> rfl

/-- A character behind a word in code, other than a bracket, writes the word out first. -/
theorem step_flush {cmd : Table} {s : St} {x : Char} (hx : isWord x = false) (hm : s.mode.code) (hb : s.buffer ≠ [])
    (hp : x ≠ '(') : step cmd s x = step cmd { s with out := s.out ++ replace cmd s.buffer, buffer := [] } x := by
  obtain ⟨out, buffer, q, c, m⟩ := s
  obtain ⟨h1, h2, h3⟩ := hm
  dsimp only [St.mode] at h1 h2 h3 hb ⊢
  subst h1 h2 h3
  unfold step
  simp only [hx, Bool.false_eq_true, false_and, if_false, checkBuffer_word cmd ⟨out, buffer, false, .no, false⟩ hb]
  have hc : checkBuffer cmd ⟨out ++ replace cmd buffer, [], false, .no, false⟩ =
    ⟨out ++ replace cmd buffer, [], false, .no, false⟩ := rfl
  simp only [hc, hp, false_and, if_false]
  simp

theorem step_paren {cmd : Table} {s : St} (hm : s.mode.code) (hb : s.buffer ≠ []) :
    step cmd s '(' = ⟨s.out ++ (if s.buffer = "LOG".toList then s.buffer else replace cmd s.buffer) ++ ['('], [],
      false, .no, isUpper s.buffer⟩ := by
  obtain ⟨out, buffer, q, c, m⟩ := s
  obtain ⟨h1, h2, h3⟩ := hm
  dsimp only [St.mode] at h1 h2 h3 hb ⊢
  subst h1 h2 h3
  have hw : isWord '(' = false := by decide
  unfold step
  simp only [hw, Bool.false_eq_true, false_and, if_false, show ('(' : Char) ≠ '"' by decide, show ('(' : Char) ≠ '/' by decide,
    show ('(' : Char) ≠ '\n' by decide, show ('(' : Char) ≠ '*' by decide, true_and, and_self, if_true, ne_eq, hb,
    not_false_eq_true]
  by_cases hu : isUpper buffer = true
  · simp only [hu, if_true]
    by_cases hl : buffer = "LOG".toList
    · rw [if_pos hl, if_pos hl]; rfl
    · rw [if_neg hl, if_neg hl, checkBuffer_word cmd _ hb]; rfl
  · simp only [hu]
    by_cases hl : buffer = "LOG".toList
    · rw [if_pos hl, if_pos hl]; simp [St.push]
    · rw [if_neg hl, if_neg hl, checkBuffer_word cmd _ hb]; simp [St.push]

theorem sameButCase_length {a b : Text} (h : SameButCase a b) : a.length = b.length := by
  have := congrArg List.length h
  simpa using this

theorem isWord_lowerC (c : Char) : isWord (lowerC c) = isWord c := by
  unfold lowerC
  split
  · rename_i h
    have h1 : 65 ≤ c.toNat := h.1
    have h2 : c.toNat ≤ 90 := h.2
    rw [← Char.ofNat_toNat c]
    generalize c.toNat = n at h1 h2
    interval_cases n <;> decide
  · rfl

theorem sameButCase_word {a b : Text} (h : SameButCase a b) (ha : ∀ c ∈ a, isWord c = true) : ∀ c ∈ b, isWord c = true := by
  intro c hc
  have : lowerC c ∈ a.map lowerC := by rw [h]; exact List.mem_map_of_mem hc
  obtain ⟨x, hx, e⟩ := List.mem_map.1 this
  rw [← isWord_lowerC, ← e, isWord_lowerC]
  exact ha x hx

theorem replace_same {cmd : Table} (hT : CaseTable cmd) (w : Text) : SameButCase w (replace cmd w) := by
  unfold replace
  cases h : cmd w with
  | none => rfl
  | some c => exact hT.same w c h

theorem replace_stable {cmd : Table} (hT : CaseTable cmd) (w : Text) : replace cmd (replace cmd w) = replace cmd w := by
  unfold replace
  cases h : cmd w with
  | none => simp [h]
  | some c => simp [hT.stable w c h]

/-- What is written for a word in code before a bracket. -/
def written (cmd : Table) (w : Text) : Text := if w = "LOG".toList then w else replace cmd w

theorem written_same {cmd : Table} (hT : CaseTable cmd) (w : Text) : SameButCase w (written cmd w) := by
  unfold written
  split
  · rfl
  · exact replace_same hT w

theorem prevOk_word {s : St} {w : Text} (hw : w ≠ []) (h : ∀ c ∈ w, isWord c = true) :
    PrevOk { s with out := s.out ++ w } none := by
  have hl : (s.out ++ w).getLast? = w.getLast? := by
    rw [List.getLast?_append]
    cases h : w.getLast? with
    | none => exact absurd (List.getLast?_eq_none_iff.1 h) hw
    | some x => rfl
  unfold PrevOk
  dsimp only
  rw [hl]
  constructor
  · intro e
    exact (word_cases (h _ (List.mem_of_getLast? e))).2.1 rfl
  · intro e
    exact (word_cases (h _ (List.mem_of_getLast? e))).2.2.2.1 rfl

theorem word_ne_nil {a b : Text} (h : SameButCase a b) (ha : a ≠ []) : b ≠ [] := by
  rintro rfl
  exact ha (List.length_eq_zero_iff.1 (sameButCase_length h))

/-- The tool goes word by word. -/
theorem run_pass {cmd : Table} (hT : CaseTable cmd) : ∀ (ts : List Item) (prev : Option Char) (s : St), WF ts →
    s.buffer = [] → PrevOk s prev →
    (checkBuffer cmd ((unlex ts).foldl (step cmd) s)).out = s.out ++ unlex (pass cmd s.mode prev ts)
  | [], prev, s, _, hb, _ => by simp [unlex, pass, checkBuffer, hb]
  | .sep x :: ts, prev, s, h, hb, hp => by
    rw [unlex, List.foldl_cons, step_sep hb h.1 hp, run_pass hT ts (some x) _ h.2 rfl (by simp [PrevOk]), pass, unlex]
    simp [St.mode]
  | [.word w], prev, s, h, hb, hp => by
    rw [unlex, unlex, List.append_nil]
    by_cases hm : s.mode.code
    · rw [fold_word_code w s h.2.1 hm, hb, List.nil_append, checkBuffer_word cmd _ h.1]
      simp [pass, hm, unlex]
    · rw [fold_word_other w s h.2.1 hb hm]
      simp [pass, hm, unlex, checkBuffer, hb]
  | .word w :: .word v :: ts, prev, s, h, hb, hp => absurd h.2.2.1 (by simp [noWord])
  | .word w :: .sep x :: ts, prev, s, ⟨h1, h2, _, hx, h4⟩, hb, hp => by
    rw [unlex, unlex, List.foldl_append, List.foldl_cons]
    by_cases hm : s.mode.code
    · rw [fold_word_code w s h2 hm, hb, List.nil_append]
      by_cases hp' : x = '('
      · subst hp'
        rw [step_paren (s := { s with buffer := w }) hm h1, run_pass hT ts (some '(') _ h4 rfl (by simp [PrevOk])]
        obtain ⟨q1, q2, q3⟩ := hm
        rw [pass, if_pos (show s.mode.code from ⟨q1, q2, q3⟩), if_pos rfl, unlex, unlex]
        dsimp only [St.mode] at q1 q2
        simp [St.mode, q1, q2]
      · rw [step_flush (s := { s with buffer := w }) hx hm h1 hp']
        have hw := sameButCase_word (replace_same hT w) h2
        have hne := word_ne_nil (replace_same hT w) h1
        rw [step_sep (prev := none) rfl hx (prevOk_word (s := { s with buffer := [] }) hne hw),
          run_pass hT ts (some x) _ h4 rfl (by simp [PrevOk])]
        simp only [pass, hm, hp', if_true, if_false, unlex]
        simp [St.mode]
    · rw [fold_word_other w s h2 hb hm, step_sep (s := { s with out := s.out ++ w }) (prev := none) hb hx (prevOk_word h1 h2),
        run_pass hT ts (some x) _ h4 rfl (by simp [PrevOk])]
      simp only [pass, hm, if_false, unlex]
      simp [St.mode]

theorem fix_eq {cmd : Table} (hT : CaseTable cmd) {ts : List Item} (h : WF ts) :
    fix cmd (unlex ts) = unlex (pass cmd {} none ts) := by
  unfold fix
  rw [run_pass hT ts none {} h rfl (by simp [PrevOk])]
  rfl

/-! ### Going through the words one by one -/

/-- The induction that follows `pass`. -/
theorem pass_induction (cmd : Table) (P : Mode → Option Char → List Item → List Item → Prop)
    (hnil : ∀ M prev, P M prev [] [])
    (hsep : ∀ M prev x ts, P (after M prev x) (some x) ts (pass cmd (after M prev x) (some x) ts) →
      P M prev (.sep x :: ts) (.sep x :: pass cmd (after M prev x) (some x) ts))
    (hend : ∀ M prev w, P M prev [.word w] [.word (if M.code then replace cmd w else w)])
    (hcall : ∀ M prev w ts, M.code → P { M with m := isUpper w } (some '(') ts (pass cmd { M with m := isUpper w } (some '(') ts) →
      P M prev (.word w :: .sep '(' :: ts)
        (.word (written cmd w) :: .sep '(' :: pass cmd { M with m := isUpper w } (some '(') ts))
    (hword : ∀ M prev w x ts, ¬ (M.code ∧ x = '(') → P (after M none x) (some x) ts (pass cmd (after M none x) (some x) ts) →
      P M prev (.word w :: .sep x :: ts)
        (.word (if M.code then replace cmd w else w) :: .sep x :: pass cmd (after M none x) (some x) ts)) :
    ∀ (ts : List Item) (M : Mode) (prev : Option Char), WF ts → P M prev ts (pass cmd M prev ts)
  | [], M, prev, _ => hnil M prev
  | .sep x :: ts, M, prev, h => by
    rw [pass]
    exact hsep M prev x ts (pass_induction cmd P hnil hsep hend hcall hword ts _ _ h.2)
  | [.word w], M, prev, _ => by
    have := hend M prev w
    simpa [pass] using this
  | .word w :: .word v :: ts, M, prev, h => absurd h.2.2.1 (by simp [noWord])
  | .word w :: .sep x :: ts, M, prev, ⟨_, _, _, _, h4⟩ => by
    rw [pass]
    by_cases hm : M.code
    · by_cases hx : x = '('
      · subst hx
        rw [if_pos hm, if_pos rfl]
        exact hcall M prev w ts hm (pass_induction cmd P hnil hsep hend hcall hword ts _ _ h4)
      · rw [if_pos hm, if_neg hx]
        have := hword M prev w x ts (fun e => hx e.2) (pass_induction cmd P hnil hsep hend hcall hword ts _ _ h4)
        simpa [hm] using this
    · rw [if_neg hm]
      have := hword M prev w x ts (fun e => hm e.1) (pass_induction cmd P hnil hsep hend hcall hword ts _ _ h4)
      simpa [hm] using this

end Verif.CaseFix
