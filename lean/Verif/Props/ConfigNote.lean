import Verif.Model.ConfigNote
import Verif.Lib.Processed
import Verif.Props.Processed
/-!
C126: the line shown under a syntax error of a config.
-/
namespace Verif.ConfigNote
open Verif.Processed Verif.Preproc

/-! ### The specification -/

/-- The text consists of one-byte characters. -/
def Ascii (s : Text) : Prop := ∀ c ∈ s, c.toNat < 128

instance (s : Text) : Decidable (Ascii s) := by unfold Ascii; infer_instance

/-- White space that an editor would strip at the start of a line. -/
def Blank (c : Char) : Prop := c = ' ' ∨ c = '\t' ∨ c = '\n' ∨ c = '\r' ∨ c = Char.ofNat 0x0C

instance (c : Char) : Decidable (Blank c) := by unfold Blank; infer_instance

/-- The characters `start .. stop` of the text touch the lines `ahead ++ span ++ behind`: everything between two line
feeds (or the ends of the text) around them. -/
structure Around (whole : Text) (start stop : Nat) (before ahead span behind after : Text) : Prop where
  isText : whole = before ++ ahead ++ span ++ behind ++ after
  isStart : start = (before ++ ahead).length
  /-- a span may reach beyond the end of the text, as that of an error at the end of the text does -/
  isStop : whole.take stop = before ++ ahead ++ span
  ordered : start ≤ stop
  before : before = [] ∨ before.getLast? = some '\n'
  ahead : '\n' ∉ ahead
  behind : '\n' ∉ behind
  after : after = [] ∨ after.head? = some '\n'

/-! ### Lemmas -/

theorem bytesOf_ascii {s : Text} (h : Ascii s) : bytesOf s = s.map (fun c => UInt8.ofNat c.toNat) := by
  induction s with
  | nil => rfl
  | cons c s ih =>
    have hc := h c (by simp)
    have e : String.utf8EncodeChar c = [UInt8.ofNat c.toNat] := by
      have h2 : c.val.toNat ≤ 127 := by have : c.val.toNat < 128 := hc; omega
      unfold String.utf8EncodeChar
      dsimp only
      rw [if_pos h2]; rfl
    have := ih (fun x hx => h x (by simp [hx]))
    simp only [bytesOf, List.flatMap_cons, e, List.map_cons] at this ⊢
    rw [this]; rfl

theorem isWs_ascii {c : Char} (h : c.toNat < 128) : isWs (UInt8.ofNat c.toNat) = decide (Blank c) := by
  have key : ∀ n : Nat, n < 128 → isWs (UInt8.ofNat n) = decide (Blank (Char.ofNat n)) := by decide +kernel
  have := key c.toNat h
  rwa [Char.ofNat_toNat] at this

theorem lf_ascii {c : Char} (h : c.toNat < 128) : UInt8.ofNat c.toNat = 0x0A ↔ c = '\n' := by
  have key : ∀ n : Nat, n < 128 → (UInt8.ofNat n = 0x0A ↔ Char.ofNat n = '\n') := by decide +kernel
  have := key c.toNat h
  rwa [Char.ofNat_toNat] at this

theorem back_ok (b : List UInt8) (s : Nat) (h : s < b.length) : ∃ s', back b s = .ok s' ∧ s' ≤ s := by
  induction s with
  | zero => exact ⟨0, rfl, Nat.le_refl _⟩
  | succ s ih =>
    obtain ⟨s', h1, h2⟩ := ih (by omega)
    rw [back, List.getElem?_eq_getElem h]
    dsimp only
    split
    · exact ⟨_, rfl, Nat.le_refl _⟩
    · exact ⟨s', h1, by omega⟩

theorem forward_ok (b : List UInt8) (k s : Nat) (h : s + k ≤ b.length) :
    ∃ s', forward b k s = .ok s' ∧ s ≤ s' ∧ s' ≤ s + k := by
  induction k generalizing s with
  | zero => exact ⟨s, rfl, by omega, by omega⟩
  | succ k ih =>
    rw [forward, List.getElem?_eq_getElem (by omega)]
    dsimp only
    split
    · obtain ⟨s', h1, h2, h3⟩ := ih (s + 1) (by omega)
      exact ⟨s', h1, by omega, by omega⟩
    · exact ⟨s, rfl, by omega, by omega⟩

theorem lineEnd_ok (b : List UInt8) (k e : Nat) (h : k = 0 ∨ e + k ≤ b.length) :
    ∃ e', lineEnd b k e = .ok e' ∧ e ≤ e' := by
  induction k generalizing e with
  | zero => exact ⟨e, rfl, by omega⟩
  | succ k ih =>
    rw [lineEnd, List.getElem?_eq_getElem (by omega)]
    dsimp only
    split
    · exact ⟨e, rfl, by omega⟩
    · obtain ⟨e', h1, h2⟩ := ih (e + 1) (by omega)
      exact ⟨e', h1, by omega⟩

theorem length_le_bytesOf (s : Text) : s.length ≤ (bytesOf s).length := by
  rw [length_bytesOf]
  induction s with
  | nil => simp
  | cons c s ih =>
    have := Char.utf8Size_pos c
    simp only [List.map_cons, List.sum_cons, List.length_cons]
    omega

theorem bytesOf_ne_nil {s : Text} (h : s ≠ []) : 0 < (bytesOf s).length := by
  have := length_le_bytesOf s
  have := List.length_pos_iff.2 h
  omega

/-- **C126**. Whatever the text, making the note does not crash, and the note is a part of the text that contains
the span of the error. -/
theorem C126_contains (text : Text) (start stop : Nat) (hne : text ≠ []) (hs : start ≤ text.length)
    (ho : start ≤ stop) :
    ∃ s e, s ≤ start ∧ stop ≤ e ∧ note text start stop = .ok (bytesOf ((text.take e).drop s)) := by
  have h0 := bytesOf_ne_nil hne
  have h1 := length_le_bytesOf text
  obtain ⟨s1, e1, l1⟩ := back_ok (bytesOf text) (min start ((bytesOf text).length - 1)) (by omega)
  obtain ⟨s2, e2, l2, l3⟩ := forward_ok (bytesOf text) (start - s1) s1 (by omega)
  obtain ⟨e3, e4, l4⟩ := lineEnd_ok (bytesOf text) ((bytesOf text).length - stop) stop (by omega)
  have hle : s2 ≤ e3 := by omega
  unfold note
  dsimp only
  rw [e1]; dsimp only
  rw [e2]; dsimp only
  rw [e4]; dsimp only
  rw [C34_extract, if_pos (Or.inl hle)]
  exact ⟨s2, e3, by omega, by omega, rfl⟩

theorem back_line (b : List UInt8) (p s : Nat) (hp : p ≤ s + 1) (hs : s < b.length)
    (hn : ∀ i, p ≤ i → i ≤ s → b[i]? ≠ some 0x0A) (hl : p ≠ 0 → b[p - 1]? = some 0x0A) :
    back b s = .ok (p - 1) := by
  induction s with
  | zero => rw [back]; congr 1; omega
  | succ s ih =>
    rw [back]
    by_cases h : p = s + 2
    · subst h
      have := hl (by omega)
      rw [show s + 2 - 1 = s + 1 from rfl] at this
      rw [this]; dsimp only
      rw [if_pos rfl]; rfl
    · have h2 := hn (s + 1) (by omega) (Nat.le_refl _)
      rw [List.getElem?_eq_getElem hs] at h2 ⊢
      dsimp only
      rw [if_neg (by intro e; exact h2 (by rw [e]))]
      exact ih (by omega) (by omega) (fun i h3 h4 => hn i h3 (by omega))

theorem forward_run (b : List UInt8) (n k s : Nat) (hk : n ≤ k) (hb : s + k ≤ b.length)
    (hw : ∀ i, s ≤ i → i < s + n → b[i]?.any isWs) (he : n = k ∨ ∃ c, b[s + n]? = some c ∧ isWs c = false) :
    forward b k s = .ok (s + n) := by
  induction n generalizing k s with
  | zero =>
    rcases he with rfl | ⟨c, h1, h2⟩
    · rfl
    · cases k with
      | zero => rfl
      | succ k => rw [forward, show b[s]? = some c from h1]; dsimp only; rw [if_neg (by simp [h2])]; rfl
  | succ n ih =>
    obtain ⟨k, rfl⟩ : ∃ k', k = k' + 1 := ⟨k - 1, by omega⟩
    have h1 := hw s (Nat.le_refl _) (by omega)
    rw [forward]
    rw [List.getElem?_eq_getElem (by omega)] at h1 ⊢
    dsimp only
    rw [if_pos (by simpa using h1), ih k (s + 1) (by omega) (by omega) (fun i h2 h3 => hw i (by omega) (by omega))]
    · congr 1; omega
    · rcases he with h | h
      · left; omega
      · right; rwa [show s + 1 + n = s + (n + 1) by omega]

theorem lineEnd_run (b : List UInt8) (n k e : Nat) (hk : n ≤ k) (hb : k = 0 ∨ e + k ≤ b.length)
    (hw : ∀ i, e ≤ i → i < e + n → b[i]? ≠ some 0x0A) (he : n = k ∨ b[e + n]? = some 0x0A) :
    lineEnd b k e = .ok (e + n) := by
  induction n generalizing k e with
  | zero =>
    rcases he with rfl | h1
    · rfl
    · cases k with
      | zero => rfl
      | succ k => rw [lineEnd, show b[e]? = some 0x0A from h1]; dsimp only; rw [if_pos rfl]; rfl
  | succ n ih =>
    obtain ⟨k, rfl⟩ : ∃ k', k = k' + 1 := ⟨k - 1, by omega⟩
    have h1 := hw e (Nat.le_refl _) (by omega)
    rw [lineEnd]
    rw [List.getElem?_eq_getElem (by omega)] at h1 ⊢
    dsimp only
    rw [if_neg (by intro h; exact h1 (by rw [h])),
      ih k (e + 1) (by omega) (by omega) (fun i h2 h3 => hw i (by omega) (by omega))]
    · congr 1; omega
    · rcases he with h | h
      · left; omega
      · right; rwa [show e + 1 + n = e + (n + 1) by omega]

theorem prefix_getElem? {x y : Text} (h : x <+: y) {i : Nat} (hi : i < x.length) : x[i]? = y[i]? := by
  obtain ⟨t, rfl⟩ := h
  rw [List.getElem?_append_left hi]

theorem takeWhile_imp {p : Char → Bool} {l : Text} {c : Char} (h : c ∈ l.takeWhile p) : p c = true := by
  have := List.all_takeWhile (p := p) (l := l)
  exact List.all_eq_true.1 this c h

theorem byte_at {s : Text} (h : Ascii s) (i : Nat) : (bytesOf s)[i]? = s[i]?.map (fun c => UInt8.ofNat c.toNat) := by
  rw [bytesOf_ascii h, List.getElem?_map]

theorem byte_lf {s : Text} (h : Ascii s) (i : Nat) : (bytesOf s)[i]? = some 0x0A ↔ s[i]? = some '\n' := by
  rw [byte_at h]
  cases e : s[i]? with
  | none => simp
  | some c =>
    have := lf_ascii (h c (List.mem_of_getElem? e))
    simpa using this

theorem byte_ws {s : Text} (h : Ascii s) (i : Nat) (c : Char) (e : s[i]? = some c) :
    ∃ x, (bytesOf s)[i]? = some x ∧ isWs x = decide (Blank c) := by
  rw [byte_at h, e]
  exact ⟨_, rfl, isWs_ascii (h c (List.mem_of_getElem? e))⟩

/-- **C126**. For a text of one-byte characters the note is exactly the lines that the error touches, without the white space
at the start of the first one, provided that the error does not begin at a line feed. -/
theorem C126_line (text : Text) (start stop : Nat) (before ahead span behind after : Text) (hA : Ascii text)
    (hne : text ≠ []) (h : Around text start stop before ahead span behind after)
    (hn : (span ++ behind ++ after).head? ≠ some '\n') :
    note text start stop = .ok (bytesOf (ahead.dropWhile (fun c => decide (Blank c)) ++ span ++ behind)) := by
  have hlen : (bytesOf text).length = text.length := by rw [bytesOf_ascii hA, List.length_map]
  have htl : text.length = before.length + ahead.length + span.length + behind.length + after.length := by
    rw [h.isText]; simp; omega
  have hst : start = before.length + ahead.length := by rw [h.isStart]; simp
  have hpos := List.length_pos_iff.2 hne
  -- characters of the parts
  have at_ahead : ∀ i, i < ahead.length → text[before.length + i]? = ahead[i]? := by
    intro i hi
    rw [h.isText, List.append_assoc, List.append_assoc, List.append_assoc, List.getElem?_append_right (by omega),
      List.getElem?_append_left (by omega)]
    congr 1; omega
  have at_rest : ∀ i, text[start + i]? = (span ++ behind ++ after)[i]? := by
    intro i
    rw [h.isText, List.append_assoc, List.append_assoc,
      List.getElem?_append_right (by rw [h.isStart]; omega), ← List.append_assoc]
    congr 1; rw [h.isStart]; omega
  -- the loop back
  have hlf : before.length ≠ 0 → (bytesOf text)[before.length - 1]? = some 0x0A := by
    intro h0
    rw [byte_lf hA]
    rcases h.before with rfl | hb
    · simp at h0
    · rw [List.getLast?_eq_getElem?] at hb
      rw [h.isText]
      simp only [List.append_assoc]
      rw [List.getElem?_append_left (by omega), hb]
  have hback : back (bytesOf text) (min start ((bytesOf text).length - 1)) = .ok (before.length - 1) := by
    refine back_line _ _ _ (by omega) (by omega) ?_ hlf
    intro i h1 h2
    rw [Ne, byte_lf hA]
    by_cases h3 : i < start
    · have e := at_ahead (i - before.length) (by omega)
      rw [show before.length + (i - before.length) = i by omega] at e
      rw [e]
      intro e2
      exact h.ahead (List.mem_of_getElem? e2)
    · have e := at_rest 0
      rw [show i = start + 0 by omega, e, ← List.head?_eq_getElem?]
      exact hn
  -- the loop over white space
  have hfwd : forward (bytesOf text) (start - (before.length - 1)) (before.length - 1) =
      .ok (before.length + (ahead.takeWhile (fun c => decide (Blank c))).length) := by
    have hle : (ahead.takeWhile (fun c => decide (Blank c))).length ≤ ahead.length :=
      (List.takeWhile_sublist _).length_le
    have e : before.length + (ahead.takeWhile (fun c => decide (Blank c))).length = (before.length - 1) +
        (before.length - (before.length - 1) + (ahead.takeWhile (fun c => decide (Blank c))).length) := by omega
    rw [e]
    refine forward_run _ _ _ _ (by omega) (by omega) ?_ ?_
    · intro i h1 h2
      by_cases h3 : i < before.length
      · have e1 : i = before.length - 1 := by omega
        rw [e1, hlf (by omega)]; rfl
      · have e1 := at_ahead (i - before.length) (by omega)
        rw [show before.length + (i - before.length) = i by omega] at e1
        have h4 : i - before.length < (ahead.takeWhile (fun c => decide (Blank c))).length := by omega
        have e2 : ahead[i - before.length]? = (ahead.takeWhile (fun c => decide (Blank c)))[i - before.length]? :=
          (prefix_getElem? (List.takeWhile_prefix _) h4).symm
        rw [e2, List.getElem?_eq_getElem h4] at e1
        have h5 := takeWhile_imp (List.getElem_mem h4)
        obtain ⟨x, h6, h7⟩ := byte_ws hA _ _ e1
        rw [h6]
        simpa [h7] using h5
    · by_cases h3 : (ahead.takeWhile (fun c => decide (Blank c))).length = ahead.length
      · left; omega
      · right
        have h4 : (ahead.takeWhile (fun c => decide (Blank c))).length < ahead.length := by omega
        have e1 := at_ahead _ h4
        rw [List.getElem?_eq_getElem h4] at e1
        obtain ⟨x, h6, h7⟩ := byte_ws hA _ _ e1
        rw [← e]
        refine ⟨x, h6, ?_⟩
        rw [h7]
        have := List.takeWhile_append_dropWhile (p := fun c => decide (Blank c)) (l := ahead)
        have hd : ahead.dropWhile (fun c => decide (Blank c)) ≠ [] := by
          intro hd
          rw [hd, List.append_nil] at this
          exact h3 (by rw [this])
        have h8 := List.head_dropWhile_not (fun c => decide (Blank c)) hd
        have h9 : ahead[(ahead.takeWhile (fun c => decide (Blank c))).length] =
            (ahead.dropWhile (fun c => decide (Blank c))).head hd := by
          apply Option.some.inj
          rw [← List.getElem?_eq_getElem, ← List.head?_eq_some_head, List.head?_eq_getElem?]
          have e5 : ∀ (x y : Text) , x ++ y = ahead → ahead[x.length]? = y[0]? := by
            intro x y e6
            rw [← e6, List.getElem?_append_right (Nat.le_refl _), Nat.sub_self]
          exact e5 _ _ this
        rw [h9]; exact h8
  -- the end of the line
  have hcases : (stop = before.length + ahead.length + span.length) ∨
      (text.length < stop ∧ behind = [] ∧ after = []) := by
    have e := congrArg List.length h.isStop
    rw [List.length_take] at e
    simp only [List.length_append] at e
    by_cases h1 : stop ≤ text.length
    · left; omega
    · right
      refine ⟨by omega, List.length_eq_zero_iff.1 (by omega), List.length_eq_zero_iff.1 (by omega)⟩
  have hpart : ∀ (x y z : Text), (x ++ y ++ z).take (x ++ y).length = x ++ y := by
    intro x y z; exact List.take_left' rfl
  have hend : ∃ e, lineEnd (bytesOf text) ((bytesOf text).length - stop) stop = .ok e ∧
      text.take e = before ++ ahead ++ span ++ behind ∧ start ≤ e := by
    rcases hcases with hc | ⟨h1, rfl, rfl⟩
    · refine ⟨stop + behind.length, ?_, ?_, by omega⟩
      · have hb : ∀ i, i < behind.length + after.length → text[stop + i]? = (behind ++ after)[i]? := by
          intro i hi
          rw [h.isText, List.append_assoc, List.getElem?_append_right (by simp; omega)]
          congr 1; simp; omega
        refine lineEnd_run _ _ _ _ (by omega) (by omega) ?_ ?_
        · intro i h1 h2
          rw [Ne, byte_lf hA, show i = stop + (i - stop) by omega, hb _ (by omega),
            List.getElem?_append_left (by omega)]
          intro e; exact h.behind (List.mem_of_getElem? e)
        · rcases h.after with rfl | ha
          · left; simp at htl; omega
          · right
            have h0 : 0 < after.length := by
              cases after with
              | nil => simp at ha
              | cons _ _ => simp
            rw [byte_lf hA, hb _ (by omega), List.getElem?_append_right (Nat.le_refl _), Nat.sub_self,
              ← List.head?_eq_getElem?, ha]
      · rw [h.isText]
        apply List.take_left'
        simp; omega
    · refine ⟨stop, ?_, ?_, by omega⟩
      · rw [show (bytesOf text).length - stop = 0 by omega]; rfl
      · rw [List.take_of_length_le (by omega), h.isText]; simp
  obtain ⟨e, he1, he2, he3⟩ := hend
  unfold note
  dsimp only
  rw [hback]; dsimp only
  rw [hfwd]; dsimp only
  rw [he1]; dsimp only
  have hle : (ahead.takeWhile (fun c => decide (Blank c))).length ≤ ahead.length :=
    (List.takeWhile_sublist _).length_le
  rw [C34_extract, if_pos (Or.inl (by omega)), he2]
  congr 2
  have e0 : before ++ ahead ++ span ++ behind = (before ++ ahead.takeWhile (fun c => decide (Blank c))) ++
      (ahead.dropWhile (fun c => decide (Blank c)) ++ span ++ behind) := by
    conv_lhs => rw [← List.takeWhile_append_dropWhile (p := fun c => decide (Blank c)) (l := ahead)]
    simp only [List.append_assoc]
  rw [e0]
  exact List.drop_left' (by simp)

def sample : Text := "class A {\n\tx = 1\n\ty = 2;\n};".toList

example : note sample 16 17 = .ok (bytesOf "\n\ty = 2;".toList) := by decide +kernel
example : note sample 20 21 = .ok (bytesOf "y = 2;".toList) := by decide +kernel
example : Around sample 20 21 "class A {\n\tx = 1\n".toList "\ty ".toList "=".toList " 2;".toList "\n};".toList :=
  ⟨by decide +kernel, by decide +kernel, by decide +kernel, by decide, by decide +kernel, by decide +kernel,
    by decide +kernel, by decide +kernel⟩
example : Ascii sample := by decide +kernel

/-- **C126**, violated for an error at the end of a line: the note shows not the line that ends there but the one
after it, behind an empty line. -/
theorem C126_violated_line_feed (before next after : Text) (hA : Ascii (before ++ ['\n'] ++ next ++ after))
    (hn : '\n' ∉ next) (ha : after = [] ∨ after.head? = some '\n') :
    note (before ++ ['\n'] ++ next ++ after) before.length (before.length + 1) = .ok (bytesOf ('\n' :: next)) := by
  generalize ht : before ++ ['\n'] ++ next ++ after = text at hA
  have hlen : (bytesOf text).length = text.length := by rw [bytesOf_ascii hA, List.length_map]
  have htl : text.length = before.length + 1 + next.length + after.length := by rw [← ht]; simp; omega
  have h0 : text[before.length]? = some '\n' := by
    rw [← ht]; simp
  have hback : back (bytesOf text) (min before.length ((bytesOf text).length - 1)) = .ok before.length := by
    rw [show min before.length ((bytesOf text).length - 1) = before.length by omega]
    have := back_line (bytesOf text) (before.length + 1) before.length (Nat.le_refl _) (by omega)
      (fun i h1 h2 => by omega) (fun _ => by rw [Nat.add_sub_cancel, byte_lf hA, h0])
    simpa using this
  have hb : ∀ i, text[before.length + 1 + i]? = (next ++ after)[i]? := by
    intro i
    rw [← ht, List.append_assoc, List.getElem?_append_right (by simp)]
    congr 1; simp
  have hend : lineEnd (bytesOf text) ((bytesOf text).length - (before.length + 1)) (before.length + 1) =
      .ok (before.length + 1 + next.length) := by
    refine lineEnd_run _ _ _ _ (by omega) (by omega) ?_ ?_
    · intro i h1 h2
      rw [Ne, byte_lf hA, show i = before.length + 1 + (i - (before.length + 1)) by omega, hb,
        List.getElem?_append_left (by omega)]
      intro e; exact hn (List.mem_of_getElem? e)
    · rcases ha with rfl | ha
      · left; simp at htl; omega
      · right
        rw [byte_lf hA, hb, List.getElem?_append_right (Nat.le_refl _), Nat.sub_self, ← List.head?_eq_getElem?, ha]
  unfold note
  dsimp only
  rw [hback]; dsimp only
  rw [Nat.sub_self, forward]; dsimp only
  rw [hend]; dsimp only
  rw [C34_extract, if_pos (Or.inl (by omega))]
  congr 2
  have e1 : text.take (before.length + 1 + next.length) = before ++ ('\n' :: next) := by
    rw [← ht, List.append_assoc before]
    apply List.take_left'
    simp; omega
  rw [e1]
  exact List.drop_left' rfl

/-- **C126**, violated for an error at the end of a text that ends with a line feed, as texts do: the note shows
nothing. -/
theorem C126_violated_end (before : Text) (hA : Ascii before) :
    note (before ++ ['\n']) (before.length + 1) (before.length + 2) = .ok [] := by
  have := C126_line (before ++ ['\n']) (before.length + 1) (before.length + 2) (before ++ ['\n']) [] [] [] []
    (by intro c hc; rcases List.mem_append.1 hc with h | h
        · exact hA c h
        · simp at h; subst h; decide)
    (by simp)
    ⟨by simp, by simp, by rw [List.take_of_length_le (by simp)]; simp, by omega, Or.inr (by simp), by simp, by simp,
      Or.inl rfl⟩ (by simp)
  simpa [bytesOf] using this

def umlauts : Text := "a = \"äöüäöüäöüäöü\";\nb = 1;\nc = = 2;".toList

/-- **C126**, violated for a text with other characters: the loops count bytes, the span counts characters. Of the
last line, `c = = 2;`, the note for the second `=` shows only the end; for the first one it shows all the lines before
as well, and not the end. -/
theorem C126_violated_bytes : umlauts.drop 27 = "c = = 2;".toList ∧
    note umlauts 31 32 = .ok (bytesOf "= 2;".toList) ∧
    note umlauts 29 30 = .ok (bytesOf "a = \"äöüäöüäöüäöü\";\nb = 1;\nc = ".toList) := by
  decide +kernel

end Verif.ConfigNote
