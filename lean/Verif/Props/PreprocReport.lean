import Verif.Lib.PreprocFrom
import Verif.Model.PreprocReport
import Verif.Props.Tokenize
/-!
C125: reports of the preprocessor point at what they are about.
-/
namespace Verif.Preproc
open Spec Ex

variable {env : Env} {root : Text}

/-! ### From positions to ranges -/

theorem sub_segment {α : Type} {l all : List α} (h : l.Sublist all) : ∀ {a b : α}, l.head? = some a → l.getLast? = some b →
    ∃ x y z, all = x ++ y ++ z ∧ y.head? = some a ∧ y.getLast? = some b := by
  induction h with
  | slnil => intro a b h; simp at h
  | cons c h ih =>
    intro a b h1 h2
    obtain ⟨x, y, z, rfl, hy⟩ := ih h1 h2
    exact ⟨c :: x, y, z, by simp, hy⟩
  | @cons_cons l all c h ih =>
    intro a b h1 h2
    simp only [List.head?_cons, Option.some.injEq] at h1
    subst h1
    cases l with
    | nil =>
      simp only [List.getLast?_singleton, Option.some.injEq] at h2
      exact ⟨[], [c], all, rfl, rfl, by simp [h2]⟩
    | cons d l =>
      obtain ⟨x, y, z, rfl, hy1, hy2⟩ := ih (a := d) (b := b) rfl (by simpa using h2)
      have hne : y ≠ [] := by rintro rfl; simp at hy1
      refine ⟨[], c :: (x ++ y), z, by simp, rfl, ?_⟩
      rw [List.getLast?_cons, List.getLast?_append_of_ne_nil _ hne, hy2]
      rfl

theorem sub_two {α : Type} {all : List α} {a b : α} (h : [a, b].Sublist all) : ∃ x y z, all = x ++ a :: y ++ b :: z := by
  obtain ⟨r, s, rfl, h1, h2⟩ := List.cons_sublist_iff.1 h
  obtain ⟨x, y, rfl⟩ := List.append_of_mem h1
  obtain ⟨y', z, rfl⟩ := List.append_of_mem (List.singleton_sublist.1 h2)
  exact ⟨x, y ++ y', z, by simp⟩

theorem Src1.covers (hp : OwnPlaces env) {l : List Tok} (h : Src1 env root l) {a b : Tok} (ha : l.head? = some a) (hb : l.getLast? = some b) :
    Covers env root a.pos.path a.pos.start.offset b.pos.stop.offset := by
  obtain ⟨f, all, h1, h2, h3⟩ := h
  obtain ⟨x, y, z, h4, h5, h6⟩ := sub_segment h3 (a := a.pos) (b := b.pos) (by simp [ha]) (by simp [hb])
  obtain ⟨xy, z', rfl, h7, rfl⟩ := List.map_eq_append_iff.1 h4
  obtain ⟨x', y', rfl, rfl, rfl⟩ := List.map_eq_append_iff.1 h7
  rw [List.head?_map, Option.map_eq_some_iff] at h5
  rw [List.getLast?_map, Option.map_eq_some_iff] at h6
  obtain ⟨t, ht, hta⟩ := h5
  obtain ⟨u, hu, hub⟩ := h6
  have hf : a.pos.path = f := by
    rw [← hta]
    exact hp.path f _ h2 t (by simp [List.mem_of_mem_head? ht])
  rw [hf]
  exact ⟨_, x', y', z', t, u, h1, h2, rfl, ht, hu, by rw [hta], by rw [hub]⟩

theorem From.src1 {t : Tok} (h : From env root t.pos) : Src1 env root [t] := by
  obtain ⟨f, all, u, h1, h2, h3, h4⟩ := h
  refine ⟨f, all, h1, h2, ?_⟩
  rw [List.map_singleton, List.singleton_sublist, ← h4]
  exact List.mem_map.2 ⟨u, h3, rfl⟩

theorem From.covers (hp : OwnPlaces env) {t : Tok} (h : From env root t.pos) :
    Covers env root t.pos.path t.pos.start.offset t.pos.stop.offset := h.src1.covers hp rfl rfl

theorem Src.covers (hp : OwnPlaces env) {l : List Tok} (h : Src env root l) {a b : Tok} (ha : l.head? = some a) (hb : l.getLast? = some b) :
    Covers env root a.pos.path a.pos.start.offset b.pos.stop.offset := by
  rcases h with h | ⟨p, h1, h2⟩
  · exact h.covers hp ha hb
  · have e1 := (h2 a (List.mem_of_mem_head? ha)).1
    have e2 := (h2 b (List.mem_of_getLast? hb)).1
    rw [e2, ← e1]
    exact From.covers hp (e1 ▸ h1)

theorem Src1.gap (hp : OwnPlaces env) {a b : Tok} (h : Src1 env root [a, b]) :
    Gap env root b.pos.path a.pos.stop.offset b.pos.start.offset := by
  obtain ⟨f, all, h1, h2, h3⟩ := h
  obtain ⟨x, y, z, h4⟩ := sub_two h3
  obtain ⟨xy, z', rfl, h5, h6⟩ := List.map_eq_append_iff.1 h4
  obtain ⟨x', y', rfl, rfl, h7⟩ := List.map_eq_append_iff.1 h5
  obtain ⟨t, y'', rfl, ht, rfl⟩ := List.map_eq_cons_iff.1 h7
  obtain ⟨u, z'', rfl, hu, rfl⟩ := List.map_eq_cons_iff.1 h6
  have hf : b.pos.path = f := by
    rw [← hu]
    exact hp.path f _ h2 u (by simp)
  rw [hf]
  exact ⟨_, x', t, y'', u, z'', h1, h2, by simp, by rw [ht], by rw [hu]⟩

/-! ### C125 -/

theorem run_err (hp : OwnPlaces env) {n c : Nat} {t : Tok} {m : More} (h : run n env root = .error (.code c t m)) :
    (c = 24 ∧ Read env root t.pos.path) ∨ (c ≠ 24 ∧ From env root t.pos ∧ MoreFrom env root c t m) := by
  have := run_from (root := root) hp n
  rw [h] at this
  exact this

theorem sideLabel_mem {s : List Tok × Bool} {x : List Lab} (h : sideLabel s = some x) {l : Lab} (hl : l ∈ x) :
    ∃ a b, a ∈ s.1 ∧ b ∈ s.1 ∧ l = .over false a b := by
  rw [sideLabel] at h
  split at h
  · split at h
    · rename_i a b ha hb
      simp only [Option.some.injEq] at h
      subst h
      exact ⟨a, b, List.mem_of_mem_head? ha, List.mem_of_getLast? hb, List.mem_singleton.1 hl⟩
    · simp at h
  · simp only [Option.some.injEq] at h
    subst h
    simp at hl

/-- C125. A file that cannot be read is reported in that file: the one that is preprocessed or one that was included. -/
theorem C125_unreadable (hp : OwnPlaces env) {n : Nat} {t : Tok} {m : More} (h : run n env root = .error (.code 24 t m)) :
    shown 24 t m = .labels [⟨true, t.pos.path, t.pos.start.offset, t.pos.stop.offset⟩] ∧ Read env root t.pos.path := by
  rcases run_err hp h with h | h
  · exact ⟨rfl, h.2⟩
  · exact absurd rfl h.1

/-- C125. Every other error has exactly one primary label, which comes first, and that marks tokens of a file that was read: it
begins with the beginning of one of them and ends with the end of it or of a later one of the same file. -/
theorem C125_primary (hp : OwnPlaces env) {n c : Nat} {t : Tok} {m : More} (h : run n env root = .error (.code c t m)) (hc : c ≠ 24)
    {ls : List Lab} (hs : shown c t m = .labels ls) :
    ∃ l rest, ls = l :: rest ∧ l.primary = true ∧ (∀ r ∈ rest, r.primary = false) ∧ Covers env root l.file l.start l.stop := by
  obtain ⟨_, ht, h5, h7, h12, h13, h15, h16, h17⟩ := (run_err hp h).resolve_left (fun h => hc h.1)
  have hon := From.covers hp ht
  rw [shown.eq_def] at hs
  split at hs
  · cases hs; exact ⟨_, _, rfl, rfl, by simp, hon⟩
  · cases hs; exact ⟨_, _, rfl, rfl, by simp [Lab.on], hon⟩
  · cases hs; exact ⟨_, _, rfl, rfl, by simp, hon⟩
  · cases hs; exact ⟨_, _, rfl, rfl, by simp [Lab.on], hon⟩
  · cases hs; exact ⟨_, _, rfl, rfl, by simp [Lab.on], hon⟩
  · rename_i l
    split at hs
    · rename_i a b ha hb
      cases hs
      obtain ⟨l', hl, hsrc⟩ := h12 rfl
      cases hl
      exact ⟨_, _, rfl, rfl, by simp, hsrc.covers hp ha hb⟩
    · cases hs
  · rename_i s l
    cases hs
    rcases h13 rfl with ⟨_, h⟩ | ⟨_, s', h, h'⟩
    · cases h
    · cases h
      refine ⟨_, _, rfl, rfl, by simp, ?_⟩
      rcases h' with rfl | h'
      · exact hon
      · exact h'.covers hp rfl rfl
  · cases hs
  · rename_i l
    split at hs
    · rename_i a b ha hb
      cases hs
      obtain ⟨l', hl, _, hsrc⟩ := h15 rfl
      cases hl
      exact ⟨_, _, rfl, rfl, by simp, hsrc.covers hp ha hb⟩
    · cases hs
  · rename_i l op r
    split at hs
    · rename_i a b ha hb
      obtain ⟨l', op', r', hm, _, hop, _⟩ := h16 rfl
      cases hm
      split at hs
      · rename_i x y hx hy
        cases hs
        refine ⟨_, _, rfl, rfl, ?_, hop.covers hp ha hb⟩
        intro u hu
        rcases List.mem_append.1 hu with h | h
        · obtain ⟨a, b, _, _, rfl⟩ := sideLabel_mem hx h
          rfl
        · obtain ⟨a, b, _, _, rfl⟩ := sideLabel_mem hy h
          rfl
      · cases hs
    · cases hs
  · cases hs; exact ⟨_, _, rfl, rfl, by simp [Lab.on], hon⟩
  · cases hs; exact ⟨_, _, rfl, rfl, by simp, hon⟩

/-- C125. The other labels of an error mark a token of a file that was read, or the gap between two of them where a comma is missing.
Not so for two codes: PE9 marks the place of the definition, but in the file of the call (see `C125_violated_count`); PE16 begins with
the beginning of a token of its file and ends with the end of some token. -/
theorem C125_secondary (hp : OwnPlaces env) {n c : Nat} {t : Tok} {m : More} (h : run n env root = .error (.code c t m)) (hc : c ≠ 24)
    {ls : List Lab} (hs : shown c t m = .labels ls) {l : Lab} (hl : l ∈ ls) (hf : l.primary = false) :
    if c = 9 then l.file = t.pos.path ∧ ∃ f, Covers env root f l.start l.stop
    else if c = 16 then (∃ e, Covers env root l.file l.start e) ∧ ∃ f s, Covers env root f s l.stop
    else if c = 5 then Gap env root l.file l.start l.stop
    else Covers env root l.file l.start l.stop := by
  obtain ⟨_, ht, h5, h7, h12, h13, h15, h16, h17⟩ := (run_err hp h).resolve_left (fun h => hc h.1)
  rw [shown.eq_def] at hs
  split at hs
  · cases hs
    obtain ⟨p, hm, hsrc⟩ := h5 rfl
    cases hm
    simp only [List.mem_cons, List.not_mem_nil, or_false] at hl
    rcases hl with rfl | rfl
    · cases hf
    · exact hsrc.gap hp
  · cases hs
    obtain ⟨d, hm, hd⟩ := h7 (by simp)
    cases hm
    simp only [List.mem_cons, List.not_mem_nil, or_false] at hl
    rcases hl with rfl | rfl
    · cases hf
    · exact hd.covers hp
  · cases hs
    obtain ⟨d, hm, hd⟩ := h7 (by simp)
    cases hm
    simp only [List.mem_cons, List.not_mem_nil, or_false] at hl
    rcases hl with rfl | rfl
    · cases hf
    · exact ⟨rfl, _, hd.covers hp⟩
  · cases hs
    obtain ⟨d, hm, hd⟩ := h7 (by simp)
    cases hm
    simp only [List.mem_cons, List.not_mem_nil, or_false] at hl
    rcases hl with rfl | rfl
    · cases hf
    · exact hd.covers hp
  · cases hs
    obtain ⟨d, hm, hd⟩ := h7 (by simp)
    cases hm
    simp only [List.mem_cons, List.not_mem_nil, or_false] at hl
    rcases hl with rfl | rfl
    · cases hf
    · exact hd.covers hp
  · split at hs
    · cases hs
      rw [List.mem_singleton.1 hl] at hf
      cases hf
    · cases hs
  · cases hs
    rw [List.mem_singleton.1 hl] at hf
    cases hf
  · cases hs
  · split at hs
    · cases hs
      rw [List.mem_singleton.1 hl] at hf
      cases hf
    · cases hs
  · split at hs
    · obtain ⟨l', op', r', hm, _, _, _, hsl, hsr⟩ := h16 rfl
      cases hm
      split at hs
      · rename_i x y hx hy
        cases hs
        rcases List.mem_cons.1 hl with rfl | hl
        · cases hf
        · obtain ⟨a, b, ha, hb, rfl⟩ : ∃ a b, From env root a.pos ∧ From env root b.pos ∧ l = .over false a b := by
            rcases List.mem_append.1 hl with h | h
            · obtain ⟨a, b, ha, hb, e⟩ := sideLabel_mem hx h
              exact ⟨a, b, hsl a ha, hsl b hb, e⟩
            · obtain ⟨a, b, ha, hb, e⟩ := sideLabel_mem hy h
              exact ⟨a, b, hsr a ha, hsr b hb, e⟩
          exact ⟨⟨_, ha.covers hp⟩, _, _, hb.covers hp⟩
      · cases hs
    · cases hs
  · cases hs
    obtain ⟨p, i, hm, h1, h2⟩ := h17 rfl
    cases hm
    simp only [List.mem_cons, List.not_mem_nil, or_false] at hl
    rcases hl with rfl | rfl | rfl
    · cases hf
    · exact h1.covers hp
    · exact h2.covers hp
  · cases hs
    rw [List.mem_singleton.1 hl] at hf
    cases hf

/-- C125. What is reported is shown: only an `#include` of a bare word and one of nothing are not, and only a comparison with an empty
macro crashes the report. -/
theorem C125_shown (hp : OwnPlaces env) {n c : Nat} {t : Tok} {m : More} (h : run n env root = .error (.code c t m)) :
    (∃ ls, shown c t m = .labels ls) ∨ (shown c t m = .nothing ∧ (c = 13 ∧ t.sym.isWord = true ∨ c = 12 ∧ m = .toks [])) ∨
    (shown c t m = .panic ∧ c = 16 ∧ ∃ l op, m = .sides l op ([], true)) := by
  rcases run_err hp h with ⟨rfl, _⟩ | ⟨h24, ht, h5, h7, h12, h13, h15, h16, h17⟩
  · exact .inl ⟨_, rfl⟩
  clear h24
  rw [shown.eq_def]
  split
  · exact .inl ⟨_, rfl⟩
  · exact .inl ⟨_, rfl⟩
  · exact .inl ⟨_, rfl⟩
  · exact .inl ⟨_, rfl⟩
  · exact .inl ⟨_, rfl⟩
  · rename_i l
    cases l with
    | nil => exact .inr (.inl ⟨rfl, .inr ⟨rfl, rfl⟩⟩)
    | cons a l =>
      simp only [List.head?_cons, List.getLast?_cons]
      exact .inl ⟨_, rfl⟩
  · exact .inl ⟨_, rfl⟩
  · rename_i hno
    rcases h13 rfl with ⟨hw, _⟩ | ⟨_, s, rfl, _⟩
    · exact .inr (.inl ⟨rfl, .inl ⟨rfl, hw⟩⟩)
    · exact absurd rfl (hno s [])
  · rename_i l
    obtain ⟨l', hl, hne, _⟩ := h15 rfl
    cases hl
    cases l with
    | nil => exact absurd rfl hne
    | cons a l =>
      simp only [List.head?_cons, List.getLast?_cons]
      exact .inl ⟨_, rfl⟩
  · rename_i l op r
    obtain ⟨l', op', r', hm, hne, _, hln, _⟩ := h16 rfl
    cases hm
    have side : ∀ s : List Tok × Bool, s.1 ≠ [] → ∃ x, sideLabel s = some x := by
      intro s hs
      obtain ⟨k, b⟩ := s
      cases k with
      | nil => exact absurd rfl hs
      | cons a k => cases b <;> simp [sideLabel, List.getLast?_cons]
    obtain ⟨x, hx⟩ := side l hln
    cases op with
    | nil => exact absurd rfl hne
    | cons a op =>
      simp only [List.head?_cons, List.getLast?_cons, hx]
      obtain ⟨k, b⟩ := r
      cases k with
      | nil =>
        cases b with
        | true => exact .inr (.inr ⟨rfl, by simp⟩)
        | false => exact .inl ⟨_, rfl⟩
      | cons d k =>
        obtain ⟨y, hy⟩ := side (d :: k, b) (by simp)
        rw [hy]
        exact .inl ⟨_, rfl⟩
  · exact .inl ⟨_, rfl⟩
  · exact .inl ⟨_, rfl⟩

/-- C125. The labels of every warning mark tokens of files that were read; the first is primary. A warning about the case of an
include cannot be shown only if nothing was included. -/
theorem C125_warnings (hp : OwnPlaces env) {n : Nat} {st : St} {out : List Out} (h : run n env root = .ok (st, out)) {w : Warn}
    (hw : w ∈ st.warns) :
    (w = .includeCase [] ∧ w.shown = .panic) ∨ ∃ l rest, w.shown = .labels (l :: rest) ∧ l.primary = true ∧
      ∀ r ∈ l :: rest, Covers env root r.file r.start r.stop := by
  have h1 := run_from (root := root) hp n
  rw [h] at h1
  have hf := h1.1.warns w hw
  cases w with
  | redefine a b =>
    refine .inr ⟨_, _, rfl, rfl, ?_⟩
    intro r hr
    simp only [List.mem_cons, List.not_mem_nil, or_false] at hr
    rcases hr with rfl | rfl
    · exact hf.1.covers hp
    · exact hf.2.covers hp
  | padded t k =>
    refine .inr ⟨_, _, rfl, rfl, ?_⟩
    intro r hr
    rw [List.mem_singleton.1 hr]
    exact From.covers hp hf
  | includeCase p =>
    cases p with
    | nil => exact .inl ⟨rfl, rfl⟩
    | cons a p =>
      refine .inr ⟨.over true a ((a :: p).getLast (by simp)), [], ?_, rfl, ?_⟩
      · simp [Warn.shown, List.getLast?_eq_some_getLast]
      · intro r hr
        rw [List.mem_singleton.1 hr]
        exact Src.covers hp (l := a :: p) hf rfl (List.getLast?_eq_some_getLast _)

/-- C125. Every token that is written stands in a file that was read, also inside of macros; and what is counted as included can be
reached by `#include`. -/
theorem C125_output (hp : OwnPlaces env) {n : Nat} {st : St} {out : List Out} (h : run n env root = .ok (st, out)) :
    (∀ t ∈ Out.toksL out, Covers env root t.pos.path t.pos.start.offset t.pos.stop.offset) ∧
    ∀ f ∈ st.included, Read env root f := by
  have h1 := run_from (root := root) hp n
  rw [h] at h1
  exact ⟨fun t ht => From.covers hp (h1.2 t (Out.toksL_sub _ ht)), h1.1.incl⟩

/-! ### In the texts of the files -/

/-- The files are the given texts, read by the tokeniser. -/
structure Texts (env : Env) (cl : Classes) (text : Text → Option Text) : Prop where
  load : ∀ f all, env.load f = .ok all → ∃ src, text f = some src ∧ tokenise cl f src = some all
  fails : ∀ f e, env.load f = .error e → e = .panic ∨ ∃ t, e = .code 24 t ∧ t.pos.path = f

theorem Texts.own {cl : Classes} (hcl : cl.Ascii) {text : Text → Option Text} (h : Texts env cl text) : OwnPlaces env where
  path f all hl t ht := by
    obtain ⟨src, _, hs⟩ := h.load f all hl
    exact (C76_places hcl hs ht).1
  fails := h.fails

theorem utf8_zero {a : Text} (h : utf8 a = 0) : a = [] := by
  cases a with
  | nil => rfl
  | cons c a =>
    have := Char.utf8Size_pos c
    simp [utf8] at h
    omega

theorem Covers.text {cl : Classes} (hcl : cl.Ascii) {text : Text → Option Text} (h : Texts env cl text) {file : Text} {a b : Nat}
    (hns : ∀ src toks, text file = some src → tokenise cl file src = some toks → ∀ t ∈ toks, t.sym.stray = false)
    (hc : Covers env root file a b) :
    Read env root file ∧ ∃ src pre mid post, text file = some src ∧ src = pre ++ mid ++ post ∧ utf8 pre = a ∧ utf8 (pre ++ mid) = b := by
  obtain ⟨all, x, y, z, t, u, hr, hl, rfl, ht, hu, rfl, rfl⟩ := hc
  obtain ⟨src, hs, htk⟩ := h.load _ _ hl
  have hty : t ∈ y := List.mem_of_mem_head? ht
  have huy : u ∈ y := List.mem_of_getLast? hu
  obtain ⟨_, p1, r1, q1, e1, _, o1, _⟩ := C76_places hcl htk (t := t) (by simp [hty])
  obtain ⟨_, p2, r2, q2, e2, _, o2, o2'⟩ := C76_places hcl htk (t := u) (by simp [huy])
  have o2' := o2' (hns src _ hs htk u (by simp [huy]))
  have hle : utf8 p1 ≤ utf8 p2 := by
    rw [← o1, ← o2]
    have hp := C76_order htk
    rw [List.pairwise_append, List.pairwise_append] at hp
    have hp := hp.1.2.1
    cases y with
    | nil => simp at hty
    | cons t' y =>
      simp only [List.head?_cons, Option.some.injEq] at ht
      subst ht
      rcases List.mem_cons.1 huy with rfl | h'
      · exact le_rfl
      · exact (List.pairwise_cons.1 hp).1 u h'
  have pf1 : p1 <+: src := ⟨r1 ++ q1, by rw [e1]; simp⟩
  have pf2 : p2 ++ r2 <+: src := ⟨q2, by rw [e2]⟩
  have pf : p1 <+: p2 ++ r2 := by
    rcases List.prefix_or_prefix_of_prefix pf1 pf2 with h | ⟨d, hd⟩
    · exact h
    · have : utf8 d = 0 := by
        have h3 := congrArg utf8 hd
        rw [utf8_append, utf8_append] at h3
        omega
      rw [utf8_zero this, List.append_nil] at hd
      rw [hd]
  obtain ⟨mid, hm⟩ := pf
  exact ⟨hr, src, p1, mid, q2, hs, by rw [hm]; exact e2, o1.symm, by rw [hm]; exact o2'.symm⟩

/-- C125. In terms of the texts: the primary label of an error is a stretch of the text of a file that was read, so it can always be
shown. (If no string of that file has a comment in it, see C76.) -/
theorem C125_text {cl : Classes} (hcl : cl.Ascii) {text : Text → Option Text} (ht : Texts env cl text)
    (hns : ∀ f src toks, text f = some src → tokenise cl f src = some toks → ∀ t ∈ toks, t.sym.stray = false)
    {n c : Nat} {t : Tok} {m : More} (h : run n env root = .error (.code c t m)) (hc : c ≠ 24) {ls : List Lab}
    (hs : shown c t m = .labels ls) :
    ∃ l rest, ls = l :: rest ∧ l.primary = true ∧ Read env root l.file ∧
      ∃ src pre mid post, text l.file = some src ∧ src = pre ++ mid ++ post ∧ utf8 pre = l.start ∧ utf8 (pre ++ mid) = l.stop := by
  obtain ⟨l, rest, h1, h2, _, h3⟩ := C125_primary (ht.own hcl) h hc hs
  exact ⟨l, rest, h1, h2, Covers.text hcl ht (hns l.file) h3⟩

/-- C125. Every written token stands at a place in the text of a file that was read. -/
theorem C125_output_text {cl : Classes} (hcl : cl.Ascii) {text : Text → Option Text} (ht : Texts env cl text)
    (hns : ∀ f src toks, text f = some src → tokenise cl f src = some toks → ∀ t ∈ toks, t.sym.stray = false)
    {n : Nat} {st : St} {out : List Out} (h : run n env root = .ok (st, out)) {t : Tok} (hout : t ∈ Out.toksL out) :
    Read env root t.pos.path ∧ ∃ src pre mid post, text t.pos.path = some src ∧ src = pre ++ mid ++ post ∧
      utf8 pre = t.pos.start.offset ∧ utf8 (pre ++ mid) = t.pos.stop.offset :=
  Covers.text hcl ht (hns _) ((C125_output (ht.own hcl) h).1 t hout)

/-! ### Examples -/

namespace Ex

/-- The texts of two files. -/
def twoTexts (main other : String) (f : Text) : Option Text :=
  if f = kw "main" then some main.toList else if f = kw "a.hpp" then some other.toList else none

/-- A world with the files `main` and `a.hpp`. -/
def twoFiles (main other : String) : Env where
  load f := match twoTexts main other f with
    | none => .error .panic
    | some s => match tokenise ascii f s with
      | some t => .ok t
      | none => .error (.code 24 ⟨.eoi, ⟨⟨0, 0, 0⟩, ⟨0, 0, 0⟩, f⟩⟩)
  locate _ s := if s = kw "a.hpp" then some (kw "a.hpp", false) else none
  fileMacro p := p
  fileName p := p
  compare a _ b := if (a ++ b).all Char.isDigit then some true else none

/-- The part of a file that a label marks. -/
structure Mark where
  primary : Bool
  file : String
  part : Option String
  deriving DecidableEq

/-- The report of a run. -/
inductive Rep
  | labels (number : Nat) (l : List Mark)
  | nothing (number : Nat)
  | crash (number : Nat)
  | fine
  deriving DecidableEq

def markOf (main other : String) (x : Lab) : Mark :=
  ⟨x.primary, String.ofList x.file, match twoTexts main other x.file with
    | none => none
    | some s => if x.start ≤ x.stop ∧ x.stop ≤ s.length then some (String.ofList ((s.take x.stop).drop x.start)) else none⟩

/-- The report of preprocessing `main`. -/
def reports (main other : String) : Rep :=
  match run 200 (twoFiles main other) (kw "main") with
  | .error (.code n t m) => match shown n t m with
    | .labels l => .labels (codeNumber n) (l.map (markOf main other))
    | .nothing => .nothing (codeNumber n)
    | .panic => .crash (codeNumber n)
  | _ => .fine

theorem twoFiles_texts (main other : String) : Texts (twoFiles main other) ascii (twoTexts main other) where
  load f all h := by
    simp only [twoFiles] at h
    split at h
    · simp at h
    · rename_i s hs
      split at h
      · rename_i t ht
        simp only [Except.ok.injEq] at h
        exact ⟨s, hs, h ▸ ht⟩
      · simp at h
  fails f e h := by
    simp only [twoFiles] at h
    split at h
    · simp only [Except.error.injEq] at h
      exact .inl h.symm
    · split at h
      · simp at h
      · simp only [Except.error.injEq] at h
        exact .inr ⟨_, h.symm, rfl⟩

end Ex

/-- Reports with their labels: a missing comma, a macro with parameters as a value, a second `#else`, an include that is not found,
one that is not closed, a wrong operator, a comparison of words. -/
example :
    reports "#define A(x  y) x\n" "" = .labels 5 [⟨true, "main", some "y"⟩, ⟨false, "main", some "  "⟩] ∧
    reports "#include \"a.hpp\"\nx = A;\n" "#define A(x) x\n" = .labels 10 [⟨true, "main", some "A"⟩, ⟨false, "a.hpp", some "A"⟩] ∧
    reports "#ifdef A\n#else\n#else\n#endif\n" "" =
      .labels 17 [⟨true, "main", some "else"⟩, ⟨false, "main", some "else"⟩, ⟨false, "main", some "ifdef"⟩] ∧
    reports "#include \"b c.hpp\"\n" "" = .labels 12 [⟨true, "main", some "b c.hpp"⟩] ∧
    reports "#include <a.hpp\n" "" = .labels 13 [⟨true, "main", some "<a.hpp\n"⟩] ∧
    reports "#if 1 =! 2\n" "" = .labels 15 [⟨true, "main", some "=!"⟩] := by
  refine ⟨?_, ?_, ?_, ?_, ?_, ?_⟩ <;> decide +kernel

/-- The conditions of the theorems hold of such files. -/
example : OwnPlaces (twoFiles "#include \"a.hpp\"\nx = A;\n" "#define A(x) x\n") ∧
    (∀ f src toks, twoTexts "#include \"a.hpp\"\nx = A;\n" "#define A(x) x\n" f = some src → tokenise ascii f src = some toks →
      ∀ t ∈ toks, t.sym.stray = false) := by
  refine ⟨(twoFiles_texts _ _).own ascii_ok, ?_⟩
  intro f src toks hs ht
  have key : ∀ (g : Text) (s : String), (∀ toks, tokenise ascii g s.toList = some toks → (toks.all fun t => !t.sym.stray) = true) →
      tokenise ascii g s.toList = some toks → ∀ t ∈ toks, t.sym.stray = false := by
    intro g s h1 h2 t h3
    simpa using List.all_eq_true.1 (h1 _ h2) t h3
  rw [twoTexts] at hs
  split_ifs at hs with h1 h2
  · cases hs
    subst h1
    refine key _ _ ?_ ht
    intro l hl
    have : ((tokenise ascii (kw "main") "#include \"a.hpp\"\nx = A;\n".toList).all fun l => l.all fun t => !t.sym.stray) = true := by
      decide +kernel
    rw [hl] at this
    exact this
  · cases hs
    subst h2
    refine key _ _ ?_ ht
    intro l hl
    have : ((tokenise ascii (kw "a.hpp") "#define A(x) x\n".toList).all fun l => l.all fun t => !t.sym.stray) = true := by
      decide +kernel
    rw [hl] at this
    exact this

/-- C125 is violated by the program: an `#include` without quotes fails the build with no report at all. -/
theorem C125_violated_nothing : reports "#include a.hpp\n" "" = .nothing 13 := by decide +kernel

/-- C125 is violated by the program: for a wrong number of arguments the place of the definition is marked in the file of the call.
There stands something else, or the file is shorter. -/
theorem C125_violated_count :
    reports "x = 1; y = 2;\n#include \"a.hpp\"\nz = ADD(1);\n" "#define ADD(a,b) a+b\n" =
      .labels 9 [⟨true, "main", some "ADD"⟩, ⟨false, "main", some " = "⟩] ∧
    reports "#include \"a.hpp\"\nz = ADD(1);\n" "// the sum of two numbers, used by everyone\n#define ADD(a,b) a+b\n" =
      .labels 9 [⟨true, "main", some "ADD"⟩, ⟨false, "main", none⟩] := by
  refine ⟨?_, ?_⟩ <;> decide +kernel

/-- C125 is violated by the program: the report about a comparison carries the number of another code, and comparing with a macro that is
empty crashes it. -/
theorem C125_violated_compare :
    reports "#define W abc\n#if W > 2\n#endif\n" "" = .labels 15 [⟨true, "main", some ">"⟩, ⟨false, "main", some "abc"⟩] ∧
    reports "#define W \n#if 1 > W\n#endif\n" "" = .crash 15 := by
  refine ⟨?_, ?_⟩ <;> decide +kernel

end Verif.Preproc
