import Verif.Model.Prefix
/-! Property C06. -/
namespace Verif.Prefix

theorem dropWhile_head {p : Char → Bool} {s : Text} {c : Char} (h : (s.dropWhile p).head? = some c) :
    p c = false := by
  induction s with
  | nil => simp at h
  | cons a s ih =>
    by_cases ha : p a = true
    · rw [List.dropWhile_cons_of_pos ha] at h; exact ih h
    · rw [List.dropWhile_cons_of_neg ha] at h
      simp at h; subst h; simpa using ha

theorem dropWhile_id {p : Char → Bool} {s : Text} (h : ∀ c, s.head? = some c → p c = false) :
    s.dropWhile p = s := by
  cases s with
  | nil => rfl
  | cons a s => rw [List.dropWhile_cons_of_neg]; simp [h a rfl]

theorem dropWhile_suffix (p : Char → Bool) (s : Text) : s.dropWhile p <:+ s := List.dropWhile_suffix p

theorem trim_subset {s : Text} {c : Char} (h : c ∈ trim s) : c ∈ s := by
  unfold trim at h
  rw [List.mem_reverse] at h
  have := (dropWhile_suffix isWs (s.dropWhile isWs).reverse).subset h
  rw [List.mem_reverse] at this
  exact (dropWhile_suffix isWs s).subset this

theorem trim_length (s : Text) : (trim s).length ≤ s.length := by
  unfold trim
  rw [List.length_reverse]
  have h1 := (dropWhile_suffix isWs (s.dropWhile isWs).reverse).length_le
  have h2 := (dropWhile_suffix isWs s).length_le
  rw [List.length_reverse] at h1
  omega

theorem trim_head {s : Text} {c : Char} (h : (trim s).head? = some c) : isWs c = false := by
  -- the reversed trailing trim keeps a prefix of the leading-trimmed text
  have hp : trim s <+: s.dropWhile isWs := by
    unfold trim
    rw [← List.reverse_suffix]
    simpa using dropWhile_suffix isWs (s.dropWhile isWs).reverse
  obtain ⟨t, ht⟩ := hp
  apply dropWhile_head (s := s)
  rw [← ht]
  cases hs : trim s with
  | nil => rw [hs] at h; simp at h
  | cons a r => rw [hs] at h; simpa using h

theorem trim_last {s : Text} {c : Char} (h : (trim s).getLast? = some c) : isWs c = false := by
  unfold trim at h
  rw [List.getLast?_reverse] at h
  exact dropWhile_head h

theorem trim_trim (s : Text) : trim (trim s) = trim s := by
  have e : trim (trim s) = (((trim s).dropWhile isWs).reverse.dropWhile isWs).reverse := rfl
  rw [e, dropWhile_id (s := trim s) (fun c hc => trim_head hc)]
  rw [dropWhile_id (s := (trim s).reverse), List.reverse_reverse]
  intro c hc
  rw [List.head?_reverse] at hc
  exact trim_last hc

theorem mem_lines {s l : Text} (h : l ∈ lines s) : ∀ c ∈ l, c ∈ s ∧ c ≠ '\n' := by
  intro c hc
  have hmem : ∀ q ∈ split '\n' s, ∀ c ∈ q, c ∈ s := by
    intro q hq c hc
    rw [← joinWith_split '\n' s]
    revert hq
    generalize split '\n' s = ps
    intro hq
    induction ps with
    | nil => simp at hq
    | cons p ps ih =>
      cases ps with
      | nil => simp at hq; subst hq; simpa [joinWith] using hc
      | cons r rs =>
        rw [joinWith]
        rcases List.mem_cons.1 hq with rfl | hq
        · simp [hc]
        · have := ih hq
          simp [this]
  have key : ∃ q ∈ split '\n' s, ∀ c ∈ l, c ∈ q := by
    unfold lines at h
    split at h
    · simp at h
    · rename_i last initRev heq
      have hsp : split '\n' s = initRev.reverse ++ [last] := by
        rw [← List.reverse_reverse (split '\n' s), heq]; simp
      have hsub : ∀ q : Text, ∀ c ∈ stripCr q, c ∈ q := by
        intro q c hc
        unfold stripCr at hc
        split at hc
        · exact (List.dropLast_prefix q).subset hc
        · exact hc
      have hterm : l ∈ initRev.reverse.map stripCr → ∃ q ∈ split '\n' s, ∀ c ∈ l, c ∈ q := by
        intro hl
        obtain ⟨q, hq, rfl⟩ := List.mem_map.1 hl
        exact ⟨q, by rw [hsp]; simp at hq ⊢; exact Or.inl hq, hsub q⟩
      dsimp only at h
      split at h
      · exact hterm h
      · rcases List.mem_append.1 h with h | h
        · exact hterm h
        · simp at h; subst h
          exact ⟨l, by rw [hsp]; simp, fun c hc => hc⟩
  obtain ⟨q, hq, hsub⟩ := key
  refine ⟨hmem q hq c (hsub c hc), ?_⟩
  intro e; subst e
  exact split_pieces q hq (hsub _ hc)

theorem splitOnce_spec {l k v : Text} (h : splitOnceEq l = some (k, v)) : l = k ++ '=' :: v := by
  induction l generalizing k with
  | nil => simp [splitOnceEq] at h
  | cons c s ih =>
    simp only [splitOnceEq] at h
    split at h
    · simp at h; obtain ⟨rfl, rfl⟩ := h; simp_all
    · simp only [Option.map_eq_some_iff] at h
      obtain ⟨⟨k', v'⟩, h1, h2⟩ := h
      simp at h2; obtain ⟨rfl, rfl⟩ := h2
      rw [ih h1]; simp

/-- Everything an accepted prefix comes from: a trimmed, single-line value free of `/` whose parts are
its pieces between backslashes. -/
theorem new_value {c : Text} {p : List Text} (h : new c = .ok p) :
    ∃ v : Text, p = split '\\' v ∧ trim v = v ∧ '/' ∉ v ∧ '\n' ∉ v ∧ v.head? ≠ some '\\' := by
  unfold new at h
  dsimp only at h
  split at h
  · simp at h
  rename_i hne
  split at h
  · simp at h
  rename_i hslash
  split at h
  · rename_i hone
    split at h
    · simp at h
    · rename_i hbs
      cases h
      refine ⟨trim c, rfl, trim_trim c, hslash, ?_, hbs⟩
      intro hn
      -- a newline inside trimmed text makes at least two lines
      have h1 := hone.1
      generalize hs : trim c = s at *
      have h2 : 2 ≤ (split '\n' s).length := by
        clear h1 hone hslash hbs hne hs
        induction s with
        | nil => simp at hn
        | cons a s ih =>
          simp only [split]
          split
          · have := split_ne_nil '\n' s
            cases hq : split '\n' s with
            | nil => exact absurd hq this
            | cons _ _ => simp
          · rename_i ha
            have : '\n' ∈ s := by
              rcases List.mem_cons.1 hn with e | e
              · exact absurd e.symm ha
              · exact e
            have := ih this
            cases hq : split '\n' s with
            | nil => rw [hq] at this; simp at this
            | cons _ _ => rw [hq] at this; simpa using this
      have hl : s.getLast? ≠ some '\n' := by
        intro e
        rw [← hs] at e
        have := trim_last e
        revert this; decide
      unfold lines at h1
      split at h1
      · simp at h1
      · rename_i last initRev heq
        have hsp : split '\n' s = initRev.reverse ++ [last] := by
          rw [← List.reverse_reverse (split '\n' s), heq]; simp
        rw [hsp] at h2
        dsimp only at h1
        split at h1
        · rename_i hlast
          subst hlast
          apply hl
          rw [← joinWith_split '\n' s, hsp]
          generalize hq : initRev.reverse = ini
          rw [hq] at h2
          clear h1 hsp heq hq hl hs hn hone hslash hbs hne
          induction ini with
          | nil => simp at h2
          | cons p ps ih =>
            cases ps with
            | nil => simp [joinWith]
            | cons q qs =>
              have ih' := ih (by simp)
              have e : joinWith '\n' (p :: q :: qs ++ [[]]) = p ++ '\n' :: joinWith '\n' (q :: qs ++ [[]]) := rfl
              rw [e, List.getLast?_append, List.getLast?_cons, ih']
              rfl
        · simp only [List.length_append, List.length_map, List.length_reverse,
            List.length_singleton] at h1 h2
          omega
  · generalize hs : trim c = s at *
    have hgen : ∀ ls : List Text, (∀ l ∈ ls, l ∈ lines s) → findPrefix s ls = .ok p →
        ∃ v : Text, p = split '\\' v ∧ trim v = v ∧ '/' ∉ v ∧ '\n' ∉ v ∧ v.head? ≠ some '\\' := by
      intro ls hls h
      induction ls with
      | nil => simp [findPrefix] at h
      | cons l ls ih =>
        have ih := ih (fun l hl => hls l (by simp [hl]))
        simp only [findPrefix] at h
        split at h
        · rename_i k v heq
          split at h
          · split at h
            · simp at h
            · rename_i hbs
              cases h
              have hl := mem_lines (hls l (by simp))
              have hv : ∀ c ∈ trim v, c ∈ l := by
                intro c hc
                rw [splitOnce_spec heq]
                have := trim_subset hc
                simp [this]
              refine ⟨trim v, rfl, trim_trim v, ?_, ?_, hbs⟩
              · intro hc; exact hslash (hl _ (hv _ hc)).1
              · intro hc; exact (hl _ (hv _ hc)).2 rfl
          · exact ih h
        · exact ih h
    exact hgen (lines s) (fun _ h => h) h

theorem lines_single {v : Text} (hne : v ≠ []) (hn : '\n' ∉ v) : lines v = [v] := by
  simp [lines, split_of_not_mem hn, hne]

/-- C06: an accepted prefix has at least one part, no part contains a path separator of either kind or
a line break, its text does not start with a backslash, and re-reading its text gives the same prefix
exactly when the text is non-empty and contains no `=`. -/
theorem C06_prefix (c : Text) (p : List Text) (h : new c = .ok p) :
    p ≠ [] ∧
    (∀ part ∈ p, '\\' ∉ part ∧ '/' ∉ part ∧ '\n' ∉ part) ∧
    (display p).head? ≠ some '\\' ∧
    (new (display p) = .ok p ↔ display p ≠ [] ∧ '=' ∉ display p) := by
  obtain ⟨v, rfl, ht, hs, hn, hb⟩ := new_value h
  have hd : display (split '\\' v) = v := joinWith_split '\\' v
  have hmem : ∀ part ∈ split '\\' v, ∀ c ∈ part, c ∈ v := by
    intro q hq c hc
    rw [← joinWith_split '\\' v]
    revert hq
    generalize split '\\' v = ps
    intro hq
    induction ps with
    | nil => simp at hq
    | cons p ps ih =>
      cases ps with
      | nil => simp at hq; subst hq; simpa [joinWith] using hc
      | cons r rs =>
        rw [joinWith]
        rcases List.mem_cons.1 hq with rfl | hq
        · simp [hc]
        · have := ih hq
          simp [this]
  refine ⟨split_ne_nil _ _, fun part hp => ⟨split_pieces part hp, fun h => hs (hmem part hp _ h),
    fun h => hn (hmem part hp _ h)⟩, by rw [hd]; exact hb, ?_⟩
  rw [hd]
  by_cases hv : v = []
  · subst hv
    simp [new, trim]
  · have hl := lines_single hv hn
    simp only [new, ht, if_neg hv, if_neg hs, hl]
    by_cases he : '=' ∈ v
    · simp only [List.length_singleton, he, not_true_eq_false, and_false, if_false, iff_false]
      intro hf
      simp only [findPrefix] at hf
      split at hf
      · rename_i k w heq
        split at hf
        · split at hf
          · simp at hf
          · simp only [Except.ok.injEq] at hf
            have e : trim w = v := by
              rw [← joinWith_split '\\' (trim w), hf, joinWith_split]
            have h1 := trim_length w
            have h2 := splitOnce_spec heq
            have h3 : v.length = k.length + (w.length + 1) := by
              conv_lhs => rw [h2]
              simp
            rw [e] at h1
            omega
        · simp at hf
      · simp at hf
    · simp [he, hb, hv]

example : new "prefix = z\\test\\addons\\main\nother=stuff".toList =
    .ok ["z".toList, "test".toList, "addons".toList, "main".toList] := by decide

/-- C06, negative: a prefix with `=` in a part is accepted but its own text is rejected. -/
theorem C06_round_trip_fails :
    ∃ c p, new c = .ok p ∧ new (display p) ≠ .ok p :=
  ⟨"prefix=a=b".toList, [['a', '=', 'b']], by decide, by decide⟩

theorem splitOnceEq_none {l : Text} (h : '=' ∉ l) : splitOnceEq l = none := by
  induction l with
  | nil => rfl
  | cons c l ih =>
    rw [List.mem_cons, not_or] at h
    have hc : ¬ c = '=' := fun e => h.1 e.symm
    simp [splitOnceEq, hc, ih h.2]

theorem splitOnceEq_some {k : Text} (h : '=' ∉ k) (v : Text) : splitOnceEq (k ++ '=' :: v) = some (k, v) := by
  induction k with
  | nil => simp [splitOnceEq]
  | cons c k ih =>
    rw [List.mem_cons, not_or] at h
    have hc : ¬ c = '=' := fun e => h.1 e.symm
    simp [splitOnceEq, hc, ih h.2]

theorem isWs_toLower {c : Char} (h : isWs c = true) : c.toLower = c := by
  have : ¬ (65 ≤ c.toNat ∧ c.toNat ≤ 90) := by
    simp [isWs] at h
    omega
  unfold Char.toLower
  split
  · rename_i h'
    exact absurd ⟨h'.1, h'.2⟩ this
  · rfl

theorem dropWhile_blank {s : Text} (h : ∀ c ∈ s, isWs c = true) (t : Text) :
    (s ++ t).dropWhile isWs = t.dropWhile isWs := by
  induction s with
  | nil => rfl
  | cons c s ih =>
    rw [List.cons_append, List.dropWhile_cons, if_pos (h c (by simp)), ih fun d hd => h d (by simp [hd])]

theorem trim_between {a b t : Text} (ha : ∀ c ∈ a, isWs c = true) (hb : ∀ c ∈ b, isWs c = true)
    (ht : ∀ c ∈ t, isWs c = false) (hne : t ≠ []) : trim (a ++ t ++ b) = t := by
  have h1 : (t ++ b).dropWhile isWs = t ++ b := by
    apply dropWhile_id
    intro c hc
    cases t with
    | nil => exact absurd rfl hne
    | cons d t => simp at hc; exact ht c (by simp [hc])
  have h2 : t.reverse.dropWhile isWs = t.reverse := by
    apply dropWhile_id
    intro c hc
    exact ht c (List.mem_reverse.1 (List.mem_of_head? hc))
  rw [trim, List.append_assoc, dropWhile_blank ha, h1, List.reverse_append,
    dropWhile_blank (fun c hc => hb c (List.mem_reverse.1 hc)), h2, List.reverse_reverse]

theorem stripCr_id {l : Text} (h : '\r' ∉ l) : stripCr l = l := by
  rw [stripCr, if_neg]
  exact fun e => h (List.mem_of_getLast? e)

theorem lines_joinWith {before after : List Text} {l : Text} (hl : l ≠ [])
    (h : ∀ x ∈ before ++ l :: after, '\n' ∉ x ∧ '\r' ∉ x) :
    ∃ r, lines (joinWith '\n' (before ++ l :: after)) = before ++ l :: r := by
  have hs : split '\n' (joinWith '\n' (before ++ l :: after)) = before ++ l :: after :=
    split_joinWith (by simp) fun x hx => (h x hx).1
  have hid : ∀ ls : List Text, (∀ x ∈ ls, '\n' ∉ x ∧ '\r' ∉ x) → ls.map stripCr = ls := by
    intro ls hls
    conv => rhs; rw [← List.map_id ls]
    exact List.map_congr_left fun x hx => stripCr_id (hls x hx).2
  rcases List.eq_nil_or_concat after with rfl | ⟨as, z, rfl⟩
  · refine ⟨[], ?_⟩
    rw [lines, hs]
    simp only [List.reverse_append, List.reverse_cons, List.reverse_nil, List.nil_append, List.cons_append,
      List.reverse_reverse, if_neg hl]
    rw [hid before fun x hx => h x (by simp [hx])]
  · have e : before ++ l :: (as ++ [z]) = (before ++ l :: as) ++ [z] := by simp
    have hm : (before ++ l :: as).map stripCr = before ++ l :: as :=
      hid _ fun x hx => h x (by rw [List.concat_eq_append, e]; exact List.mem_append_left _ hx)
    rw [List.concat_eq_append] at hs ⊢
    rw [lines, hs, e]
    simp only [List.reverse_append, List.reverse_cons, List.reverse_nil, List.nil_append, List.singleton_append]
    by_cases hz : z = []
    · refine ⟨as, ?_⟩
      rw [if_pos hz]
      simpa using hm
    · refine ⟨as ++ [z], ?_⟩
      rw [if_neg hz]
      have : (before ++ l :: as).map stripCr ++ [z] = before ++ l :: (as ++ [z]) := by rw [hm]; simp
      simpa using this

theorem splitOnce_key {l k v : Text} (h : splitOnceEq l = some (k, v)) : '=' ∉ k := by
  induction l generalizing k with
  | nil => simp [splitOnceEq] at h
  | cons c l ih =>
    rw [splitOnceEq] at h
    split at h
    · simp only [Option.some.injEq, Prod.mk.injEq] at h
      rw [← h.1]; simp
    · rename_i hc
      cases e : splitOnceEq l with
      | none => rw [e] at h; simp at h
      | some p =>
        rw [e] at h
        simp only [Option.map_some, Option.some.injEq, Prod.mk.injEq] at h
        have := ih (k := p.1) (by rw [e, ← h.2])
        rw [← h.1, List.mem_cons, not_or]
        exact ⟨fun e => hc e.symm, this⟩

/-- A line that sets no prefix: it has no `=`, or another key. -/
def Other (x : Text) : Prop := ∀ k v, x = k ++ '=' :: v → '=' ∉ k → (trim k).map Char.toLower ≠ "prefix".toList

theorem findPrefix_skip {content : Text} {before : List Text} (h : ∀ x ∈ before, Other x) (ls : List Text) :
    findPrefix content (before ++ ls) = findPrefix content ls := by
  induction before with
  | nil => rfl
  | cons x xs ih =>
    rw [List.cons_append, findPrefix]
    cases e : splitOnceEq x with
    | none => exact ih fun y hy => h y (by simp [hy])
    | some p =>
      obtain ⟨k, v⟩ := p
      have := h x (by simp) k v (splitOnce_spec e) (splitOnce_key e)
      simp only
      rw [lower, if_neg this]
      exact ih fun y hy => h y (by simp [hy])

theorem of_mem_joinWith {d c : Char} : ∀ {ps : List Text}, c ∈ joinWith d ps → c = d ∨ ∃ x ∈ ps, c ∈ x
  | [], h => by simp [joinWith] at h
  | [x], h => .inr ⟨x, by simp, by simpa [joinWith] using h⟩
  | x :: y :: ps, h => by
    simp only [joinWith, List.mem_append, List.mem_cons] at h
    rcases h with h | h | h
    · exact .inr ⟨x, by simp, h⟩
    · exact .inl h
    · rcases of_mem_joinWith (ps := y :: ps) h with h | ⟨z, hz, h⟩
      · exact .inl h
      · exact .inr ⟨z, List.mem_cons_of_mem _ hz, h⟩

theorem mem_joinWith_of {d c : Char} : ∀ {ps : List Text} {x : Text}, x ∈ ps → c ∈ x → c ∈ joinWith d ps
  | [y], x, hx, hc => by simp at hx; subst hx; simpa [joinWith] using hc
  | y :: z :: ps, x, hx, hc => by
    simp only [joinWith, List.mem_append, List.mem_cons]
    rcases List.mem_cons.1 hx with rfl | hx
    · exact .inl hc
    · exact .inr (.inr (mem_joinWith_of (ps := z :: ps) hx hc))

theorem key_chars {key : Text} (hkey : key.map Char.toLower = "prefix".toList) :
    ∀ c ∈ key, isWs c = false ∧ c ≠ '=' := by
  intro c hc
  have hm : c.toLower ∈ "prefix".toList := hkey ▸ List.mem_map_of_mem hc
  constructor
  · by_contra hw
    rw [Bool.not_eq_false] at hw
    rw [isWs_toLower hw] at hm
    have : ∀ d ∈ "prefix".toList, isWs d = false := by decide +kernel
    rw [this c hm] at hw
    exact absurd hw (by decide)
  · rintro rfl
    exact absurd hm (by decide +kernel)

/-- **C06.** A file of several lines: the first line with the key `prefix`, in whatever letter case and with whatever blanks
around it, gives the prefix, if its value does not begin with a backslash. -/
theorem C06_file {before after : List Text} {a b key v : Text} (hkey : key.map Char.toLower = "prefix".toList)
    (ha : ∀ c ∈ a, isWs c = true) (hb : ∀ c ∈ b, isWs c = true)
    (hbefore : ∀ x ∈ before, Other x)
    (hn : ∀ x ∈ before ++ (a ++ key ++ b ++ '=' :: v) :: after, '\n' ∉ x ∧ '\r' ∉ x ∧ '/' ∉ x)
    (htrim : trim (joinWith '\n' (before ++ (a ++ key ++ b ++ '=' :: v) :: after))
      = joinWith '\n' (before ++ (a ++ key ++ b ++ '=' :: v) :: after))
    (hv : (trim v).head? ≠ some '\\') :
    new (joinWith '\n' (before ++ (a ++ key ++ b ++ '=' :: v) :: after)) = .ok (split '\\' (trim v)) := by
  obtain ⟨r, hr⟩ := lines_joinWith (before := before) (after := after) (l := a ++ key ++ b ++ '=' :: v) (by simp)
    fun x hx => ⟨(hn x hx).1, (hn x hx).2.1⟩
  have hslash : '/' ∉ joinWith '\n' (before ++ (a ++ key ++ b ++ '=' :: v) :: after) := fun h => by
    rcases of_mem_joinWith h with h | ⟨x, hx, h⟩
    · exact absurd h (by decide)
    · exact (hn x hx).2.2 h
  have heq : '=' ∈ joinWith '\n' (before ++ (a ++ key ++ b ++ '=' :: v) :: after) :=
    mem_joinWith_of (x := a ++ key ++ b ++ '=' :: v) (by simp) (by simp)
  have hk := key_chars hkey
  have hne : key ≠ [] := by rintro rfl; exact absurd hkey (by decide +kernel)
  have hws : isWs '=' = false := by decide
  have hkeq : '=' ∉ a ++ key ++ b := by
    simp only [List.mem_append, not_or]
    refine ⟨⟨fun h => ?_, fun h => (hk _ h).2 rfl⟩, fun h => ?_⟩
    · exact absurd (ha _ h) (by simp [hws])
    · exact absurd (hb _ h) (by simp [hws])
  generalize hc : joinWith '\n' (before ++ (a ++ key ++ b ++ '=' :: v) :: after) = c at *
  have hcne : c ≠ [] := by rintro rfl; simp at heq
  unfold new
  simp only [htrim]
  rw [if_neg hcne, if_neg hslash, if_neg (by simp [heq]), hr, findPrefix_skip hbefore, findPrefix,
    splitOnceEq_some hkeq]
  simp only
  rw [trim_between ha hb (fun c hc => (hk c hc).1) hne, lower, if_pos hkey, if_neg hv]

example : new "; note\nversion=1\n PreFix\t= z\\test\nprefix=x".toList = .ok ["z".toList, "test".toList] :=
  C06_file (before := ["; note".toList, "version=1".toList]) (after := ["prefix=x".toList]) (a := [' ']) (b := ['\t'])
    (key := "PreFix".toList) (v := " z\\test".toList) (by decide +kernel) (by decide +kernel) (by decide +kernel)
    (by
      intro x hx k v e hk
      simp only [List.mem_cons, List.not_mem_nil, or_false] at hx
      have h := splitOnceEq_some hk v
      rw [← e] at h
      rcases hx with rfl | rfl
      · exact absurd h (by rw [splitOnceEq_none (by decide +kernel)]; simp)
      · have h2 : splitOnceEq "version=1".toList = some ("version".toList, "1".toList) := by decide +kernel
        rw [h2] at h
        simp only [Option.some.injEq, Prod.mk.injEq] at h
        rw [← h.1]
        decide +kernel)
    (by decide +kernel) (by decide +kernel) (by decide +kernel)

end Verif.Prefix
