import Verif.Model.Workspace
import Mathlib.Data.List.Infix
import Mathlib.Tactic.IntervalCases
import Mathlib.Data.List.Nodup
import Mathlib.Data.List.Pairwise
import Mathlib.Data.List.Perm.Basic
/-!
C36: scanning addons. C37: locating paths by prefix. C48: names of prefix files. C49: virtual paths.
-/
namespace Verif.Workspace

/-! ## C36 -/

theorem scan_loc {upper file loc} : ∀ {ds l}, Location.scan upper file loc ds = .ok l →
    l.map (·.name) = ds ∧ ∀ a ∈ l, a.location = loc
  | [], l, h => by
    simp only [Location.scan, Except.ok.injEq] at h
    subst h
    simp
  | d :: ds, l, h => by
    rw [Location.scan] at h
    split at h
    · simp at h
    rename_i a ha
    split at h
    · simp at h
    rename_i l' hl
    simp only [Except.ok.injEq] at h
    subst h
    have ih := scan_loc hl
    have : a.name = d ∧ a.location = loc := by
      unfold Addon.new at ha
      split at ha
      · simp at ha
      · split at ha
        · simp at ha
        · simp only [Except.ok.injEq] at ha
          subst ha
          exact ⟨rfl, rfl⟩
    refine ⟨by simp [this.1, ih.1], ?_⟩
    intro x hx
    rcases List.mem_cons.1 hx with rfl | hx
    · exact this.2
    · exact ih.2 x hx

theorem checkNames_ok {lower all} : ∀ {l}, checkNames lower all l = .ok () → ∀ a ∈ l, ∀ b ∈ all,
    lower b.name = lower a.name → b.name = a.name ∧ b.location = a.location
  | [], _, a, ha => by simp at ha
  | x :: l, h, a, ha => by
    rw [checkNames] at h
    split at h
    · simp at h
    rename_i h1
    split at h
    · simp at h
    rename_i h2
    rcases List.mem_cons.1 ha with rfl | ha
    · intro b hb he
      simp only [List.any_eq_true, Bool.and_eq_true, decide_eq_true_eq, not_exists, not_and, not_not] at h1 h2
      exact ⟨h1 b hb he, h2 b hb he⟩
    · exact checkNames_ok h a ha

/-- **C36**. When the scan succeeds it returns one addon for every folder of the two locations, and no two of them
have names that are equal ignoring case. A file system lists no name twice in a folder. -/
theorem C36_scan_distinct {lower upper dirs file l}
    (hd : ∀ loc ds, dirs loc = some ds → ds.Nodup) (h : scan lower upper dirs file = .ok l) :
    l.map (·.name) = (dirs .addons).getD [] ++ (dirs .optionals).getD [] ∧
      (l.map fun a => lower a.name).Nodup := by
  unfold scan at h
  split at h
  · simp at h
  rename_i a ha
  split at h
  · simp at h
  rename_i o ho
  split at h
  · simp at h
  rename_i hc
  simp only [Except.ok.injEq] at h
  subst h
  have h1 := scan_loc ha
  have h2 := scan_loc ho
  refine ⟨by rw [List.map_append, h1.1, h2.1], ?_⟩
  have hnd : ∀ loc : Location, ((dirs loc).getD []).Nodup := by
    intro loc
    cases hl : dirs loc with
    | none => simp
    | some ds => exact hd loc ds hl
  have key : ∀ x ∈ a ++ o, ∀ y ∈ a ++ o, lower y.name = lower x.name → y.name = x.name ∧ y.location = x.location :=
    fun x hx y hy he => checkNames_ok hc x hx y hy he
  have one : ∀ l' : List Addon, (l'.map (·.name)).Nodup → (∀ x ∈ l', x ∈ a ++ o) →
      (l'.map fun x => lower x.name).Nodup := by
    intro l' hn hm
    rw [List.Nodup, List.pairwise_map] at hn ⊢
    refine hn.imp_of_mem ?_
    intro x y hx hy hne he
    exact hne (key x (hm x hx) y (hm y hy) he.symm).1.symm
  rw [List.map_append, List.nodup_append]
  refine ⟨one a (h1.1 ▸ hnd _) fun x hx => List.mem_append_left _ hx,
    one o (h2.1 ▸ hnd _) fun x hx => List.mem_append_right _ hx, ?_⟩
  intro x hx y hy he
  obtain ⟨x, hx', rfl⟩ := List.mem_map.1 hx
  obtain ⟨y, hy', rfl⟩ := List.mem_map.1 hy
  have := (key x (List.mem_append_left _ hx') y (List.mem_append_right _ hy') he.symm).2
  rw [h1.2 x hx', h2.2 y hy'] at this
  simp at this

/-- **C36**. If two folders, at different places of the listings, have names that are equal ignoring case, the scan
fails. -/
theorem C36_scan_fails {lower upper dirs file} (hd : ∀ loc ds, dirs loc = some ds → ds.Nodup) {i j : Nat} {a b : Text}
    (hij : i ≠ j) (ha : ((dirs .addons).getD [] ++ (dirs .optionals).getD [])[i]? = some a)
    (hb : ((dirs .addons).getD [] ++ (dirs .optionals).getD [])[j]? = some b) (he : lower a = lower b) :
    ∃ e, scan lower upper dirs file = .error e := by
  cases hs : scan lower upper dirs file with
  | error e => exact ⟨e, rfl⟩
  | ok l =>
    exfalso
    obtain ⟨h1, h2⟩ := C36_scan_distinct hd hs
    rw [← h1] at ha hb
    have e1 : (l.map fun a => lower a.name) = (l.map (·.name)).map lower := by simp
    rw [e1] at h2
    obtain ⟨hi, hi'⟩ := List.getElem?_eq_some_iff.1 ha
    obtain ⟨hj, hj'⟩ := List.getElem?_eq_some_iff.1 hb
    refine hij ((h2.getElem_inj_iff (hi := by simpa using hi) (hj := by simpa using hj)).1 ?_)
    simp only [List.getElem_map] at hi' hj' ⊢
    rw [hi', hj', he]

/-- **C36**, the converse: distinct names (ignoring case) never fail for their names. -/
theorem C36_scan_accepts {lower upper dirs file a o} (ha : Location.scan upper file .addons ((dirs .addons).getD []) = .ok a)
    (ho : Location.scan upper file .optionals ((dirs .optionals).getD []) = .ok o)
    (hn : ((a ++ o).map fun x => lower x.name).Nodup) : scan lower upper dirs file = .ok (a ++ o) := by
  have key : ∀ l : List Addon, (∀ x ∈ l, x ∈ a ++ o) → checkNames lower (a ++ o) l = .ok () := by
    intro l
    induction l with
    | nil => intro _; rfl
    | cons x l ih =>
      intro hm
      have hx := hm x List.mem_cons_self
      have same : ∀ y ∈ a ++ o, lower y.name = lower x.name → y = x := fun y hy he =>
        List.inj_on_of_nodup_map hn hy hx he
      rw [checkNames, if_neg, if_neg, ih fun y hy => hm y (List.mem_cons_of_mem _ hy)]
      · simp only [List.any_eq_true, Bool.and_eq_true, decide_eq_true_eq, not_exists, not_and, not_not]
        intro y hy he
        rw [same y hy he]
      · simp only [List.any_eq_true, Bool.and_eq_true, decide_eq_true_eq, not_exists, not_and, not_not]
        intro y hy he
        rw [same y hy he]
  unfold scan
  rw [ha, ho]
  dsimp only
  rw [key _ fun _ h => h]

/-- Lower case for the examples. -/
def lowerA (s : Text) : Text := s.map asciiLower

example : scan lowerA id (fun l => if l = .addons then some ["main".toList, "ui".toList] else some ["MAIN".toList])
    (fun _ d f => if f = "$pboprefix$".toList then some ("z\\".toList ++ d) else none) =
      .error (.nameDuplicate "main".toList) := by decide +kernel

example : scan lowerA id (fun l => if l = .addons then some ["main".toList, "ui".toList] else some ["extra".toList])
    (fun _ d f => if f = "$pboprefix$".toList then some ("z\\".toList ++ d) else none) =
      .ok [⟨"main".toList, .addons, ["z".toList, "main".toList]⟩, ⟨"ui".toList, .addons, ["z".toList, "ui".toList]⟩,
        ⟨"extra".toList, .optionals, ["z".toList, "extra".toList]⟩] := by decide +kernel

/-! ## C37 -/

/-- No prefix is the beginning of another one, component by component. -/
def NotNested (lower : Text → Text) (ptrs : List (Text × Text)) : Prop :=
  ptrs.Pairwise fun a b => ¬ (lower a.1 ++ ['/']) <+: (lower b.1 ++ ['/']) ∧ ¬ (lower b.1 ++ ['/']) <+: (lower a.1 ++ ['/'])

theorem pointer_perm {lower : Text → Text} {ptrs ptrs' : List (Text × Text)} {path : Text} (hn : NotNested lower ptrs)
    (hp : ptrs.Perm ptrs') : pointer lower ptrs path = pointer lower ptrs' path := by
  have uniq : ∀ {x y : Text × Text}, x ∈ ptrs → y ∈ ptrs → (lower x.1 ++ ['/']) <+: lower path →
      (lower y.1 ++ ['/']) <+: lower path → x = y := by
    intro x y hx hy h1 h2
    by_contra hne
    have hs : Std.Symm (fun a b : Text × Text => ¬ (lower a.1 ++ ['/']) <+: (lower b.1 ++ ['/']) ∧
        ¬ (lower b.1 ++ ['/']) <+: (lower a.1 ++ ['/'])) := ⟨fun _ _ h => ⟨h.2, h.1⟩⟩
    have := hn.forall hx hy hne
    rcases List.prefix_or_prefix_of_prefix h1 h2 with h | h
    · exact this.1 h
    · exact this.2 h
  unfold pointer
  cases h : ptrs.find? fun p => (lower p.1 ++ ['/']).isPrefixOf (lower path) with
  | none =>
    symm
    rw [List.find?_eq_none] at h ⊢
    intro x hx
    exact h x (hp.mem_iff.2 hx)
  | some x =>
    cases h' : ptrs'.find? fun p => (lower p.1 ++ ['/']).isPrefixOf (lower path) with
    | none =>
      rw [List.find?_eq_none] at h'
      exact absurd (List.find?_some h) (h' x (hp.mem_iff.1 (List.mem_of_find?_eq_some h)))
    | some y =>
      have e1 := List.find?_some h
      have e2 := List.find?_some h'
      simp only [List.isPrefixOf_iff_prefix] at e1 e2
      rw [uniq (List.mem_of_find?_eq_some h) (hp.mem_iff.2 (List.mem_of_find?_eq_some h')) e1 e2]

/-- **C37**. If no prefix is the beginning of another, what a path is resolved to does not depend on the order the
prefix table is iterated in. -/
theorem C37_order_independent (lower : Text → Text) (fs : Fs) {ptrs ptrs' : List (Text × Text)} (here path : Text)
    (hn : NotNested lower ptrs) (hp : ptrs.Perm ptrs') :
    locate lower fs ptrs here path = locate lower fs ptrs' here path := by
  unfold locate locateAbsolute
  simp only [pointer_perm hn hp]

theorem byteLen_append (s t : Text) : byteLen (s ++ t) = byteLen s + byteLen t := by simp [byteLen]

theorem cut_append (s t : Text) : cut (s ++ t) (byteLen s) = some (s, t) := by
  induction s with
  | nil => cases t <;> simp [cut, byteLen]
  | cons c s ih =>
    have hb : byteLen (c :: s) = c.utf8Size + byteLen s := by simp [byteLen]
    have hp : 0 < c.utf8Size := c.utf8Size_pos
    obtain ⟨n, hn⟩ : ∃ n, byteLen (c :: s) = n + 1 := ⟨byteLen (c :: s) - 1, by omega⟩
    rw [hn, List.cons_append, cut, if_pos (by omega), show n + 1 - c.utf8Size = byteLen s by omega, ih]
    rfl

theorem asciiLower_size (c : Char) : (asciiLower c).utf8Size = c.utf8Size := by
  unfold asciiLower
  split
  · rename_i h
    have hA : 65 ≤ c.toNat := h.1
    have hZ : c.toNat ≤ 90 := h.2
    have key : ∀ n : Nat, 65 ≤ n → n ≤ 90 → (Char.ofNat (n + 32)).utf8Size = (Char.ofNat n).utf8Size := by
      intro n h1 h2
      interval_cases n <;> decide +kernel
    have := key c.toNat hA hZ
    rwa [Char.ofNat_toNat] at this
  · rfl

theorem byteLen_eq {a b : Text} (h : eqIgnoreCase a b = true) : byteLen a = byteLen b := by
  have e : ∀ s : Text, byteLen s = byteLen (s.map asciiLower) := by
    intro s
    unfold byteLen
    rw [List.map_map]
    congr 1
    exact List.map_congr_left fun c _ => (asciiLower_size c).symm
  rw [e a, e b]
  simp only [eqIgnoreCase, beq_iff_eq] at h
  rw [h]

/-- **C37**. A path that begins with an addon's prefix (in any ASCII letter case), followed by a slash, and that does
not exist as such, resolves to the file of that name in the addon's folder, if there is one there and no other prefix
nests with this one. Either kind of slash may be used. -/
theorem C37_resolves (lower : Text → Text) (fs : Fs) {ptrs : List (Text × Text)} (here path : Text)
    {base root given rest p lit : Text} (hn : NotNested lower ptrs) (hm : (base, root) ∈ ptrs)
    (hpath : slashes path = given ++ '/' :: rest) (hslash : given.head? = some '/')
    (hlow : (lower base ++ ['/']) <+: lower (slashes path))
    (hcase : eqIgnoreCase given base = true)
    (hpd : fs.pdrive = none ∨ ¬ "/a3/".toList <+: lower (slashes path))
    (hlit : fs.join fs.root (slashes path) = some lit) (hno : fs.exists_ lit = some false)
    (hjoin : fs.join root rest = some p) (hex : fs.exists_ p = some true) :
    ∃ l, locate lower fs ptrs here path = .ok (some l) ∧ l.path = p := by
  have hpt : pointer lower ptrs (slashes path) = some (base, root) := by
    obtain ⟨s, t, rfl⟩ := List.append_of_mem hm
    have hperm : (s ++ (base, root) :: t).Perm ((base, root) :: (s ++ t)) := List.perm_middle
    rw [pointer_perm hn hperm, pointer, List.find?_cons_of_pos]
    simpa using hlow
  have hpdr : locatePdrive lower fs (slashes path) = none := by
    unfold locatePdrive
    rcases hpd with h | h
    · rw [h]; simp
    · rw [if_neg (by simpa using h)]
  have hbelow : below (slashes path) base = .ok rest := by
    unfold below stripInsensitive
    rw [hpath, ← byteLen_eq hcase, cut_append, if_neg (by rw [byteLen_append]; omega)]
    simp [hcase, stripSlash]
  have hhead : (slashes path).head? = some '/' := by
    rw [hpath]
    obtain ⟨g, hg⟩ : ∃ g, given = '/' :: g := by
      cases given with
      | nil => simp at hslash
      | cons c g => simp only [List.head?_cons, Option.some.injEq] at hslash; exact ⟨g, by rw [hslash]⟩
    rw [hg]; rfl
  unfold locate
  simp only [hpdr, hhead, if_true, locateAbsolute, hlit, hno, hpt, hbelow, hjoin, hex]
  exact ⟨_, rfl, rfl⟩

/-- A file system for the examples: joining puts a slash between, and `files` exist. -/
def sampleFs (files : List String) : Fs where
  root := []
  parent := fun _ => []
  join := fun a b => some (if b.head? = some '/' then b else a ++ '/' :: b)
  exists_ := fun p => some ((files.map String.toList).contains p)
  insensitive := fun _ => none
  pdrive := none

example : locate lowerA (sampleFs ["/addons/main/x.hpp"]) [("/z/mod/ui".toList, "/addons/ui".toList),
    ("/z/mod/main".toList, "/addons/main".toList)] "/addons/ui/config.cpp".toList "\\z\\Mod\\main\\x.hpp".toList =
      .ok (some ⟨"/addons/main/x.hpp".toList, none⟩) := by decide +kernel

/-- **C37**, the condition is needed: with nested prefixes the result depends on the order of the table. -/
theorem C37_nested_order_dependent : ∃ (fs : Fs) (ptrs ptrs' : List (Text × Text)) (here path : Text),
    ptrs.Perm ptrs' ∧ (ptrs.map Prod.fst).Nodup ∧
      locate lowerA fs ptrs here path ≠ locate lowerA fs ptrs' here path := by
  refine ⟨sampleFs ["/addons/main/ui/x.hpp", "/addons/ui/x.hpp"],
    [("/z/mod".toList, "/addons/main".toList), ("/z/mod/ui".toList, "/addons/ui".toList)],
    [("/z/mod/ui".toList, "/addons/ui".toList), ("/z/mod".toList, "/addons/main".toList)], [],
    "/z/mod/ui/x.hpp".toList, List.Perm.swap _ _ _, ?_, ?_⟩ <;> decide +kernel

/-- **C37**, letters outside ASCII: a path that begins with the Kelvin sign, whose lower case is the letter `k`, makes
the program panic if there is a prefix `k`. -/
theorem C37_kelvin_panics (lower : Text → Text) (fs : Fs) (here root lit : Text)
    (hk : lower "/k".toList = "/k".toList) (hK : lower "/\u212a/x".toList = "/k/x".toList) (hpd : fs.pdrive = none)
    (hlit : fs.join fs.root "/\u212a/x".toList = some lit) (hno : fs.exists_ lit = some false) :
    locate lower fs [("/k".toList, root)] here "/\u212a/x".toList = .error .panic := by
  have hs : slashes "/\u212a/x".toList = "/\u212a/x".toList := by decide +kernel
  have hp : pointer lower [("/k".toList, root)] "/\u212a/x".toList = some ("/k".toList, root) := by
    unfold pointer
    rw [List.find?_cons_of_pos]
    rw [hk, hK]
    decide +kernel
  have hb : below "/\u212a/x".toList "/k".toList = .error .panic := by decide +kernel
  have hd : locatePdrive lower fs "/\u212a/x".toList = none := by
    unfold locatePdrive; rw [hpd]; simp
  have hh : ("/\u212a/x".toList : Text).head? = some '/' := by decide +kernel
  unfold locate
  simp only [hs, hd, hh, if_true, locateAbsolute, hlit, hno, hp, hb]

theorem discover_keys {lower} : ∀ {l ptrs out}, (ptrs.map Prod.fst).Nodup → discover lower ptrs l = .ok out →
    (out.map Prod.fst).Nodup ∧ ∀ x ∈ out, x ∈ ptrs ∨ ∃ e ∈ l, ∃ p, lower e.filename ∈ FILES ∧
      Prefix.new e.content = .ok p ∧ x = (key lower p, e.parent)
  | [], ptrs, out, hn, h => by
    simp only [discover, Except.ok.injEq] at h
    subst h
    exact ⟨hn, fun x hx => Or.inl hx⟩
  | e :: l, ptrs, out, hn, h => by
    rw [discover] at h
    have lift : ((out.map Prod.fst).Nodup ∧ ∀ x ∈ out, x ∈ ptrs ∨ ∃ e ∈ l, ∃ p, lower e.filename ∈ FILES ∧
        Prefix.new e.content = .ok p ∧ x = (key lower p, e.parent)) → ((out.map Prod.fst).Nodup ∧
        ∀ x ∈ out, x ∈ ptrs ∨ ∃ e' ∈ e :: l, ∃ p, lower e'.filename ∈ FILES ∧
        Prefix.new e'.content = .ok p ∧ x = (key lower p, e'.parent)) := by
      rintro ⟨h1, h2⟩
      refine ⟨h1, fun x hx => ?_⟩
      rcases h2 x hx with h | ⟨e', he', h⟩
      · exact Or.inl h
      · exact Or.inr ⟨e', List.mem_cons_of_mem _ he', h⟩
    split at h
    · exact lift (discover_keys hn h)
    split at h
    · exact lift (discover_keys hn h)
    split at h
    · rename_i hf
      split at h
      · simp at h
      rename_i p hp
      split at h
      · simp at h
      rename_i hany
      have hn' : ((ptrs ++ [(key lower p, e.parent)]).map Prod.fst).Nodup := by
        rw [List.map_append, List.nodup_append]
        refine ⟨hn, by simp, ?_⟩
        intro a ha b hb
        simp only [List.map_cons, List.map_nil, List.mem_singleton] at hb
        subst hb
        obtain ⟨x, hx, rfl⟩ := List.mem_map.1 ha
        intro he
        exact hany (List.any_eq_true.2 ⟨x, hx, by simpa using he⟩)
      obtain ⟨h1, h2⟩ := discover_keys hn' h
      refine ⟨h1, fun x hx => ?_⟩
      rcases h2 x hx with h | ⟨e', he', h⟩
      · rcases List.mem_append.1 h with h | h
        · exact Or.inl h
        · simp only [List.mem_singleton] at h
          exact Or.inr ⟨e, List.mem_cons_self, p, hf, hp, h⟩
      · exact Or.inr ⟨e', List.mem_cons_of_mem _ he', h⟩
    · exact lift (discover_keys hn h)

/-- **C37**. When discovery succeeds no prefix is in the table twice, and every entry comes from a prefix file and leads
to that file's folder. -/
theorem C37_discover {lower l out} (h : discover lower [] l = .ok out) :
    (out.map Prod.fst).Nodup ∧ ∀ b r, (b, r) ∈ out → ∃ e ∈ l, ∃ p, lower e.filename ∈ FILES ∧
      Prefix.new e.content = .ok p ∧ b = key lower p ∧ r = e.parent := by
  obtain ⟨h1, h2⟩ := discover_keys (ptrs := []) (by simp) h
  refine ⟨h1, fun b r hx => ?_⟩
  rcases h2 _ hx with h | ⟨e, he, p, hf, hp, hk⟩
  · simp at h
  · simp only [Prod.mk.injEq] at hk
    exact ⟨e, he, p, hf, hp, hk⟩

/-- **C37**. Two prefix files with the same prefix, ignoring case and slashes, make discovery fail, unless it failed
before. -/
theorem C37_discover_duplicate {lower l} {i j : Nat} {e e' : Entry} {p p' : List Text} (hij : i < j)
    (hi : l[i]? = some e) (hj : l[j]? = some e')
    (he : contains e.path ".hemtt".toList = false ∧ lower e.filename ∈ FILES ∧ Prefix.new e.content = .ok p)
    (he' : contains e'.path ".hemtt".toList = false ∧ lower e'.filename ∈ FILES ∧ Prefix.new e'.content = .ok p')
    (hk : key lower p = key lower p') : ∃ x, discover lower [] l = .error x := by
  have step : ∀ (e : Entry) (p : List Text) (l : List Entry) ptrs, contains e.path ".hemtt".toList = false ∧
      lower e.filename ∈ FILES ∧ Prefix.new e.content = .ok p → discover lower ptrs (e :: l) =
      if ptrs.any fun x => x.1 = key lower p then .error (.duplicatePrefix (Prefix.display p))
        else discover lower (ptrs ++ [(key lower p, e.parent)]) l := by
    intro e p l ptrs ⟨h1, h2, h3⟩
    have h4 : ¬ (lower e.filename = "config.cpp".toList ∨ lower e.filename = "mission.sqm".toList) := by
      rintro (h | h) <;> rw [h] at h2 <;> revert h2 <;> decide +kernel
    rw [discover, if_neg (by rw [h1]; exact Bool.false_ne_true), if_neg h4, if_pos h2, h3]
  have second : ∀ (l : List Entry) (j : Nat) ptrs, l[j]? = some e' → (ptrs.any fun x => x.1 = key lower p') = true →
      ∃ x, discover lower ptrs l = .error x := by
    intro l
    induction l with
    | nil => intro j ptrs h; simp at h
    | cons a l ih =>
      intro j ptrs h hin
      have mono : ∀ y, ((ptrs ++ [y]).any fun x => x.1 = key lower p') = true := by
        intro y; rw [List.any_append, hin]; rfl
      cases j with
      | zero =>
        simp only [List.getElem?_cons_zero, Option.some.injEq] at h
        subst h
        rw [step a p' l ptrs he', if_pos hin]
        exact ⟨_, rfl⟩
      | succ j =>
        simp only [List.getElem?_cons_succ] at h
        rw [discover]
        split
        · exact ih j ptrs h hin
        split
        · exact ih j ptrs h hin
        split
        · split
          · exact ⟨_, rfl⟩
          · split
            · exact ⟨_, rfl⟩
            · exact ih j _ h (mono _)
        · exact ih j ptrs h hin
  have first : ∀ (l : List Entry) (i j : Nat) ptrs, i < j → l[i]? = some e → l[j]? = some e' →
      ∃ x, discover lower ptrs l = .error x := by
    intro l
    induction l with
    | nil => intro i j ptrs _ h; simp at h
    | cons a l ih =>
      intro i j ptrs hij h1 h2
      obtain ⟨j, rfl⟩ : ∃ k, j = k + 1 := ⟨j - 1, by omega⟩
      simp only [List.getElem?_cons_succ] at h2
      cases i with
      | zero =>
        simp only [List.getElem?_cons_zero, Option.some.injEq] at h1
        subst h1
        rw [step a p l ptrs he]
        split
        · exact ⟨_, rfl⟩
        · exact second l j _ h2 (by rw [List.any_append]; simp [hk])
      | succ i =>
        simp only [List.getElem?_cons_succ] at h1
        have hij' : i < j := by omega
        rw [discover]
        split
        · exact ih i j ptrs hij' h1 h2
        split
        · exact ih i j ptrs hij' h1 h2
        split
        · split
          · exact ⟨_, rfl⟩
          · split
            · exact ⟨_, rfl⟩
            · exact ih i j _ hij' h1 h2
        · exact ih i j ptrs hij' h1 h2
  exact first l i j [] hij hi hj

example : discover lowerA [] [⟨"/addons/main/$PBOPrefix$".toList, "$PBOPrefix$".toList, "/addons/main".toList,
    "z\\Mod\\main".toList⟩, ⟨"/addons/ui/pboprefix.txt".toList, "pboprefix.txt".toList, "/addons/ui".toList,
    "prefix=z\\mod\\ui".toList⟩] = .ok [("/z/mod/main".toList, "/addons/main".toList),
      ("/z/mod/ui".toList, "/addons/ui".toList)] := by decide +kernel

example : NotNested lowerA [("/z/mod/main".toList, "/addons/main".toList), ("/z/mod/ui".toList, "/addons/ui".toList)] := by
  unfold NotNested
  decide +kernel

/-! ## C48 -/

/-- **C48**, what holds: discovery takes a prefix file in any letter case. -/
theorem C48_discover_any_case_partial {lower : Text → Text} {e : Entry} {p : List Text} {l ptrs}
    (hf : lower e.filename ∈ FILES) (hh : contains e.path ".hemtt".toList = false)
    (hp : Prefix.new e.content = .ok p) {out} (h : discover lower ptrs (e :: l) = .ok out) :
    (key lower p, e.parent) ∈ out := by
  have grow : ∀ {l : List Entry} {ptrs out}, discover lower ptrs l = .ok out → ∀ x ∈ ptrs, x ∈ out := by
    intro l
    induction l with
    | nil => intro ptrs out h x hx; simp only [discover, Except.ok.injEq] at h; exact h ▸ hx
    | cons a l ih =>
      intro ptrs out h x hx
      rw [discover] at h
      split at h
      · exact ih h x hx
      split at h
      · exact ih h x hx
      split at h
      · split at h
        · simp at h
        · split at h
          · simp at h
          · exact ih h x (List.mem_append_left _ hx)
      · exact ih h x hx
  have h4 : ¬ (lower e.filename = "config.cpp".toList ∨ lower e.filename = "mission.sqm".toList) := by
    rintro (h | h) <;> rw [h] at hf <;> revert hf <;> decide +kernel
  rw [discover, if_neg (by rw [hh]; exact Bool.false_ne_true), if_neg h4, if_pos hf, hp] at h
  dsimp only at h
  split at h
  · simp at h
  · exact grow h _ (List.mem_append_right _ (List.mem_singleton_self _))

/-- Upper case for the examples. -/
def upperA (s : Text) : Text := s.map Char.toUpper

/-- **C48** is violated: an addon folder whose only prefix file is called `$PBOPrefix$` is found by discovery and
refused by the scan. -/
theorem C48_violated : ∃ (file : Text → Option Text) (e : Entry),
    file e.filename = some e.content ∧ (∀ f, f ≠ e.filename → file f = none) ∧
    discover lowerA [] [e] = .ok [("/z/main".toList, "/addons/main".toList)] ∧
    scan lowerA upperA (fun l => if l = .addons then some ["main".toList] else none) (fun _ _ => file) =
      .error (.prefixMissing "main".toList) := by
  refine ⟨fun f => if f = "$PBOPrefix$".toList then some "z\\main".toList else none,
    ⟨"/addons/main/$PBOPrefix$".toList, "$PBOPrefix$".toList, "/addons/main".toList, "z\\main".toList⟩, ?_, ?_, ?_, ?_⟩
  · exact if_pos rfl
  · intro f hf; exact if_neg hf
  · decide +kernel
  · decide +kernel

/-- **C48**, what holds of the scan: it takes the first of the names that exists, the lower-case spellings before the
upper-case ones. -/
theorem C48_scan_listed_case_partial {upper : Text → Text} {file : Text → Option Text} {name : Text} {loc : Location}
    {f content : Text} (hf : f ∈ FILES ++ FILES.map upper) (hc : file f = some content) :
    Addon.new upper file name loc ≠ .error (.prefixMissing name) := by
  unfold Addon.new
  split
  · rename_i h
    rw [List.findSome?_eq_none_iff] at h
    rw [h f hf] at hc
    simp at hc
  · split <;> simp

/-! ## C49 -/

/-- **C49**. If a file lies in the folder of exactly one prefix (ASCII letter case aside), its virtual path is the prefix
followed by its path inside the folder. -/
theorem C49_virtual {lower : Text → Text} {ptrs : List (Text × Text)} {base root rest path : Text}
    (hm : (base, root) ∈ ptrs) (hp : slashes path = root ++ '/' :: rest)
    (hlow : (lower root ++ ['/']) <+: lower (slashes path))
    (hone : ∀ x ∈ ptrs, (lower x.2 ++ ['/']) <+: lower (slashes path) → x = (base, root)) :
    virtualStr lower ptrs path = .ok (base ++ '/' :: rest) := by
  unfold virtualStr
  have hf : (ptrs.find? fun p => (lower p.2 ++ ['/']).isPrefixOf (lower (slashes path))) = some (base, root) := by
    cases h : ptrs.find? fun p => (lower p.2 ++ ['/']).isPrefixOf (lower (slashes path)) with
    | none =>
      rw [List.find?_eq_none] at h
      exact absurd (by simpa using hlow) (h _ hm)
    | some x =>
      have := List.find?_some h
      simp only [List.isPrefixOf_iff_prefix] at this
      rw [hone x (List.mem_of_find?_eq_some h) this]
  dsimp only
  rw [hf]
  dsimp only
  rw [hp, cut_append]

/-- **C49**. Looking up the virtual path of a file leads back to the file, when it lies in the folder of exactly one
prefix, prefixes do not nest, and nothing else is stored under the virtual path itself. -/
theorem C49_round_trip {lower : Text → Text} {fs : Fs} {ptrs : List (Text × Text)} {base root rest path lit v : Text}
    (here : Text) (hn : NotNested lower ptrs) (hm : (base, root) ∈ ptrs) (hp : slashes path = root ++ '/' :: rest)
    (hlow : (lower root ++ ['/']) <+: lower (slashes path))
    (hone : ∀ x ∈ ptrs, (lower x.2 ++ ['/']) <+: lower (slashes path) → x = (base, root))
    (hv : virtualStr lower ptrs path = .ok v) (hbase : base.head? = some '/') (hnb : '\\' ∉ base)
    (hlowb : (lower base ++ ['/']) <+: lower v)
    (hpd : fs.pdrive = none ∨ ¬ "/a3/".toList <+: lower v)
    (hlit : fs.join fs.root v = some lit) (hno : fs.exists_ lit = some false)
    (hjoin : fs.join root rest = some path) (hex : fs.exists_ path = some true) :
    ∃ l, locate lower fs ptrs here v = .ok (some l) ∧ l.path = path := by
  rw [C49_virtual hm hp hlow hone] at hv
  simp only [Except.ok.injEq] at hv
  subst hv
  have hr : slashes (base ++ '/' :: rest) = base ++ '/' :: rest := by
    unfold slashes
    have hrest : ∀ c ∈ rest, c ≠ '\\' := by
      intro c hc he
      have hmem : c ∈ slashes path := by rw [hp]; simp [hc]
      unfold slashes at hmem
      obtain ⟨d, -, hd⟩ := List.mem_map.1 hmem
      rw [he] at hd
      split at hd
      · simp at hd
      · rename_i h; exact h hd
    conv => rhs; rw [← List.map_id (base ++ '/' :: rest)]
    apply List.map_congr_left
    intro c hc
    have : c ≠ '\\' := by
      rcases List.mem_append.1 hc with hc | hc
      · rintro rfl; exact hnb hc
      · rcases List.mem_cons.1 hc with rfl | hc
        · decide
        · exact hrest c hc
    simp [this]
  refine C37_resolves lower fs here (base ++ '/' :: rest) hn hm hr hbase (by rw [hr]; exact hlowb) ?_
    (by rw [hr]; exact hpd) (by rw [hr]; exact hlit) hno hjoin hex
  simp [eqIgnoreCase]

/-- **C49**, the condition is needed: a folder with two prefix files of different content has two prefixes, and its
virtual paths depend on the order of the table. -/
theorem C49_two_prefixes_order_dependent : ∃ (ptrs ptrs' : List (Text × Text)) (path : Text),
    ptrs.Perm ptrs' ∧ (ptrs.map Prod.fst).Nodup ∧ virtualStr lowerA ptrs path ≠ virtualStr lowerA ptrs' path := by
  refine ⟨[("/a".toList, "/addons/m".toList), ("/b".toList, "/addons/m".toList)],
    [("/b".toList, "/addons/m".toList), ("/a".toList, "/addons/m".toList)], "/addons/m/x".toList, List.Perm.swap _ _ _,
    ?_, ?_⟩ <;> decide +kernel

example : virtualStr lowerA [("/z/ui".toList, "/addons/ui".toList), ("/z/main".toList, "/addons/main".toList)]
    "/addons/main/x.sqf".toList = .ok "/z/main/x.sqf".toList := by decide +kernel

end Verif.Workspace
