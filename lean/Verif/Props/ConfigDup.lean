import Verif.Props.ConfigLint
import Verif.Lib.ConfigDup
/-!
C57: properties defined more than once. C58: classes defined more than once.

Specification: Spec/ConfigLint. `Def lower ps a l p` says that at the place `a` there is the property `p`, and `l` are the
names, in lower case, of the classes around it and its own. A place is given by the positions in the bodies that lead to it,
so the places of one body differ in the last position.
-/
namespace Verif.ConfigLint
open Verif.ConfigParse

variable {lower : Text → Text} {ofF32 : Nat → Ver.Version} {pre : Option Text} {configs : Text → Option Lints.Override}
  {lints : List (Lints.Lint Target Code)} {ps : List Prp} {r : Report}

theorem mem_codes_config {m} {c : Code} {run : Target → List Code} (hrun : ∀ t, c ∈ m.run t ↔ c ∈ run t)
    (hcfg : ∀ t, (∀ qs, t ≠ .config qs) → run t = []) : c ∈ analyze (Lints.Manager.run m) ps ↔ c ∈ run (.config ps) := by
  rw [mem_analyze, hrun, hrun, hcfg (.root ps) (by simp)]
  simp only [List.not_mem_nil, false_or, or_iff_left_iff_imp]
  rintro ⟨a, p, _, h⟩
  rw [mem_fullProp, hrun, hrun, hcfg (.prop p) (by simp), hcfg (.cls p) (by simp)] at h
  simp only [List.not_mem_nil, false_or, and_false] at h
  obtain ⟨n, v, e, _, h⟩ := h
  rcases h with h | ⟨j, _, h⟩
  · unfold ownVal at h
    rw [List.mem_append, hrun, hcfg (.value v) (by simp)] at h
    cases v <;> simp [hrun, hcfg] at h
  · unfold ownItem at h
    rw [List.mem_append, hrun, hcfg (.item j) (by simp)] at h
    cases j <;> simp [hrun, hcfg] at h

theorem mem_dupProperty (hl : lints.Perm (configLints lower pre)) (h : report lower ofF32 configs lints ps = .ok r)
    {l : List (Addr × Text)} : .dupProperty l ∈ r.codes ↔ .dupProperty l ∈ runDupProperty lower (.config ps) := by
  obtain ⟨m, ha, hc, -, -⟩ := report_ok hl h
  rw [hc, mem_codes_config (run := runDupProperty lower)]
  · intro t
    rw [mem_run ha]
    constructor
    · rintro (h | h | h | h | h | ⟨_, h⟩ | h | h | h | ⟨_, h⟩ | h)
      · simpa using kind_value h
      · simpa using kind_item h
      · exact h
      · simpa using kind_dupClass h
      · simpa using kind_missing h
      · simpa using kind_parentCase h
      · simpa using kind_unexpected h
      · simpa using kind_expected h
      · simpa using kind_semicolon h
      · simpa using kind_magwell h
      · simpa using kind_braces h
    · intro h; simp [h]
  · intro t ht
    cases t <;> simp_all [runDupProperty]

theorem mem_dupClass (hl : lints.Perm (configLints lower pre)) (h : report lower ofF32 configs lints ps = .ok r)
    {l : List (Addr × Text)} : .dupClass l ∈ r.codes ↔ .dupClass l ∈ runDupClass lower (.config ps) := by
  obtain ⟨m, ha, hc, -, -⟩ := report_ok hl h
  rw [hc, mem_codes_config (run := runDupClass lower)]
  · intro t
    rw [mem_run ha]
    constructor
    · rintro (h | h | h | h | h | ⟨_, h⟩ | h | h | h | ⟨_, h⟩ | h)
      · simpa using kind_value h
      · simpa using kind_item h
      · simpa using kind_dupProperty h
      · exact h
      · simpa using kind_missing h
      · simpa using kind_parentCase h
      · simpa using kind_unexpected h
      · simpa using kind_expected h
      · simpa using kind_semicolon h
      · simpa using kind_magwell h
      · simpa using kind_braces h
    · intro h; simp [h]
  · intro t ht
    cases t <;> simp_all [runDupClass]

/-- The places at which a property is defined under the names `path`, with the names as written there. -/
def Places (lower : Text → Text) (ps : List Prp) (path : List Text) (l : List (Addr × Text)) : Prop :=
  (l.map (·.1)).Nodup ∧ ∀ a n, (a, n) ∈ l ↔ ∃ p, Def lower ps a path p ∧ Defines p ∧ p.name = n

/-- The names clash: there are two places, and not all of them are classes. -/
def Clash (lower : Text → Text) (ps : List Prp) (path : List Text) : Prop :=
  ∃ a p b q, Def lower ps a path p ∧ Def lower ps b path q ∧ a ≠ b ∧ Defines p ∧ Defines q ∧ ¬ IsLocal q

theorem isLocal_defines {p : Prp} (h : IsLocal p) : Defines p := by
  cases p <;> simp_all [IsLocal, Defines]

theorem sel_places (hd : ∀ a p, At ps a p → '.' ∉ lower p.name) {path : List Text} {a p} (hp : Def lower ps a path p) :
    Places lower ps path ((sel (keyOf path) (defss lower [] [] 0 ps)).map fun x => x.2) := by
  refine ⟨?_, ?_⟩
  · rw [List.map_map]
    have hn := nodup_defss (lower := lower) [] [] 0 ps
    unfold sel
    rw [List.map_map]
    refine List.Nodup.sublist ?_ hn
    exact List.Sublist.map _ List.filter_sublist
  · intro x n
    simp only [List.mem_map, mem_sel]
    constructor
    · rintro ⟨⟨b, x', n'⟩, hm, he⟩
      simp only [Prod.mk.injEq] at he
      obtain ⟨rfl, rfl⟩ := he
      obtain ⟨a', l, q, hq, hk, hx, h1, h2, h3⟩ := (mem_defss _ _ _ _ _ _ _ _).1 hm
      simp only [List.nil_append] at hk hx
      have hl : path = l := keyOf_inj (def_names hp hd) (def_names hq hd) hk
      subst hl
      have hx' : x' = a' := by
        rw [hx]
        cases a' <;> simp [shift]
      subst hx'
      exact ⟨q, hq, h1, h3.symm⟩
    · rintro ⟨q, hq, h1, rfl⟩
      classical
      refine ⟨(decide (IsLocal q), x, q.name), (mem_defss _ _ _ _ _ _ _ _).2 ⟨x, path, q, hq, by simp, ?_, h1, by simp, rfl⟩, rfl⟩
      cases x <;> simp [shift]

theorem mem_runDup {l : List (Addr × Text)} : .dupProperty l ∈ runDupProperty lower (.config ps) ↔
    ∃ k, l = (sel k (defss lower [] [] 0 ps)).map (fun x => x.2) ∧ 1 < l.length ∧
      ∃ x ∈ sel k (defss lower [] [] 0 ps), x.1 = false := by
  rw [runDupProperty, dupProps_eq, List.mem_filterMap]
  constructor
  · rintro ⟨⟨k, vs⟩, hm, h⟩
    rw [mem_pushes] at hm
    obtain ⟨-, rfl⟩ := hm
    split at h
    · rename_i hc
      simp only [Option.some.injEq, Code.dupProperty.injEq] at h
      subst h
      refine ⟨k, rfl, by simpa using hc.1, ?_⟩
      have := hc.2
      simpa using this
    · simp at h
  · rintro ⟨k, rfl, h1, x, hx, hb⟩
    refine ⟨(k, sel k (defss lower [] [] 0 ps)), mem_pushes.2 ⟨?_, rfl⟩, ?_⟩
    · intro he
      rw [he] at hx
      simp at hx
    · have hall : ((sel k (defss lower [] [] 0 ps)).all fun x => x.1) ≠ true := by
        intro ha
        rw [List.all_eq_true] at ha
        have := ha x hx
        rw [hb] at this
        exact Bool.noConfusion this
      have h2 : (sel k (defss lower [] [] 0 ps)).length > 1 := by simpa using h1
      rw [if_pos ⟨h2, hall⟩]

/-- C57. A report about a property lists all places that define it, each once; there are two at least, and they are not all
classes. -/
theorem C57_sound (hl : lints.Perm (configLints lower pre)) (h : report lower ofF32 configs lints ps = .ok r)
    (hd : ∀ a p, At ps a p → '.' ∉ lower p.name) {l : List (Addr × Text)} (hc : .dupProperty l ∈ r.codes) :
    ∃ path, Clash lower ps path ∧ Places lower ps path l := by
  rw [mem_dupProperty hl h, mem_runDup] at hc
  obtain ⟨k, rfl, h1, ⟨b, x, n⟩, hx, hb⟩ := hc
  simp only at hb
  subst hb
  obtain ⟨a, path, q, hq, hk, hxa, hdq, hlq, hn⟩ := (mem_defss _ _ _ _ _ _ _ _).1 (mem_sel.1 hx)
  simp only [List.nil_append] at hk hxa
  have hxa' : x = a := by
    rw [hxa]
    cases a <;> simp [shift]
  subst hxa'
  subst hk
  have hpl := sel_places hd hq
  refine ⟨path, ?_, hpl⟩
  have hq' : (x, n) ∈ (sel (keyOf path) (defss lower [] [] 0 ps)).map fun x => x.2 := List.mem_map.2 ⟨_, hx, rfl⟩
  have : ∃ y ∈ (sel (keyOf path) (defss lower [] [] 0 ps)).map (fun x => x.2), y.1 ≠ x := by
    generalize hL : (sel (keyOf path) (defss lower [] [] 0 ps)).map (fun x => x.2) = L at h1 hpl hq'
    match L, h1 with
    | y :: z :: L, _ =>
      have hn := hpl.1
      simp only [List.map_cons, List.nodup_cons, List.mem_cons, not_or] at hn
      by_cases hy : y.1 = x
      · exact ⟨z, by simp, fun hz => hn.1.1 (by rw [hy, hz])⟩
      · exact ⟨y, by simp, hy⟩
  obtain ⟨⟨y, m⟩, hy, hne⟩ := this
  obtain ⟨p, hp, hdp, -⟩ := (hpl.2 y m).1 hy
  exact ⟨y, p, x, q, hp, hq, hne, hdp, hdq, by simpa using hlq⟩

/-- C57. Whenever names clash there is a report, and it lists all places. -/
theorem C57_complete (hl : lints.Perm (configLints lower pre)) (h : report lower ofF32 configs lints ps = .ok r)
    (hd : ∀ a p, At ps a p → '.' ∉ lower p.name) {path : List Text} (hc : Clash lower ps path) :
    ∃ l, .dupProperty l ∈ r.codes ∧ Places lower ps path l := by
  obtain ⟨a, p, b, q, hp, hq, hne, hdp, hdq, hlq⟩ := hc
  have hpl := sel_places hd hp
  refine ⟨_, ?_, hpl⟩
  rw [mem_dupProperty hl h, mem_runDup]
  refine ⟨keyOf path, rfl, ?_, ?_⟩
  · have h1 := (hpl.2 a p.name).2 ⟨p, hp, hdp, rfl⟩
    have h2 := (hpl.2 b q.name).2 ⟨q, hq, hdq, rfl⟩
    generalize (sel (keyOf path) (defss lower [] [] 0 ps)).map (fun x => x.2) = L at h1 h2
    match L with
    | [] => simp at h1
    | [y] =>
      simp only [List.mem_singleton] at h1 h2
      rw [← h1] at h2
      simp at h2
      exact absurd h2.1.symm hne
    | _ :: _ :: _ => simp
  · refine ⟨(false, b, q.name), ?_, rfl⟩
    rw [mem_sel, mem_defss]
    refine ⟨b, path, q, hq, by simp, ?_, hdq, by simp [hlq], rfl⟩
    cases b <;> simp [shift]

/-- C57. Two reports about one place are the same report. -/
theorem C57_once (hl : lints.Perm (configLints lower pre)) (h : report lower ofF32 configs lints ps = .ok r)
    {l l' : List (Addr × Text)} (hc : .dupProperty l ∈ r.codes) (hc' : .dupProperty l' ∈ r.codes) {a n n'}
    (ha : (a, n) ∈ l) (ha' : (a, n') ∈ l') : l = l' := by
  rw [mem_dupProperty hl h, mem_runDup] at hc hc'
  obtain ⟨k, rfl, -⟩ := hc
  obtain ⟨k', rfl, -⟩ := hc'
  obtain ⟨⟨b, x⟩, hx, he⟩ := List.mem_map.1 ha
  obtain ⟨⟨b', x'⟩, hx', he'⟩ := List.mem_map.1 ha'
  simp only at he he'
  subst he he'
  rw [mem_sel] at hx hx'
  have hn := nodup_defss (lower := lower) [] [] 0 ps
  have := List.inj_on_of_nodup_map hn hx hx' rfl
  simp only [Prod.mk.injEq] at this
  rw [this.1]

/-- C58. A report about classes lists all classes, with a body or external, that one body has under one name; there are two
at least. -/
theorem C58_sound (hl : lints.Perm (configLints lower pre)) (h : report lower ofF32 configs lints ps = .ok r)
    {l : List (Addr × Text)} (hc : .dupClass l ∈ r.codes) :
    ∃ b k, (l.map (·.1)).Nodup ∧ 2 ≤ l.length ∧
      ∀ a n, (a, n) ∈ l ↔ ∃ i p, a = b ++ [i] ∧ At ps a p ∧ IsClass p ∧ p.name = n ∧ lower n = k := by
  rw [mem_dupClass hl h, runDupClass, mem_dupReport] at hc
  obtain ⟨b, qs, hb, hc⟩ := hc
  rw [bodyCodes, List.mem_filterMap] at hc
  obtain ⟨⟨k, vs⟩, hm, hc⟩ := hc
  rw [mem_pushes] at hm
  obtain ⟨-, rfl⟩ := hm
  split at hc
  · rename_i hlen
    simp only [Option.some.injEq, Code.dupClass.injEq] at hc
    subst hc
    refine ⟨b, k, ?_, hlen, ?_⟩
    · unfold sel
      rw [List.map_map]
      refine List.Nodup.sublist ?_ (nodup_clss (lower := lower) b 0 qs)
      exact List.Sublist.map _ List.filter_sublist
    · intro a n
      rw [mem_sel, mem_clss]
      constructor
      · rintro ⟨j, p, hj, hp, rfl, rfl, rfl⟩
        exact ⟨j, p, by simp, by simpa using body_at hb hj, hp, rfl, rfl⟩
      · rintro ⟨j, p, rfl, hat, hp, rfl, rfl⟩
        obtain ⟨qs', hb', hj⟩ := at_body hat
        rw [body_unique hb' hb] at hj
        exact ⟨j, p, hj, hp, rfl, by simp, rfl⟩
  · simp at hc

/-- C58. Two classes of one body with the same name, up to case, are reported together. -/
theorem C58_complete (hl : lints.Perm (configLints lower pre)) (h : report lower ofF32 configs lints ps = .ok r)
    {b : Addr} {i j : Nat} {p q : Prp} (hp : At ps (b ++ [i]) p) (hq : At ps (b ++ [j]) q) (hne : i ≠ j)
    (hcp : IsClass p) (hcq : IsClass q) (hn : lower p.name = lower q.name) :
    ∃ l, .dupClass l ∈ r.codes ∧ (b ++ [i], p.name) ∈ l ∧ (b ++ [j], q.name) ∈ l := by
  obtain ⟨qs, hb, hi⟩ := at_body hp
  obtain ⟨qs', hb', hj⟩ := at_body hq
  rw [body_unique hb' hb] at hj
  have h1 : (b ++ [i], p.name) ∈ sel (lower p.name) (clss lower b 0 qs) := by
    rw [mem_sel, mem_clss]
    exact ⟨i, p, hi, hcp, rfl, by simp, rfl⟩
  have h2 : (b ++ [j], q.name) ∈ sel (lower p.name) (clss lower b 0 qs) := by
    rw [mem_sel, mem_clss]
    exact ⟨j, q, hj, hcq, hn, by simp, rfl⟩
  refine ⟨sel (lower p.name) (clss lower b 0 qs), ?_, h1, h2⟩
  rw [mem_dupClass hl h, runDupClass, mem_dupReport]
  refine ⟨b, qs, hb, ?_⟩
  rw [bodyCodes, List.mem_filterMap]
  refine ⟨(lower p.name, sel (lower p.name) (clss lower b 0 qs)), mem_pushes.2 ⟨?_, rfl⟩, ?_⟩
  · intro he
    rw [he] at h1
    simp at h1
  · rw [if_pos]
    generalize sel (lower p.name) (clss lower b 0 qs) = L at h1 h2
    match L with
    | [] => simp at h1
    | [y] =>
      simp only [List.mem_singleton] at h1 h2
      rw [← h1] at h2
      simp at h2
      exact absurd h2.1.symm hne
    | _ :: _ :: _ => simp

/-! ### Cases -/

/-- `class A { v = 1; class V {}; V[] = {}; }; class a { v = 2; };` -/
def twice : List Prp :=
  [.loc "A".toList none [.entry "v".toList (.num (.i32 1)) false, .loc "V".toList none [] false,
    .entry "V".toList (.arr false []) true] false,
   .loc "a".toList none [.entry "v".toList (.num (.i32 2)) false] false]

/-- The properties of two classes of one name count as one class; that there are two classes is another report. -/
example : codesOf twice =
    [.dupProperty [([0, 0], "v".toList), ([0, 1], "V".toList), ([0, 2], "V".toList), ([1, 0], "v".toList)],
     .dupClass [([0], "A".toList), ([1], "a".toList)]] := by decide +kernel

example : Clash low twice [low "A".toList, low "V".toList] := by
  have h2 : Def low twice [1, 0] [low "a".toList, low (Prp.name (.entry "v".toList (.num (.i32 2)) false))]
      (.entry "v".toList (.num (.i32 2)) false) := .deep (n := "a".toList) (par := none) (b := false) rfl (.here rfl)
  rw [show [low "a".toList, low (Prp.name (.entry "v".toList (.num (.i32 2)) false))] = [low "A".toList, low "V".toList]
    by decide] at h2
  exact ⟨[0, 1], .loc "V".toList none [] false, [1, 0], .entry "v".toList (.num (.i32 2)) false,
    .deep (n := "A".toList) (par := none) (b := false) rfl (.here (p := .loc "V".toList none [] false) rfl), h2, by decide, trivial, trivial, by simp [IsLocal]⟩

/-- A class that is declared only does not clash with a property of its name. -/
example : codesOf [.ext "data".toList, .entry "data".toList (.num (.i32 1)) false] = [] := by decide +kernel

end Verif.ConfigLint
