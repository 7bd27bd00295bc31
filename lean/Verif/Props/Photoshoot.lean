import Verif.Model.Photoshoot
/-!
C120: photographing what has no picture yet.
-/
namespace Verif.Photoshoot
open Verif.Rap

theorem trimStart_not {p s : Bytes} (h : p.isPrefixOf s = false) : trimStart p s = s := by
  rw [trimStart, dif_neg]
  rintro ⟨_, h'⟩
  rw [h] at h'
  cases h'

theorem trimStart_once {p s : Bytes} (hp : p ≠ []) (h : p.isPrefixOf s = false) : trimStart p (p ++ s) = s := by
  rw [trimStart, dif_pos ⟨hp, List.isPrefixOf_iff_prefix.2 ⟨s, rfl⟩⟩, List.drop_left, trimStart_not h]

theorem not_prefix_of_head {p s : Bytes} {c : UInt8} {t : Bytes} (hp : p = c :: t) (hs : s.head? ≠ some c) :
    p.isPrefixOf s = false := by
  subst hp
  cases s with
  | nil => rfl
  | cons d s =>
    rw [List.isPrefixOf]
    have : (c == d) = false := by
      rw [beq_eq_false_iff_ne]
      rintro rfl
      exact hs rfl
    rw [this, Bool.false_and]

/-- The path of a file of a mod in the game. -/
def inGame (main pfx file : Bytes) : Bytes := ascii "\\" ++ main ++ ascii "\\" ++ pfx ++ ascii "\\" ++ file

theorem target_eq {main pfx rest : Bytes} {c : UInt8} (hc : pfx.head? = some c) (hc' : c ≠ 92) :
    target (some main) pfx (ascii "\\" ++ main ++ ascii "\\" ++ (pfx ++ rest)) =
      some (trimStart (ascii "\\") (trimStart pfx (pfx ++ rest))) := by
  have hroot : (ascii "\\" ++ main ++ ascii "\\") = 92 :: (main ++ ascii "\\") := rfl
  have hn : (ascii "\\" ++ main ++ ascii "\\").isPrefixOf (pfx ++ rest) = false := by
    refine not_prefix_of_head hroot ?_
    cases pfx with
    | nil => cases hc
    | cons d t =>
      cases hc
      simpa using hc'
  have h1 : (ascii "\\" ++ main ++ ascii "\\").isPrefixOf (ascii "\\" ++ main ++ ascii "\\" ++ (pfx ++ rest)) = true :=
    List.isPrefixOf_iff_prefix.2 ⟨_, rfl⟩
  have h2 : pfx.isPrefixOf (pfx ++ rest) = true := List.isPrefixOf_iff_prefix.2 ⟨_, rfl⟩
  unfold target
  dsimp only
  rw [if_pos h1, trimStart_once (by simp [hroot]) hn, if_pos h2]

/-- **C120**. A picture that is a file of the project is looked for, and put, where that file is in the project. -/
theorem C120_target {main pfx file : Bytes} {c : UInt8} (hc : pfx.head? = some c) (hc' : c ≠ 92)
    (hf : file.head? ≠ some 92) : target (some main) pfx (inGame main pfx file) = some file := by
  have e : inGame main pfx file = ascii "\\" ++ main ++ ascii "\\" ++ (pfx ++ (ascii "\\" ++ file)) := by
    simp [inGame]
  rw [e, target_eq hc hc', trimStart_once, trimStart_once (p := ascii "\\") (by decide) (not_prefix_of_head (c := 92) (t := []) rfl hf)]
  · rintro rfl
    cases hc
  · cases pfx with
    | nil => cases hc
    | cons d t =>
      cases hc
      refine not_prefix_of_head rfl ?_
      simpa [ascii] using Ne.symm hc'

/-- **C120**. A picture that is not below the main prefix and the prefix of the project is not looked for. -/
theorem C120_foreign {main pfx picture : Bytes}
    (h : ∀ rest, picture ≠ ascii "\\" ++ main ++ ascii "\\" ++ rest) : target (some main) pfx picture = none := by
  unfold target
  dsimp only
  rw [if_neg]
  intro hp
  obtain ⟨t, ht⟩ := List.isPrefixOf_iff_prefix.1 hp
  exact h t ht.symm

/-- **C120**, what does not hold of the code: a picture of another mod, whose prefix begins with the prefix of the project, is
taken for one of the project, in a folder named as what is left of the prefix. -/
theorem C120_violated_other {main pfx more file : Bytes} {c : UInt8} (hc : pfx.head? = some c) (hc' : c ≠ 92)
    (hm : more.head? ≠ some 92) (hm0 : more ≠ []) (hm' : pfx.isPrefixOf (more ++ (ascii "\\" ++ file)) = false) :
    target (some main) pfx (inGame main (pfx ++ more) file) = some (more ++ ascii "\\" ++ file) := by
  have e : inGame main (pfx ++ more) file =
      ascii "\\" ++ main ++ ascii "\\" ++ (pfx ++ (more ++ (ascii "\\" ++ file))) := by simp [inGame]
  rw [e, target_eq hc hc', trimStart_once _ hm', trimStart_not]
  · simp
  · refine not_prefix_of_head (c := 92) (t := []) rfl ?_
    cases more with
    | nil => exact absurd rfl hm0
    | cons d t => simpa using hm
  · rintro rfl
    cases hc

/-- The first text of that name among the properties is `v`. -/
def FirstText (key v : Bytes) (ps : List Prp) : Prop :=
  ∃ a b, ps = a ++ .entry key (.str v) :: b ∧ ∀ v', Prp.entry key (.str v') ∉ a

theorem textOf_some {key v : Bytes} {p : Prp} : textOf key p = some v ↔ p = .entry key (.str v) := by
  unfold textOf
  split
  · rename_i n w
    split
    · rename_i h
      subst h
      simp
    · rename_i h
      constructor
      · intro h'; cases h'
      · intro h'
        cases h'
        exact absurd rfl h
  · rename_i h
    constructor
    · intro h'; cases h'
    · rintro rfl
      exact absurd rfl (h key v)

theorem findText {key v : Bytes} {ps : List Prp} : ps.findSome? (textOf key) = some v ↔ FirstText key v ps := by
  rw [List.findSome?_eq_some_iff]
  constructor
  · rintro ⟨a, x, b, h1, h2, h3⟩
    rw [textOf_some] at h2
    subst h2
    refine ⟨a, b, h1, fun v' hv' => ?_⟩
    have := h3 _ hv'
    rw [textOf_some.2 rfl] at this
    cases this
  · rintro ⟨a, b, h1, h2⟩
    refine ⟨a, _, b, h1, textOf_some.2 rfl, fun x hx => ?_⟩
    cases h : textOf key x with
    | none => rfl
    | some w =>
      rw [textOf_some] at h
      subst h
      exact absurd hx (h2 w)

/-- **C120**. What is photographed are the classes in the classes of that name at the top of a config whose first such text is a
picture of the project that is not there. -/
theorem C120_found {main : Option Bytes} {pfx group key n t : Bytes} {there : Bytes → Bool} {configs : List (List Prp)} :
    (n, t) ∈ shots main pfx group key there configs ↔
      ∃ c ∈ configs, ∃ parent ps, Prp.loc group parent ps ∈ c ∧ ∃ parent' qs, Prp.loc n parent' qs ∈ ps ∧
        ∃ picture, FirstText key picture qs ∧ target main pfx picture = some t ∧ there t = false := by
  unfold shots
  simp only [List.mem_flatMap]
  constructor
  · rintro ⟨c, hc, p, hp, h⟩
    unfold shotsIn at h
    split at h
    · rename_i g parent ps
      split at h
      · rename_i hg
        subst hg
        obtain ⟨q, hq, hs⟩ := List.mem_filterMap.1 h
        unfold shotOf at hs
        split at hs
        · rename_i n' parent' qs
          split at hs
          · cases hs
          · rename_i picture hpic
            split at hs
            · cases hs
            · rename_i t' ht'
              split at hs
              · cases hs
              · rename_i hth
                cases hs
                exact ⟨c, hc, parent, ps, hp, parent', qs, hq, picture, findText.1 hpic, ht', by simpa using hth⟩
        · cases hs
      · cases h
    · cases h
  · rintro ⟨c, hc, parent, ps, hp, parent', qs, hq, picture, h1, h2, h3⟩
    refine ⟨c, hc, _, hp, ?_⟩
    rw [shotsIn, if_pos rfl]
    refine List.mem_filterMap.2 ⟨_, hq, ?_⟩
    simp [shotOf, findText.2 h1, h2, h3]

/-! ### what the game is asked for -/

/-- A game that does what it is asked for and says so: with the messages of the program until it says that it is done. -/
def session (weapons previews : List Bytes) : Nat → List Bytes → From → Option (List To)
  | 0, _, _ => none
  | k + 1, pending, f => match incoming weapons previews pending f with
    | none => none
    | some (ms, pending) => match ms.getLast? with
      | some .done => some ms
      | some (.weapon n) => (session weapons previews k pending (.weapon n)).map (ms ++ ·)
      | some .previewRun => (session weapons previews k pending (.previews previews)).map (ms ++ ·)
      | _ => none

theorem session_weapons {weapons previews : List Bytes} (l : List Bytes) (hl : ∀ n ∈ l, n ∈ weapons) (k : Nat)
    (hk : l.length < k) (f : From)
    (hf : incoming weapons previews l.reverse f = some ([(next l.reverse).1], (next l.reverse).2)) :
    session weapons previews k l.reverse f = some (l.map .weapon ++ [.done]) := by
  induction l generalizing k f with
  | nil =>
    cases k with
    | zero => simp at hk
    | succ k =>
      rw [session, hf]
      rfl
  | cons n l ih =>
    cases k with
    | zero => simp at hk
    | succ k =>
      have hn : next (n :: l).reverse = (.weapon n, l.reverse) := by simp [next]
      rw [session, hf, hn]
      dsimp only [List.getLast?_singleton]
      rw [ih (fun m hm => hl m (List.mem_cons_of_mem _ hm)) k (by simpa using hk)]
      · rfl
      · rw [incoming, if_pos (hl n (by simp))]

/-- **C120**. Every weapon and every preview is asked for once, and then the game is told that this was all. -/
theorem C120_asked {weapons previews pending : List Bytes} (hp : prepare weapons previews = some pending) {k : Nat}
    (hk : weapons.length + 1 < k) :
    ∃ ms, session weapons previews k pending .ready = some (ms ++ [.done]) ∧
      ms.Perm (weapons.map .weapon ++ (previews.map .preview ++ if previews = [] then [] else [.previewRun])) := by
  unfold prepare at hp
  split at hp
  · cases hp
  · cases hp
    have hr : weapons = weapons.reverse.reverse := by simp
    by_cases h : previews = []
    · subst h
      refine ⟨weapons.reverse.map .weapon, ?_, ?_⟩
      · have := session_weapons (weapons := weapons) (previews := []) weapons.reverse (by simp) k (by simp; omega) .ready
          (by rw [incoming, if_pos rfl])
        rw [← hr] at this
        exact this
      · simp
    · cases k with
      | zero => omega
      | succ k =>
        have := session_weapons (weapons := weapons) (previews := previews) weapons.reverse (by simp) k (by simp; omega)
          (.previews previews) (by rw [incoming, if_pos (by simp)])
        rw [← hr] at this
        refine ⟨previews.map .preview ++ [.previewRun] ++ weapons.reverse.map .weapon, ?_, ?_⟩
        · rw [session, incoming, if_neg h]
          dsimp only
          rw [List.getLast?_append, List.getLast?_singleton]
          dsimp only [Option.or_some, Option.some_or]
          rw [this]
          simp
        · rw [if_neg h]
          refine List.perm_append_comm.trans ?_
          exact List.Perm.append_right _ ((List.reverse_perm _).map To.weapon)

/-- **C120**. The game is not started when there is nothing to photograph, and only then. -/
theorem C120_nothing (weapons previews : List Bytes) : prepare weapons previews = none ↔ weapons = [] ∧ previews = [] := by
  unfold prepare
  split <;> simp_all

/-- **C120**, what does not hold of the code: the names are compared as they are written, which the game does not do. A weapon in
`cfgWeapons` is not photographed. -/
theorem C120_violated_case : ∃ c : List Prp, shots (some (ascii "z")) (ascii "abe") (ascii "CfgWeapons") (ascii "picture")
    (fun _ => false) [c] = [] ∧ ∃ parent ps parent' qs, Prp.loc (ascii "cfgWeapons") parent ps ∈ c ∧
      Prp.loc (ascii "abe_gun") parent' qs ∈ ps ∧
      Prp.entry (ascii "picture") (.str (inGame (ascii "z") (ascii "abe") (ascii "gun.paa"))) ∈ qs :=
  ⟨[.loc (ascii "cfgWeapons") none [.loc (ascii "abe_gun") none
    [.entry (ascii "picture") (.str (inGame (ascii "z") (ascii "abe") (ascii "gun.paa")))]]],
    by simp [shots, shotsIn, ascii], none, _, none, _, List.mem_singleton.2 rfl, List.mem_singleton.2 rfl,
    List.mem_singleton.2 rfl⟩

example : target (some (ascii "z")) (ascii "abe") (ascii "\\z\\abe\\addons\\gun\\icon_ca.paa") =
    some (ascii "addons\\gun\\icon_ca.paa") :=
  C120_target (main := ascii "z") (pfx := ascii "abe") (c := 97) (file := ascii "addons\\gun\\icon_ca.paa")
    (by decide +kernel) (by decide) (by decide +kernel)
example : target (some (ascii "z")) (ascii "abe") (ascii "\\z\\aberration\\gun_ca.paa") =
    some (ascii "rration\\gun_ca.paa") :=
  C120_violated_other (main := ascii "z") (pfx := ascii "abe") (more := ascii "rration") (c := 97) (file := ascii "gun_ca.paa")
    (by decide +kernel) (by decide) (by decide +kernel) (by decide +kernel) (by decide +kernel)
example : session [ascii "a", ascii "b"] [ascii "c"] 4 [ascii "a", ascii "b"] .ready =
    some [.preview (ascii "c"), .previewRun, .weapon (ascii "b"), .weapon (ascii "a"), .done] := by decide +kernel

end Verif.Photoshoot
