import Verif.Lib.Links
import Mathlib.Data.List.Induction
import Mathlib.Data.List.Infix
/-!
C121, C122: the links that the program makes.
-/
namespace Verif.Links

/-- Whatever there is, is in a folder. -/
def Tree (fs : Fs) : Prop := ∀ p n, fs (p ++ [n]) ≠ none → p = [] ∨ fs p = some .dir

/-- The folder in which `hemtt dev` and `hemtt launch` build. -/
abbrev devFolder (project : Path) : Path := project ++ [".hemttout".toList, "dev".toList]

theorem devFolder_eq (project : Path) : devFolder project = (project ++ [".hemttout".toList]) ++ ["dev".toList] := by simp [devFolder]

/-- Nothing is beneath what is not there. -/
theorem Tree.below {fs : Fs} (h : Tree fs) {p : Path} (h0 : p ≠ []) (hp : fs p = none) : ∀ q, p <+: q → fs q = none := by
  rintro q ⟨r, rfl⟩
  induction r using List.reverseRecOn with
  | nil => simpa using hp
  | append_singleton r n ih =>
    by_contra hq
    rw [← List.append_assoc] at hq
    rcases h _ _ hq with h1 | h1
    · exact h0 (List.append_eq_nil_iff.1 h1).1
    · rw [ih] at h1; cases h1

/-- Opening a build whose previous content is not kept leaves an empty folder and all else as it is. -/
theorem openBuild_empty {k : Nat} {fs : Fs} {project : Path} (ht : Tree fs) (hc : Clear fs (devFolder project)) :
    ∃ f1, openBuild false k fs project "dev".toList = some f1 ∧ Plain f1 (devFolder project) ∧
      (∀ q, devFolder project <+: q → q ≠ devFolder project → f1 q = none) ∧
      (∀ q, ¬ devFolder project <+: q → fs q ≠ none → f1 q = fs q) ∧
      ∀ q, f1 q ≠ fs q → devFolder project <+: q ∨ q <+: devFolder project := by
  have hc0 := hc
  rw [devFolder_eq] at hc0
  obtain ⟨f0, h1, h2, h3⟩ := mkdirs_root k hc0.left
  have hout : ∀ q, ¬ q <+: project ++ [".hemttout".toList] → f0 q = fs q := by
    intro q hq; rw [h3 q, if_neg]; exact fun h => hq h.2.1
  have hdev : f0 (devFolder project) = fs (devFolder project) := by
    apply hout
    rw [devFolder_eq]
    exact fun h => absurd h.length_le (by simp)
  have hbelow : ∀ q, devFolder project <+: q → f0 q = fs q := by
    intro q hq
    apply hout
    intro h
    have := (hq.trans h).length_le
    rw [devFolder_eq] at this
    simp at this
  have hne : devFolder project ≠ [] := by simp [devFolder]
  have hkeep0 : ∀ q, fs q ≠ none → f0 q = fs q := by
    intro q hq; rw [h3 q, if_neg]; exact fun h => hq h.1
  have hch0 : ∀ q, f0 q ≠ fs q → q <+: devFolder project := by
    intro q hq
    by_contra h
    exact hq (hout q (fun h' => h (h'.trans (by rw [devFolder_eq]; exact List.prefix_append _ _))))
  unfold openBuild
  rw [h1]
  dsimp only [Option.bind_some]
  rw [show project ++ [".hemttout".toList, "dev".toList] = devFolder project from rfl]
  have fin : ∀ f : Fs, Plain f (project ++ [".hemttout".toList]) → (f (devFolder project) = none ∨ f (devFolder project) = some .dir) →
      (∀ q, devFolder project <+: q → q ≠ devFolder project → f q = none) →
      (∀ q, ¬ devFolder project <+: q → f q = f0 q) →
      ∃ f1, mkdirs k f [] (devFolder project) = some f1 ∧ Plain f1 (devFolder project) ∧
      (∀ q, devFolder project <+: q → q ≠ devFolder project → f1 q = none) ∧
      (∀ q, ¬ devFolder project <+: q → fs q ≠ none → f1 q = fs q) ∧
      ∀ q, f1 q ≠ fs q → devFolder project <+: q ∨ q <+: devFolder project := by
    intro f hpl hd hem hsame
    have hcl : Clear f (devFolder project) := by
      intro s hs h0
      rw [devFolder_eq, prefix_snoc, ← devFolder_eq] at hs
      rcases hs with hs | rfl
      · exact .inl (hpl s hs h0)
      · exact hd.symm
    obtain ⟨f1, g1, g2, g3⟩ := mkdirs_root k hcl
    refine ⟨f1, g1, g2, ?_, ?_, ?_⟩
    · intro q hq hne
      rw [g3 q, if_neg, hem q hq hne]
      rintro ⟨_, h, _⟩
      exact hne (h.eq_of_length_le hq.length_le)
    · intro q hq h0
      have := hkeep0 q h0
      rw [g3 q, if_neg, hsame q hq, this]
      rintro ⟨h, _, _⟩
      rw [hsame q hq, this] at h
      exact h0 h
    · intro q hq
      by_cases hd' : devFolder project <+: q
      · exact .inl hd'
      · rw [g3 q] at hq
        split at hq
        · next h => exact .inr h.2.1
        · rw [hsame q hd'] at hq
          exact .inr (hch0 q hq)
  rcases hc (devFolder project) List.prefix_rfl hne with hd | hd
  · have hth : there k f0 (devFolder project) = true := by
      rw [there, real_plain (by rw [devFolder_eq]; exact h2.snoc (by rw [← devFolder_eq, hdev, hd]))]
      rfl
    rw [if_pos ⟨rfl, hth⟩, devFolder_eq, remove_plain k h2, ← devFolder_eq]
    dsimp only [Option.bind_some]
    apply fin
    · intro s hs h0
      dsimp only
      rw [if_neg]
      · exact h2 s hs h0
      · intro h
        have := (h.trans hs).length_le
        rw [devFolder_eq] at this
        simp at this
    · left; rw [if_pos List.prefix_rfl]
    · intro q hq _; rw [if_pos hq]
    · intro q hq; rw [if_neg hq]
  · have hth : there k f0 (devFolder project) = false := by
      rw [devFolder_eq]
      exact there_gone k h2 (by rw [← devFolder_eq, hdev, hd])
    rw [hth, if_neg (by simp)]
    dsimp only [Option.bind_some]
    apply fin f0 h2
    · left; rw [hdev, hd]
    · intro q hq _
      rw [hbelow q hq]
      exact ht.below hne hd q hq
    · intro q _; rfl

/-- Opening a build whose previous content is kept, when it is there, changes nothing. -/
theorem openBuild_keep {k : Nat} {fs : Fs} {project : Path} (hp : Plain fs (devFolder project)) :
    openBuild true k fs project "dev".toList = some fs := by
  have hp' := hp
  rw [devFolder_eq] at hp'
  unfold openBuild
  rw [mkdirs_plain k hp'.left]
  dsimp only [Option.bind_some]
  rw [if_neg (by simp)]
  exact mkdirs_plain k hp

/-- What the game sees at a path within its own folder is what is in the folder of the project. -/
def Patched (fs : Fs) (project game : Path) (mainPrefix pfx : Name) (a : Addon) : Prop :=
  ∀ (k : Nat) (rest : Path),
    real (k + 2) fs (game ++ mainPrefix :: pfx :: "addons".toList :: a.name :: rest) = real k fs (project ++ a.folder ++ rest)

/-- The folders of a project and of the game, as they ordinarily are: in place, apart from each other, the addons with names of
their own. -/
structure Ordinary (fs : Fs) (project game : Path) (mainPrefix pfx : Name) (as : List Addon) : Prop where
  tree : Tree fs
  dev : Clear fs (devFolder project)
  names : ∀ a ∈ as, '/' ∉ a.name
  distinct : (as.map (·.name)).Nodup
  sources : ∀ a ∈ as, Plain fs (project ++ a.folder)
  apart : ∀ a ∈ as, a.location ≠ ".hemttout".toList
  folder : Clear fs (game ++ [mainPrefix])
  inside : ¬ devFolder project <+: game ++ [mainPrefix, pfx]
  around : ¬ game ++ [mainPrefix, pfx] <+: devFolder project

/-- From the opened build on. -/
theorem patch_opened (h : Host) {k : Nat} (hk : 1 ≤ k) {fs : Fs} {project game : Path} {mp px : Name} {as : List Addon}
    (hp : Plain fs (devFolder project)) (hadd : Clear fs (devFolder project ++ ["addons".toList]))
    (hn : ∀ a ∈ as, '/' ∉ a.name) (hd : (as.map (·.name)).Nodup)
    (hs : ∀ a ∈ as, Plain fs (project ++ a.folder))
    (hl : ∀ a ∈ as, LinkOk fs (devFolder project ++ ["addons".toList, a.name]) (project ++ a.folder))
    (hg : Clear fs (game ++ [mp])) (hin : ¬ devFolder project <+: game ++ [mp, px]) (hgl : LinkOk fs (game ++ [mp, px]) (devFolder project)) :
    ∃ f', ((filePatching h k fs (devFolder project) project as).bind fun f => launchLink h k f game mp px (devFolder project)) = some f' ∧
      (∀ a ∈ as, Patched f' project game mp px a) ∧
      (∀ q, fs q ≠ none → f' q = fs q) ∧
      ∀ q, f' q ≠ fs q → devFolder project <+: q ∨ q <+: game ++ [mp, px] := by
  obtain ⟨f1, a1, a2, a3⟩ := mkdirs_root k hadd
  have ak : ∀ q, fs q ≠ none → f1 q = fs q := by
    intro q hq; rw [a3 q, if_neg]; exact fun h => hq h.1
  have af : ∀ q, q ≠ devFolder project ++ ["addons".toList] → f1 q = fs q := by
    intro q hq
    rw [a3 q]
    split
    · next h =>
      rcases prefix_snoc.1 h.2.1 with h' | h'
      · exact absurd (hp q h' h.2.2) (by rw [h.1]; simp)
      · exact absurd h' hq
    · rfl
  have hlne : ∀ a : Addon, devFolder project ++ ["addons".toList, a.name] ≠ devFolder project ++ ["addons".toList] := by
    intro a e
    have := congrArg List.length e
    simp at this
  obtain ⟨f2, b1, b2, b3, b4⟩ := linkAddons_ok h hk (devFolder project) project as f1 a2 hn hd (fun a ha => (hs a ha).keep ak)
    (fun a ha => by
      unfold LinkOk
      rw [af _ (hlne a)]
      exact hl a ha)
  have hk2 : ∀ q, fs q ≠ none → f2 q = fs q := by
    intro q hq
    have := ak q hq
    rw [b3 q (by rw [this]; exact hq), this]
  have hf2 : ∀ q, ¬ devFolder project <+: q → f2 q = fs q := by
    intro q hq
    rw [b4 q hq, af q]
    rintro rfl
    exact hq (List.prefix_append _ _)
  have hgp : game ++ [mp, px] = (game ++ [mp]) ++ [px] := by simp
  have hsub : ∀ q, q <+: game ++ [mp, px] → ¬ devFolder project <+: q := fun q hq h => hin (h.trans hq)
  have hgc : Clear f2 (game ++ [mp]) := by
    intro s hs' h0
    rw [hf2 s (hsub s (by rw [hgp]; exact hs'.trans (List.prefix_append _ _)))]
    exact hg s hs' h0
  -- the folder of the prefix
  obtain ⟨f3, c1, c2, c3⟩ : ∃ f3, (if there k f2 (game ++ [mp]) then some f2 else mkdirs k f2 [] (game ++ [mp])) = some f3 ∧
      Plain f3 (game ++ [mp]) ∧ ∀ q, f3 q = if f2 q = none ∧ q <+: game ++ [mp] ∧ q ≠ [] then some .dir else f2 q := by
    obtain ⟨f3, d1, d2, d3⟩ := mkdirs_root k hgc
    by_cases hth : there k f2 (game ++ [mp]) = true
    · by_cases hpl : Plain f2 (game ++ [mp])
      · refine ⟨f2, by rw [if_pos hth], hpl, ?_⟩
        intro q
        split
        · next hh => exact hpl q hh.2.1 hh.2.2
        · rfl
      · exfalso
        -- something is missing, so the path leads nowhere
        have key : ∀ (rest d : Path), Plain f2 d → Clear f2 (d ++ rest) → ¬ Plain f2 (d ++ rest) → real k f2 (d ++ rest) = none := by
          intro rest
          induction rest with
          | nil => intro d h1 _ h3; exact absurd (by simpa using h1) h3
          | cons n rest ih =>
            intro d h1 h2 h3
            have hl' : d ++ n :: rest = (d ++ [n]) ++ rest := by simp
            rcases h2 (d ++ [n]) (by rw [hl']; exact List.prefix_append _ _) (by simp) with e | e
            · rw [hl'] at h2 h3 ⊢
              exact ih (d ++ [n]) (h1.snoc e) h2 h3
            · exact real_gone h1 e rest k
        have := key (game ++ [mp]) [] (plain_nil _) (by simpa using hgc) (by simpa using hpl)
        rw [List.nil_append] at this
        rw [there, this] at hth
        cases hth
    · exact ⟨f3, by rw [if_neg hth]; exact d1, d2, d3⟩
  have hk3 : ∀ q, fs q ≠ none → f3 q = fs q := by
    intro q hq
    have := hk2 q hq
    rw [c3 q, if_neg (fun hh => hq (this ▸ hh.1)), this]
  have hk23 : ∀ q, f2 q ≠ none → f3 q = f2 q := by
    intro q hq
    rw [c3 q, if_neg (fun hh => hq hh.1)]
  have hgl3 : LinkOk f3 ((game ++ [mp]) ++ [px]) (devFolder project) := by
    unfold LinkOk
    rw [← hgp, c3, if_neg, hf2 _ (hsub _ List.prefix_rfl)]
    · exact hgl
    · rintro ⟨_, hh, _⟩
      exact absurd hh.length_le (by simp)
  obtain ⟨f4, e1, e2, e3, e4⟩ := createLink_ok h hk c2 hgl3 ((hp.keep hk2).keep hk23)
  have hlaunch : launchLink h k f2 game mp px (devFolder project) = some f4 := by
    unfold launchLink
    dsimp only
    rw [c1]
    dsimp only [Option.bind_some]
    rcases hgl3 with hh | hh
    · rw [there_gone k c2 hh, if_neg (by simp)]
      exact e1
    · have hth := there_link hk c2 hh ((hp.keep hk2).keep hk23)
      rw [if_pos hth, ← e1, createLink_same h k c2 hh hth]
  refine ⟨f4, ?_, ?_, ?_, ?_⟩
  · unfold filePatching
    rw [a1]
    dsimp only [Option.bind_some]
    rw [b1]
    exact hlaunch
  · intro a ha j rest
    have hpl : Plain f4 (game ++ [mp]) := c2.keep e3
    have hpd : Plain f4 (devFolder project ++ ["addons".toList]) := ((a2.keep b3).keep hk23).keep e3
    have hln : f4 ((devFolder project ++ ["addons".toList]) ++ [a.name]) = some (.link (project ++ a.folder)) := by
      have : (devFolder project ++ ["addons".toList]) ++ [a.name] = devFolder project ++ ["addons".toList, a.name] := by simp
      rw [this]
      have h2' := b2 a ha
      have h3' := hk23 _ (by rw [h2']; simp)
      rw [e3 _ (by rw [h3', h2']; simp), h3', h2']
    have r1 := real_link hpl e2 ("addons".toList :: a.name :: rest) (j + 1)
    have r2 := real_link hpd hln rest j
    rw [show game ++ mp :: px :: "addons".toList :: a.name :: rest = (game ++ [mp]) ++ px :: "addons".toList :: a.name :: rest by simp]
    rw [r1, ← r2]
    simp
  · intro q hq
    have := hk3 q hq
    rw [e3 q (by rw [this]; exact hq), this]
  · intro q hq
    by_cases hdv : devFolder project <+: q
    · exact .inl hdv
    · right
      by_cases eq1 : q = (game ++ [mp]) ++ [px]
      · rw [eq1, hgp]
      · rw [e4 q eq1, c3 q] at hq
        split at hq
        · next hh => rw [hgp]; exact hh.2.1.trans (List.prefix_append _ _)
        · exact absurd (hf2 q hdv) hq

/-- **C121.** After `hemtt launch`, every path within the folder of the game that begins with the prefix of an addon leads where
the same path within the folder of the addon in the project leads, whichever files are there, on either system; what was there
before and is not in the folder of the build is as it was. It is so if the game has no link of that prefix yet, or the one of an
earlier launch of this project. -/
theorem C121_launched (h : Host) {k : Nat} (hk : 1 ≤ k) {fs : Fs} {project game : Path} {mp px : Name} {as : List Addon}
    (ho : Ordinary fs project game mp px as) (hgl : LinkOk fs (game ++ [mp, px]) (devFolder project)) :
    ∃ f', launch h false k fs project game mp px as = some f' ∧ (∀ a ∈ as, Patched f' project game mp px a) ∧
      (∀ q, ¬ devFolder project <+: q → fs q ≠ none → f' q = fs q) ∧
      ∀ q, f' q ≠ fs q → devFolder project <+: q ∨ q <+: devFolder project ∨ q <+: game ++ [mp, px] := by
  obtain ⟨f1, o1, o2, o3, o4, o5⟩ := openBuild_empty (k := k) ho.tree ho.dev
  have hne : ∀ a ∈ as, ∀ s, s <+: project ++ a.folder → ¬ devFolder project <+: s := by
    intro a ha s hs hh
    have hh := hh.trans hs
    rw [(List.prefix_append_right_inj project)] at hh
    unfold Addon.folder at hh
    rw [List.cons_prefix_cons] at hh
    exact ho.apart a ha hh.1.symm
  have hsrc : ∀ a ∈ as, Plain f1 (project ++ a.folder) := by
    intro a ha s hs h0
    have := ho.sources a ha s hs h0
    rw [o4 s (hne a ha s hs) (by rw [this]; simp), this]
  obtain ⟨f', p1, p2, p3, p4⟩ := patch_opened h hk (game := game) (mp := mp) (px := px) o2
    (by
      intro s hs h0
      rcases prefix_snoc.1 hs with hs | rfl
      · exact .inl (o2 s hs h0)
      · exact .inr (o3 _ (List.prefix_append _ _) (by simp)))
    ho.names ho.distinct hsrc
    (fun a _ => .inl (o3 _ (List.prefix_append _ _) (by simp)))
    (by
      intro s hs h0
      have hnd : ¬ devFolder project <+: s := fun hh =>
        ho.inside ((hh.trans hs).trans ⟨[px], by simp⟩)
      rcases ho.folder s hs h0 with e | e
      · left; rw [o4 s hnd (by rw [e]; simp), e]
      · by_cases e1 : f1 s = fs s
        · right; rw [e1, e]
        · rcases o5 s e1 with hh | hh
          · exact absurd hh hnd
          · left; exact o2 s hh h0)
    ho.inside
    (by
      unfold LinkOk
      have hnd : f1 (game ++ [mp, px]) = fs (game ++ [mp, px]) := by
        by_contra hh
        rcases o5 _ hh with e | e
        · exact ho.inside e
        · exact ho.around e
      rw [hnd]
      exact hgl)
  refine ⟨f', ?_, p2, ?_, ?_⟩
  · unfold launch
    dsimp only
    rw [o1]
    exact p1
  · intro q hq h0
    have := o4 q hq h0
    rw [p3 q (by rw [this]; exact h0), this]
  · intro q hq
    by_cases e : f' q = f1 q
    · rw [e] at hq
      rcases o5 q hq with hh | hh
      · exact .inl hh
      · exact .inr (.inl hh)
    · rcases p4 q e with hh | hh
      · exact .inl hh
      · exact .inr (.inr hh)

/-- **C121.** The same when only some addons are built and the rest is kept, if the links of these addons that are there are
those of this project. -/
theorem C121_kept (h : Host) {k : Nat} (hk : 1 ≤ k) {fs : Fs} {project game : Path} {mp px : Name} {as : List Addon}
    (ho : Ordinary fs project game mp px as) (hgl : LinkOk fs (game ++ [mp, px]) (devFolder project))
    (hp : Plain fs (devFolder project)) (hadd : fs (devFolder project ++ ["addons".toList]) = some .dir)
    (hl : ∀ a ∈ as, LinkOk fs (devFolder project ++ ["addons".toList, a.name]) (project ++ a.folder)) :
    ∃ f', launch h true k fs project game mp px as = some f' ∧ (∀ a ∈ as, Patched f' project game mp px a) ∧
      (∀ q, fs q ≠ none → f' q = fs q) ∧
      ∀ q, f' q ≠ fs q → devFolder project <+: q ∨ q <+: game ++ [mp, px] := by
  obtain ⟨f', p1, p2, p3, p4⟩ := patch_opened h hk (game := game) (mp := mp) (px := px) hp
    (hp.snoc hadd).clear ho.names ho.distinct ho.sources hl ho.folder ho.inside hgl
  refine ⟨f', ?_, p2, p3, p4⟩
  unfold launch
  dsimp only
  rw [openBuild_keep hp]
  exact p1


/-! ### A world to show it in -/

/-- A file system given by what is in it. -/
def ofList (l : List (Path × Node)) : Fs := fun p => (l.find? fun e => e.1 = p).map (·.2)

def n (s : String) : Name := s.toList

/-- A game, a project with two addons, and an older copy of it. -/
def world : List (Path × Node) :=
  [([n "game"], .dir), ([n "game", n "arma3"], .file []),
   ([n "my"], .dir), ([n "my", n "addons"], .dir), ([n "my", n "addons", n "main"], .dir), ([n "my", n "addons", n "ui"], .dir),
   ([n "my", n "addons", n "main", n "a.sqf"], .file [49]), ([n "my", n "addons", n "ui", n "b.sqf"], .file [50]),
   ([n "old"], .dir), ([n "old", n "addons"], .dir), ([n "old", n "addons", n "main"], .dir),
   ([n "old", n "addons", n "main", n "a.sqf"], .file [48]),
   ([n "old", n ".hemttout"], .dir), ([n "old", n ".hemttout", n "dev"], .dir), ([n "old", n ".hemttout", n "dev", n "addons"], .dir),
   ([n "old", n ".hemttout", n "dev", n "addons", n "main"], .link [n "old", n "addons", n "main"])]

def addonMain : Addon := ⟨n "addons", n "main", [n "x", n "mod", n "addons", n "main"]⟩
def addonUi : Addon := ⟨n "addons", n "ui", [n "x", n "mod", n "addons", n "ui"]⟩

/-- Where the game finds a file after a launch of `my`. -/
def found (h : Host) (keep : Bool) (w : List (Path × Node)) (as : List Addon) (p : Path) : Option (Option Path) :=
  (launch h keep 40 (ofList w) [n "my"] [n "game"] (n "x") (n "mod") as).map fun f =>
    real 40 f ([n "game", n "x", n "mod", n "addons"] ++ p)

/-- The world is an ordinary one, so the theorem says something about it. -/
theorem world_tree : Tree (ofList world) := by
  intro p m hne
  have hmem : p ++ [m] ∈ world.map (·.1) := by
    unfold ofList at hne
    cases hf : world.find? (fun e => e.1 = p ++ [m]) with
    | none => rw [hf] at hne; exact absurd rfl hne
    | some e =>
      have h1 := List.mem_of_find?_eq_some hf
      have h2 : e.1 = p ++ [m] := by simpa using List.find?_some hf
      exact h2 ▸ List.mem_map_of_mem h1
  have hall : ∀ q ∈ world.map (·.1), q.dropLast = [] ∨ ofList world q.dropLast = some .dir := by decide +kernel
  have := hall _ hmem
  rwa [List.dropLast_concat] at this

theorem plain_of_all {fs : Fs} {p : Path} (h : ∀ s ∈ p.inits, s ≠ [] → fs s = some .dir) : Plain fs p :=
  fun s hs h0 => h s ((List.mem_inits s p).2 hs) h0

theorem clear_of_all {fs : Fs} {p : Path} (h : ∀ s ∈ p.inits, s ≠ [] → fs s = some .dir ∨ fs s = none) : Clear fs p :=
  fun s hs h0 => h s ((List.mem_inits s p).2 hs) h0

theorem world_ordinary : Ordinary (ofList world) [n "my"] [n "game"] (n "x") (n "mod") [addonMain, addonUi] where
  tree := world_tree
  dev := clear_of_all (by decide +kernel)
  names := by decide +kernel
  distinct := by decide +kernel
  sources := by
    intro a ha
    simp only [List.mem_cons, List.not_mem_nil, or_false] at ha
    rcases ha with rfl | rfl
    · exact plain_of_all (by decide +kernel)
    · exact plain_of_all (by decide +kernel)
  apart := by decide +kernel
  folder := clear_of_all (by decide +kernel)
  inside := by decide +kernel
  around := by decide +kernel

/-- The hypotheses of `C121_launched` are met in the world, and this is what it gives. -/
example (h : Host) : ∃ f', launch h false 40 (ofList world) [n "my"] [n "game"] (n "x") (n "mod") [addonMain, addonUi] = some f' ∧
    ∀ a ∈ [addonMain, addonUi], Patched f' [n "my"] [n "game"] (n "x") (n "mod") a :=
  let ⟨f', h1, h2, _, _⟩ := C121_launched h (k := 40) (by decide) world_ordinary (.inl (by decide +kernel))
  ⟨f', h1, h2⟩

example : ∀ yes, found (.windows yes) false world [addonMain, addonUi] [n "ui", n "b.sqf"] = some (some [n "my", n "addons", n "ui", n "b.sqf"]) ∧
    found .unix false world [addonMain, addonUi] [n "main", n "a.sqf"] = some (some [n "my", n "addons", n "main", n "a.sqf"]) := by
  decide +kernel

/-- The folder of a build that is kept. -/
def kept (target : Path) : List (Path × Node) :=
  world ++ [([n "my", n ".hemttout"], .dir), ([n "my", n ".hemttout", n "dev"], .dir), ([n "my", n ".hemttout", n "dev", n "addons"], .dir),
    ([n "my", n ".hemttout", n "dev", n "addons", n "main"], .link target)]

/-- The hypotheses of `C121_kept` can be met too: a launch of the one addon after the other was built. -/
example (h : Host) : ∃ f', launch h true 40 (ofList (kept [n "my", n "addons", n "main"])) [n "my"] [n "game"] (n "x") (n "mod")
      [addonMain, addonUi] = some f' ∧ Patched f' [n "my"] [n "game"] (n "x") (n "mod") addonMain := by
  have htree : Tree (ofList (kept [n "my", n "addons", n "main"])) := by
    intro p m hne
    have hmem : p ++ [m] ∈ (kept [n "my", n "addons", n "main"]).map (·.1) := by
      unfold ofList at hne
      cases hf : (kept [n "my", n "addons", n "main"]).find? (fun e => e.1 = p ++ [m]) with
      | none => rw [hf] at hne; exact absurd rfl hne
      | some e =>
        have h1 := List.mem_of_find?_eq_some hf
        have h2 : e.1 = p ++ [m] := by simpa using List.find?_some hf
        exact h2 ▸ List.mem_map_of_mem h1
    have hall : ∀ q ∈ (kept [n "my", n "addons", n "main"]).map (·.1),
        q.dropLast = [] ∨ ofList (kept [n "my", n "addons", n "main"]) q.dropLast = some .dir := by decide +kernel
    have := hall _ hmem
    rwa [List.dropLast_concat] at this
  have ho : Ordinary (ofList (kept [n "my", n "addons", n "main"])) [n "my"] [n "game"] (n "x") (n "mod") [addonMain, addonUi] :=
    { tree := htree
      dev := clear_of_all (by decide +kernel)
      names := by decide +kernel
      distinct := by decide +kernel
      sources := by
        intro a ha
        simp only [List.mem_cons, List.not_mem_nil, or_false] at ha
        rcases ha with rfl | rfl
        · exact plain_of_all (by decide +kernel)
        · exact plain_of_all (by decide +kernel)
      apart := by decide +kernel
      folder := clear_of_all (by decide +kernel)
      inside := by decide +kernel
      around := by decide +kernel }
  obtain ⟨f', h1, h2, _, _⟩ := C121_kept h (k := 40) (by decide) ho (.inl (by decide +kernel)) (plain_of_all (by decide +kernel))
    (by decide +kernel)
    (by
      intro a ha
      simp only [List.mem_cons, List.not_mem_nil, or_false] at ha
      rcases ha with rfl | rfl
      · exact .inr (by decide +kernel)
      · exact .inl (by decide +kernel))
  exact ⟨f', h1, h2 addonMain (by simp)⟩

/-- **C121.** On Windows a link of an addon that leads to another place is replaced if and only if the user says so. Otherwise
everything is as before. -/
theorem C121_asked {fs : Fs} {d t target : Path} {m : Name} {k : Nat} (hk : 1 ≤ k) (h : Plain fs d)
    (hn : fs (d ++ [m]) = some (.link t)) (ht : Plain fs t) (hne : t ≠ target) :
    createLink (.windows false) k fs (d ++ [m]) target = some fs ∧
      ∃ f', createLink (.windows true) k fs (d ++ [m]) target = some f' ∧ f' (d ++ [m]) = some (.link target) ∧
        ∀ q, ¬ d ++ [m] <+: q → f' q = fs q := by
  have hr : readLink k fs (d ++ [m]) = some t := by rw [readLink, place_plain h]; simp only [hn]
  have hth : there k fs (d ++ [m]) = true := there_link hk h hn ht
  refine ⟨by simp [createLink, linkWindows, hr, hth, hne], ?_⟩
  have hrm := remove_plain (n := m) k h
  have hp' : Plain (fun r => if d ++ [m] <+: r then none else fs r) d := by
    intro s hs h0
    show (if d ++ [m] <+: s then none else fs s) = some .dir
    rw [if_neg]
    · exact h s hs h0
    · intro hh
      have := (hh.trans hs).length_le
      simp at this
  refine ⟨Fs.set (fun r => if d ++ [m] <+: r then none else fs r) (d ++ [m]) (some (.link target)), ?_, ?_, ?_⟩
  · simp only [createLink, linkWindows, hr, hth, hne, hrm, if_true, if_false, Option.bind_some, mklink]
    rw [symlink_new k hp' (if_pos (List.prefix_refl _))]
  · exact set_self _ _ _
  · intro q hq
    rw [set_other _ _ (fun e => hq (by rw [e])), if_neg hq]

example : createLink (.windows false) 1 (ofList (kept [n "my", n "addons", n "ui"]))
      ([n "my", n ".hemttout", n "dev", n "addons"] ++ [n "main"]) [n "my", n "addons", n "main"] =
    some (ofList (kept [n "my", n "addons", n "ui"])) :=
  (C121_asked (t := [n "my", n "addons", n "ui"]) (by decide) (plain_of_all (by decide +kernel)) (by decide +kernel)
    (plain_of_all (by decide +kernel)) (by decide +kernel)).1

/-- **C121, violated by the code.** If the game has the link of another project with the same prefix, it stays, on either system
and whatever the user would answer, for they are not asked: the game then reads the files of the other project. -/
theorem C121_violated_other : ∀ h ∈ [Host.unix, .windows true, .windows false],
    found h false (world ++ [([n "game", n "x"], .dir), ([n "game", n "x", n "mod"], .link [n "old", n ".hemttout", n "dev"])])
      [addonMain] [n "main", n "a.sqf"] = some (some [n "old", n "addons", n "main", n "a.sqf"]) := by decide +kernel

/-- **C121, violated by the code.** If a project was copied with its build, and only some addons are built, the link to the folder
in the first copy stays where the program is not run on Windows. -/
theorem C121_violated_copied :
    found .unix true (kept [n "old", n "addons", n "main"]) [addonMain] [n "main", n "a.sqf"] =
      some (some [n "old", n "addons", n "main", n "a.sqf"]) := by decide +kernel

/-- **C121, violated by the code.** If it was moved, so that the links lead nowhere, the build fails there, though on Windows such
links are made anew. -/
theorem C121_violated_moved :
    found .unix true (kept [n "moved", n "addons", n "main"]) [addonMain] [n "main", n "a.sqf"] = none ∧
    ∀ yes, found (.windows yes) true (kept [n "moved", n "addons", n "main"]) [addonMain] [n "main", n "a.sqf"] =
      some (some [n "my", n "addons", n "main", n "a.sqf"]) := by decide +kernel

/-! ### The tree of prefixes -/

/-- **C122.** The tree that is put together for the tool shows each addon at its prefix and each include at its path, and nothing
that was there before is changed, nor anything made outside the folder for it, if no prefix or include is above another. -/
theorem C122_tree (h : Host) (k : Nat) {fs : Fs} {tmp project : Path} {as : List Addon} {incs : List (Name × Name)}
    (h0 : tmp ≠ []) (htmp : Clear fs tmp) (hempty : ∀ p, tmp <+: p → fs p = none)
    (hne : ∀ a ∈ as, a.pfx ≠ []) (hout : ∀ a ∈ as, a.pfx ≠ [n "hemtt_binarize_output"])
    (haa : as.Pairwise fun a b => ¬ a.pfx <+: b.pfx ∧ ¬ b.pfx <+: a.pfx)
    (hai : ∀ a ∈ as, ∀ i ∈ incs, ¬ a.pfx <+: [i.1, i.2] ∧ ¬ [i.1, i.2] <+: a.pfx) (hii : incs.Nodup) :
    ∃ f', setupTmp h k fs tmp project as incs = some f' ∧
      (∀ a ∈ as, ∀ j rest, real (j + 1) f' (tmp ++ a.pfx ++ rest) = real j f' (project ++ a.folder ++ rest)) ∧
      (∀ i ∈ incs, ∀ j rest, real (j + 1) f' (tmp ++ [i.1, i.2] ++ rest) =
        real j f' (project ++ ["include".toList, i.1, i.2] ++ rest)) ∧
      (∀ q, fs q ≠ none → f' q = fs q) ∧ ∀ q, ¬ tmp <+: q → ¬ q <+: tmp → f' q = fs q := by
  obtain ⟨f1, a1, a2, a3⟩ := mkdirs_root k htmp
  have hout' : Clear f1 (tmp ++ ["hemtt_binarize_output".toList]) := by
    intro s hs hs0
    rcases prefix_snoc.1 hs with e | rfl
    · exact .inl (a2 s e hs0)
    · right
      rw [a3, if_neg (fun hh => absurd hh.2.1.length_le (by simp)), hempty _ (List.prefix_append _ _)]
  obtain ⟨f2, b1, b2, b3⟩ := mkdirs_root k hout'
  have f2at : ∀ q, tmp <+: q → q ≠ tmp → f2 q = if q = tmp ++ ["hemtt_binarize_output".toList] then some .dir else none := by
    intro q hq hqt
    have hq1 : f1 q = none := by
      rw [a3, if_neg (fun hh => hqt (hh.2.1.eq_of_length_le hq.length_le)), hempty q hq]
    rw [b3 q, hq1]
    by_cases e : q = tmp ++ ["hemtt_binarize_output".toList]
    · rw [if_pos e, if_pos ⟨rfl, by rw [e], by rw [e]; simp⟩]
    · rw [if_neg e, if_neg]
      rintro ⟨_, hh, _⟩
      rcases prefix_snoc.1 hh with hh | hh
      · exact hqt (hh.eq_of_length_le hq.length_le)
      · exact e hh
  have k2 : ∀ q, fs q ≠ none → f2 q = fs q := by
    intro q hq
    have : f1 q = fs q := by rw [a3 q, if_neg (fun hh => hq hh.1)]
    rw [b3 q, if_neg (fun hh => hq (this ▸ hh.1)), this]
  have c2 : ∀ q, ¬ tmp <+: q → ¬ q <+: tmp → f2 q = fs q := by
    intro q h1 h2
    have : f1 q = fs q := by rw [a3 q, if_neg (fun hh => h2 hh.2.1)]
    rw [b3 q, if_neg, this]
    rintro ⟨_, hh, _⟩
    rcases prefix_snoc.1 hh with hh | hh
    · exact h2 hh
    · exact h1 (hh ▸ List.prefix_append _ _)
  have p2 : Plain f2 tmp := b2.left
  set js : List (Path × Path) := (as.map fun a => (a.pfx, project ++ a.folder)) ++
    incs.map fun i => ([i.1, i.2], project ++ ["include".toList, i.1, i.2]) with hjs
  have jne : ∀ j ∈ js, j.1 ≠ [] ∧ j.1 ≠ [n "hemtt_binarize_output"] := by
    intro j hj
    rcases List.mem_append.1 hj with hj | hj
    · obtain ⟨a, ha, rfl⟩ := List.mem_map.1 hj
      exact ⟨hne a ha, hout a ha⟩
    · obtain ⟨i, _, rfl⟩ := List.mem_map.1 hj
      exact ⟨by simp, by simp⟩
  have jpw : js.Pairwise Apart := by
    rw [hjs, List.pairwise_append]
    refine ⟨List.pairwise_map.2 haa, List.pairwise_map.2 ?_, ?_⟩
    · refine hii.imp ?_
      intro i i' hne'
      have h2 : ∀ x y : Name × Name, [x.1, x.2] <+: [y.1, y.2] → x = y := by
        intro x y hh
        have := hh.eq_of_length (by simp)
        injection this with e1 e2
        injection e2 with e2 _
        exact Prod.ext e1 e2
      exact ⟨fun hh => hne' (h2 _ _ hh), fun hh => hne' (h2 _ _ hh).symm⟩
    · intro x hx y hy
      obtain ⟨a, ha, rfl⟩ := List.mem_map.1 hx
      obtain ⟨i, hi, rfl⟩ := List.mem_map.1 hy
      exact hai a ha i hi
  obtain ⟨f', g1, g2, g3, g4⟩ := jobs_ok h k tmp js f2 (fun j hj => (jne j hj).1) jpw
    (by
      intro j hj s hs hs0
      by_cases hts : tmp <+: s
      · by_cases e : s = tmp
        · rw [e] at hs0 ⊢; exact .inl (p2 _ List.prefix_rfl hs0)
        · rw [f2at s hts e]
          split
          · exact .inl rfl
          · exact .inr rfl
      · rcases List.prefix_or_prefix_of_prefix (hs.trans (List.dropLast_prefix _)) (List.prefix_append tmp j.1) with e | e
        · exact .inl (p2 s e hs0)
        · exact absurd e hts)
    (by
      intro j hj
      have hj' := jne j hj
      rw [f2at _ (List.prefix_append _ _) (by simpa using hj'.1), if_neg]
      intro e
      exact hj'.2 (List.append_cancel_left e))
  have follow : ∀ j ∈ js, ∀ i rest, real (i + 1) f' (tmp ++ j.1 ++ rest) = real i f' (j.2 ++ rest) := by
    intro j hj i rest
    obtain ⟨l1, l2⟩ := g2 j hj
    have hne' : tmp ++ j.1 ≠ [] := by simp [h0]
    have e : tmp ++ j.1 = (tmp ++ j.1).dropLast ++ [(tmp ++ j.1).getLast hne'] := (List.dropLast_concat_getLast hne').symm
    rw [e] at l1
    have := real_link l2 l1 rest i
    rw [← this]
    congr 1
    conv_lhs => rw [e]
    simp
  refine ⟨f', ?_, ?_, ?_, ?_, ?_⟩
  · unfold setupTmp
    rw [a1]
    dsimp only [Option.bind_some]
    rw [b1]
    dsimp only [Option.bind_some]
    simp only [tmpAddons_eq, tmpIncludes_eq]
    rw [jobs_append]
    exact g1
  · intro a ha j rest
    exact follow (a.pfx, project ++ a.folder) (List.mem_append_left _ (List.mem_map_of_mem ha)) j rest
  · intro i hi j rest
    exact follow ([i.1, i.2], project ++ ["include".toList, i.1, i.2]) (List.mem_append_right _ (List.mem_map.2 ⟨i, hi, rfl⟩)) j rest
  · intro q hq
    have := k2 q hq
    rw [g3 q (by rw [this]; exact hq), this]
  · intro q h1 h2
    have : f' q = f2 q := by
      by_contra hh
      rcases g4 q hh with e | e
      · exact h2 e
      · exact h1 e
    rw [this, c2 q h1 h2]

/-- What is where after the tree of `my` was put together. -/
def treeOf (h : Host) (w : List (Path × Node)) (as : List Addon) (incs : List (Name × Name)) : Option Fs :=
  setupTmp h 40 (ofList w) [n "tmp", n "my"] [n "my"] as incs

/-- The hypotheses of `C122_tree` are met by two addons and an include. -/
example (h : Host) : ∃ f', treeOf h world [addonMain, addonUi] [(n "x", n "cba")] = some f' ∧
    ∀ j rest, real (j + 1) f' ([n "tmp", n "my"] ++ addonUi.pfx ++ rest) = real j f' ([n "my"] ++ addonUi.folder ++ rest) := by
  obtain ⟨f', h1, h2, _⟩ := C122_tree h 40 (fs := ofList world) (tmp := [n "tmp", n "my"]) (project := [n "my"])
    (as := [addonMain, addonUi]) (incs := [(n "x", n "cba")]) (by simp) (clear_of_all (by decide +kernel))
    (world_tree.below (p := [n "tmp", n "my"]) (by simp) (by decide +kernel))
    (by decide +kernel) (by decide +kernel) (by decide +kernel) (by decide +kernel) (by decide +kernel)
  exact ⟨f', h1, h2 addonUi (by simp)⟩

/-- **C122, violated by the code.** If the prefix of one addon is beneath that of another, a link is made in the folder of the
other in the project itself, on either system. -/
theorem C122_violated_nested : ∀ h ∈ [Host.unix, .windows true, .windows false],
    (treeOf h world [⟨n "addons", n "main", [n "x", n "mod"]⟩, ⟨n "addons", n "ui", [n "x", n "mod", n "ui"]⟩] []).map
      (fun f => f [n "my", n "addons", n "main", n "ui"]) = some (some (.link [n "my", n "addons", n "ui"])) ∧
    ofList world [n "my", n "addons", n "main", n "ui"] = none := by decide +kernel

/-- A world with an include. -/
def included : List (Path × Node) :=
  world ++ [([n "my", n "include"], .dir), ([n "my", n "include", n "x"], .dir), ([n "my", n "include", n "x", n "mod"], .dir),
    ([n "my", n "include", n "x", n "mod", n "c.p3d"], .file [])]

/-- **C122, violated by the code.** An include that is above the prefix of an addon is not seen, and on Windows the program stops. -/
theorem C122_violated_include :
    (treeOf .unix included [addonMain] [(n "x", n "mod")]).map
      (fun f => real 40 f [n "tmp", n "my", n "x", n "mod", n "c.p3d"]) = some none ∧
    (∀ yes, (treeOf (.windows yes) included [addonMain] [(n "x", n "mod")]).isNone) ∧
    (treeOf .unix included [addonMain] [(n "x", n "mod")]).map
      (fun f => real 40 f [n "my", n "include", n "x", n "mod", n "c.p3d"]) = some (some [n "my", n "include", n "x", n "mod", n "c.p3d"]) := by
  decide +kernel

end Verif.Links
