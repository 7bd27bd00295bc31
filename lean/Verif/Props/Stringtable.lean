import Verif.Model.Stringtable
import Mathlib.Data.List.Sort
/-! Properties C22, C44 and C45: stringtables. -/
namespace Verif.Stringtable

/-! ### Specification -/

/-- The same package up to the order of keys: names, keys with their translations, and the tree of containers
(in order) agree, and keys sharing an identifier keep their relative order. -/
inductive Same : Package → Package → Prop where
  | mk {n : Bytes} {ks ks' : List Key} {cs cs' : List Package} (perm : ks'.Perm ks)
      (stable : ∀ i, ks'.filter (fun k => k.id = i) = ks.filter (fun k => k.id = i))
      (containers : List.Forall₂ Same cs cs') : Same (.mk n ks cs) (.mk n ks' cs')

/-- Keys ordered by identifier, here and in all containers. -/
inductive Sorted : Package → Prop where
  | mk {n : Bytes} {ks : List Key} {cs : List Package} (keys : ks.Pairwise (fun a b => lexLe a.id b.id = true))
      (containers : ∀ c ∈ cs, Sorted c) : Sorted (.mk n ks cs)

/-- Identifiers are distinct within every key list. -/
inductive Distinct : Package → Prop where
  | mk {n : Bytes} {ks : List Key} {cs : List Package} (keys : (ks.map Key.id).Nodup)
      (containers : ∀ c ∈ cs, Distinct c) : Distinct (.mk n ks cs)

mutual
/-- All keys of a package, containers included. -/
def allKeys : Package → List Key
  | .mk _ ks cs => ks ++ allKeysL cs
def allKeysL : List Package → List Key
  | [] => []
  | c :: cs => allKeys c ++ allKeysL cs
end

/-! ### Sorting -/

theorem keyLe_trans (a b c : Key) (h1 : keyLe a b = true) (h2 : keyLe b c = true) : keyLe a c = true :=
  lexLe_trans _ _ _ h1 h2
theorem keyLe_total (a b : Key) : (keyLe a b || keyLe b a) = true := lexLe_total _ _
theorem packageLe_trans (a b c : Package) (h1 : packageLe a b = true) (h2 : packageLe b c = true) :
    packageLe a c = true := lexLe_trans _ _ _ h1 h2
theorem packageLe_total (a b : Package) : (packageLe a b || packageLe b a) = true := lexLe_total _ _

/-- A stable sort keeps the order of elements with equal keys. -/
theorem filter_mergeSort {α : Type} (f : α → Bytes) (l : List α) (i : Bytes) :
    (l.mergeSort (fun a b => lexLe (f a) (f b))).filter (fun k => f k = i) = l.filter (fun k => f k = i) := by
  have hp : (l.filter (fun k => f k = i)).Pairwise (fun a b => lexLe (f a) (f b) = true) := by
    rw [List.pairwise_iff_forall_sublist]
    intro a b hab
    have ha : a ∈ l.filter (fun k => f k = i) := hab.subset (by simp)
    have hb : b ∈ l.filter (fun k => f k = i) := hab.subset (by simp)
    simp only [List.mem_filter, decide_eq_true_eq] at ha hb
    rw [ha.2, hb.2]; exact lexLe_refl _
  have hs : (l.filter (fun k => f k = i)).Sublist (l.mergeSort (fun a b => lexLe (f a) (f b))) :=
    List.sublist_mergeSort (le := fun a b => lexLe (f a) (f b)) (fun a b c => lexLe_trans _ _ _)
      (fun a b => lexLe_total _ _) hp List.filter_sublist
  have hs2 := hs.filter (fun k => decide (f k = i))
  rw [List.filter_filter] at hs2
  simp only [Bool.and_self] at hs2
  refine (hs2.eq_of_length ?_).symm
  exact ((List.mergeSort_perm l _).symm.filter _).length_eq

theorem same_sort : ∀ p : Package, Same p (sortPackage p)
  | .mk n ks cs => .mk (List.mergeSort_perm _ _) (fun i => filter_mergeSort Key.id ks i) (sameL cs)
where
  sameL : ∀ cs : List Package, List.Forall₂ Same cs (sortContainers cs)
    | [] => .nil
    | c :: cs => .cons (same_sort c) (sameL cs)

theorem sorted_sort : ∀ p : Package, Sorted (sortPackage p)
  | .mk n ks cs => .mk (List.pairwise_mergeSort keyLe_trans keyLe_total ks) (sortedL cs)
where
  sortedL : ∀ cs : List Package, ∀ c ∈ sortContainers cs, Sorted c
    | [] => by simp [sortContainers]
    | c :: cs => by
      intro d hd
      rcases List.mem_cons.1 hd with rfl | hd
      · exact sorted_sort c
      · exact sortedL cs d hd

theorem sort_of_sorted : ∀ p : Package, Sorted p → sortPackage p = p
  | .mk n ks cs, .mk hk hc => by
    simp only [sortPackage, Package.mk.injEq, true_and]
    exact ⟨List.mergeSort_of_pairwise hk, sortedL cs hc⟩
where
  sortedL : ∀ cs : List Package, (∀ c ∈ cs, Sorted c) → sortContainers cs = cs
    | [], _ => rfl
    | c :: cs, h => by
      rw [sortContainers, sort_of_sorted c (h c (by simp)), sortedL cs (fun d hd => h d (by simp [hd]))]

theorem name_sort (p : Package) : (sortPackage p).name = p.name := by cases p; rfl

/-- C22: after sorting, packages are in order of their names and, in every package and every container, keys are in
order of their identifiers. -/
theorem C22_sorted (p : Project) :
    p.sort.packages.Pairwise (fun a b => lexLe a.name b.name = true) ∧ ∀ q ∈ p.sort.packages, Sorted q := by
  constructor
  · unfold Project.sort
    dsimp only
    rw [List.pairwise_map]
    have := List.pairwise_mergeSort packageLe_trans packageLe_total p.packages
    simpa only [name_sort, packageLe] using this
  · intro q hq
    simp only [Project.sort, List.mem_map] at hq
    obtain ⟨r, _, rfl⟩ := hq
    exact sorted_sort r

/-- C22: sorting keeps the project name, the comments, and exactly the same packages: they are permuted (those with
equal names keep their order), and each keeps its name, its keys with all translations and its containers. -/
theorem C22_same (p : Project) :
    p.sort.name = p.name ∧ p.sort.comments = p.comments ∧
    ∃ qs, qs.Perm p.packages ∧
      (∀ n, qs.filter (fun q => q.name = n) = p.packages.filter (fun q => q.name = n)) ∧
      List.Forall₂ Same qs p.sort.packages := by
  refine ⟨rfl, rfl, p.packages.mergeSort packageLe, List.mergeSort_perm _ _,
    fun n => filter_mergeSort Package.name p.packages n, ?_⟩
  unfold Project.sort
  dsimp only
  generalize p.packages.mergeSort packageLe = qs
  induction qs with
  | nil => exact .nil
  | cons q qs ih => exact .cons (same_sort q) ih

/-- C22: sorting twice is sorting once. -/
theorem C22_idempotent (p : Project) : p.sort.sort = p.sort := by
  obtain ⟨h1, h2⟩ := C22_sorted p
  have h3 : p.sort.packages.mergeSort packageLe = p.sort.packages := List.mergeSort_of_pairwise h1
  have h4 : p.sort.packages.map sortPackage = p.sort.packages := by
    conv_rhs => rw [← List.map_id p.sort.packages]
    exact List.map_congr_left fun q hq => sort_of_sorted q (h2 q hq)
  show Project.mk p.sort.name ((p.sort.packages.mergeSort packageLe).map sortPackage) p.sort.comments = p.sort
  rw [h3, h4]

theorem keys_unique {ks ks' : List Key} (hp : ks'.Perm ks) (hn : (ks.map Key.id).Nodup) :
    ks.mergeSort keyLe = ks'.mergeSort keyLe := by
  apply List.Perm.eq_of_pairwise (le := fun a b => keyLe a b = true)
  · intro a b ha hb h1 h2
    have ha' : a ∈ ks := (List.mergeSort_perm ks keyLe).subset ha
    have hb' : b ∈ ks := hp.subset ((List.mergeSort_perm ks' keyLe).subset hb)
    exact List.inj_on_of_nodup_map hn ha' hb' (lexLe_antisymm _ _ h1 h2)
  · exact List.pairwise_mergeSort keyLe_trans keyLe_total _
  · exact List.pairwise_mergeSort keyLe_trans keyLe_total _
  · exact (List.mergeSort_perm _ _).trans (hp.symm.trans (List.mergeSort_perm _ _).symm)

theorem canonical : ∀ (p : Package), Distinct p → ∀ q, Same p q → sortPackage p = sortPackage q
  | .mk n ks cs, .mk hn hc, .mk _ ks' cs', .mk hp _ hcs => by
    simp only [sortPackage, Package.mk.injEq, true_and]
    exact ⟨keys_unique hp hn, canonicalL cs hc cs' hcs⟩
where
  canonicalL : ∀ cs : List Package, (∀ c ∈ cs, Distinct c) → ∀ cs', List.Forall₂ Same cs cs' →
      sortContainers cs = sortContainers cs'
    | [], _, _, .nil => rfl
    | c :: cs, h, _, .cons h1 h2 => by
      rw [sortContainers, sortContainers, canonical c (h c (by simp)) _ h1,
        canonicalL cs (fun d hd => h d (by simp [hd])) _ h2]

/-- C22: the sorted form does not depend on the order in which keys were written, if identifiers are distinct. -/
theorem C22_canonical (p q : Package) (hd : Distinct p) (hs : Same p q) : sortPackage p = sortPackage q :=
  canonical p hd q hs

/-! ### C44: containers -/

/-- C44 is violated: the documentation of the sort command says containers are sorted alphabetically; whatever the
package, its containers keep their order. -/
theorem C44_containers_keep_order (p : Package) :
    (sortPackage p).containers.map Package.name = p.containers.map Package.name := by
  obtain ⟨n, ks, cs⟩ := p
  simp only [sortPackage, Package.containers]
  induction cs with
  | nil => rfl
  | cons c cs ih => simp only [sortContainers, List.map_cons, name_sort, ih]

/-- C44: so a project with containers out of order is still out of order after sorting. -/
theorem C44_unsorted_after_sort (p : Package)
    (h : ¬ (p.containers.map Package.name).Pairwise (fun a b => lexLe a b = true)) :
    ¬ ((sortPackage p).containers.map Package.name).Pairwise (fun a b => lexLe a b = true) := by
  rwa [C44_containers_keep_order]

/-! ### C45: coverage totals -/

theorem foldl_count (ks : List Key) : ∀ t : Totals,
    (ks.foldl Totals.count t).total = t.total + ks.length ∧
    ∀ l, (ks.foldl Totals.count t).lang l = t.lang l + ks.countP (fun k => (k.text l).isSome) := by
  induction ks with
  | nil => intro t; simp
  | cons k ks ih =>
    intro t
    obtain ⟨h1, h2⟩ := ih (t.count k)
    refine ⟨by rw [List.foldl_cons, h1]; simp only [Totals.count, List.length_cons]; omega, fun l => ?_⟩
    rw [List.foldl_cons, h2, List.countP_cons]
    simp only [Totals.count]
    split <;> omega

theorem totals_eq : ∀ p : Package, (totals p).total = (allKeys p).length ∧
    ∀ l, (totals p).lang l = (allKeys p).countP (fun k => (k.text l).isSome)
  | .mk n ks cs => by
    obtain ⟨h1, h2⟩ := mergeEq cs (ks.foldl Totals.count Totals.zero)
    obtain ⟨h3, h4⟩ := foldl_count ks Totals.zero
    simp only [totals, allKeys]
    refine ⟨by rw [h1, h3]; simp [Totals.zero], fun l => ?_⟩
    rw [h2, h4]
    simp [Totals.zero]
where
  mergeEq : ∀ (cs : List Package) (t : Totals), (mergeTotals t cs).total = t.total + (allKeysL cs).length ∧
      ∀ l, (mergeTotals t cs).lang l = t.lang l + (allKeysL cs).countP (fun k => (k.text l).isSome)
    | [], t => by simp [mergeTotals, allKeysL]
    | c :: cs, t => by
      obtain ⟨h1, h2⟩ := mergeEq cs (t.merge (totals c))
      obtain ⟨h3, h4⟩ := totals_eq c
      simp only [mergeTotals, allKeysL]
      refine ⟨by rw [h1]; simp [Totals.merge, h3]; omega, fun l => ?_⟩
      rw [h2]; simp [Totals.merge, h4]; omega

/-- C45: the totals of a package count every key of the package and its containers, and for each language exactly
the keys that have a text in it. -/
theorem C45_totals (p : Package) :
    (totals p).total = (allKeys p).length ∧
    ∀ l, (totals p).lang l = (allKeys p).countP (fun k => (k.text l).isSome) := totals_eq p

/-- C45: a language is reported complete (its counter equals the total) exactly if no key lacks it. -/
theorem C45_complete_iff (p : Package) (l : Lang) :
    (totals p).lang l = (totals p).total ↔ ∀ k ∈ allKeys p, (k.text l).isSome = true := by
  rw [(totals_eq p).1, (totals_eq p).2 l, List.countP_eq_length]

/-! ### Non-vacuity -/

def exKey (s : String) (b : Bool) : Key := ⟨ascii s, fun l => if b ∧ l = .english then some (ascii s) else none⟩
def exPackage : Package :=
  .mk (ascii "p") [exKey "STR_b" true, exKey "STR_a" false]
    [.mk (ascii "z") [exKey "d" true, exKey "c" true] [], .mk (ascii "y") [] []]

example : (sortPackage exPackage).keys = [exKey "STR_a" false, exKey "STR_b" true] := by
  show List.mergeSort _ keyLe = _
  rw [keys_unique (List.Perm.swap _ _ _) (by decide +kernel)]
  exact List.mergeSort_of_pairwise (by decide +kernel)
example : (sortPackage exPackage).containers.map Package.name = [ascii "z", ascii "y"] :=
  C44_containers_keep_order exPackage
example : ¬ (exPackage.containers.map Package.name).Pairwise (fun a b => lexLe a b = true) := by decide +kernel
example : Distinct exPackage :=
  .mk (by decide +kernel) (by
    intro c hc
    simp only [List.mem_cons, List.not_mem_nil, or_false] at hc
    rcases hc with rfl | rfl
    · exact .mk (by decide +kernel) (by simp)
    · exact .mk (by decide +kernel) (by simp))
example : (totals exPackage).total = 4 ∧ (totals exPackage).lang .english = 3 := by decide +kernel

end Verif.Stringtable
