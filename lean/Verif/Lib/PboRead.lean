import Verif.Lib.PboLemmas
/-! What the reader makes of a written archive. -/
namespace Verif.Pbo
open Verif.Io

/-- One stored file is representable: the table key is the stored name, which is normalised, non-empty
and NUL free, the header is an ordinary file header and announces the real size. -/
structure FileOk (e : Bytes × (Bytes × Header)) : Prop where
  key : e.1 = e.2.2.filename
  normed : norm e.2.2.filename = e.2.2.filename
  ne : e.2.2.filename ≠ []
  hdr : HeaderOk e.2.2
  mime : e.2.2.mime ≠ .vers
  size : e.2.1.length = e.2.2.size

/-- A builder state in which everything is representable. -/
structure Valid (p : WPbo) : Prop where
  props : ∀ kv ∈ p.properties, PropOk kv
  propKeys : (IMap.keys p.properties).Nodup
  files : ∀ e ∈ p.files, FileOk e
  fileKeys : (IMap.keys p.files).Nodup

theorem hdrLe_trans (lower : Bytes → Bytes) (a b c : Header) :
    hdrLe lower a b = true → hdrLe lower b c = true → hdrLe lower a c = true :=
  lexLe_trans _ _ _

theorem hdrLe_total (lower : Bytes → Bytes) (a b : Header) :
    (hdrLe lower a b || hdrLe lower b a) = true := lexLe_total _ _

theorem filesSorted_perm (lower : Bytes → Bytes) (iter : List (Bytes × (Bytes × Header))) :
    (filesSorted lower iter).Perm (iter.map (fun e => e.2.2)) := List.mergeSort_perm _ _

theorem filesSorted_pairwise (lower : Bytes → Bytes) (iter : List (Bytes × (Bytes × Header))) :
    (filesSorted lower iter).Pairwise (fun a b => hdrLe lower a b = true) :=
  List.pairwise_mergeSort (hdrLe_trans lower) (hdrLe_total lower) _

theorem file_of_mem {p : WPbo} (hv : Valid p) {e : Bytes × (Bytes × Header)} (he : e ∈ p.files) :
    p.file e.2.2.filename = some e.2.1 := by
  have hf := hv.files e he
  unfold WPbo.file
  rw [hf.normed, ← hf.key, IMap.get_of_mem hv.fileKeys (v := e.2) (by exact he)]
  rfl

theorem contents_list {p : WPbo} (hv : Valid p) (hs : List Header)
    (hmem : ∀ h ∈ hs, ∃ e ∈ p.files, e.2.2 = h) :
    ∃ csl : List Bytes, p.contents hs = some csl.flatten ∧
      List.Forall₂ (fun h c => p.file h.filename = some c ∧ c.length = h.size) hs csl := by
  induction hs with
  | nil => exact ⟨[], rfl, .nil⟩
  | cons h hs ih =>
    obtain ⟨csl, h1, h2⟩ := ih (fun x hx => hmem x (by simp [hx]))
    obtain ⟨e, he, rfl⟩ := hmem h (by simp)
    have hfile := file_of_mem hv he
    refine ⟨e.2.1 :: csl, ?_, .cons ⟨hfile, (hv.files e he).size⟩ h2⟩
    simp [WPbo.contents, hfile, h1]

theorem sum_sizes {get : Bytes → Option Bytes} {hs : List Header} {csl : List Bytes}
    (h : List.Forall₂ (fun h c => get h.filename = some c ∧ c.length = h.size) hs csl) :
    (hs.map Header.size).sum = csl.flatten.length := by
  induction h with
  | nil => rfl
  | cons h _ ih =>
    simp only [List.map_cons, List.sum_cons, ih, List.flatten_cons, List.length_append, h.2]

theorem takeN_exact {l : Bytes} {n : Nat} (h : l.length = n) : takeN n l = .ok (l, []) := by
  have := takeN_append' (rest := []) h
  simpa using this

/-- Complete description of writing followed by reading. -/
theorem read_write (H lower : Bytes → Bytes) (hH : ∀ x, (H x).length = 20) {p : WPbo} (hv : Valid p)
    {iter : List (Bytes × (Bytes × Header))} (hi : iter.Perm p.files) (b : Bool) :
    ∃ csl : List Bytes,
      p.contents (filesSorted lower iter) = some csl.flatten ∧
      List.Forall₂ (fun h c => p.file h.filename = some c ∧ c.length = h.size) (filesSorted lower iter) csl ∧
      p.write H lower iter b = .ok
        (p.headerBytes lower iter b ++ csl.flatten ++ [0] ++ H (p.headerBytes lower iter b ++ csl.flatten),
         H (p.headerBytes lower iter b ++ csl.flatten)) ∧
      RPbo.from (p.headerBytes lower iter b ++ csl.flatten ++ [0]
          ++ H (p.headerBytes lower iter b ++ csl.flatten)) = .ok
        ⟨if b then propsOrder p.properties else [], if b then some Header.property else none,
         filesSorted lower iter, H (p.headerBytes lower iter b ++ csl.flatten),
         p.headerBytes lower iter b ++ csl.flatten ++ [0] ++ H (p.headerBytes lower iter b ++ csl.flatten),
         (p.headerBytes lower iter b).length⟩ := by
  have hmem : ∀ h ∈ filesSorted lower iter, ∃ e ∈ p.files, e.2.2 = h := by
    intro h hh
    have := (filesSorted_perm lower iter).mem_iff.1 hh
    obtain ⟨e, he, rfl⟩ := List.mem_map.1 this
    exact ⟨e, hi.mem_iff.1 he, rfl⟩
  obtain ⟨csl, h1, h2⟩ := contents_list hv _ hmem
  refine ⟨csl, h1, h2, by simp [WPbo.write, h1], ?_⟩
  generalize hD : H (p.headerBytes lower iter b ++ csl.flatten) = D
  have hDl : D.length = 20 := by rw [← hD]; exact hH _
  have hok : ∀ h ∈ filesSorted lower iter, HeaderOk h ∧ h.filename ≠ [] ∧ h.mime ≠ .vers := by
    intro h hh
    obtain ⟨e, he, rfl⟩ := hmem h hh
    have := hv.files e he
    exact ⟨this.hdr, this.ne, this.mime⟩
  have hread : ∀ rest, readHeaders (p.headerBytes lower iter b ++ rest) [] none [] 0 = .ok
      (if b then propsOrder p.properties else [], if b then some Header.property else none,
       filesSorted lower iter, (p.headerBytes lower iter b).length, rest) := by
    intro rest
    unfold WPbo.headerBytes
    cases b with
    | false =>
      simp only [Bool.false_eq_true, if_false, List.nil_append]
      rw [readHeaders_files _ hok]
      simp
    | true =>
      simp only [if_true]
      rw [writeProps_eq _ hv.propKeys]
      have e : Header.property.write ++ ((propsOrder p.properties).flatMap encProp ++ [0]) ++
          (filesSorted lower iter).flatMap Header.write ++ Header.default.write ++ rest =
          Header.property.write ++ ((propsOrder p.properties).flatMap encProp ++ [0]) ++
          ((filesSorted lower iter).flatMap Header.write ++ Header.default.write ++ rest) := by simp
      have hperm := propsOrder_perm p.properties
      rw [e, readHeaders_vers (propsOrder p.properties)
        (fun kv hkv => hv.props kv (hperm.mem_iff.1 hkv))
        ((hperm.map Prod.fst).nodup_iff.2 hv.propKeys), readHeaders_files _ hok]
      simp only [List.nil_append, List.length_append]
      congr 5
      omega
  unfold RPbo.from
  rw [List.append_assoc, List.append_assoc, hread]
  simp only
  rw [sum_sizes h2, List.drop_left]
  simp [takeN_exact hDl]

end Verif.Pbo
