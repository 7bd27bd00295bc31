import Mathlib.Data.List.Induction
import Mathlib.Data.List.Nodup
import Verif.Lib.PboRead
/-! Properties C07 – C10: PBO archives. -/
namespace Verif.Pbo
open Verif.Io

/-! ### C10: the builder as a map -/

/-- A call on the builder. -/
inductive Op where
  | addFile (name content : Bytes)
  | addFileWithHeader (h : Header) (content : Bytes)
  | addProperty (k v : Bytes)
  | removeProperty (k : Bytes)

/-- Effect of a call; a rejected `addFile` leaves the builder as it is. -/
def apply (p : WPbo) : Op → WPbo
  | .addFile n c => match p.addFile n c with
    | .ok p' => p'
    | .error _ => p
  | .addFileWithHeader h c => p.addFileWithHeader h c
  | .addProperty k v => p.addProperty k v
  | .removeProperty k => p.removeProperty k

def runOps (ops : List Op) : WPbo := ops.foldl apply WPbo.new

/-- Specification, latest call first: the content last stored under a name. -/
def lastFile (name : Bytes) : List Op → Option Bytes
  | [] => none
  | .addFile n c :: ops =>
    if norm n = norm name ∧ c.length < 2 ^ 32 then some c else lastFile name ops
  | .addFileWithHeader h c :: ops => if norm h.filename = norm name then some c else lastFile name ops
  | .addProperty _ _ :: ops => lastFile name ops
  | .removeProperty _ :: ops => lastFile name ops

/-- Specification, latest call first: the value last stored under a property key. -/
def lastProp (key : Bytes) : List Op → Option Bytes
  | [] => none
  | .addProperty k v :: ops => if k = key then some (trimBackslash v) else lastProp key ops
  | .removeProperty k :: ops => if k = key then none else lastProp key ops
  | .addFile _ _ :: ops => lastProp key ops
  | .addFileWithHeader _ _ :: ops => lastProp key ops

theorem norm_norm (n : Bytes) : norm (norm n) = norm n := by
  unfold norm
  rw [List.map_map]
  apply List.map_congr_left
  intro b _
  simp only [Function.comp]
  by_cases h : b = 47
  · subst h; decide
  · simp [h]

theorem runOps_snoc (ops : List Op) (op : Op) : runOps (ops ++ [op]) = apply (runOps ops) op := by
  simp [runOps]

theorem apply_keys (p : WPbo) (op : Op) (h : (IMap.keys p.properties).Nodup ∧ (IMap.keys p.files).Nodup) :
    (IMap.keys (apply p op).properties).Nodup ∧ (IMap.keys (apply p op).files).Nodup := by
  cases op with
  | addFile n c =>
    simp only [apply, WPbo.addFile]
    split
    · rename_i p' heq
      split at heq
      · cases heq
      · cases heq; exact ⟨h.1, IMap.nodup_insert _ _ _ h.2⟩
    · exact h
  | addFileWithHeader hd c => exact ⟨h.1, IMap.nodup_insert _ _ _ h.2⟩
  | addProperty k v => exact ⟨IMap.nodup_insert _ _ _ h.1, h.2⟩
  | removeProperty k => exact ⟨IMap.nodup_swapRemove _ _ h.1, h.2⟩

/-- C10: after every history, each file name and each property key has exactly the latest value stored
under it (or none), and no name or key occurs twice. -/
theorem C10_history (ops : List Op) :
    (∀ name, (runOps ops).file name = lastFile name ops.reverse) ∧
    (∀ key, (runOps ops).property key = lastProp key ops.reverse) ∧
    (IMap.keys (runOps ops).properties).Nodup ∧ (IMap.keys (runOps ops).files).Nodup := by
  induction ops using List.reverseRecOn with
  | nil => simp [runOps, WPbo.new, WPbo.file, WPbo.property, IMap.get, lastFile, lastProp, IMap.keys]
  | append_singleton ops op ih =>
    obtain ⟨h1, h2, h3, h4⟩ := ih
    rw [runOps_snoc]
    have hk := apply_keys (runOps ops) op ⟨h3, h4⟩
    refine ⟨fun name => ?_, fun key => ?_, hk.1, hk.2⟩
    · have h1 := h1 name
      rw [List.reverse_append, List.reverse_singleton, List.singleton_append]
      cases op with
      | addFile n c =>
        simp only [apply, WPbo.addFile, lastFile]
        by_cases hc : c.length > 2 ^ 32 - 1
        · rw [if_pos hc, if_neg (by omega)]
          exact h1
        · rw [if_neg hc]
          simp only [WPbo.file, IMap.get_insert]
          by_cases hn : norm n = norm name
          · rw [if_pos hn.symm, if_pos ⟨hn, by omega⟩]; rfl
          · rw [if_neg (fun e => hn e.symm), if_neg (fun e => hn e.1)]
            exact h1
      | addFileWithHeader h c =>
        simp only [apply, WPbo.addFileWithHeader, WPbo.file, IMap.get_insert, lastFile]
        by_cases hn : norm h.filename = norm name
        · rw [if_pos hn.symm, if_pos hn]; rfl
        · rw [if_neg (fun e => hn e.symm), if_neg hn]; exact h1
      | addProperty k v => exact h1
      | removeProperty k => exact h1
    · have h2 := h2 key
      rw [List.reverse_append, List.reverse_singleton, List.singleton_append]
      cases op with
      | addFile n c =>
        simp only [apply, WPbo.addFile, lastProp]
        split
        · rename_i p' heq
          split at heq
          · cases heq
          · cases heq; exact h2
        · exact h2
      | addFileWithHeader h c => exact h2
      | addProperty k v =>
        simp only [apply, WPbo.addProperty, WPbo.property, IMap.get_insert, lastProp]
        by_cases hn : k = key
        · subst hn; simp
        · rw [if_neg (fun e => hn e.symm), if_neg hn]; exact h2
      | removeProperty k =>
        simp only [apply, WPbo.removeProperty, WPbo.property, lastProp]
        rw [IMap.get_swapRemove _ _ _ h3]
        by_cases hn : k = key
        · subst hn; simp
        · rw [if_neg (fun e => hn e.symm), if_neg hn]; exact h2

example : lastFile [97, 92, 98] ([.addFile [97, 47, 98] [1], .addFile [97, 92, 98] [2, 3]] : List Op).reverse
    = some [2, 3] := by decide

/-! ### Which histories give representable archives -/

/-- Texts are UTF-8 (always so in Rust) without NUL; names and keys are not empty; explicit headers are
ordinary file headers of the right size with a normalised name. -/
def OpOk : Op → Prop
  | .addFile n _ => n ≠ [] ∧ (0 : UInt8) ∉ n ∧ isUtf8 n = true
  | .addFileWithHeader h c => FileOk (h.filename, (c, h))
  | .addProperty k v => k ≠ [] ∧ (0 : UInt8) ∉ k ∧ (0 : UInt8) ∉ v ∧ isUtf8 k = true ∧ isUtf8 v = true
  | .removeProperty _ => True

theorem norm_ok {n : Bytes} (h1 : n ≠ []) (h2 : (0 : UInt8) ∉ n) (h3 : isUtf8 n = true) :
    norm n ≠ [] ∧ (0 : UInt8) ∉ norm n ∧ isUtf8 (norm n) = true := by
  refine ⟨by simpa [norm] using h1, ?_, ?_⟩
  · intro h
    obtain ⟨b, hb, he⟩ := List.mem_map.1 h
    split at he
    · cases he
    · subst he; exact h2 hb
  · apply isUtf8_map_ascii _ _ _ h3
    · intro b hb
      have : b ≠ 47 := by rintro rfl; exact hb (by decide)
      simp [this]
    · intro b hb
      split
      · decide
      · exact hb

theorem utf8_dropWhile_front {v : Bytes} (h : isUtf8 v = true) : isUtf8 (v.dropWhile (· == 92)) = true := by
  induction v with
  | nil => rfl
  | cons a v ih =>
    by_cases ha : a = 92
    · subst ha
      rw [List.dropWhile_cons_of_pos (by simp)]
      apply ih
      rw [isUtf8.eq_def] at h
      have : ((92 : UInt8) < 0x80) := by decide
      simpa [this] using h
    · rw [List.dropWhile_cons_of_neg (by simpa using ha)]
      exact h

theorem utf8_dropWhile_back {v : Bytes} (h : isUtf8 v.reverse = true) :
    isUtf8 (v.dropWhile (· == 92)).reverse = true := by
  induction v with
  | nil => rfl
  | cons a v ih =>
    by_cases ha : a = 92
    · subst ha
      rw [List.dropWhile_cons_of_pos (by simp)]
      apply ih
      rw [List.reverse_cons] at h
      exact isUtf8_snoc_ascii (by decide) h
    · rw [List.dropWhile_cons_of_neg (by simpa using ha)]
      exact h

theorem trim_ok {v : Bytes} (h1 : (0 : UInt8) ∉ v) (h2 : isUtf8 v = true) :
    (0 : UInt8) ∉ trimBackslash v ∧ isUtf8 (trimBackslash v) = true := by
  unfold trimBackslash
  constructor
  · intro h
    rw [List.mem_reverse] at h
    have := (List.dropWhile_suffix (fun x : UInt8 => x == 92)).subset h
    rw [List.mem_reverse] at this
    exact h1 ((List.dropWhile_suffix (fun x : UInt8 => x == 92)).subset this)
  · apply utf8_dropWhile_back
    rw [List.reverse_reverse]
    exact utf8_dropWhile_front h2

/-- C07 (reachability of its hypothesis): every history of representable calls leads to a representable
archive. -/
theorem C07_valid_of_history (ops : List Op) (h : ∀ op ∈ ops, OpOk op) : Valid (runOps ops) := by
  induction ops using List.reverseRecOn with
  | nil => exact ⟨by simp [runOps, WPbo.new], by simp [runOps, WPbo.new, IMap.keys],
      by simp [runOps, WPbo.new], by simp [runOps, WPbo.new, IMap.keys]⟩
  | append_singleton ops op ih =>
    have hv := ih (fun o ho => h o (by simp [ho]))
    have ho := h op (by simp)
    rw [runOps_snoc]
    have hk := apply_keys (runOps ops) op ⟨hv.propKeys, hv.fileKeys⟩
    refine ⟨?_, hk.1, ?_, hk.2⟩
    · intro kv hkv
      cases op with
      | addFile n c =>
        apply hv.props
        simp only [apply, WPbo.addFile] at hkv
        split at hkv
        · rename_i p' heq
          split at heq
          · cases heq
          · cases heq; exact hkv
        · exact hkv
      | addFileWithHeader hd c => exact hv.props kv hkv
      | addProperty k v =>
        rcases IMap.mem_insert hkv with rfl | hkv
        · obtain ⟨a1, a2, a3, a4, a5⟩ := ho
          have := trim_ok a3 a5
          exact ⟨a1, a2, this.1, a4, this.2⟩
        · exact hv.props kv hkv
      | removeProperty k => exact hv.props kv (IMap.mem_swapRemove hv.propKeys hkv)
    · intro e he
      cases op with
      | addFile n c =>
        simp only [apply, WPbo.addFile] at he
        split at he
        · rename_i p' heq
          split at heq
          · cases heq
          · rename_i hlen
            cases heq
            rcases IMap.mem_insert he with rfl | he
            · obtain ⟨a1, a2, a3⟩ := norm_ok ho.1 ho.2.1 ho.2.2
              have hl : c.length < 2 ^ 32 := by omega
              exact ⟨rfl, norm_norm n, a1, ⟨a2, a3, hl, by simp [Header.newForFile, Header.default],
                by simp [Header.newForFile, Header.default], hl⟩, by simp [Header.newForFile, Header.default], rfl⟩
            · exact hv.files e he
        · exact hv.files e he
      | addFileWithHeader hd c =>
        rcases IMap.mem_insert he with rfl | he
        · have : FileOk (hd.filename, (c, hd)) := ho
          exact ⟨this.normed, this.normed, this.ne, this.hdr, this.mime, this.size⟩
        · exact hv.files e he
      | addProperty k v => exact hv.files e he
      | removeProperty k => exact hv.files e he

/-! ### C07: round trip -/

/-- No two stored names are equal after lower-casing. -/
def CaseDistinct (lower : Bytes → Bytes) (p : WPbo) : Prop :=
  ∀ a ∈ p.files, ∀ b ∈ p.files, lower a.2.2.filename = lower b.2.2.filename → a = b

/-- C07: for every representable archive, every hash iteration order and every digest function, writing
succeeds and the written bytes read back to the same properties (`prefix` first, the others in order),
the same file headers, the stored checksum, and, when no two names differ only by case, every file under
any spelling of its name with exactly its content, and nothing under any other name. -/
theorem C07_round_trip (H lower : Bytes → Bytes) (hH : ∀ x, (H x).length = 20) (p : WPbo) (hv : Valid p)
    (iter : List (Bytes × (Bytes × Header))) (hi : iter.Perm p.files) (b : Bool) :
    ∃ out sum r, p.write H lower iter b = .ok (out, sum) ∧ RPbo.from out = .ok r ∧
      -- properties
      (b = true → r.properties.Perm p.properties ∧
        (∀ v, p.property prefixKey = some v → r.properties.head? = some (prefixKey, v)) ∧
        r.properties.filter (fun kv => kv.1 ≠ prefixKey) = p.properties.filter (fun kv => kv.1 ≠ prefixKey)) ∧
      (b = false → r.properties = []) ∧
      -- headers and checksum
      r.headers.Perm (p.files.map (fun e => e.2.2)) ∧
      r.checksum = sum ∧
      -- contents
      (CaseDistinct lower p →
        (∀ e ∈ p.files, ∀ name, lower (norm name) = lower e.2.2.filename →
          r.file lower name = some e.2.1) ∧
        (∀ name, (∀ e ∈ p.files, lower e.2.2.filename ≠ lower (norm name)) → r.file lower name = none)) := by
  obtain ⟨csl, h1, h2, h3, h4⟩ := read_write H lower hH hv hi b
  refine ⟨_, _, _, h3, h4, ?_, ?_, ?_, rfl, ?_⟩
  · rintro rfl
    simp only [if_true]
    refine ⟨propsOrder_perm _, ?_, ?_⟩
    · intro v hv'
      have := filter_prefix p.properties hv.propKeys
      unfold WPbo.property at hv'
      rw [hv'] at this
      simp [propsOrder, this]
    · have hx : ∀ l : List (Bytes × Bytes), (l.filter (fun kv => decide (kv.1 = prefixKey))).filter
          (fun kv => decide (kv.1 ≠ prefixKey)) = [] := by
        intro l
        rw [List.filter_filter, List.filter_eq_nil_iff]
        intro a _; by_cases h : a.1 = prefixKey <;> simp [h]
      simp only [propsOrder, List.filter_append, hx, List.nil_append, List.filter_filter, Bool.and_self]
  · rintro rfl; rfl
  · exact (filesSorted_perm lower iter).trans (hi.map _)
  · intro hd
    have hfile : ∀ name, RPbo.file lower
        ⟨if b then propsOrder p.properties else [], if b then some Header.property else none,
         filesSorted lower iter, H (p.headerBytes lower iter b ++ csl.flatten),
         p.headerBytes lower iter b ++ csl.flatten ++ [0] ++ H (p.headerBytes lower iter b ++ csl.flatten),
         (p.headerBytes lower iter b).length⟩ name =
        ((filesSorted lower iter).find? (fun h => lower h.filename = lower (norm name))).bind
          (fun h => p.file h.filename) := by
      intro name
      have := locate_contents lower p.file (filesSorted lower iter) (p.headerBytes lower iter b)
        ([0] ++ H (p.headerBytes lower iter b ++ csl.flatten)) csl.flatten name h2 rfl
      rw [← this]
      simp [RPbo.file]
    have hmem : ∀ h, h ∈ filesSorted lower iter ↔ ∃ e ∈ p.files, e.2.2 = h := by
      intro h
      rw [((filesSorted_perm lower iter).trans (hi.map _)).mem_iff, List.mem_map]
    constructor
    · intro e he name hn
      rw [hfile]
      cases hf : (filesSorted lower iter).find? (fun h => lower h.filename = lower (norm name)) with
      | none =>
        rw [List.find?_eq_none] at hf
        exact absurd hn.symm (by simpa using hf e.2.2 ((hmem _).2 ⟨e, he, rfl⟩))
      | some h =>
        have hp := List.find?_some hf
        obtain ⟨e', he', rfl⟩ := (hmem h).1 (List.mem_of_find?_eq_some hf)
        have : e' = e := hd e' he' e he (by simpa [hn] using hp)
        subst this
        exact file_of_mem hv he
    · intro name hno
      rw [hfile]
      have : (filesSorted lower iter).find? (fun h => lower h.filename = lower (norm name)) = none := by
        rw [List.find?_eq_none]
        intro h hh
        obtain ⟨e, he, rfl⟩ := (hmem h).1 hh
        simpa using hno e he
      rw [this]; rfl

/-- ASCII lower-casing, an instance of the `lower` parameter for concrete cases. -/
def asciiLower (s : Bytes) : Bytes := s.map (fun b => if 65 ≤ b ∧ b ≤ 90 then b + 32 else b)

/-- A concrete history satisfying the hypotheses of `C07_round_trip`. -/
example :
    let ops : List Op := [.addProperty [118] [49], .addFile [98, 47, 99] [1, 2, 3], .addProperty prefixKey [122, 92],
      .addFile [97] []]
    (∀ op ∈ ops, OpOk op) ∧ CaseDistinct asciiLower (runOps ops) ∧ (runOps ops).files.length = 2 := by
  refine ⟨?_, ?_, by decide⟩
  · intro op hop
    simp only [List.mem_cons, List.not_mem_nil, or_false] at hop
    rcases hop with rfl | rfl | rfl | rfl
    · exact ⟨by decide, by decide, by decide, by decide, by decide⟩
    · exact ⟨by decide, by decide, by decide⟩
    · exact ⟨by decide, by decide, by decide, by decide, by decide⟩
    · exact ⟨by decide, by decide, by decide⟩
  · unfold CaseDistinct; decide

/-! ### C08: checksum -/

theorem sortedContents_eq {lower : Bytes → Bytes} {r : RPbo} {get : Bytes → Option Bytes}
    {hs : List Header} {csl : List Bytes}
    (h : List.Forall₂ (fun h c => get h.filename = some c ∧ c.length = h.size) hs csl)
    (hf : ∀ h ∈ hs, r.file lower h.filename = get h.filename) :
    r.sortedContents lower hs = some csl.flatten := by
  induction h with
  | nil => rfl
  | cons hc _ ih =>
    simp only [RPbo.sortedContents]
    rw [hf _ (by simp), hc.1, ih (fun h hh => hf h (by simp [hh]))]
    simp

/-- C08: for an archive written with its properties section and without names that differ only by case,
the recomputed checksum equals the stored one. -/
theorem C08_checksum (H lower : Bytes → Bytes) (hH : ∀ x, (H x).length = 20) (p : WPbo) (hv : Valid p)
    (hd : CaseDistinct lower p)
    (iter : List (Bytes × (Bytes × Header))) (hi : iter.Perm p.files) :
    ∃ out sum r, p.write H lower iter true = .ok (out, sum) ∧ RPbo.from out = .ok r ∧
      r.checksum = sum ∧ r.genChecksum H lower = some sum := by
  obtain ⟨out, sum, r, hw, hr, _, _, hperm, hsum, hcont⟩ := C07_round_trip H lower hH p hv iter hi true
  refine ⟨out, sum, r, hw, hr, hsum, ?_⟩
  obtain ⟨csl, h1, h2, h3, h4⟩ := read_write H lower hH hv hi true
  rw [h3] at hw; cases hw
  rw [h4] at hr; cases hr
  have hsorted : (filesSorted lower iter).mergeSort (hdrLe lower) = filesSorted lower iter :=
    List.mergeSort_of_pairwise (filesSorted_pairwise lower iter)
  have hfile := (hcont hd).1
  have hcs := sortedContents_eq (lower := lower) (r := ⟨if true then propsOrder p.properties else [],
      if true then some Header.property else none,
      filesSorted lower iter, H (p.headerBytes lower iter true ++ csl.flatten),
      p.headerBytes lower iter true ++ csl.flatten ++ [0] ++ H (p.headerBytes lower iter true ++ csl.flatten),
      (p.headerBytes lower iter true).length⟩) h2 (by
    intro h hh
    have := hperm.mem_iff.1 hh
    obtain ⟨e, he, rfl⟩ := List.mem_map.1 this
    rw [hfile e he _ (by rw [(hv.files e he).normed]), file_of_mem hv he])
  unfold RPbo.genChecksum RPbo.checksumInput RPbo.filesSorted
  dsimp only
  rw [hsorted, hcs, Option.map_some, Option.map_some, Option.some.injEq]
  congr 1
  have hp : (IMap.keys (propsOrder p.properties)).Nodup :=
    ((propsOrder_perm p.properties).map Prod.fst).nodup_iff.2 hv.propKeys
  simp only [if_true, WPbo.headerBytes, writeProps_eq _ hp, propsOrder_idem, writeProps_eq _ hv.propKeys]

/-- C08, negative: for an archive written without its properties section the digest inputs always
differ (the reader adds the byte that ends the missing section). -/
theorem C08_no_properties_differs (H lower : Bytes → Bytes) (hH : ∀ x, (H x).length = 20) (p : WPbo)
    (hv : Valid p) (hd : CaseDistinct lower p)
    (iter : List (Bytes × (Bytes × Header))) (hi : iter.Perm p.files) :
    ∃ out sum r hashed inp, p.write H lower iter false = .ok (out, sum) ∧ RPbo.from out = .ok r ∧
      out = hashed ++ [0] ++ H hashed ∧ r.checksum = H hashed ∧
      r.checksumInput lower = some inp ∧ inp = 0 :: hashed := by
  obtain ⟨out, sum, r, hw, hr, _, _, hperm, hsum, hcont⟩ := C07_round_trip H lower hH p hv iter hi false
  obtain ⟨csl, h1, h2, h3, h4⟩ := read_write H lower hH hv hi false
  refine ⟨out, sum, r, p.headerBytes lower iter false ++ csl.flatten, _, hw, hr, ?_, ?_, ?_, rfl⟩
  · rw [h3] at hw; cases hw; rfl
  · rw [h3] at hw; cases hw; exact hsum
  rw [h3] at hw; cases hw
  rw [h4] at hr; cases hr
  have hsorted : (filesSorted lower iter).mergeSort (hdrLe lower) = filesSorted lower iter :=
    List.mergeSort_of_pairwise (filesSorted_pairwise lower iter)
  have hfile := (hcont hd).1
  have hcs := sortedContents_eq (lower := lower) (r := ⟨if false then propsOrder p.properties else [],
      if false then some Header.property else none,
      filesSorted lower iter, H (p.headerBytes lower iter false ++ csl.flatten),
      p.headerBytes lower iter false ++ csl.flatten ++ [0] ++ H (p.headerBytes lower iter false ++ csl.flatten),
      (p.headerBytes lower iter false).length⟩) h2 (by
    intro h hh
    have := hperm.mem_iff.1 hh
    obtain ⟨e, he, rfl⟩ := List.mem_map.1 this
    rw [hfile e he _ (by rw [(hv.files e he).normed]), file_of_mem hv he])
  unfold RPbo.checksumInput RPbo.filesSorted
  simp only [hsorted, hcs, Option.map_some, Option.some.injEq]
  simp [WPbo.headerBytes, writeProps, IMap.get]

/-- An archive holding `a` (content 1) and `A` (content 2). -/
def twoCases : WPbo := runOps [.addFile [97] [1], .addFile [65] [2]]

theorem twoCases_valid : Valid twoCases := by
  apply C07_valid_of_history
  intro op hop
  simp only [List.mem_cons, List.not_mem_nil, or_false] at hop
  rcases hop with rfl | rfl
  · exact ⟨by decide, by decide, by decide⟩
  · exact ⟨by decide, by decide, by decide⟩

theorem twoCases_sorted : filesSorted asciiLower twoCases.files = twoCases.files.map (fun e => e.2.2) := by
  apply List.mergeSort_of_pairwise; decide

/-- C08, negative: with two names that differ only by case, the digest input the reader rebuilds is not
the one the writer hashed: the first file's content occurs twice. -/
theorem C08_case_clash_differs (H : Bytes → Bytes) (hH : ∀ x, (H x).length = 20) :
    ∃ out r hashed inp, twoCases.write H asciiLower twoCases.files true = .ok (out, H hashed) ∧
      RPbo.from out = .ok r ∧ r.checksum = H hashed ∧ r.checksumInput asciiLower = some inp ∧
      hashed.drop (hashed.length - 2) = [1, 2] ∧ inp.drop (inp.length - 2) = [1, 1] := by
  obtain ⟨csl, h1, h2, h3, h4⟩ := read_write H asciiLower hH twoCases_valid (List.Perm.refl _) true
  have hcs : csl.flatten = [1, 2] := by
    have c1 : twoCases.contents (filesSorted asciiLower twoCases.files) = some [1, 2] := by
      rw [twoCases_sorted]; decide
    rw [c1] at h1; exact (Option.some.inj h1).symm
  have hfile : ∀ h ∈ twoCases.files.map (fun e => e.2.2), RPbo.file asciiLower
        ⟨if true then propsOrder twoCases.properties else [], if true then some Header.property else none,
         filesSorted asciiLower twoCases.files, H (twoCases.headerBytes asciiLower twoCases.files true ++ csl.flatten),
         twoCases.headerBytes asciiLower twoCases.files true ++ csl.flatten ++ [0] ++
          H (twoCases.headerBytes asciiLower twoCases.files true ++ csl.flatten),
         (twoCases.headerBytes asciiLower twoCases.files true).length⟩ h.filename = some [1] := by
    intro h hh
    have := locate_contents asciiLower twoCases.file (filesSorted asciiLower twoCases.files)
      (twoCases.headerBytes asciiLower twoCases.files true)
      ([0] ++ H (twoCases.headerBytes asciiLower twoCases.files true ++ csl.flatten)) csl.flatten h.filename h2 rfl
    rw [twoCases_sorted] at this ⊢
    have hx : ((twoCases.files.map (fun e => e.2.2)).find?
        (fun h' => asciiLower h'.filename = asciiLower (norm h.filename))).bind
          (fun h => twoCases.file h.filename) = some [1] := by
      clear this; revert h; decide
    rw [hx] at this
    rw [← this]
    simp [RPbo.file]
  refine ⟨_, _, _, twoCases.headerBytes asciiLower twoCases.files true ++ [1, 1], h3, h4, rfl, ?_, ?_, ?_⟩
  · unfold RPbo.checksumInput RPbo.filesSorted
    dsimp only
    have hs : (filesSorted asciiLower twoCases.files).mergeSort (hdrLe asciiLower)
        = twoCases.files.map (fun e => e.2.2) := by
      rw [← twoCases_sorted]
      exact List.mergeSort_of_pairwise (filesSorted_pairwise asciiLower _)
    rw [hs]
    rw [sortedContents_eq (get := fun _ => some [1]) (csl := [[1], [1]]) ?_ hfile]
    · rw [Option.map_some, Option.some.injEq]
      have hp : (IMap.keys (propsOrder twoCases.properties)).Nodup := by decide
      simp only [if_true, WPbo.headerBytes, twoCases_sorted]
      rfl
    · exact List.Forall₂.cons ⟨rfl, rfl⟩ (List.Forall₂.cons ⟨rfl, rfl⟩ List.Forall₂.nil)
  · rw [hcs]; simp
  · simp

/-! ### C09: order and determinism -/

theorem isSortedFrom_of_pairwise (lower : Bytes → Bytes) (h : Header) (hs : List Header)
    (hp : (h :: hs).Pairwise (fun a b => hdrLe lower a b = true)) : isSortedFrom lower h hs = true := by
  induction hs generalizing h with
  | nil => rfl
  | cons c cs ih =>
    have h1 : hdrLe lower h c = true := by
      rw [List.pairwise_cons] at hp; exact hp.1 c (by simp)
    simp only [isSortedFrom, h1, if_true]
    exact ih c (List.Pairwise.of_cons hp)

/-- C09: whatever the iteration order, the written archive lists its files in lower-case order and
the reader's own check accepts it. -/
theorem C09_sorted (H lower : Bytes → Bytes) (hH : ∀ x, (H x).length = 20) (p : WPbo) (hv : Valid p)
    (iter : List (Bytes × (Bytes × Header))) (hi : iter.Perm p.files) (b : Bool) :
    ∃ out sum r, p.write H lower iter b = .ok (out, sum) ∧ RPbo.from out = .ok r ∧
      r.headers.Pairwise (fun x y => lexLe (lower x.filename) (lower y.filename) = true) ∧
      r.isSorted lower = true := by
  obtain ⟨csl, h1, h2, h3, h4⟩ := read_write H lower hH hv hi b
  refine ⟨_, _, _, h3, h4, filesSorted_pairwise lower iter, ?_⟩
  have := filesSorted_pairwise lower iter
  unfold RPbo.isSorted
  dsimp only
  split
  · rfl
  · rename_i h hs heq
    rw [heq] at this
    exact isSortedFrom_of_pairwise lower h hs this

/-- C09: two builders holding the same files (in any table order) and the same properties write the
same bytes, whatever the iteration orders, unless two names differ only by case. -/
theorem C09_deterministic (H lower : Bytes → Bytes) (p p' : WPbo)
    (hprops : p.properties = p'.properties) (hfiles : p.files.Perm p'.files)
    (hk : (IMap.keys p.files).Nodup)
    (hd : CaseDistinct lower p) (iter iter' : List (Bytes × (Bytes × Header)))
    (hi : iter.Perm p.files) (hi' : iter'.Perm p'.files) (b : Bool) :
    p.write H lower iter b = p'.write H lower iter' b := by
  have hi' := hi'.trans hfiles.symm
  have : filesSorted lower iter = filesSorted lower iter' := by
    apply List.Perm.eq_of_pairwise (le := fun a b => hdrLe lower a b = true)
    · intro x y hx hy hxy hyx
      have e := lexLe_antisymm _ _ hxy hyx
      have hx' := ((filesSorted_perm lower iter).trans (hi.map _)).mem_iff.1 hx
      have hy' := ((filesSorted_perm lower iter').trans (hi'.map _)).mem_iff.1 hy
      obtain ⟨ex, hex, rfl⟩ := List.mem_map.1 hx'
      obtain ⟨ey, hey, rfl⟩ := List.mem_map.1 hy'
      rw [hd ex hex ey hey e]
    · exact filesSorted_pairwise lower iter
    · exact filesSorted_pairwise lower iter'
    · exact ((filesSorted_perm lower iter).trans (hi.map _)).trans
        ((filesSorted_perm lower iter').trans (hi'.map _)).symm
  have hget : ∀ n, p.file n = p'.file n := by
    intro n
    unfold WPbo.file
    rw [IMap.get_perm hfiles hk]
  have hc : ∀ hs, p.contents hs = p'.contents hs := by
    intro hs
    induction hs with
    | nil => rfl
    | cons h hs ih => simp only [WPbo.contents, hget, ih]
  unfold WPbo.write WPbo.headerBytes
  rw [this, hprops, hc]

/-- Builder after adding the files one after the other. -/
def addAll (fs : List (Bytes × Bytes)) : WPbo := runOps (fs.map (fun f => .addFile f.1 f.2))

theorem addAll_eq (lower : Bytes → Bytes) (fs : List (Bytes × Bytes))
    (h : (fs.map (fun f => lower (norm f.1))).Nodup) :
    addAll fs = ⟨[], (fs.filter (fun f => f.2.length < 2 ^ 32)).map
      (fun f => (norm f.1, (f.2, Header.newForFile (norm f.1) f.2.length)))⟩ := by
  induction fs using List.reverseRecOn with
  | nil => rfl
  | append_singleton fs f ih =>
    rw [List.map_append, List.nodup_append] at h
    have ih := ih h.1
    unfold addAll at ih ⊢
    rw [List.map_append, List.map_singleton, runOps_snoc, ih]
    simp only [apply, WPbo.addFile]
    by_cases hc : f.2.length > 2 ^ 32 - 1
    · rw [if_pos hc]
      have : ¬ f.2.length < 2 ^ 32 := by omega
      rw [List.filter_append, List.filter_cons_of_neg (by simpa using this)]
      simp
    · rw [if_neg hc]
      have hlt : f.2.length < 2 ^ 32 := by omega
      have hnew : ∀ m : List (Bytes × (Bytes × Header)), norm f.1 ∉ IMap.keys m → ∀ v,
          IMap.insert m (norm f.1) v = m ++ [(norm f.1, v)] := by
        intro m hm v
        induction m with
        | nil => rfl
        | cons x m ihm =>
          simp only [IMap.keys, List.map_cons, List.mem_cons, not_or] at hm
          have := ihm hm.2
          unfold IMap.insert at this ⊢
          have hx : ¬ x.1 = norm f.1 := fun e => hm.1 e.symm
          simp_all [IMap.keys]
      simp only
      rw [hnew]
      · rw [List.filter_append, List.filter_cons_of_pos (by simpa using hlt)]
        simp
      · intro hmem
        simp only [IMap.keys, List.map_map, List.mem_map, List.mem_filter, Function.comp] at hmem
        obtain ⟨g, ⟨hg, _⟩, he⟩ := hmem
        exact h.2.2 _ (List.mem_map_of_mem hg) (lower (norm f.1)) (by simp) (by rw [he])

/-- C09: the order in which files are added does not matter: if no two added names are equal after
lower-casing, every order of the additions and every iteration order gives the same bytes. -/
theorem C09_addition_order (H lower : Bytes → Bytes) (fs fs' : List (Bytes × Bytes)) (hp : fs.Perm fs')
    (hdist : (fs.map (fun f => lower (norm f.1))).Nodup)
    (iter iter' : List (Bytes × (Bytes × Header)))
    (hi : iter.Perm (addAll fs).files) (hi' : iter'.Perm (addAll fs').files) (b : Bool) :
    (addAll fs).write H lower iter b = (addAll fs').write H lower iter' b := by
  have hdist' : (fs'.map (fun f => lower (norm f.1))).Nodup := (hp.map _).nodup_iff.1 hdist
  have e := addAll_eq lower fs hdist
  have e' := addAll_eq lower fs' hdist'
  apply C09_deterministic H lower _ _ ?_ ?_ ?_ ?_ _ _ hi hi'
  · rw [e, e']
  · rw [e, e']; exact (hp.filter _).map _
  · exact (C10_history _).2.2.2
  · rw [e]
    intro x hx y hy hxy
    simp only [List.mem_map, List.mem_filter] at hx hy
    obtain ⟨f, ⟨hf, _⟩, rfl⟩ := hx
    obtain ⟨g, ⟨hg, _⟩, rfl⟩ := hy
    have := List.inj_on_of_nodup_map hdist hf hg hxy
    rw [this]

example : (([([98], [1]), ([65, 47], [2])] : List (Bytes × Bytes)).map (fun f => asciiLower (norm f.1))).Nodup := by
  decide

/-- C09, negative: with two names that differ only by case the bytes depend on the iteration order. -/
theorem C09_case_clash_nondeterministic (H : Bytes → Bytes) :
    ∃ iter iter', iter.Perm twoCases.files ∧ iter'.Perm twoCases.files ∧ Valid twoCases ∧
      twoCases.write H asciiLower iter true ≠ twoCases.write H asciiLower iter' true := by
  refine ⟨twoCases.files, twoCases.files.reverse, List.Perm.refl _, List.reverse_perm _, twoCases_valid, ?_⟩
  · have e1 := twoCases_sorted
    have e2 : filesSorted asciiLower twoCases.files.reverse = twoCases.files.reverse.map (fun e => e.2.2) := by
      apply List.mergeSort_of_pairwise; decide
    unfold WPbo.write WPbo.headerBytes
    rw [e1, e2]
    have c1 : twoCases.contents (twoCases.files.map (fun e => e.2.2)) = some [1, 2] := by decide
    have c2 : twoCases.contents (twoCases.files.reverse.map (fun e => e.2.2)) = some [2, 1] := by decide
    rw [c1, c2]
    simp only [ne_eq, Except.ok.injEq, Prod.mk.injEq, not_and]
    intro h
    exfalso
    have := congrArg (fun l : Bytes => l[22]?) h
    revert this
    simp [Header.write, writeProps, Header.property, Header.default, twoCases, runOps, apply, WPbo.addFile,
      WPbo.new, IMap.insert, IMap.get, norm, Header.newForFile, le32, leBytes]

end Verif.Pbo
