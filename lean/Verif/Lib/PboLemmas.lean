import Verif.Model.Pbo
import Verif.Lib.IoLemmas
import Verif.Lib.Utf8
/-! Helper lemmas about the PBO model. -/
namespace Verif.Pbo
open Verif.Io

/-- A header whose text and numbers are representable. -/
structure HeaderOk (h : Header) : Prop where
  nz : (0 : UInt8) ∉ h.filename
  utf : isUtf8 h.filename = true
  o : h.original < 2 ^ 32
  r : h.reserved < 2 ^ 32
  t : h.timestamp < 2 ^ 32
  s : h.size < 2 ^ 32

theorem mime_round (m : Mime) : Mime.fromU32 m.asU32 = some m := by cases m <;> decide

theorem mime_lt (m : Mime) : m.asU32 < 256 ^ 4 := by cases m <;> decide

theorem Header.write_length (h : Header) : h.write.length = 4 * 5 + (h.filename.length + 1) := by
  simp [Header.write]; omega

theorem Header.read_write {h : Header} (ok : HeaderOk h) (rest : Bytes) :
    Header.read (h.write ++ rest) = .ok (h, h.write.length, rest) := by
  have e : h.write ++ rest = writeCString h.filename ++ (le32 h.mime.asU32 ++ (le32 h.original ++
      (le32 h.reserved ++ (le32 h.timestamp ++ (le32 h.size ++ rest))))) := by
    simp [Header.write, writeCString]
  rw [Header.write_length, e]
  unfold Header.read
  rw [readCString_write _ ok.nz ok.utf]
  dsimp only [bind, Except.bind]
  have p : (256:Nat) ^ 4 = 2 ^ 32 := by norm_num
  rw [readLe_leBytes _ (mime_lt _)]
  dsimp only
  rw [mime_round]
  dsimp only
  rw [readLe_leBytes _ (by rw [p]; exact ok.o)]
  dsimp only
  rw [readLe_leBytes _ (by rw [p]; exact ok.r)]
  dsimp only
  rw [readLe_leBytes _ (by rw [p]; exact ok.t)]
  dsimp only
  rw [readLe_leBytes _ (by rw [p]; exact ok.s)]

/-- A property pair that can be written. -/
structure PropOk (kv : Bytes × Bytes) : Prop where
  ne : kv.1 ≠ []
  kz : (0 : UInt8) ∉ kv.1
  vz : (0 : UInt8) ∉ kv.2
  ku : isUtf8 kv.1 = true
  vu : isUtf8 kv.2 = true

def encProp (kv : Bytes × Bytes) : Bytes := writeCString kv.1 ++ writeCString kv.2

theorem readProps_write (kvs : List (Bytes × Bytes)) (h : ∀ kv ∈ kvs, PropOk kv)
    (props : List (Bytes × Bytes)) (n : Nat) (rest : Bytes) :
    readProps (kvs.flatMap encProp ++ [0] ++ rest) props n =
      (kvs.foldl (fun m kv => IMap.insert m kv.1 kv.2) props,
       n + (kvs.flatMap encProp ++ [0]).length, rest) := by
  induction kvs generalizing props n with
  | nil =>
    rw [readProps]
    simp [readCString, cstringBytes, isUtf8]
  | cons kv kvs ih =>
    obtain ⟨hne, hkz, hvz, hku, hvu⟩ := h kv (by simp)
    have e : (kv :: kvs).flatMap encProp ++ [0] ++ rest =
        writeCString kv.1 ++ (writeCString kv.2 ++ (kvs.flatMap encProp ++ [0] ++ rest)) := by
      simp [encProp]
    rw [e, readProps]
    simp only [readCString_write _ hkz hku, hne, dif_neg, not_false_eq_true,
      readCString_write _ hvz hvu]
    rw [ih (fun kv h' => h kv (by simp [h']))]
    simp [encProp, writeCString]
    omega

theorem foldl_insert_nodup (kvs props : List (Bytes × Bytes))
    (h : (IMap.keys (props ++ kvs)).Nodup) :
    kvs.foldl (fun m kv => IMap.insert m kv.1 kv.2) props = props ++ kvs := by
  induction kvs generalizing props with
  | nil => simp
  | cons kv kvs ih =>
    have hins : ∀ (m : List (Bytes × Bytes)), kv.1 ∉ IMap.keys m →
        IMap.insert m kv.1 kv.2 = m ++ [kv] := by
      intro m hm
      induction m with
      | nil => simp [IMap.insert]
      | cons x m ihm =>
        obtain ⟨a, b⟩ := x
        simp only [IMap.keys, List.map_cons, List.mem_cons, not_or] at hm
        have : ¬ a = kv.1 := fun e => hm.1 e.symm
        simp [IMap.insert, this, ihm hm.2]
    have hn : kv.1 ∉ IMap.keys props := by
      intro hc
      simp only [IMap.keys, List.map_append, List.map_cons, List.nodup_append] at h
      exact h.2.2 _ hc _ (by simp) rfl
    rw [List.foldl_cons, hins props hn, ih]
    · simp
    · simpa using h

/-- The order in which properties are written: `prefix` first. -/
def propsOrder (props : List (Bytes × Bytes)) : List (Bytes × Bytes) :=
  props.filter (fun kv => kv.1 = prefixKey) ++ props.filter (fun kv => kv.1 ≠ prefixKey)

theorem propsOrder_perm (props : List (Bytes × Bytes)) : (propsOrder props).Perm props := by
  unfold propsOrder
  have := List.filter_append_perm (fun kv : Bytes × Bytes => decide (kv.1 = prefixKey)) props
  simpa using this

theorem filter_prefix (props : List (Bytes × Bytes)) (h : (IMap.keys props).Nodup) :
    props.filter (fun kv => kv.1 = prefixKey) =
      match IMap.get props prefixKey with
      | some p => [(prefixKey, p)]
      | none => [] := by
  induction props with
  | nil => rfl
  | cons x m ih =>
    obtain ⟨a, b⟩ := x
    simp only [IMap.keys, List.map_cons, List.nodup_cons] at h
    by_cases ha : a = prefixKey
    · subst ha
      have : m.filter (fun kv => decide (kv.1 = prefixKey)) = [] := by
        rw [List.filter_eq_nil_iff]
        intro y hy
        have : y.1 ≠ prefixKey := fun e => h.1 (e ▸ List.mem_map_of_mem hy)
        simpa using this
      simp [IMap.get, this]
    · simp [IMap.get, ha, ih h.2]

theorem writeProps_eq (props : List (Bytes × Bytes)) (h : (IMap.keys props).Nodup) :
    writeProps props = (propsOrder props).flatMap encProp ++ [0] := by
  have hrest : ∀ l : List (Bytes × Bytes),
      l.flatMap (fun kv => if kv.1 = prefixKey then [] else writeCString kv.1 ++ writeCString kv.2)
      = (l.filter (fun kv => kv.1 ≠ prefixKey)).flatMap encProp := by
    intro l
    induction l with
    | nil => rfl
    | cons x l ih =>
      by_cases hx : x.1 = prefixKey
      · rw [List.flatMap_cons, ih, List.filter_cons_of_neg (by simpa using hx)]
        simp [hx]
      · rw [List.flatMap_cons, ih, List.filter_cons_of_pos (by simpa using hx)]
        simp [hx, encProp]
  unfold writeProps propsOrder
  rw [hrest, filter_prefix props h, List.flatMap_append]
  cases IMap.get props prefixKey <;> simp [encProp]

theorem propsOrder_idem (props : List (Bytes × Bytes)) : propsOrder (propsOrder props) = propsOrder props := by
  unfold propsOrder
  simp only [List.filter_append, List.filter_filter]
  have h1 : ∀ l : List (Bytes × Bytes), l.filter (fun a => decide (a.1 = prefixKey) && decide (a.1 ≠ prefixKey)) = [] := by
    intro l; rw [List.filter_eq_nil_iff]; intro a _; by_cases h : a.1 = prefixKey <;> simp [h]
  have h2 : ∀ l : List (Bytes × Bytes), l.filter (fun a => decide (a.1 ≠ prefixKey) && decide (a.1 = prefixKey)) = [] := by
    intro l; rw [List.filter_eq_nil_iff]; intro a _; by_cases h : a.1 = prefixKey <;> simp [h]
  rw [h1, h2]
  simp

theorem readHeaders_files (hs : List Header) (hok : ∀ h ∈ hs, HeaderOk h ∧ h.filename ≠ [] ∧ h.mime ≠ .vers)
    (props : List (Bytes × Bytes)) (vers : Option Header) (acc : List Header) (blob : Nat) (rest : Bytes) :
    readHeaders (hs.flatMap Header.write ++ Header.default.write ++ rest) props vers acc blob =
      .ok (props, vers, acc ++ hs, blob + (hs.flatMap Header.write ++ Header.default.write).length, rest) := by
  induction hs generalizing acc blob with
  | nil =>
    rw [readHeaders.eq_def]
    have : HeaderOk Header.default := ⟨by simp [Header.default], by simp [Header.default, isUtf8],
      by simp [Header.default], by simp [Header.default], by simp [Header.default], by simp [Header.default]⟩
    split
    · rename_i e heq
      simp only [List.flatMap_nil, List.nil_append] at heq
      rw [Header.read_write this] at heq; cases heq
    · rename_i h n r heq
      simp only [List.flatMap_nil, List.nil_append] at heq
      rw [Header.read_write this] at heq
      cases heq
      simp [Header.default]
  | cons x hs ih =>
    obtain ⟨hx, hne, hm⟩ := hok x (by simp)
    rw [readHeaders.eq_def]
    have e : (x :: hs).flatMap Header.write ++ Header.default.write ++ rest =
      x.write ++ (hs.flatMap Header.write ++ Header.default.write ++ rest) := by simp
    rw [e]
    split
    · rename_i e heq
      rw [Header.read_write hx] at heq; cases heq
    · rename_i h n r heq
      rw [Header.read_write hx] at heq
      cases heq
      rw [if_neg hm, if_neg hne, ih (fun h hh => hok h (by simp [hh]))]
      simp
      omega

/-- Reading a property section written in front of `rest`. -/
theorem readHeaders_vers' (vh : Header) (hp : HeaderOk vh) (hm : vh.mime = .vers)
    (kvs : List (Bytes × Bytes)) (h : ∀ kv ∈ kvs, PropOk kv) (hn : (IMap.keys kvs).Nodup)
    (acc : List Header) (blob : Nat) (rest : Bytes) :
    readHeaders (vh.write ++ (kvs.flatMap encProp ++ [0]) ++ rest) [] none acc blob =
      readHeaders rest kvs (some vh) acc
        (blob + (vh.write ++ (kvs.flatMap encProp ++ [0])).length) := by
  rw [readHeaders.eq_def, List.append_assoc]
  split
  · rename_i e heq
    rw [Header.read_write hp] at heq; cases heq
  · rename_i h' n r heq
    rw [Header.read_write hp] at heq
    cases heq
    rw [if_pos hm, readProps_write kvs h]
    simp only
    rw [foldl_insert_nodup kvs [] (by simpa using hn)]
    simp only [List.nil_append, List.length_append]
    congr 1
    omega

theorem property_ok : HeaderOk Header.property := ⟨by simp [Header.property, Header.default],
      by simp [Header.property, Header.default, isUtf8], by simp [Header.property, Header.default],
      by simp [Header.property, Header.default], by simp [Header.property, Header.default],
      by simp [Header.property, Header.default]⟩

theorem readHeaders_vers (kvs : List (Bytes × Bytes)) (h : ∀ kv ∈ kvs, PropOk kv) (hn : (IMap.keys kvs).Nodup)
    (acc : List Header) (blob : Nat) (rest : Bytes) :
    readHeaders (Header.property.write ++ (kvs.flatMap encProp ++ [0]) ++ rest) [] none acc blob =
      readHeaders rest kvs (some Header.property) acc
        (blob + (Header.property.write ++ (kvs.flatMap encProp ++ [0])).length) :=
  readHeaders_vers' _ property_ok rfl kvs h hn acc blob rest

/-- The content of a list of headers under a lookup function. -/
theorem locate_contents (lower : Bytes → Bytes) (get : Bytes → Option Bytes)
    (hs : List Header) (pre post cs : Bytes) (name : Bytes)
    (hc : hs.Forall₂ (fun h c => get h.filename = some c ∧ c.length = h.size) (csl : List Bytes))
    (hcs : csl.flatten = cs) :
    (locate lower name hs pre.length).map (fun ho => ((pre ++ cs ++ post).drop ho.2).take ho.1.size) =
    (hs.find? (fun h => lower h.filename = lower (norm name))).bind (fun h => get h.filename) := by
  subst hcs
  induction hc generalizing pre with
  | nil => simp [locate]
  | @cons h c hs csl hhc _ ih =>
    simp only [locate]
    by_cases hm : lower h.filename = lower (norm name)
    · rw [if_pos hm, List.find?_cons_of_pos (by simpa using hm)]
      simp only [Option.map_some, Option.bind_some, hhc.1, Option.some.injEq]
      rw [List.append_assoc, List.drop_left, ← hhc.2]
      simp
    · rw [if_neg hm, List.find?_cons_of_neg (by simpa using hm)]
      have := ih (pre ++ c)
      rw [List.length_append, hhc.2] at this
      rw [← this]
      simp

end Verif.Pbo
