import Verif.Lib.PboRead
/-! What holds of every archive that `RPbo.from` accepts. -/
namespace Verif.Pbo
open Verif.Io

theorem readCString_ok (bs : Bytes) : (0 : UInt8) ∉ (readCString bs).1 ∧ isUtf8 (readCString bs).1 = true := by
  unfold readCString
  dsimp only
  split
  · rename_i h; exact ⟨cstringBytes_no_zero bs, h⟩
  · exact ⟨by simp, rfl⟩

theorem readLe_lt {k x : Nat} {bs r : Bytes} (h : readLe k bs = .ok (x, r)) : x < 256 ^ k := by
  unfold readLe takeN at h
  split at h
  · rename_i v rest heq
    split at heq
    · cases heq
    · rename_i hl
      cases heq; cases h
      have := leValue_lt (bs.take k)
      simp only [List.length_take] at this
      rwa [Nat.min_eq_left (by omega)] at this
  · cases h

theorem Header.read_ok {bs r : Bytes} {h : Header} {n : Nat} (e : Header.read bs = .ok (h, n, r)) :
    HeaderOk h := by
  unfold Header.read at e
  dsimp only [bind, Except.bind] at e
  have h0 := readCString_ok bs
  repeat' (split at e <;> try (cases e; done))
  cases e
  rename_i h1 _ _ _ _ _ h2 _ _ h3 _ _ h4 _ _ h5
  have h2 := readLe_lt h2
  have h3 := readLe_lt h3
  have h4 := readLe_lt h4
  have h5 := readLe_lt h5
  norm_num at h2 h3 h4 h5
  exact ⟨h0.1, h0.2, h2, h3, h4, h5⟩

/-- Well-formed header tables. -/
structure TableOk (props : List (Bytes × Bytes)) (vers : Option Header) (headers : List Header) : Prop where
  propsOk : ∀ kv ∈ props, PropOk kv
  keysOk : (IMap.keys props).Nodup
  versOk : ∀ h, vers = some h → HeaderOk h ∧ h.mime = .vers
  headersOk : ∀ h ∈ headers, HeaderOk h ∧ h.filename ≠ [] ∧ h.mime ≠ .vers

theorem readProps_ok (bs : Bytes) (props : List (Bytes × Bytes)) (n : Nat)
    (h : (∀ kv ∈ props, PropOk kv) ∧ (IMap.keys props).Nodup) :
    (∀ kv ∈ (readProps bs props n).1, PropOk kv) ∧ (IMap.keys (readProps bs props n).1).Nodup := by
  fun_induction readProps bs props n with
  | case1 => exact h
  | case2 bs props n hne key value ih =>
    apply ih
    refine ⟨?_, IMap.nodup_insert _ _ _ h.2⟩
    intro kv hkv
    rcases IMap.mem_insert hkv with rfl | hkv
    · have h1 := readCString_ok bs
      have h2 := readCString_ok (readCString bs).2
      exact ⟨hne, h1.1, h2.1, h1.2, h2.2⟩
    · exact h.1 kv hkv

theorem readHeaders_ok (bs : Bytes) (props : List (Bytes × Bytes)) (vers : Option Header)
    (headers : List Header) (blob : Nat) (h : TableOk props vers headers)
    {o : List (Bytes × Bytes) × Option Header × List Header × Nat × Bytes}
    (e : readHeaders bs props vers headers blob = .ok o) : TableOk o.1 o.2.1 o.2.2.1 := by
  fun_induction readHeaders bs props vers headers blob with
  | case1 => cases e
  | case2 bs props vers headers blob hd n rest hr hm ih =>
    apply ih _ e
    have := readProps_ok rest props (blob + n) ⟨h.propsOk, h.keysOk⟩
    refine ⟨this.1, this.2, ?_, h.headersOk⟩
    rintro x ⟨⟩
    exact ⟨Header.read_ok hr, hm⟩
  | case3 bs props vers headers blob hd n rest hr hm hf =>
    cases e; exact h
  | case4 bs props vers headers blob hd n rest hr hm hf ih =>
    apply ih _ e
    refine ⟨h.propsOk, h.keysOk, h.versOk, ?_⟩
    intro x hx
    rcases List.mem_append.1 hx with hx | hx
    · exact h.headersOk x hx
    · rw [List.mem_singleton] at hx; subst hx
      exact ⟨Header.read_ok hr, hf, hm⟩

theorem readCString_count (bs : Bytes) :
    (readCString bs).1.length + 1 + (readCString bs).2.length ≤ bs.length ∨ (readCString bs).2 = [] := by
  have key : (cstringBytes bs).1.length + 1 + (cstringBytes bs).2.length ≤ bs.length ∨
      (cstringBytes bs).2 = [] := by
    induction bs with
    | nil => simp [cstringBytes]
    | cons b bs ih =>
      simp only [cstringBytes]
      split
      · left; simp; omega
      · rcases ih with ih | ih
        · left; simp; omega
        · right; exact ih
  unfold readCString
  dsimp only
  rcases key with k | k
  · left
    split
    · exact k
    · simp; omega
  · right; exact k

theorem readProps_count (bs : Bytes) (props : List (Bytes × Bytes)) (n : Nat) :
    (readProps bs props n).2.1 + (readProps bs props n).2.2.length ≤ n + bs.length ∨
      (readProps bs props n).2.2 = [] := by
  fun_induction readProps bs props n with
  | case1 bs props n h =>
    rcases readCString_count bs with k | k
    · left; dsimp only; omega
    · right; exact k
  | case2 bs props n h key value ih =>
    rcases ih with ih | ih
    · rcases readCString_count (readCString bs).2 with k2 | k2
      · rcases readCString_count bs with k | k
        · left
          have e1 : key.length = (readCString bs).1.length := rfl
          have e2 : value.length = (readCString (readCString bs).2).1.length := rfl
          omega
        · rw [k] at k2; simp at k2
      · right
        have hle := readProps_rest_le (readCString (readCString bs).2).2 (IMap.insert props key value)
          (n + (key.length + 1) + (value.length + 1))
        rw [k2] at hle ⊢
        exact List.length_eq_zero_iff.1 (by simpa using hle)
    · right; exact ih

theorem Header.read_count {bs r : Bytes} {h : Header} {n : Nat} (e : Header.read bs = .ok (h, n, r)) :
    n + r.length ≤ bs.length := by
  unfold Header.read at e
  dsimp only [bind, Except.bind] at e
  have h0 := readCString_count bs
  repeat' (split at e <;> try (cases e; done))
  cases e
  rename_i h1 _ _ _ _ _ h2 _ _ h3 _ _ h4 _ _ h5
  have := readLe_rest h1
  have := readLe_rest h2
  have := readLe_rest h3
  have := readLe_rest h4
  have := readLe_rest h5
  rcases h0 with h0 | h0
  · omega
  · rw [h0] at h1
    simp [readLe, takeN] at h1

theorem readHeaders_count (bs : Bytes) (props : List (Bytes × Bytes)) (vers : Option Header)
    (headers : List Header) (blob : Nat)
    {o : List (Bytes × Bytes) × Option Header × List Header × Nat × Bytes}
    (e : readHeaders bs props vers headers blob = .ok o) :
    o.2.2.2.1 + o.2.2.2.2.length ≤ blob + bs.length := by
  fun_induction readHeaders bs props vers headers blob with
  | case1 => cases e
  | case2 bs props vers headers blob hd n rest hr hm ih =>
    have h1 := ih e
    have h2 := readProps_count rest props (blob + n)
    have h3 := Header.read_count hr
    rcases h2 with h2 | h2
    · omega
    · rw [h2, readHeaders.eq_def] at e
      split at e
      · cases e
      · rename_i hx
        have := Header.read_count hx
        have := Header.read_rest hx
        simp at this
  | case3 bs props vers headers blob hd n rest hr hm hf =>
    cases e
    have h3 := Header.read_count hr
    dsimp only; omega
  | case4 bs props vers headers blob hd n rest hr hm hf ih =>
    have h1 := ih e
    have h3 := Header.read_count hr
    omega

theorem from_fits {bs : Bytes} {r : RPbo} (h : RPbo.from bs = .ok r) :
    r.input = bs ∧ r.blobStart + (r.headers.map Header.size).sum ≤ r.input.length := by
  unfold RPbo.from at h
  split at h
  · cases h
  · rename_i o heq
    rename_i props vers headers blob rest
    dsimp only at h
    have hc := readHeaders_count bs [] none [] 0 heq
    dsimp only at hc
    split at h
    · cases h
    · rename_i hx
      split at h
      · cases h
      · cases h
        refine ⟨rfl, ?_⟩
        unfold takeN at hx
        split at hx
        · cases hx
        · rename_i hl
          simp at hl
          dsimp only
          omega

theorem locate_fits (lower : Bytes → Bytes) (name : Bytes) (hs : List Header) (off : Nat)
    {ho : Header × Nat} (h : locate lower name hs off = some ho) :
    ho.1 ∈ hs ∧ ho.2 + ho.1.size ≤ off + (hs.map Header.size).sum := by
  induction hs generalizing off with
  | nil => cases h
  | cons x hs ih =>
    simp only [locate] at h
    split at h
    · cases h; simp
    · have := ih _ h
      simp only [List.map_cons, List.sum_cons, List.mem_cons]
      exact ⟨Or.inr this.1, by omega⟩

/-- Every stored file has exactly the size its header announces. -/
theorem from_file_length {bs : Bytes} {r : RPbo} (h : RPbo.from bs = .ok r) (lower : Bytes → Bytes)
    {name c : Bytes} (hf : r.file lower name = some c) :
    ∃ hd ∈ r.headers, lower hd.filename = lower (norm name) ∧ c.length = hd.size := by
  unfold RPbo.file at hf
  cases hl : locate lower name r.headers r.blobStart with
  | none => rw [hl] at hf; cases hf
  | some ho =>
    rw [hl] at hf; cases hf
    have h1 := locate_fits lower name r.headers r.blobStart hl
    have h2 := (from_fits h).2
    refine ⟨ho.1, h1.1, ?_, ?_⟩
    · clear h1 h2
      revert hl
      generalize r.blobStart = off
      generalize r.headers = hs
      induction hs generalizing off with
      | nil => intro hl; cases hl
      | cons x hs ih =>
        intro hl
        simp only [locate] at hl
        split at hl
        · cases hl; assumption
        · exact ih _ hl
    · simp only [List.length_take, List.length_drop]; omega

theorem file_isSome (lower : Bytes → Bytes) (r : RPbo) {h : Header} (hm : h ∈ r.headers) (name : Bytes)
    (hn : lower h.filename = lower (norm name)) : ∃ c, r.file lower name = some c := by
  unfold RPbo.file
  suffices hs : ∀ (hs : List Header) (off : Nat), h ∈ hs → ∃ ho, locate lower name hs off = some ho by
    obtain ⟨ho, e⟩ := hs _ r.blobStart hm
    exact ⟨_, by rw [e]; rfl⟩
  intro hs
  induction hs with
  | nil => intro _ h; cases h
  | cons x hs ih =>
    intro off hm
    simp only [locate]
    split
    · exact ⟨_, rfl⟩
    · rcases List.mem_cons.1 hm with rfl | hm
      · contradiction
      · exact ih _ hm

theorem from_ok {bs : Bytes} {r : RPbo} (h : RPbo.from bs = .ok r) :
    TableOk r.properties r.versHeader r.headers := by
  unfold RPbo.from at h
  split at h
  · cases h
  · rename_i o heq
    rename_i props vers headers blob rest
    dsimp only at h
    split at h
    · cases h
    · split at h
      · cases h
      · cases h
        exact readHeaders_ok bs [] none [] 0 ⟨by simp, by simp [IMap.keys], by simp, by simp⟩ heq

end Verif.Pbo
