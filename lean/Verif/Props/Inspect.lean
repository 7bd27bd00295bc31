import Verif.Model.Inspect
import Verif.Props.Pbo
import Verif.Props.Signing
/-!
C127: `hemtt utils inspect`, `hemtt utils pbo inspect` and `hemtt utils pbo extract` on files that HEMTT wrote.
-/
namespace Verif.Inspect
open Verif.Io Verif.Pbo Verif.Sign

/-- The numbers of a public key fit the fields they are written to. -/
structure KeyFits (k : PubKey) : Prop where
  name : NameOk k.authority
  len : k.length < 2 ^ 32
  e : k.exponent < 2 ^ 32
  n : k.n < 256 ^ (k.length / 8)

/-- The numbers of a signature fit the fields they are written to. -/
structure SigFits (s : Sig) : Prop where
  name : NameOk s.authority
  len : s.length < 2 ^ 32
  e : s.exponent < 2 ^ 32
  n : s.n < 256 ^ (s.length / 8)
  sig1 : s.sig1 < 256 ^ (s.length / 8)
  sig2 : s.sig2 < 256 ^ (s.length / 8)
  sig3 : s.sig3 < 256 ^ (s.length / 8)

/-- The extensions that decide on their own what a file is taken for. -/
def known : List String := ["paa", "pbo", "bikey", "bisign", "cpp", "hpp"]

/-- The extension of the kind of file, or one that says nothing. -/
def Fits (ext kind : String) : Prop := ext = kind ∨ ext ∉ known

theorem inspect_other (H lower : Bytes → Bytes) (o : Other) {ext : String} (h : ext ∉ known) (bs : Bytes) :
    inspect H lower o ext bs = byContent H lower o bs := by
  simp only [known, List.mem_cons, List.not_mem_nil, or_false, not_or] at h
  obtain ⟨h1, h2, h3, h4, h5, h6⟩ := h
  unfold inspect
  split <;> first | contradiction | rfl

/-! ### Archives -/

/-- **C127**. An archive that was written with its properties, and has no names that differ only by case, is shown
with its properties, all its headers and the checksum, as sorted and without warnings; whatever the extension of the
file, as long as it is not that of another kind of file. -/
theorem C127_archive (H lower : Bytes → Bytes) (hH : ∀ x, (H x).length = 20) (o : Other) (p : WPbo) (hv : Valid p)
    (hd : CaseDistinct lower p) (iter : List (Bytes × (Bytes × Header))) (hi : iter.Perm p.files) (ext : String)
    (he : Fits ext "pbo") :
    ∃ out sum s, p.write H lower iter true = .ok (out, sum) ∧ inspect H lower o ext out = .ok (.pbo s) ∧
      s.properties.Perm p.properties ∧ s.files.Perm (p.files.map (fun e => e.2.2)) ∧
      s.stored = sum ∧ s.actual = sum ∧ s.sorted = true ∧ s.warnOrder = false ∧ s.warnHash = false := by
  obtain ⟨out, sum, r, hw, hr, hp, _, hf, hs, _⟩ := C07_round_trip H lower hH p hv iter hi true
  obtain ⟨out2, sum2, r2, hw2, hr2, _, hg⟩ := C08_checksum H lower hH p hv hd iter hi
  obtain ⟨out3, sum3, r3, hw3, hr3, _, hsort⟩ := C09_sorted H lower hH p hv iter hi true
  rw [hw] at hw2 hw3; cases hw2; cases hw3
  rw [hr] at hr2 hr3; cases hr2; cases hr3
  have hb : pboShown H lower out = .ok (.pbo ⟨r.properties, sum, sum, true, r.headers, false, false⟩) := by
    unfold pboShown inspectPbo
    rw [hr]; dsimp only
    rw [hg]; dsimp only
    rw [hsort, hs]; simp
  refine ⟨out, sum, ⟨r.properties, sum, sum, true, r.headers, false, false⟩, hw, ?_, (hp rfl).1, hf, rfl, rfl, rfl,
    rfl, rfl⟩
  rcases he with rfl | he
  · exact hb
  · rw [inspect_other H lower o he]
    have ht : out.take 6 = [0x00, 0x73, 0x72, 0x65, 0x56, 0x00] ∧ 6 ≤ out.length := by
      unfold WPbo.write at hw
      split at hw
      · cases hw
      · cases hw
        have e : Header.property.write = [0x00, 0x73, 0x72, 0x65, 0x56, 0x00] ++ Header.property.write.drop 6 := by
          decide +kernel
        unfold WPbo.headerBytes
        rw [if_pos rfl, e]
        simp only [List.append_assoc]
        exact ⟨List.take_left' rfl, by simp⟩
    unfold byContent
    rw [if_neg (by omega), if_pos ht.1]
    exact hb

/-- **C127**. What is shown of an archive is what stands in it: properties, files, the hash stored in it and the hash of what it
contains. The warning about the hash is given exactly if the hash stored in an archive is not that of what it
contains, and the one about the order exactly if the files are not in the order of their names. -/
theorem C127_warnings (H lower : Bytes → Bytes) (bs : Bytes) (s : PboShown) (h : inspectPbo H lower bs = .ok s) :
    ∃ r, RPbo.from bs = .ok r ∧ s.files = r.headers ∧ s.properties = r.properties ∧ s.stored = r.checksum ∧
      (∃ i, r.checksumInput lower = some i ∧ s.actual = H i) ∧
      (s.warnHash = true ↔ ∃ i, r.checksumInput lower = some i ∧ H i ≠ r.checksum) ∧
      (s.warnOrder = true ↔ ¬ r.headers.Pairwise (fun x y => lexLe (lower x.filename) (lower y.filename) = true)) := by
  unfold inspectPbo at h
  split at h
  · cases h
  · rename_i r hr
    split at h
    · cases h
    · rename_i actual ha
      cases h
      refine ⟨r, hr, rfl, rfl, rfl, ?_, ?_, ?_⟩
      · unfold RPbo.genChecksum at ha
        cases hc : r.checksumInput lower with
        | none => rw [hc] at ha; cases ha
        | some i =>
          rw [hc] at ha
          exact ⟨i, rfl, (Option.some.inj ha).symm⟩
      · unfold RPbo.genChecksum at ha
        cases hc : r.checksumInput lower with
        | none => rw [hc] at ha; cases ha
        | some i =>
          rw [hc] at ha
          have : H i = actual := Option.some.inj ha
          subst this
          dsimp only
          rw [decide_eq_true_iff]
          constructor
          · intro h; exact ⟨i, rfl, fun h2 => h h2.symm⟩
          · rintro ⟨j, h1, h2⟩ h3
            cases h1
            exact h2 h3.symm
      · have := isSorted_iff lower r
        dsimp only
        rw [← this]
        cases r.isSorted lower <;> simp

/-- **C127**. Extracting a file of an archive that was written gives exactly its content, under any spelling of its
name as to case and slashes; under another name nothing is found. A file that exists is never overwritten, and no
other file than the one named is touched. -/
theorem C127_extract (H lower : Bytes → Bytes) (hH : ∀ x, (H x).length = 20) (p : WPbo) (hv : Valid p)
    (hd : CaseDistinct lower p) (iter : List (Bytes × (Bytes × Header))) (hi : iter.Perm p.files) (b : Bool)
    (disk : String → Option Bytes) (name : Bytes) (output : Option String) :
    ∃ out sum x, p.write H lower iter b = .ok (out, sum) ∧
      extract lower (fun q => (disk q).isSome) out name output = .ok x ∧
      (∀ e ∈ p.files, lower (norm name) = lower e.2.2.filename →
        (output = none → x = .printed e.2.1) ∧
        (∀ q, output = some q → disk q = none → x.disk disk q = some e.2.1)) ∧
      ((∀ e ∈ p.files, lower e.2.2.filename ≠ lower (norm name)) → x = .notFound) ∧
      (∀ q, (disk q).isSome ∨ output ≠ some q → x.disk disk q = disk q) := by
  obtain ⟨out, sum, r, hw, hr, _, _, _, _, hc⟩ := C07_round_trip H lower hH p hv iter hi b
  obtain ⟨hc1, hc2⟩ := hc hd
  suffices hx : ∃ x, extract lower (fun q => (disk q).isSome) out name output = .ok x ∧
      (∀ e ∈ p.files, lower (norm name) = lower e.2.2.filename →
        (output = none → x = .printed e.2.1) ∧
        (∀ q, output = some q → disk q = none → x.disk disk q = some e.2.1)) ∧
      ((∀ e ∈ p.files, lower e.2.2.filename ≠ lower (norm name)) → x = .notFound) ∧
      (∀ q, (disk q).isSome ∨ output ≠ some q → x.disk disk q = disk q) by
    obtain ⟨x, h⟩ := hx
    exact ⟨out, sum, x, hw, h⟩
  unfold extract
  rw [hr]
  dsimp only
  cases hf : r.file lower name with
  | none =>
    refine ⟨.notFound, rfl, ?_, fun _ => rfl, fun q _ => rfl⟩
    intro e he hn
    have h1 := hc1 e he name hn
    rw [hf] at h1; cases h1
  | some c =>
    have hother : ¬ ∀ e ∈ p.files, lower e.2.2.filename ≠ lower (norm name) := by
      intro h
      rw [hc2 name h] at hf; cases hf
    have hsame : ∀ e ∈ p.files, lower (norm name) = lower e.2.2.filename → e.2.1 = c := by
      intro e he hn
      rw [hc1 e he name hn] at hf
      exact Option.some.inj hf
    dsimp only
    cases output with
    | none =>
      refine ⟨.printed c, rfl, ?_, fun h => absurd h hother, fun q _ => rfl⟩
      intro e he hn
      exact ⟨fun _ => by rw [hsame e he hn], fun q h => absurd h (by simp)⟩
    | some path =>
      dsimp only
      by_cases ht : (disk path).isSome = true
      · rw [if_pos ht]
        refine ⟨.exists, rfl, ?_, fun h => absurd h hother, fun q _ => rfl⟩
        intro e he hn
        refine ⟨fun h => absurd h (by simp), fun q h h2 => ?_⟩
        cases h
        rw [h2] at ht; cases ht
      · rw [if_neg ht]
        refine ⟨.saved path c, rfl, ?_, fun h => absurd h hother, ?_⟩
        · intro e he hn
          refine ⟨fun h => absurd h (by simp), fun q h _ => ?_⟩
          cases h
          simp [Extracted.disk, hsame e he hn]
        · intro q hq
          simp only [Extracted.disk]
          rw [if_neg]
          rintro rfl
          rcases hq with h | h
          · exact ht h
          · exact h rfl

/-! ### Keys and signatures -/

/-- The bytes at the start of a key and a signature are never those of an archive, and those of a texture only
if the authority says so. -/
theorem head_bytes {a rest : Bytes} {m : Nat} {f : UInt8} (hm : m < 0x54000000) (hf : f ≠ 0) (hf2 : f ≠ 0x54)
    (ha : (0 : UInt8) ∉ a) (hg : (a.drop 2).take 4 ≠ ascii "GGAT") (bs : Bytes)
    (hbs : bs = writeCString a ++ (le32 m ++ (f :: rest))) :
    6 ≤ bs.length ∧ bs.take 6 ≠ [0x00, 0x73, 0x72, 0x65, 0x56, 0x00] ∧ (bs.take 6).drop 2 ≠ ascii "GGAT" := by
  have hG : ascii "GGAT" = [0x47, 0x47, 0x41, 0x54] := by decide
  rw [hG] at hg ⊢
  have hle : le32 m = [UInt8.ofNat (m % 256), UInt8.ofNat (m / 256 % 256), UInt8.ofNat (m / 256 / 256 % 256),
      UInt8.ofNat (m / 256 / 256 / 256 % 256)] := rfl
  have hb : UInt8.ofNat (m / 256 / 256 / 256 % 256) ≠ 0x54 := by
    intro h
    have := congrArg UInt8.toNat h
    rw [UInt8.toNat_ofNat'] at this
    have h2 : UInt8.toNat 0x54 = 0x54 := rfl
    rw [h2] at this
    omega
  subst hbs
  match a, ha, hg with
  | [], _, _ =>
    refine ⟨by simp [writeCString]; omega, ?_, ?_⟩
    · simp [writeCString, hle, hf]
    · simp [writeCString, hle, hf2]
  | [x], ha, _ =>
    have hx : x ≠ 0 := by intro h; exact ha (by simp [h])
    refine ⟨by simp [writeCString], ?_, ?_⟩
    · simp [writeCString, hle, hx]
    · simp only [writeCString, hle, List.cons_append, List.nil_append, List.take_succ_cons, List.drop_succ_cons,
        List.drop_zero, List.take_zero]
      intro h
      injection h with _ h; injection h with _ h; injection h with _ h; injection h with h _
      exact hb h
  | x :: y :: t, ha, hg =>
    have hx : x ≠ 0 := by intro h; exact ha (by simp [h])
    have ht : (0 : UInt8) ∉ t := by intro h; exact ha (by simp [h])
    refine ⟨by simp [writeCString]; omega, ?_, ?_⟩
    · simp [writeCString, hx]
    · simp only [writeCString, List.cons_append, List.take_succ_cons, List.drop_succ_cons, List.drop_zero,
        List.append_assoc, List.nil_append] at hg ⊢
      by_cases h4 : 4 ≤ t.length
      · rw [List.take_append_of_le_length h4]; exact hg
      · intro h
        have h5 := congrArg (fun l => l[t.length]?) h
        rw [List.getElem?_take_of_lt (by omega), List.getElem?_append_right (Nat.le_refl _), Nat.sub_self,
          List.getElem?_cons_zero] at h5
        have h6 := List.mem_of_getElem? h5.symm
        simp at h6

theorem sig_of_key (k : PubKey) (hk : KeyFits k) : ∃ e, Sig.read k.write = .error e ∧ e ≠ .panic := by
  have hl := hk.len
  have he := hk.e
  have e : k.write = writeCString k.authority ++ (le32 (k.length / 8 + 20) ++
      ([0x06, 0x02, 0x00, 0x00] ++ ([0x00, 0x24, 0x00, 0x00] ++ (ascii "RSA1" ++ (le32 k.length ++
      (writeBiguint k.exponent 4 ++ (writeBiguint k.n (k.length / 8) ++ []))))))) := by
    simp [PubKey.write]
  refine ⟨.io, ?_, by decide⟩
  rw [e]
  unfold Sig.read
  rw [readCString_write _ hk.name.1 hk.name.2]
  dsimp only [bind, Except.bind]
  rw [readLe_leBytes _ (by norm_num; omega)]
  dsimp only
  rw [readLe_any (k := 4) _ _ rfl]
  dsimp only
  rw [readLe_any (k := 4) _ _ rfl]
  dsimp only
  rw [readLe_any (k := 4) _ _ rfl]
  dsimp only
  rw [readLe_leBytes _ (by norm_num; omega)]
  dsimp only
  rw [readLe_big _ (by norm_num; omega)]
  dsimp only
  rw [if_neg (by simp), readLe_big _ hk.n]
  rfl

/-- **C127**. A public key that was written is shown with its authority, length, exponent and modulus, whatever the
extension of the file, as long as it is not that of another kind of file and the authority does not look like the
start of a texture. -/
theorem C127_key (H lower : Bytes → Bytes) (o : Other) (k : PubKey) (hk : KeyFits k) (ext : String)
    (he : ext = "bikey" ∨ ext ∉ known ∧ (k.authority.drop 2).take 4 ≠ ascii "GGAT") :
    inspect H lower o ext k.write = .ok (.key k) := by
  have hr := C14_public_key k hk.name hk.len hk.e hk.n []
  rw [List.append_nil] at hr
  have hb : bikey k.write = .ok (.key k) := by unfold bikey; rw [hr]
  rcases he with rfl | ⟨he, hg⟩
  · exact hb
  · rw [inspect_other H lower o he]
    obtain ⟨e, h1, h2⟩ := sig_of_key k hk
    have hlen := hk.len
    obtain ⟨h3, h4, h5⟩ := head_bytes (a := k.authority) (m := k.length / 8 + 20) (f := 0x06)
      (rest := [0x02, 0x00, 0x00, 0x00, 0x24, 0x00, 0x00] ++ ascii "RSA1"
        ++ le32 k.length ++ writeBiguint k.exponent 4 ++ writeBiguint k.n (k.length / 8))
      (by omega) (by decide) (by decide) hk.name.1 hg k.write (by simp [PubKey.write])
    unfold byContent
    rw [if_neg (by omega), if_neg h4, if_neg h5, h1, hr]
    cases e <;> first | exact absurd rfl h2 | exact hb

/-- **C127**. A signature that was written is shown with its authority, version, length, exponent and modulus, under
the same conditions. -/
theorem C127_signature (H lower : Bytes → Bytes) (o : Other) (s : Sig) (hs : SigFits s) (ext : String)
    (he : ext = "bisign" ∨ ext ∉ known ∧ (s.authority.drop 2).take 4 ≠ ascii "GGAT") :
    inspect H lower o ext s.write = .ok (.sign s) := by
  have hr := C14_signature s hs.name hs.len hs.e hs.n hs.sig1 hs.sig2 hs.sig3 []
  rw [List.append_nil] at hr
  have hb : bisign s.write = .ok (.sign s) := by unfold bisign; rw [hr]
  rcases he with rfl | ⟨he, hg⟩
  · exact hb
  · rw [inspect_other H lower o he]
    have hlen := hs.len
    obtain ⟨h3, h4, h5⟩ := head_bytes (a := s.authority) (m := s.length / 8 + 20) (f := 0x06)
      (rest := [0x02, 0x00, 0x00, 0x00, 0x24, 0x00, 0x00] ++ ascii "RSA1"
        ++ le32 s.length ++ writeBiguint s.exponent 4 ++ writeBiguint s.n (s.length / 8)
        ++ le32 (s.length / 8) ++ writeBiguint s.sig1 (s.length / 8) ++ le32 s.version.toU32
        ++ le32 (s.length / 8) ++ writeBiguint s.sig2 (s.length / 8)
        ++ le32 (s.length / 8) ++ writeBiguint s.sig3 (s.length / 8))
      (by omega) (by decide) (by decide) hs.name.1 hg s.write (by simp [Sig.write])
    unfold byContent
    rw [if_neg (by omega), if_neg h4, if_neg h5, hr]
    exact hb

/-- **C127**, violated for a private key: inspecting it crashes instead of saying that it is not supported, since the
reader of signatures, which it is tried with first, insists on the length of a public key. -/
theorem C127_violated_private_key (H lower : Bytes → Bytes) (o : Other) (k : PrivKey) (hk : PrivFits k)
    (hl : 8 ≤ k.length) (hl2 : k.length < 2 ^ 31) (hg : (k.authority.drop 2).take 4 ≠ ascii "GGAT") :
    inspect H lower o "biprivatekey" k.write = .error .crash := by
  have hlen := hk.len
  have he := hk.e
  rw [inspect_other H lower o (by decide)]
  have hr : Sig.read k.write = .error .panic := by
    have e : k.write = writeCString k.authority ++ (le32 (k.length / 16 * 9 + 20) ++
        ([0x07, 0x02, 0x00, 0x00] ++ ([0x00, 0x24, 0x00, 0x00] ++ (ascii "RSA2" ++ (le32 k.length ++
        (writeBiguint k.exponent 4 ++ (writeBiguint k.n (k.length / 8) ++
        (writeBiguint k.p (k.length / 16) ++ (writeBiguint k.q (k.length / 16) ++
        (writeBiguint k.dp (k.length / 16) ++ (writeBiguint k.dq (k.length / 16) ++
        (writeBiguint k.qinv (k.length / 16) ++ writeBiguint k.d (k.length / 8))))))))))))) := by
      simp [PrivKey.write]
    rw [e]
    unfold Sig.read
    rw [readCString_write _ hk.name.1 hk.name.2]
    dsimp only [bind, Except.bind]
    rw [readLe_leBytes _ (by norm_num; omega)]
    dsimp only
    rw [readLe_any (k := 4) _ _ rfl]
    dsimp only
    rw [readLe_any (k := 4) _ _ rfl]
    dsimp only
    rw [readLe_any (k := 4) _ _ rfl]
    dsimp only
    rw [readLe_leBytes _ (by norm_num; omega)]
    dsimp only
    rw [readLe_big _ (by norm_num; omega)]
    dsimp only
    rw [if_pos (by omega)]
  have hh : 6 ≤ k.write.length ∧ k.write.take 6 ≠ [0x00, 0x73, 0x72, 0x65, 0x56, 0x00] ∧
      (k.write.take 6).drop 2 ≠ ascii "GGAT" := by
    exact head_bytes (a := k.authority) (m := k.length / 16 * 9 + 20) (f := 0x07)
      (rest := [0x02, 0x00, 0x00, 0x00, 0x24, 0x00, 0x00] ++ ascii "RSA2"
        ++ le32 k.length ++ writeBiguint k.exponent 4 ++ writeBiguint k.n (k.length / 8)
        ++ writeBiguint k.p (k.length / 16) ++ writeBiguint k.q (k.length / 16)
        ++ writeBiguint k.dp (k.length / 16) ++ writeBiguint k.dq (k.length / 16)
        ++ writeBiguint k.qinv (k.length / 16) ++ writeBiguint k.d (k.length / 8))
      (by omega) (by decide) (by decide) hk.name.1 hg k.write (by simp [PrivKey.write])
  obtain ⟨h3, h4, h5⟩ := hh
  unfold byContent
  rw [if_neg (by omega), if_neg h4, if_neg h5, hr]


/-! ### Cases -/

def sampleKey : PubKey := ⟨ascii "mod", 16, 65537, 1000⟩

example : KeyFits sampleKey := ⟨by unfold NameOk; decide +kernel, by decide, by decide, by decide⟩
example : Fits "" "pbo" ∧ Fits "bin" "pbo" ∧ ¬ Fits "paa" "pbo" := by unfold Fits; decide +kernel
example : inspect id id ⟨fun _ => false, fun _ => false⟩ "" sampleKey.write = .ok (.key sampleKey) := by decide +kernel
example : inspect id id ⟨fun _ => false, fun _ => false⟩ "bisign" sampleKey.write = .error .error := by decide +kernel

/-- A signature can be read as a public key, so that trying signatures first matters. -/
example : inspect id id ⟨fun _ => false, fun _ => false⟩ "bikey"
    (Sig.write ⟨.v3, ascii "mod", 16, 65537, 1000, 1, 2, 3⟩) = .ok (.key sampleKey) := by decide +kernel
example : inspect id id ⟨fun _ => false, fun _ => false⟩ ""
    (Sig.write ⟨.v3, ascii "mod", 16, 65537, 1000, 1, 2, 3⟩) =
      .ok (.sign ⟨.v3, ascii "mod", 16, 65537, 1000, 1, 2, 3⟩) := by decide +kernel

/-- **C127**, violated for an authority with `GGAT` from its third letter on: the key is taken for a texture, which
cannot be read. -/
theorem C127_violated_authority : KeyFits ⟨ascii "AGGGAT", 16, 65537, 1000⟩ ∧
    inspect id id ⟨fun _ => false, fun _ => false⟩ "" (PubKey.write ⟨ascii "AGGGAT", 16, 65537, 1000⟩) =
      .error .error :=
  ⟨⟨by unfold NameOk; decide +kernel, by decide, by decide, by decide⟩, by decide +kernel⟩

/-- **C127**, violated for the extension of a config in capitals, which is the usual spelling on some systems, and for
a short file: the one is not recognised, the other is an error. -/
theorem C127_violated_extension : inspect id id ⟨fun _ => false, fun _ => true⟩ "cpp" (ascii "class A {};") = .ok .config ∧
    inspect id id ⟨fun _ => false, fun _ => true⟩ "CPP" (ascii "class A {};") = .ok .unsupported ∧
    inspect id id ⟨fun _ => false, fun _ => true⟩ "txt" (ascii "x = 1") = .error .error := by decide +kernel

end Verif.Inspect
