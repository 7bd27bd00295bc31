import Verif.Model.Utils
import Verif.Props.Signing
import Verif.Props.Release
import Verif.Props.ProjectFile
/-!
C108: `hemtt utils verify`. C109: the project file that `hemtt new` writes.
-/
namespace Verif.Utils
open Verif.Io Verif.Pbo Verif.Sign
open Verif.Release (Path sigPath Digest)

/-! ## C108 -/

/-- The three files can be read: the archive, the key, and the signature that belongs to both by its name. -/
structure Opened (d : Digest) (name : Bytes → Text) (disk : Path → Option Bytes) (pboPath keyPath : Path)
    (pbo : RPbo) (key : PubKey) (sig : Sig) : Prop where
  pboRead : ∃ b, disk pboPath = some b ∧ RPbo.from b = .ok pbo
  keyRead : ∃ b r, disk keyPath = some b ∧ PubKey.read b = .ok (key, r)
  sigRead : ∃ b r, disk (sigPath pboPath (name key.authority)) = some b ∧ Sig.read b = .ok (sig, r)
  sum : pbo.genChecksum d.H d.lower ≠ none
  sane : key.verify d.H d.lower pbo sig ≠ .error .panic

theorem verify_opened {d : Digest} {name disk pboPath keyPath pbo key sig}
    (h : Opened d name disk pboPath keyPath pbo key sig) :
    ∃ actual, pbo.genChecksum d.H d.lower = some actual ∧ verify d name disk pboPath keyPath =
      .ok (warnings pbo actual ++ [resultLine (key.verify d.H d.lower pbo sig)]) := by
  obtain ⟨⟨b1, h1, h2⟩, ⟨b2, r2, h3, h4⟩, ⟨b3, r3, h5, h6⟩, h7, h8⟩ := h
  obtain ⟨actual, ha⟩ := Option.ne_none_iff_exists'.1 h7
  refine ⟨actual, ha, ?_⟩
  unfold verify
  simp only [h1, h2, h3, h4, h5, h6, ha]

theorem mem_warnings {pbo : RPbo} {actual : Bytes} {x : Line} (h : x ∈ warnings pbo actual) :
    x = .storedHash ∨ x = .noPrefix ∨ x = .reportedHash := by
  unfold warnings at h
  rcases List.mem_append.1 h with h | h
  · split at h
    · exact .inl (by simpa using h)
    · simp at h
  · split at h
    · exact .inr (.inl (by simpa using h))
    · split at h
      · exact .inr (.inr (by simpa using h))
      · simp at h

theorem verify_ok {d : Digest} {name disk pboPath keyPath l} (h : verify d name disk pboPath keyPath = .ok l) :
    ∃ pbo key sig, Opened d name disk pboPath keyPath pbo key sig := by
  unfold verify at h
  split at h
  · simp at h
  rename_i b1 h1
  split at h
  · simp at h
  rename_i pbo h2
  split at h
  · simp at h
  rename_i b2 h3
  split at h
  · simp at h
  rename_i key r2 h4
  split at h
  · simp at h
  rename_i b3 h5
  split at h
  · simp at h
  rename_i sig r3 h6
  split at h
  · simp at h
  rename_i actual h7
  split at h
  · simp at h
  rename_i h8
  exact ⟨pbo, key, sig, ⟨b1, h1, h2⟩, ⟨b2, r2, h3, h4⟩, ⟨b3, r3, h5, h6⟩, by rw [h7]; simp, h8⟩

/-- **C108**. `Verified!` is printed exactly if the archive, the key and the signature named after both can be read and
verification succeeds; what that says about the archive is C13. -/
theorem C108_verified (d : Digest) (name : Bytes → Text) (disk : Path → Option Bytes) (pboPath keyPath : Path) :
    (∃ l, verify d name disk pboPath keyPath = .ok l ∧ Line.verified ∈ l) ↔
      ∃ pbo key sig, Opened d name disk pboPath keyPath pbo key sig ∧ key.verify d.H d.lower pbo sig = .ok () := by
  constructor
  · rintro ⟨l, h, hm⟩
    obtain ⟨pbo, key, sig, ho⟩ := verify_ok h
    refine ⟨pbo, key, sig, ho, ?_⟩
    obtain ⟨actual, ha, e⟩ := verify_opened ho
    rw [h] at e
    injection e with e
    subst e
    cases hv : key.verify d.H d.lower pbo sig with
    | ok u => rfl
    | error x =>
      rw [hv] at hm
      rcases List.mem_append.1 hm with hm | hm
      · rcases mem_warnings hm with e | e | e <;> cases e
      · simp [resultLine] at hm
  · rintro ⟨pbo, key, sig, ho, hv⟩
    obtain ⟨actual, ha, e⟩ := verify_opened ho
    refine ⟨_, e, ?_⟩
    rw [hv]
    simp [resultLine]

/-- **C108**. `Verification Failed` with a reason is printed exactly if verification fails, and the reason is that of the
failure. -/
theorem C108_failed {d : Digest} {name disk pboPath keyPath pbo key sig} (ho : Opened d name disk pboPath keyPath pbo key sig)
    (e : SErr) : ∃ l, verify d name disk pboPath keyPath = .ok l ∧
      (Line.failed e ∈ l ↔ key.verify d.H d.lower pbo sig = .error e) := by
  obtain ⟨actual, ha, h⟩ := verify_opened ho
  refine ⟨_, h, ?_⟩
  constructor
  · intro hm
    rcases List.mem_append.1 hm with hm | hm
    · rcases mem_warnings hm with e | e | e <;> cases e
    · rw [List.mem_singleton] at hm
      revert hm
      cases key.verify d.H d.lower pbo sig with
      | ok u => intro hm; cases hm
      | error x => intro hm; injection hm with hm; rw [hm]
  · intro hv
    rw [hv]
    simp [resultLine]

/-- **C108**, what does not hold of the code: the exit code does not say whether an archive is genuine. Where the files
can be read it is 0, also if verification fails. -/
theorem C108_exit_violated {d : Digest} {name disk pboPath keyPath pbo key sig}
    (ho : Opened d name disk pboPath keyPath pbo key sig) {e : SErr} (_ : key.verify d.H d.lower pbo sig = .error e) :
    ∃ l, verify d name disk pboPath keyPath = .ok l := by
  obtain ⟨actual, ha, h⟩ := verify_opened ho
  exact ⟨_, h⟩

/-- **C108**. For an archive without a prefix `Verification Failed` is printed; what does not hold of the code is that
verification fails: if the signature is right, `Verified!` is printed as well. -/
theorem C108_no_prefix {d : Digest} {name disk pboPath keyPath pbo key sig}
    (ho : Opened d name disk pboPath keyPath pbo key sig) (hp : IMap.get pbo.properties prefixKey = none) :
    ∃ l, verify d name disk pboPath keyPath = .ok l ∧ Line.noPrefix ∈ l ∧
      (key.verify d.H d.lower pbo sig = .ok () → Line.verified ∈ l) := by
  obtain ⟨actual, ha, h⟩ := verify_opened ho
  refine ⟨_, h, ?_, fun hv => ?_⟩
  · unfold warnings
    rw [if_pos hp]
    simp
  · rw [hv]
    simp [resultLine]

/-- **C108**. A warning about the stored hash is printed exactly if the hash in the archive is not that of its content. -/
theorem C108_hash {d : Digest} {name disk pboPath keyPath pbo key sig}
    (ho : Opened d name disk pboPath keyPath pbo key sig) :
    ∃ l, verify d name disk pboPath keyPath = .ok l ∧
      (Line.storedHash ∈ l ↔ pbo.genChecksum d.H d.lower ≠ some pbo.checksum) := by
  obtain ⟨actual, ha, h⟩ := verify_opened ho
  refine ⟨_, h, ?_⟩
  rw [ha]
  have hr : Line.storedHash ∉ [resultLine (key.verify d.H d.lower pbo sig)] := by
    cases key.verify d.H d.lower pbo sig <;> simp [resultLine]
  rw [List.mem_append, or_iff_left hr]
  unfold warnings
  by_cases hs : actual = pbo.checksum
  · subst hs
    rw [if_neg (by simp)]
    split <;> simp
  · rw [if_pos hs]
    simp [hs]

/-- **C108**. An archive that this program wrote and signed is verified with the public key that belongs to the key,
where the signature is at the place the release gives it. -/
theorem C108_round_trip (d : Digest) (hH : ∀ x, (d.H x).length = 20) (name : Bytes → Text) (k : PrivKey) (hk : KeyOk k)
    (hfit : PrivFits k) (v : SigVersion) (p : WPbo) (hv : Valid p) (hne : p.files ≠ [])
    (iter : List (Bytes × (Bytes × Header))) (hi : iter.Perm p.files) (b : Bool) (pboPath keyPath : Path) :
    ∃ out sum r s, p.write d.H d.lower iter b = .ok (out, sum) ∧ RPbo.from out = .ok r ∧
      k.sign d.H d.lower r v = .ok s ∧ ∀ disk : Path → Option Bytes, disk pboPath = some out →
        disk keyPath = some k.toPublic.write → disk (sigPath pboPath (name k.authority)) = some s.write →
        ∃ l, verify d name disk pboPath keyPath = .ok l ∧ Line.verified ∈ l := by
  obtain ⟨out, sum, r, s, h1, h2, h3, h4, h5, h6⟩ := C11_end_to_end d.H d.lower hH k hk hfit v p hv hne iter hi b
  refine ⟨out, sum, r, s, h1, h2, h3, fun disk e1 e2 e3 => ?_⟩
  rw [C108_verified]
  refine ⟨r, k.toPublic, s, ⟨⟨out, e1, h2⟩, ⟨_, _, e2, h5⟩, ⟨_, _, e3, h4⟩, ?_, ?_⟩, h6⟩
  · intro hc
    unfold PubKey.verify generateHashes rawHashes at h6
    rw [hc] at h6
    split at h6
    · simp at h6
    split at h6
    · simp at h6
    · simp at h6
  · rw [h6]
    simp

/-- **C108**, what does not hold of the code: such failures exist. Take any archive of this program and its signature, and a
key with another authority, with the signature renamed so that it is found: verification fails and the exit code is 0. -/
theorem C108_exit_reached (d : Digest) (hH : ∀ x, (d.H x).length = 20) (name : Bytes → Text) (k : PrivKey) (hk : KeyOk k)
    (hfit : PrivFits k) (v : SigVersion) (p : WPbo) (hv : Valid p) (hne : p.files ≠ [])
    (iter : List (Bytes × (Bytes × Header))) (hi : iter.Perm p.files) (b : Bool) (pboPath keyPath : Path)
    (au : Bytes) (hau : NameOk au) (hdiff : au ≠ k.authority) :
    ∃ out sum r s, p.write d.H d.lower iter b = .ok (out, sum) ∧ RPbo.from out = .ok r ∧
      k.sign d.H d.lower r v = .ok s ∧ ∀ disk : Path → Option Bytes, disk pboPath = some out →
        disk keyPath = some ({ k.toPublic with authority := au } : PubKey).write →
        disk (sigPath pboPath (name au)) = some s.write →
        ∃ l, verify d name disk pboPath keyPath = .ok l ∧ Line.failed .authority ∈ l ∧ Line.verified ∉ l := by
  obtain ⟨out, sum, r, s, h1, h2, h3, h4, h5, h6⟩ := C11_end_to_end d.H d.lower hH k hk hfit v p hv hne iter hi b
  refine ⟨out, sum, r, s, h1, h2, h3, fun disk e1 e2 e3 => ?_⟩
  have hs : s.authority = k.authority := by
    unfold PubKey.verify at h6
    split at h6
    · simp at h6
    · rename_i h
      exact (not_not.1 h).symm
  have hbad : ({ k.toPublic with authority := au } : PubKey).verify d.H d.lower r s = .error .authority := by
    unfold PubKey.verify
    rw [if_pos (by rw [hs]; exact hdiff)]
  have hread : PubKey.read ({ k.toPublic with authority := au } : PubKey).write =
      .ok ({ k.toPublic with authority := au }, []) := by
    have := C14_public_key { k.toPublic with authority := au } hau hfit.len hfit.e hfit.n []
    rwa [List.append_nil] at this
  have hsum : r.genChecksum d.H d.lower ≠ none := by
    intro hc
    unfold PubKey.verify generateHashes rawHashes at h6
    rw [hc] at h6
    split at h6
    · simp at h6
    split at h6
    · simp at h6
    · simp at h6
  have ho : Opened d name disk pboPath keyPath r { k.toPublic with authority := au } s :=
    ⟨⟨out, e1, h2⟩, ⟨_, _, e2, hread⟩, ⟨_, _, e3, h4⟩, hsum, by rw [hbad]; simp⟩
  obtain ⟨l, hl, hf⟩ := C108_failed ho .authority
  refine ⟨l, hl, hf.2 hbad, fun hm => ?_⟩
  obtain ⟨actual, -, e⟩ := verify_opened ho
  rw [hl] at e
  injection e with e
  rw [e, hbad] at hm
  rcases List.mem_append.1 hm with hm | hm
  · rcases mem_warnings hm with e | e | e <;> cases e
  · simp [resultLine] at hm

/-- The place of a signature: the archive's path without `.pbo`, then `.pbo.<authority>.bisign`. -/
example : sigPath ["addons".toList, "abe_main.pbo".toList] "abe_1.0".toList =
    ["addons".toList, "abe_main.pbo.abe_1.0.bisign".toList] := by decide +kernel

/-! ## C109 -/

/-- A text that stands for itself between double quotes in TOML. -/
def Plain (s : Text) : Prop := ∀ c ∈ s, c ≠ '"' ∧ c ≠ '\\' ∧ isControl c = false

theorem basic_plain : ∀ (n : Nat) (s r : Text), Plain s → s.length < n → basic n (s ++ '"' :: r) = some (s, r)
  | 0, _, _, _, h => absurd h (Nat.not_lt_zero _)
  | n + 1, [], r, _, _ => rfl
  | n + 1, c :: s, r, hp, h => by
    obtain ⟨h1, h2, h3⟩ := hp c List.mem_cons_self
    rw [List.cons_append, basic, if_neg h1, if_neg h2, h3, if_neg (by simp),
      basic_plain n s r (fun x hx => hp x (List.mem_cons_of_mem _ hx)) (by simpa using h)]
    rfl

theorem hexDigits_rest : ∀ (n acc : Nat) (s : Text) {v r}, hexDigits n acc s = some (v, r) →
    ∃ ds, s = ds ++ r ∧ ds.length = n ∧ ∀ c ∈ ds, hexVal c ≠ none
  | 0, acc, s, v, r, h => by
    rw [hexDigits] at h
    injection h with h
    injection h with h1 h2
    exact ⟨[], by simp [h2], rfl, by simp⟩
  | n + 1, acc, [], v, r, h => by simp [hexDigits] at h
  | n + 1, acc, c :: s, v, r, h => by
    rw [hexDigits] at h
    split at h
    · simp at h
    rename_i x hx
    obtain ⟨ds, h1, h2, h3⟩ := hexDigits_rest n _ s h
    refine ⟨c :: ds, by rw [h1]; rfl, by simp [h2], ?_⟩
    intro y hy
    rcases List.mem_cons.1 hy with rfl | hy
    · rw [hx]; simp
    · exact h3 y hy

/-- What an escape uses up: at least one character, and a line break is never among them. -/
theorem escape_rest {s : Text} {x r} (h : escape s = some (x, r)) : ∃ u, s = u ++ r ∧ u ≠ [] ∧ '\n' ∉ u ∧
    ('"' ∈ u → u = ['"']) := by
  have hex : ∀ (c : Char) (n : Nat) (t : Text), c ≠ '\n' → c ≠ '"' →
      (hexDigits n 0 t).bind (fun (m, t) => (scalar m).map (·, t)) = some (x, r) →
      ∃ u, c :: t = u ++ r ∧ u ≠ [] ∧ '\n' ∉ u ∧ ('"' ∈ u → u = ['"']) := by
    intro c n t hc hq he
    rw [Option.bind_eq_some_iff] at he
    obtain ⟨⟨m, t'⟩, h1, h2⟩ := he
    simp only [Option.map_eq_some_iff, Prod.mk.injEq] at h2
    obtain ⟨y, -, -, rfl⟩ := h2
    obtain ⟨ds, h3, -, h4⟩ := hexDigits_rest _ _ _ h1
    refine ⟨c :: ds, by rw [h3]; rfl, by simp, ?_, ?_⟩
    · intro hm
      rcases List.mem_cons.1 hm with e | hm
      · exact hc e.symm
      · exact h4 _ hm (by decide)
    · intro hm
      rcases List.mem_cons.1 hm with e | hm
      · exact absurd e.symm hq
      · exact absurd (by decide) (h4 _ hm)
  unfold escape at h
  split at h
  · obtain ⟨rfl, rfl⟩ := by simpa using h
    exact ⟨['b'], rfl, by simp, by decide, by decide⟩
  · obtain ⟨rfl, rfl⟩ := by simpa using h
    exact ⟨['t'], rfl, by simp, by decide, by decide⟩
  · obtain ⟨rfl, rfl⟩ := by simpa using h
    exact ⟨['n'], rfl, by simp, by decide, by decide⟩
  · obtain ⟨rfl, rfl⟩ := by simpa using h
    exact ⟨['f'], rfl, by simp, by decide, by decide⟩
  · obtain ⟨rfl, rfl⟩ := by simpa using h
    exact ⟨['r'], rfl, by simp, by decide, by decide⟩
  · obtain ⟨rfl, rfl⟩ := by simpa using h
    exact ⟨['"'], rfl, by simp, by decide, by decide⟩
  · obtain ⟨rfl, rfl⟩ := by simpa using h
    exact ⟨['\\'], rfl, by simp, by decide, by decide⟩
  · exact hex 'u' 4 _ (by decide) (by decide) h
  · exact hex 'U' 8 _ (by decide) (by decide) h
  · simp at h

/-- A string ends before the next line break: its value is no longer than what stands between the quotes. -/
theorem basic_le : ∀ (n : Nat) (q r : Text) {v t}, basic n (q ++ '"' :: '\n' :: r) = some (v, t) → v.length ≤ q.length
  | 0, q, r, v, t, h => by simp [basic] at h
  | n + 1, [], r, v, t, h => by
    rw [List.nil_append, basic, if_pos rfl] at h
    injection h with h
    injection h with h1 h2
    simp [← h1]
  | n + 1, c :: q, r, v, t, h => by
    rw [List.cons_append, basic] at h
    split at h
    · injection h with h
      injection h with h1 h2
      simp [← h1]
    split at h
    · rw [Option.bind_eq_some_iff] at h
      obtain ⟨⟨x, s⟩, h1, h2⟩ := h
      rw [Option.map_eq_some_iff] at h2
      obtain ⟨⟨v', r'⟩, h3, h4⟩ := h2
      injection h4 with h4 h5
      subst h4
      obtain ⟨u, e, hu, hnl, hq⟩ := escape_rest h1
      rcases List.append_eq_append_iff.1 e with ⟨a, e1, e2⟩ | ⟨a, e1, e2⟩
      · -- the escape goes past the closing quote
        cases a with
        | nil =>
          rw [List.nil_append] at e2
          subst e2
          rw [List.append_nil] at e1
          subst e1
          have := basic_le n [] r h3
          have hl := List.length_pos_iff.2 hu
          simp only [List.length_nil] at this
          simp only [List.length_cons]
          omega
        | cons y a =>
          rw [List.cons_append] at e2
          injection e2 with ey e2
          subst ey
          have hm : '"' ∈ u := by rw [e1]; simp
          have hu' := hq hm
          rw [hu'] at e1
          cases q with
          | nil =>
            rw [List.nil_append] at e1
            injection e1 with _ e1
            subst e1
            rw [List.nil_append] at e2
            subst e2
            cases n with
            | zero => simp [basic] at h3
            | succ n =>
              rw [basic, if_neg (by decide), if_neg (by decide), if_pos (by decide)] at h3
              simp at h3
          | cons z q =>
            have := congrArg List.length e1
            simp at this
      · subst e1
        subst e2
        rw [List.append_assoc] at e
        have := basic_le n a r (v := v') (t := r') h3
        have hl := List.length_pos_iff.2 hu
        simp only [List.length_cons, List.length_append]
        omega
    split at h
    · simp at h
    · rw [Option.map_eq_some_iff] at h
      obtain ⟨⟨v', r'⟩, h3, h4⟩ := h
      injection h4 with h4 h5
      subst h4
      have := basic_le n q r h3
      simp only [List.length_cons]
      omega

/-- Only a plain text is read as it was written. -/
theorem basic_only : ∀ (n : Nat) (s r : Text) {t}, basic n (s ++ '"' :: '\n' :: r) = some (s, t) → Plain s
  | 0, s, r, t, h => by simp [basic] at h
  | n + 1, [], r, t, h => by simp [Plain]
  | n + 1, c :: s, r, t, h => by
    rw [List.cons_append, basic] at h
    split at h
    · simp at h
    rename_i h1
    split at h
    · rename_i hc
      rw [Option.bind_eq_some_iff] at h
      obtain ⟨⟨x, s'⟩, h2, h3⟩ := h
      rw [Option.map_eq_some_iff] at h3
      obtain ⟨⟨v', r'⟩, h4, h5⟩ := h3
      injection h5 with h5 h6
      injection h5 with h5 h7
      subst h7
      exfalso
      obtain ⟨u, e, hu, hnl, hq⟩ := escape_rest h2
      have hl := List.length_pos_iff.2 hu
      rcases List.append_eq_append_iff.1 e with ⟨a, e1, e2⟩ | ⟨a, e1, e2⟩
      · cases a with
        | nil =>
          rw [List.nil_append] at e2
          subst e2
          rw [List.append_nil] at e1
          subst e1
          have := basic_le n [] r h4
          simp only [List.length_nil] at this
          omega
        | cons y a =>
          rw [List.cons_append] at e2
          injection e2 with ey e2
          subst ey
          have hm : '"' ∈ u := by rw [e1]; simp
          have hu' := hq hm
          rw [hu'] at e1
          cases hv : v' with
          | nil =>
            rw [hv, List.nil_append] at e1
            injection e1 with _ e1
            subst e1
            rw [List.nil_append] at e2
            subst e2
            cases n with
            | zero => simp [basic] at h4
            | succ n =>
              rw [basic, if_neg (by decide), if_neg (by decide), if_pos (by decide)] at h4
              simp at h4
          | cons z q =>
            rw [hv] at e1
            have := congrArg List.length e1
            simp at this
      · subst e2
        have := basic_le n a r (v := v') (t := r') h4
        rw [e1] at this
        simp only [List.length_append] at this
        omega
    split at h
    · simp at h
    rename_i h2 h3
    rw [Option.map_eq_some_iff] at h
    obtain ⟨⟨v', r'⟩, h4, h5⟩ := h
    injection h5 with h5 h6
    injection h5 with _ h7
    subst h7
    intro y hy
    rcases List.mem_cons.1 hy with rfl | hy
    · exact ⟨h1, h2, by simpa using h3⟩
    · exact basic_only n v' r h4 y hy

theorem readLine_line (key value rest : Text) :
    readLine key (tomlLine key value ++ rest) =
      (basic ((tomlLine key value ++ rest).length + 1) (value ++ '"' :: '\n' :: rest)).bind fun (v, r) => match r with
        | '\n' :: r => some (v, r)
        | _ => none := by
  have e : tomlLine key value ++ rest = (key ++ " = \"".toList) ++ (value ++ '"' :: '\n' :: rest) := by
    unfold tomlLine
    have : "\"\n".toList = ['"', '\n'] := by decide
    rw [this]
    simp
  unfold readLine
  dsimp only
  rw [e, if_pos (List.isPrefixOf_iff_prefix.2 (List.prefix_append _ _)), List.drop_left]
  rfl

theorem readLine_plain {key value : Text} (rest : Text) (h : Plain value) :
    readLine key (tomlLine key value ++ rest) = some (value, rest) := by
  rw [readLine_line, basic_plain _ _ _ h]
  · rfl
  · unfold tomlLine
    simp only [List.length_append]
    omega

theorem readLine_only {key value rest r : Text} (h : readLine key (tomlLine key value ++ rest) = some (value, r)) :
    Plain value := by
  rw [readLine_line, Option.bind_eq_some_iff] at h
  obtain ⟨⟨v, t⟩, h1, h2⟩ := h
  dsimp only at h2
  split at h2
  · injection h2 with h2
    injection h2 with h2 h3
    subst h2
    exact basic_only _ _ _ h1
  · simp at h2

/-- Without the replacement of an old heading. -/
theorem read_back_toml (a : Answers) :
    readProject (projectToml a) = some a ↔ Plain a.name ∧ Plain a.author ∧ Plain a.pfx ∧ Plain a.mainprefix := by
  have e : projectToml a = tomlLine "name".toList a.name ++ (tomlLine "author".toList a.author ++
      (tomlLine "prefix".toList a.pfx ++ (tomlLine "mainprefix".toList a.mainprefix ++ []))) := by
    simp [projectToml]
  rw [e]
  constructor
  · intro h
    unfold readProject at h
    rw [Option.bind_eq_some_iff] at h
    obtain ⟨⟨n, s1⟩, h1, h⟩ := h
    rw [Option.bind_eq_some_iff] at h
    obtain ⟨⟨au, s2⟩, h2, h⟩ := h
    rw [Option.bind_eq_some_iff] at h
    obtain ⟨⟨p, s3⟩, h3, h⟩ := h
    rw [Option.bind_eq_some_iff] at h
    obtain ⟨⟨m, s4⟩, h4, h⟩ := h
    dsimp only at h2 h3 h4 h
    split at h
    · injection h with h
      subst h
      have p1 := readLine_only h1
      rw [readLine_plain _ p1] at h1
      injection h1 with h1
      injection h1 with _ h1
      subst h1
      have p2 := readLine_only h2
      rw [readLine_plain _ p2] at h2
      injection h2 with h2
      injection h2 with _ h2
      subst h2
      have p3 := readLine_only h3
      rw [readLine_plain _ p3] at h3
      injection h3 with h3
      injection h3 with _ h3
      subst h3
      exact ⟨p1, p2, p3, readLine_only h4⟩
    · simp at h
  · rintro ⟨p1, p2, p3, p4⟩
    unfold readProject
    rw [readLine_plain _ p1, Option.bind_some]
    dsimp only
    rw [readLine_plain _ p2, Option.bind_some]
    dsimp only
    rw [readLine_plain _ p3, Option.bind_some]
    dsimp only
    rw [readLine_plain _ p4, Option.bind_some]
    rfl

/-- The answers with the old heading replaced in each. -/
def Answers.modern (a : Answers) : Answers :=
  ⟨ProjectFile.modern a.name, ProjectFile.modern a.author, ProjectFile.modern a.pfx, ProjectFile.modern a.mainprefix⟩

theorem modern_cut {c : Char} (hc : c ∉ ProjectFile.oldHeading) (u v : Text) :
    ProjectFile.modern (u ++ c :: v) = ProjectFile.modern u ++ c :: ProjectFile.modern v :=
  ProjectFile.replaceAll_stop hc (by decide) u v

theorem modern_line {key : Text} (hk : ProjectFile.modern (key ++ " = ".toList) = key ++ " = ".toList) (v r : Text) :
    ProjectFile.modern (tomlLine key v ++ r) = tomlLine key (ProjectFile.modern v) ++ ProjectFile.modern r := by
  have e : ∀ v r : Text, tomlLine key v ++ r = (key ++ " = ".toList) ++ '"' :: (v ++ '"' :: ([] ++ '\n' :: r)) := by
    intro v r
    have e2 : " = \"".toList = " = ".toList ++ ['"'] := by decide +kernel
    have e3 : "\"\n".toList = ['"', '\n'] := by decide +kernel
    simp only [tomlLine, e2, e3, List.append_assoc, List.cons_append, List.nil_append]
  have q : '"' ∉ ProjectFile.oldHeading := by decide +kernel
  have n : '\n' ∉ ProjectFile.oldHeading := by decide +kernel
  rw [e, e, modern_cut q, modern_cut q, modern_cut n, hk]
  rfl

theorem modern_toml (a : Answers) : ProjectFile.modern (projectToml a) = projectToml a.modern := by
  have e : ∀ a : Answers, projectToml a = tomlLine "name".toList a.name ++ (tomlLine "author".toList a.author ++
      (tomlLine "prefix".toList a.pfx ++ (tomlLine "mainprefix".toList a.mainprefix ++ []))) := by
    intro a
    simp [projectToml]
  rw [e, e, modern_line (by decide +kernel), modern_line (by decide +kernel), modern_line (by decide +kernel),
    modern_line (by decide +kernel)]
  rfl

/-- None of the answers has `[hemtt.launch]` in it. -/
def NoHeading (a : Answers) : Prop :=
  ¬ "[hemtt.launch]".toList <:+: a.name ∧ ¬ "[hemtt.launch]".toList <:+: a.author ∧
    ¬ "[hemtt.launch]".toList <:+: a.pfx ∧ ¬ "[hemtt.launch]".toList <:+: a.mainprefix

theorem modern_id {a : Answers} (h : NoHeading a) : a.modern = a := by
  obtain ⟨h1, h2, h3, h4⟩ := h
  unfold Answers.modern ProjectFile.modern ProjectFile.oldHeading
  rw [ProjectFile.replaceAll_none _ h1, ProjectFile.replaceAll_none _ h2, ProjectFile.replaceAll_none _ h3,
    ProjectFile.replaceAll_none _ h4]

/-- **C109**. The project file of `hemtt new` is read back with the answers that were given exactly if there is a prefix and
no answer has a double quote, a backslash or a control character other than a tab in it (the text is put into the file as
it is); for answers that do not have `[hemtt.launch]` in them. -/
theorem C109_read_back (a : Answers) (hn : NoHeading a) :
    readConfig (projectToml a) = some a ↔
      (Plain a.name ∧ Plain a.author ∧ Plain a.pfx ∧ Plain a.mainprefix) ∧ a.pfx ≠ [] := by
  rw [← read_back_toml, readConfig, modern_toml, modern_id hn, Option.bind_eq_some_iff]
  constructor
  · rintro ⟨b, h1, h2⟩
    split at h2
    · cases h2
    · rename_i hp
      injection h2 with h2
      subst h2
      exact ⟨h1, hp⟩
  · rintro ⟨h1, h2⟩
    exact ⟨a, h1, if_neg h2⟩

/-- **C109, violated**. `[hemtt.launch]` is read as `[hemtt.launch.default]`, also within a name. -/
theorem C109_violated_heading (a : Answers) (hp : Plain a.name ∧ Plain a.author ∧ Plain a.pfx ∧ Plain a.mainprefix)
    (hn : a.pfx ≠ []) : readConfig (projectToml a) = some a.modern ∧ (a.modern = a ↔ NoHeading a) := by
  have pm : ∀ s, Plain s → Plain (ProjectFile.modern s) := by
    intro s hs c hc
    have : ∀ {s t : Text}, ProjectFile.Replaced "[hemtt.launch]".toList "[hemtt.launch.default]".toList s t → c ∈ t →
        c ∈ s ∨ c ∈ "[hemtt.launch.default]".toList := by
      intro s t r
      induction r with
      | none h => exact Or.inl
      | hit h r ih =>
        intro hc
        simp only [List.mem_append] at hc ⊢
        rcases hc with (hc | hc) | hc
        · exact .inl (.inl (.inl hc))
        · exact .inr hc
        · exact (ih hc).elim (fun x => .inl (.inr x)) .inr
    rcases this (ProjectFile.C114_heading s) hc with h | h
    · exact hs c h
    · have hd : Plain "[hemtt.launch.default]".toList := by unfold Plain; decide +kernel
      exact hd c h
  have grow : ∀ {s t : Text}, ProjectFile.Replaced "[hemtt.launch]".toList "[hemtt.launch.default]".toList s t →
      s.length ≤ t.length ∧ (s = t → ¬ "[hemtt.launch]".toList <:+: s) := by
    intro s t r
    induction r with
    | none h => exact ⟨Nat.le_refl _, fun _ => h⟩
    | @hit u s t h r ih =>
      have e1 : "[hemtt.launch]".toList.length = 14 := by decide +kernel
      have e2 : "[hemtt.launch.default]".toList.length = 22 := by decide +kernel
      have e3 := ih.1
      constructor
      · simp only [List.length_append]
        omega
      · intro e
        have := congrArg List.length e
        simp only [List.length_append] at this
        omega
  have hne : a.modern.pfx ≠ [] := by
    intro e
    have := (grow (ProjectFile.C114_heading a.pfx)).1
    have : a.pfx.length ≤ ([] : Text).length := e ▸ this
    exact hn (List.length_eq_zero_iff.1 (Nat.le_zero.1 this))
  refine ⟨?_, ?_, modern_id⟩
  · rw [readConfig, modern_toml, (read_back_toml a.modern).2 ⟨pm _ hp.1, pm _ hp.2.1, pm _ hp.2.2.1, pm _ hp.2.2.2⟩]
    exact if_neg hne
  · intro e
    refine ⟨?_, ?_, ?_, ?_⟩
    · exact (grow (ProjectFile.C114_heading a.name)).2 (congrArg Answers.name e).symm
    · exact (grow (ProjectFile.C114_heading a.author)).2 (congrArg Answers.author e).symm
    · exact (grow (ProjectFile.C114_heading a.pfx)).2 (congrArg Answers.pfx e).symm
    · exact (grow (ProjectFile.C114_heading a.mainprefix)).2 (congrArg Answers.mainprefix e).symm

example : Plain "Advanced Banana Environment".toList := by unfold Plain; decide +kernel
example : readConfig (projectToml ⟨"Advanced Banana".toList, "ABE Team, é".toList, "abe".toList, "z".toList⟩) =
    some ⟨"Advanced Banana".toList, "ABE Team, é".toList, "abe".toList, "z".toList⟩ := by decide +kernel

/-- A backslash is taken for an escape: another name is read, or none. -/
example : readConfig (projectToml ⟨"The \\new mod".toList, "a".toList, "b".toList, "z".toList⟩) =
    some ⟨"The \new mod".toList, "a".toList, "b".toList, "z".toList⟩ := by decide +kernel
example : readConfig (projectToml ⟨"The \"new\" mod".toList, "a".toList, "b".toList, "z".toList⟩) = none := by decide +kernel
example : readConfig (projectToml ⟨"About [hemtt.launch]".toList, "a".toList, "b".toList, "z".toList⟩) =
    some ⟨"About [hemtt.launch.default]".toList, "a".toList, "b".toList, "z".toList⟩ := by decide +kernel
example : NoHeading ⟨"Advanced Banana".toList, "ABE Team".toList, "abe".toList, "z".toList⟩ := by
  unfold NoHeading
  rw [← Commands.hasPart_iff, ← Commands.hasPart_iff, ← Commands.hasPart_iff, ← Commands.hasPart_iff]
  decide +kernel

end Verif.Utils
