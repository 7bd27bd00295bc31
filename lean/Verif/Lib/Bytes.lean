import Mathlib.Tactic.Ring
import Mathlib.Tactic.Linarith
/-!
Shared vocabulary for byte-level models: byte lists, little-endian numbers, errors and UTF-8 validity.
Nothing here models a particular function of `/repo`; `le16`, `le32`, `le64` model the calls
`write_u16/u32/u64::<LittleEndian>` of the `byteorder` crate and `readLe*` the matching reads.
-/
namespace Verif

/-- A byte string. -/
abbrev Bytes := List UInt8

/-- What a Rust call can end with besides a value: an `Err(..)` return, or a panic. -/
inductive Err where
  | io       -- std::io::Error (end of file)
  | parse    -- a library-specific error value
  | panic    -- process abort: unwrap/expect/overflow/index out of bounds/unreachable!
deriving DecidableEq, Repr

/-- Bytes of an ASCII text literal. -/
def ascii (s : String) : Bytes := s.toList.map (fun c => UInt8.ofNat c.toNat)

/-- Cursor-style reader: consumes a prefix of the remaining bytes. -/
abbrev Reader (α : Type) := Bytes → Except Err (α × Bytes)

/-- `k` little-endian bytes of `x` (higher bits are dropped, as by a Rust `as` cast). -/
def leBytes : Nat → Nat → Bytes
  | 0, _ => []
  | k+1, x => UInt8.ofNat (x % 256) :: leBytes k (x / 256)

/-- Value of a little-endian byte string. -/
def leValue : Bytes → Nat
  | [] => 0
  | b :: bs => b.toNat + 256 * leValue bs

abbrev le16 (x : Nat) : Bytes := leBytes 2 x
abbrev le32 (x : Nat) : Bytes := leBytes 4 x
abbrev le64 (x : Nat) : Bytes := leBytes 8 x

/-- `Read::read_exact` of `n` bytes. -/
def takeN (n : Nat) : Reader Bytes := fun bs =>
  if bs.length < n then .error .io else .ok (bs.take n, bs.drop n)

/-- little-endian read of `k` bytes. -/
def readLe (k : Nat) : Reader Nat := fun bs =>
  match takeN k bs with
  | .ok (v, rest) => .ok (leValue v, rest)
  | .error e => .error e

@[simp] theorem leBytes_length (k x : Nat) : (leBytes k x).length = k := by
  induction k generalizing x with
  | zero => rfl
  | succ k ih => simp [leBytes, ih]

theorem leValue_leBytes (k x : Nat) : leValue (leBytes k x) = x % 256 ^ k := by
  induction k generalizing x with
  | zero => simp [leBytes, leValue, Nat.mod_one]
  | succ k ih =>
    have h : (UInt8.ofNat (x % 256)).toNat = x % 256 := by simp
    rw [leBytes, leValue, ih, h, Nat.pow_succ, Nat.mul_comm (256 ^ k) 256, Nat.mod_mul]

theorem leValue_leBytes_of_lt {k x : Nat} (h : x < 256 ^ k) : leValue (leBytes k x) = x := by
  rw [leValue_leBytes, Nat.mod_eq_of_lt h]

theorem takeN_append (a rest : Bytes) : takeN a.length (a ++ rest) = .ok (a, rest) := by
  simp [takeN]

theorem takeN_append' {n : Nat} {a rest : Bytes} (h : a.length = n) :
    takeN n (a ++ rest) = .ok (a, rest) := by
  subst h; exact takeN_append a rest

theorem readLe_leBytes {k x : Nat} (rest : Bytes) (h : x < 256 ^ k) :
    readLe k (leBytes k x ++ rest) = .ok (x, rest) := by
  unfold readLe
  rw [takeN_append' (leBytes_length k x)]
  simp [leValue_leBytes_of_lt h]

theorem leValue_lt (bs : Bytes) : leValue bs < 256 ^ bs.length := by
  induction bs with
  | nil => simp [leValue]
  | cons b bs ih =>
    have := b.toNat_lt
    simp only [leValue, List.length_cons, Nat.pow_succ]
    omega

theorem leBytes_leValue (bs : Bytes) : leBytes bs.length (leValue bs) = bs := by
  induction bs with
  | nil => rfl
  | cons b bs ih =>
    have := b.toNat_lt
    simp only [List.length_cons, leBytes, leValue]
    have h1 : (b.toNat + 256 * leValue bs) % 256 = b.toNat := by omega
    have h2 : (b.toNat + 256 * leValue bs) / 256 = leValue bs := by omega
    rw [h1, h2, ih]; simp

theorem leBytes_inj {k x y : Nat} (hx : x < 256 ^ k) (hy : y < 256 ^ k)
    (h : leBytes k x = leBytes k y) : x = y := by
  rw [← leValue_leBytes_of_lt hx, ← leValue_leBytes_of_lt hy, h]

/-- UTF-8 well-formedness (Unicode table 3-7), the check made by Rust's `String::from_utf8`. -/
def isUtf8 : Bytes → Bool
  | [] => true
  | a :: rest =>
    if a < 0x80 then isUtf8 rest
    else if 0xC2 ≤ a ∧ a ≤ 0xDF then
      match rest with
      | b :: r => (0x80 ≤ b && b ≤ 0xBF) && isUtf8 r
      | _ => false
    else if 0xE0 ≤ a ∧ a ≤ 0xEF then
      match rest with
      | b :: c :: r =>
        ((if a = 0xE0 then 0xA0 else 0x80) ≤ b && b ≤ (if a = 0xED then 0x9F else 0xBF)) &&
        (0x80 ≤ c && c ≤ 0xBF) && isUtf8 r
      | _ => false
    else if 0xF0 ≤ a ∧ a ≤ 0xF4 then
      match rest with
      | b :: c :: d :: r =>
        ((if a = 0xF0 then 0x90 else 0x80) ≤ b && b ≤ (if a = 0xF4 then 0x8F else 0xBF)) &&
        (0x80 ≤ c && c ≤ 0xBF) && (0x80 ≤ d && d ≤ 0xBF) && isUtf8 r
      | _ => false
    else false

theorem isUtf8_of_ascii {s : Bytes} (h : ∀ b ∈ s, b < 0x80) : isUtf8 s = true := by
  induction s with
  | nil => rfl
  | cons a s ih =>
    have ha : a < 0x80 := h a (by simp)
    rw [isUtf8.eq_def]
    simp only [ha, if_true]
    exact ih (fun b hb => h b (by simp [hb]))

end Verif
