import Verif.Lib.Bytes
/-!
Model of `/repo/libs/common/src/io.rs`.
Readers are in-memory cursors: a `Read` never fails, it only reaches its end.
-/
namespace Verif.Io

/-- repo: libs/common/src/io.rs:77-81 (`write_cstring`) -/
def writeCString (s : Bytes) : Bytes := s ++ [0]

/-- The byte loop of `read_cstring`: stops after the first NUL or at end of input.
repo: libs/common/src/io.rs:31-38 -/
def cstringBytes : Bytes → Bytes × Bytes
  | [] => ([], [])
  | b :: bs => if b = 0 then ([], bs) else
      let r := cstringBytes bs
      (b :: r.1, r.2)

/-- repo: libs/common/src/io.rs:30-47 (`read_cstring`); invalid UTF-8 yields the empty string. -/
def readCString (bs : Bytes) : Bytes × Bytes :=
  let r := cstringBytes bs
  (if isUtf8 r.1 then r.1 else [], r.2)

/-- repo: libs/common/src/io.rs:84-97 (`write_compressed_int`), the bytes written.
`temp &= !0x7f; temp >>= 7` is division by 128 (the low bits are shifted out anyway). -/
def writeCompressed (x : Nat) : Bytes :=
  if _h : 0x7f < x then
    UInt8.ofNat (0x80 ||| (x &&& 0x7f)) :: writeCompressed (x >>> 7)
  else [UInt8.ofNat x]
termination_by x
decreasing_by rw [Nat.shiftRight_eq_div_pow]; omega

/-- repo: libs/common/src/io.rs:84-97 (`write_compressed_int`), the returned length. -/
def writeCompressedRet (x : Nat) : Nat := go x 0
where
  go (temp len : Nat) : Nat :=
    if h : 0x7f < temp then go (temp >>> 7) (len + 1) else len + 1
  termination_by temp
  decreasing_by rw [Nat.shiftRight_eq_div_pow]; omega

/-- repo: libs/common/src/io.rs:102-113 (`compressed_int_len`) -/
def compressedIntLen (x : Nat) : Nat := go x 0
where
  go (temp len : Nat) : Nat :=
    if h : 0x7f < temp then go (temp >>> 7) (len + 1) else len + 1
  termination_by temp
  decreasing_by rw [Nat.shiftRight_eq_div_pow]; omega

/-- repo: libs/common/src/io.rs:49-59 (`read_compressed_int`).
A shift by 32 or more bits is an overflow panic (debug profile); bits shifted beyond 32 are lost. -/
def readCompressed (bs : Bytes) : Except Err (Nat × Bytes) := go 0 0 bs
where
  go (i result : Nat) : Bytes → Except Err (Nat × Bytes)
    | [] => .ok (result, [])
    | b :: bs =>
      if i * 7 ≥ 32 then .error .panic
      else
        let result := result ||| (((b.toNat &&& 0x7f) <<< (i * 7)) % 2 ^ 32)
        if b.toNat < 0x80 then .ok (result, bs) else go (i + 1) result bs

end Verif.Io
