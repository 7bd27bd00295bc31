import Verif.Lib.Bytes
/-!
Model of `/repo/libs/lzo` (LZO1X-1). The Rust code works on raw pointers; the model makes every memory
access explicit and checked: an access outside the input, outside the written part of the output (reads) or
outside the output buffer (writes) ends with `oob`. Loops without an evident bound carry fuel; running out of
it ends with `fuel`. Theorems show that neither ever happens.

Representation and simplifications:
* decompressor: `ip` is the list of input bytes not yet read (`ip_end - ip` is its length), `op` is the list
  of output bytes written so far (the code only ever writes at `op`), `m_pos` is an integer offset from `out`;
* compressor: input pointers are offsets into the whole input; the output is the list of bytes up to `op`.
  Block copies (`put_unaligned`) that write past the `t` bytes kept are modelled by their bounds check only:
  every later write starts at `op`, so the surplus bytes are overwritten or lie beyond the reported length;
* pointer values that are merely computed (not accessed) may lie outside the buffers;
* `usize` arithmetic is exact (the run length check makes overflow impossible; inputs are shorter than 2^63).
-/
namespace Verif.Lzo

/-- How a modelled raw-pointer computation can go wrong. -/
inductive MErr where
  | oob   -- access outside a buffer
  | fuel  -- no termination within the given number of iterations
deriving DecidableEq, Repr

/-- Outcome of `lzo1x_decompress_safe`: return code, `*out_len`, bytes written. -/
structure Ret where
  code : Int
  outLen : Nat
  written : Bytes
deriving DecidableEq, Repr

/-- `*ip`, then `ip + 1` -/
def rd : Bytes → Except MErr (UInt8 × Bytes)
  | [] => .error .oob
  | b :: r => .ok (b, r)

/-- `*op = b; op += 1` -/
def put (cap : Nat) (out : Bytes) (b : UInt8) : Except MErr Bytes :=
  if out.length < cap then .ok (out ++ [b]) else .error .oob

/-- `*m_pos` for an offset from the start of the output -/
def rdOut (out : Bytes) (m : Int) : Except MErr UInt8 :=
  if 0 ≤ m then
    match out[m.toNat]? with
    | some b => .ok b
    | none => .error .oob
  else .error .oob

/-- The literal copying loops, repo: libs/lzo/src/decompress.rs:55-69, 83-97, 166-180, 396-411 -/
def copyLit (cap : Nat) : Nat → Bytes → Bytes → Except MErr (Bytes × Bytes)
  | 0, rest, out => .ok (rest, out)
  | t+1, rest, out =>
    match rd rest with
    | .error e => .error e
    | .ok (b, rest) =>
      match put cap out b with
      | .error e => .error e
      | .ok out => copyLit cap t rest out

/-- `n` bytes copied from `m` upwards to `op` -/
def copyOut (cap : Nat) : Nat → Int → Bytes → Except MErr Bytes
  | 0, _, out => .ok out
  | n+1, m, out =>
    match rdOut out m with
    | .error e => .error e
    | .ok b =>
      match put cap out b with
      | .error e => .error e
      | .ok out => copyOut cap n (m + 1) out

/-- The zero-run loops, repo: libs/lzo/src/decompress.rs:118-131, 245-258, 296-309:
count zero bytes; `none` when the input ends. -/
def zrun : Bytes → Nat → Except MErr (Option (Nat × Bytes))
  | [], _ => .error .oob
  | b :: r, n =>
    if b ≠ 0 then .ok (some (n, b :: r))
    else if r.length < 1 then .ok none
    else zrun r (n + 1)

/-- `usize::MAX / 255 - 2` -/
def maxOffset : Nat := (2 ^ 64 - 1) / 255 - 2

/-- Either the call returns, or it goes on with a value. -/
inductive Flow (α : Type) where
  | ret (r : Ret)
  | go (a : α)

/-- Extended run length with the given base, repo: libs/lzo/src/decompress.rs:116-147, 243-274, 294-325.
On too long a run `*out_len` keeps the capacity. -/
def longRun (cap base : Nat) (rest out : Bytes) : Except MErr (Flow (Nat × Bytes)) :=
  match zrun rest 0 with
  | .error e => .error e
  | .ok none => .ok (.ret ⟨-4, out.length, out⟩)
  | .ok (some (offset, rest)) =>
    if offset > maxOffset then .ok (.ret ⟨-1, cap, out⟩)
    else
      match rd rest with
      | .error e => .error e
      | .ok (b, rest) => .ok (.go (255 * offset + base + b.toNat, rest))

/-- What follows a match, repo: libs/lzo/src/decompress.rs:380-411: up to three literals. -/
def finish (cap next : Nat) (rest out : Bytes) : Except MErr (Flow (Bytes × Bytes × Nat)) :=
  if rest.length < next + 3 then .ok (.ret ⟨-4, out.length, out⟩)
  else if cap - out.length < next then .ok (.ret ⟨-5, out.length, out⟩)
  else
    match copyLit cap next rest out with
    | .error e => .error e
    | .ok (rest, out) => .ok (.go (rest, out, next))

/-- Copy of a match, repo: libs/lzo/src/decompress.rs:347-379. The `do … while (op < oe)` loop after the
first two bytes copies one byte at least. -/
def copyMatch (cap t : Nat) (m : Int) (next : Nat) (rest out : Bytes) :
    Except MErr (Flow (Bytes × Bytes × Nat)) :=
  if m < 0 then .ok (.ret ⟨-6, out.length, out⟩)
  else if cap - out.length < t then .ok (.ret ⟨-5, out.length, out⟩)
  else
    match copyOut cap (2 + max 1 (t - 2)) m out with
    | .error e => .error e
    | .ok out => finish cap next rest out

/-- `get_unaligned_le16` and the step over it, repo: libs/lzo/src/decompress.rs:8-11, 285-286, 335-336 -/
def rd16 (rest : Bytes) : Except MErr (Nat × Bytes) :=
  match rd rest with
  | .error e => .error e
  | .ok (a, rest) =>
    match rd rest with
    | .error e => .error e
    | .ok (b, rest) => .ok (a.toNat ||| b.toNat <<< 8, rest)

/-- Literal run, repo: libs/lzo/src/decompress.rs:114-183 -/
def litInstr (cap t : Nat) (rest out : Bytes) : Except MErr (Flow (Bytes × Bytes × Nat)) :=
  match (if t = 0 then longRun cap 15 rest out else .ok (.go (t, rest))) with
  | .error e => .error e
  | .ok (.ret r) => .ok (.ret r)
  | .ok (.go (t, rest)) =>
    let t := t + 3
    if cap - out.length < t then .ok (.ret ⟨-5, out.length, out⟩)
    else if rest.length < t + 3 then .ok (.ret ⟨-4, out.length, out⟩)
    else
      match copyLit cap t rest out with
      | .error e => .error e
      | .ok (rest, out) => .ok (.go (rest, out, 4))

/-- Two-byte match after one to three literals, repo: libs/lzo/src/decompress.rs:184-210 -/
def m1Instr (cap t : Nat) (rest out : Bytes) : Except MErr (Flow (Bytes × Bytes × Nat)) :=
  match rd rest with
  | .error e => .error e
  | .ok (c, rest) =>
    let m : Int := out.length - 1 - (t >>> 2 : Nat) - (c.toNat <<< 2 : Nat)
    if m < 0 then .ok (.ret ⟨-6, out.length, out⟩)
    else if cap - out.length < 2 then .ok (.ret ⟨-5, out.length, out⟩)
    else
      match copyOut cap 2 m out with
      | .error e => .error e
      | .ok out => finish cap (t &&& 3) rest out

/-- Three-byte far match after a literal run, repo: libs/lzo/src/decompress.rs:211-224 -/
def m1FarInstr (cap t : Nat) (rest out : Bytes) : Except MErr (Flow (Bytes × Bytes × Nat)) :=
  match rd rest with
  | .error e => .error e
  | .ok (c, rest) =>
    copyMatch cap 3 (out.length - (1 + 0x800) - (t >>> 2 : Nat) - (c.toNat <<< 2 : Nat)) (t &&& 3) rest out

/-- Short near match, repo: libs/lzo/src/decompress.rs:226-239 -/
def m2Instr (cap t : Nat) (rest out : Bytes) : Except MErr (Flow (Bytes × Bytes × Nat)) :=
  match rd rest with
  | .error e => .error e
  | .ok (c, rest) =>
    copyMatch cap ((t >>> 5) - 1 + (3 - 1))
      (out.length - 1 - ((t >>> 2 &&& 7 : Nat) : Int) - (c.toNat <<< 3 : Nat)) (t &&& 3) rest out

/-- Match up to 16 KiB back, repo: libs/lzo/src/decompress.rs:240-288 -/
def m3Instr (cap t : Nat) (rest out : Bytes) : Except MErr (Flow (Bytes × Bytes × Nat)) :=
  let t := (t &&& 31) + (3 - 1)
  match (if t = 2 then longRun cap 31 rest out else .ok (.go (0, rest))) with
  | .error e => .error e
  | .ok (.ret r) => .ok (.ret r)
  | .ok (.go (add, rest)) =>
    if t = 2 ∧ rest.length < 2 then .ok (.ret ⟨-4, out.length, out⟩)
    else
      match rd16 rest with
      | .error e => .error e
      | .ok (next, rest) =>
        copyMatch cap (t + add) (out.length - 1 - (next >>> 2 : Nat)) (next &&& 3) rest out

/-- Match 16 to 48 KiB back, or the end marker, repo: libs/lzo/src/decompress.rs:289-344 and 420-431.
The input pointer cannot lie past its end here without an earlier `oob`. -/
def m4Instr (cap t : Nat) (rest out : Bytes) : Except MErr (Flow (Bytes × Bytes × Nat)) :=
  let m : Int := out.length - ((t &&& 8) <<< 11 : Nat)
  let t := (t &&& 7) + (3 - 1)
  match (if t = 2 then longRun cap 7 rest out else .ok (.go (0, rest))) with
  | .error e => .error e
  | .ok (.ret r) => .ok (.ret r)
  | .ok (.go (add, rest)) =>
    if t = 2 ∧ rest.length < 2 then .ok (.ret ⟨-4, out.length, out⟩)
    else
      match rd16 rest with
      | .error e => .error e
      | .ok (next, rest) =>
        let m := m - (next >>> 2 : Nat)
        if m = out.length then
          .ok (.ret ⟨if t + add ≠ 3 then -1 else if rest = [] then 0 else -8, out.length, out⟩)
        else copyMatch cap (t + add) (m - 0x4000) (next &&& 3) rest out

/-- One iteration of the main loop, repo: libs/lzo/src/decompress.rs:106-418 -/
def step (cap : Nat) (rest out : Bytes) (state : Nat) : Except MErr (Flow (Bytes × Bytes × Nat)) :=
  match rd rest with
  | .error e => .error e
  | .ok (b, rest) =>
    let t := b.toNat
    if t < 16 then
      if state = 0 then litInstr cap t rest out
      else if state ≠ 4 then m1Instr cap t rest out
      else m1FarInstr cap t rest out
    else if t ≥ 64 then m2Instr cap t rest out
    else if t ≥ 32 then m3Instr cap t rest out
    else m4Instr cap t rest out

/-- The main loop, repo: libs/lzo/src/decompress.rs:106-418 -/
def loop (cap : Nat) : Nat → Bytes → Bytes → Nat → Except MErr Ret
  | 0, _, _, _ => .error .fuel
  | f+1, rest, out, state =>
    match step cap rest out state with
    | .error e => .error e
    | .ok (.ret r) => .ok r
    | .ok (.go (rest, out, state)) => loop cap f rest out state

/-- repo: libs/lzo/src/decompress.rs:33-105, the first byte. -/
def start (cap : Nat) (inp : Bytes) : Except MErr (Flow (Bytes × Bytes × Nat)) :=
  match rd inp with
  | .error e => .error e
  | .ok (b, rest) =>
    if b.toNat > 17 then
      let t := b.toNat - 17
      if t < 4 then finish cap t rest []
      else if cap < t then .ok (.ret ⟨-5, 0, []⟩)
      else if rest.length < t + 3 then .ok (.ret ⟨-4, 0, []⟩)
      else
        match copyLit cap t rest [] with
        | .error e => .error e
        | .ok (rest, out) => .ok (.go (rest, out, 4))
    else .ok (.go (inp, [], 0))

/-- repo: libs/lzo/src/decompress.rs:16-446 (`lzo1x_decompress_safe`), with `fuel` iterations allowed. -/
def decompressFuel (fuel cap : Nat) (inp : Bytes) : Except MErr Ret :=
  if inp.length ≥ 3 then
    match start cap inp with
    | .error e => .error e
    | .ok (.ret r) => .ok r
    | .ok (.go (rest, out, state)) => loop cap fuel rest out state
  else .ok ⟨-4, 0, []⟩

/-- repo: libs/lzo/src/decompress.rs:16-446 (`lzo1x_decompress_safe`) -/
def decompressRaw (cap : Nat) (inp : Bytes) : Except MErr Ret := decompressFuel (inp.length + 1) cap inp

/-- repo: libs/lzo/src/lib.rs:107-123 (`decompress_to_slice`): the slice of the reported length, or an error code.
Bytes of the slice beyond those written would be whatever the caller's buffer held; the model marks that
case as out of bounds. -/
def decompress (cap : Nat) (inp : Bytes) : Except MErr (Except Int Bytes) :=
  match decompressRaw cap inp with
  | .error e => .error e
  | .ok r =>
    if r.code = 0 then
      if r.outLen ≤ r.written.length then .ok (.ok (r.written.take r.outLen)) else .error .oob
    else .ok (.error r.code)

/-! ### Compression -/

/-- checked read of the input -/
def at' (inp : Bytes) (i : Nat) : Except MErr UInt8 :=
  match inp[i]? with
  | some b => .ok b
  | none => .error .oob

/-- checked block read: `n` bytes from `i` must lie inside -/
def chkRead (inp : Bytes) (i n : Nat) : Except MErr Unit :=
  if i + n ≤ inp.length then .ok () else .error .oob

/-- checked block write at `op` -/
def chkWrite (cap : Nat) (out : Bytes) (n : Nat) : Except MErr Unit :=
  if out.length + n ≤ cap then .ok () else .error .oob

/-- consecutive `*op++ = …` -/
def emit (cap : Nat) (out bs : Bytes) : Except MErr Bytes :=
  if out.length + bs.length ≤ cap then .ok (out ++ bs) else .error .oob

/-- `op[-2] |= t` -/
def orBack (out : Bytes) (t : Nat) : Except MErr Bytes :=
  if 2 ≤ out.length then
    match out[out.length - 2]? with
    | some b => .ok (out.set (out.length - 2) (UInt8.ofNat (b.toNat ||| t)))
    | none => .error .oob
  else .error .oob

/-- repo: libs/lzo/src/compress.rs:19-25 (`get_unaligned_le32`) -/
def le32At (inp : Bytes) (i : Nat) : Except MErr Nat :=
  match at' inp i, at' inp (i+1), at' inp (i+2), at' inp (i+3) with
  | .ok a, .ok b, .ok c, .ok d => .ok (a.toNat ||| b.toNat <<< 8 ||| c.toNat <<< 16 ||| d.toNat <<< 24)
  | _, _, _, _ => .error .oob

/-- repo: libs/lzo/src/compress.rs:87-88, an index into the 8192-entry dictionary -/
def hash (dv : Nat) : Nat := (dv * 0x1824429d % 2 ^ 32) >>> 19 &&& (2 ^ 13 - 1)

/-- the run-length bytes, repo: libs/lzo/src/compress.rs:168-183, 331-346, 363-378, 477-492 -/
def zeros (n : Nat) : Bytes :=
  if n ≤ 255 then [UInt8.ofNat n] else 0 :: zeros (n - 255)
termination_by n

/-- header of a literal run longer than three, repo: libs/lzo/src/compress.rs:111-184, 464-493 -/
def litHeader (t : Nat) : Bytes :=
  if t ≤ 18 then [UInt8.ofNat (t - 3)] else 0 :: zeros (t - 18)

/-- `t` input bytes from `ii`, all of them checked -/
def copyIn (cap : Nat) (inp : Bytes) (ii t : Nat) (out : Bytes) : Except MErr Bytes :=
  match chkRead inp ii t with
  | .error e => .error e
  | .ok () => emit cap out ((inp.drop ii).take t)

/-- Literals before a match, repo: libs/lzo/src/compress.rs:99-247. Runs of at most 16 bytes are copied in
blocks of 4 or 16 bytes. -/
def emitLits (cap : Nat) (inp : Bytes) (ii t : Nat) (out : Bytes) : Except MErr Bytes :=
  if t = 0 then .ok out
  else if t ≤ 3 then
    match orBack out t, chkRead inp ii 4, chkWrite cap out 4 with
    | .ok out, .ok (), .ok () => copyIn cap inp ii t out
    | _, _, _ => .error .oob
  else
    match emit cap out (litHeader t) with
    | .error e => .error e
    | .ok out =>
      if t ≤ 16 then
        match chkRead inp ii 16, chkWrite cap out 16 with
        | .ok (), .ok () => copyIn cap inp ii t out
        | _, _ => .error .oob
      else copyIn cap inp ii t out

/-- Seven unrolled comparisons, repo: libs/lzo/src/compress.rs:256-290: the length, and whether all were equal. -/
def extend (inp : Bytes) (ip mp : Nat) : Nat → Nat → Except MErr (Nat × Bool)
  | 0, len => .ok (len, true)
  | k+1, len =>
    match at' inp (ip + (len + 1)), at' inp (mp + (len + 1)) with
    | .ok a, .ok b => if a ≠ b then .ok (len + 1, false) else extend inp ip mp k (len + 1)
    | _, _ => .error .oob

/-- The match extension loop, repo: libs/lzo/src/compress.rs:254-301. -/
def matchLoop (inp : Bytes) (ip mp ipEnd : Nat) : Nat → Nat → Except MErr Nat
  | 0, _ => .error .fuel
  | f+1, len =>
    match extend inp ip mp 7 len with
    | .error e => .error e
    | .ok (len, false) => .ok len
    | .ok (len, true) =>
      let len := len + 1
      if ip + len ≥ ipEnd then .ok len
      else
        match at' inp (ip + len), at' inp (mp + len) with
        | .ok a, .ok b => if a = b then matchLoop inp ip mp ipEnd f len else .ok len
        | _, _ => .error .oob

/-- Match length, repo: libs/lzo/src/compress.rs:248-314. -/
def matchLen (inp : Bytes) (ip mp ipEnd : Nat) : Except MErr Nat :=
  match at' inp (ip + 4), at' inp (mp + 4) with
  | .ok a, .ok b => if a = b then matchLoop inp ip mp ipEnd (ipEnd - ip + 1) 4 else .ok 4
  | _, _ => .error .oob

/-- The bytes of a match, repo: libs/lzo/src/compress.rs:307-403. -/
def matchBytes (len off : Nat) : Bytes :=
  if len ≤ 8 ∧ off ≤ 0x800 then
    let off := off - 1
    [UInt8.ofNat ((len - 1) <<< 5 ||| (off &&& 7) <<< 2), UInt8.ofNat (off >>> 3)]
  else if off ≤ 0x4000 then
    let off := off - 1
    (if len ≤ 33 then [UInt8.ofNat (32 ||| (len - 2))] else 32 :: zeros (len - 33)) ++
      [UInt8.ofNat (off <<< 2), UInt8.ofNat (off >>> 6)]
  else
    let off := off - 0x4000
    (if len ≤ 9 then [UInt8.ofNat (16 ||| (off >>> 11 &&& 8) ||| (len - 2))]
      else UInt8.ofNat (16 ||| (off >>> 11 &&& 8)) :: zeros (len - 9)) ++
      [UInt8.ofNat (off <<< 2), UInt8.ofNat (off >>> 6)]

/-- The variables of `lzo1x_1_do_compress`; `dict` maps hashes to offsets from the start of the block. -/
structure CState where
  out : Bytes
  ip : Nat
  ii : Nat
  ti : Nat
  dict : Nat → Nat

/-- repo: libs/lzo/src/compress.rs:76-81 -/
def advance (s : CState) : CState := { s with ip := s.ip + (1 + (s.ip - s.ii) >>> 5) }

/-- The inner loop with the jump back to the outer one, repo: libs/lzo/src/compress.rs:82-404. The dictionary
index is below 8192 by masking. -/
def inner (cap : Nat) (inp : Bytes) (base ipEnd : Nat) : Nat → CState → Except MErr CState
  | 0, _ => .error .fuel
  | f+1, s =>
    if s.ip ≥ ipEnd then .ok s
    else
      match le32At inp s.ip with
      | .error e => .error e
      | .ok dv =>
        let mp := base + s.dict (hash dv)
        let s := { s with dict := fun k => if k = hash dv then (s.ip - base) % 2 ^ 16 else s.dict k }
        match le32At inp mp with
        | .error e => .error e
        | .ok mv =>
          if dv ≠ mv then inner cap inp base ipEnd f (advance s)
          else
            let ii := s.ii - s.ti
            match emitLits cap inp ii (s.ip - ii) s.out with
            | .error e => .error e
            | .ok out =>
              match matchLen inp s.ip mp ipEnd with
              | .error e => .error e
              | .ok len =>
                match emit cap out (matchBytes len (s.ip - mp)) with
                | .error e => .error e
                | .ok out => inner cap inp base ipEnd f ⟨out, s.ip + len, s.ip + len, 0, s.dict⟩

/-- repo: libs/lzo/src/compress.rs:47-410 (`lzo1x_1_do_compress`) on the `ll` bytes at `base`, with `ti` pending
literals: the output and the number of literals now pending. The dictionary was zeroed (compress.rs:441-445). -/
@[irreducible] def doCompress (cap : Nat) (inp : Bytes) (base ll ti : Nat) (out : Bytes) : Except MErr (Bytes × Nat) :=
  let s : CState := ⟨out, base + (if ti < 4 then 4 - ti else 0), base, ti, fun _ => 0⟩
  match inner cap inp base (base + ll - 20) (ll + 1) (advance s) with
  | .error e => .error e
  | .ok s => .ok (s.out, base + ll - (s.ii - s.ti))

/-- Size of the next block, repo: libs/lzo/src/compress.rs:432-436. -/
def blockLen (l : Nat) : Nat := if l ≤ 0xbfff + 1 then l else 0xbfff + 1

/-- The block loop, repo: libs/lzo/src/compress.rs:428-450: output, remaining length, pending literals. The
pointer overflow test at 438 is `(t + ll) >> 5 = 0` for addresses that do not wrap. -/
def blocks (cap : Nat) (inp : Bytes) : Nat → Nat → Nat → Bytes → Except MErr (Bytes × Nat × Nat)
  | 0, _, _, _ => .error .fuel
  | f+1, l, t, out =>
    if l ≤ 20 then .ok (out, l, t)
    else
      let ll := blockLen l
      if (t + ll) >>> 5 = 0 then .ok (out, l, t)
      else
        match doCompress cap inp (inp.length - l) ll t out with
        | .error e => .error e
        | .ok (out, t) => blocks cap inp f (l - ll) t out

/-- Header of the last literals, repo: libs/lzo/src/compress.rs:454-493. -/
def lastHeader (cap t : Nat) (out : Bytes) : Except MErr Bytes :=
  if out = [] ∧ t ≤ 238 then emit cap out [UInt8.ofNat (17 + t)]
  else if t ≤ 3 then orBack out t
  else emit cap out (litHeader t)

/-- The last literals, repo: libs/lzo/src/compress.rs:452-570. -/
def lastLits (cap : Nat) (inp : Bytes) (t : Nat) (out : Bytes) : Except MErr Bytes :=
  if t > 0 then
    match lastHeader cap t out with
    | .error e => .error e
    | .ok out => copyIn cap inp (inp.length - t) t out
  else .ok out

/-- repo: libs/lzo/src/compress.rs:416-589 (`lzo1x_1_compress`) into a buffer of `cap` bytes. The code never
looks at the capacity. -/
def compress (cap : Nat) (inp : Bytes) : Except MErr Bytes :=
  match blocks cap inp (inp.length + 1) inp.length 0 [] with
  | .error e => .error e
  | .ok (out, l, t) =>
    match lastLits cap inp (t + l) out with
    | .error e => .error e
    | .ok out => emit cap out [16 ||| 1, 0, 0]

/-- repo: libs/lzo/src/lib.rs:10-12 (`worst_compress`) -/
def worstCompress (size : Nat) : Nat := size + size / 16 + 64 + 3

end Verif.Lzo
