import Verif.Lib.SqfIdx
import Verif.Props.SqfComp
/-!
C26: SQFC files hold what the compiler produced.
C47: LZO streams end where they end.
-/
namespace Verif.Sqf
open Sqfc (FitsAll PtrFits plains)

/-- C26. A compiled script that is written successfully is read back by the independent reader of `Verif.Spec.Sqfc`:
entry point, names, file names and constants are the original ones (`plains` only forgets which array constants are
marked as consumable; the format has one kind of array). Holds for compressed and uncompressed constants.

`FitsAll` asks that constant indices and lengths in code pointers use at most 31 bits, which is all the format has
room for; `C26_pipeline` shows that it holds for whatever the compiler emits. -/
theorem C26_round_trip {c : Compiled} {w : Bytes} (h : c.serialize = .ok w) (hp : FitsAll c.consts) :
    ∃ k, ∀ f, k ≤ f → Sqfc.read f w = some ⟨c.entry.toNat, plains c.consts, c.names, c.files⟩ :=
  ⟨_, fun _ hf => Sqfc.read_ok h hp hf⟩

/-- C26. Two compiled scripts written as the same bytes have the same entry point, names, files and constants. -/
theorem C26_injective {a b : Compiled} {w : Bytes} (ha : a.serialize = .ok w) (hb : b.serialize = .ok w)
    (pa : FitsAll a.consts) (pb : FitsAll b.consts) :
    a.entry = b.entry ∧ plains a.consts = plains b.consts ∧ a.names = b.names ∧ a.files = b.files := by
  obtain ⟨k, hk⟩ := C26_round_trip ha pa
  obtain ⟨j, hj⟩ := C26_round_trip hb pb
  have := (hk (max k j) (by omega)).symm.trans (hj (max k j) (by omega))
  simp only [Option.some.injEq, Sqfc.Script.mk.injEq] at this
  exact ⟨UInt16.toNat_inj.1 this.1, this.2.1, this.2.2.1, this.2.2.2⟩

/-- C26, from source to file and back (`compile_to_writer`). For a processed text whose extracted pieces are shorter than
2^31 bytes: if the script compiles, writing it either fails because something is too large for the format, or yields a
file whose entry point is code that reads back as the script's statements, with the script text and the list of source
files at hand. No bound on the number of constants is assumed: the files that would suffer from the wrapped entry index
(`C25_entry_wraps`) are never written. -/
theorem C26_pipeline {P : Proc} (hP : ∀ sp, P.len sp < 2 ^ 31) {files : List Bytes} {b : Block} {c : Compiled}
    (h : b.compile P files = .ok c) :
    (∃ e, c.serialize = .error e ∧ e.Size) ∨
    ∃ w, c.serialize = .ok w ∧ ∃ k, ∀ f, k ≤ f → ∃ s, Sqfc.read f w = some s ∧ s.files = files ∧
      ∃ is i, s.consts[s.entry]? = some (.code ⟨is, .const i⟩) ∧ s.consts[i.toNat]? = some (.str b.source) ∧
        body (tree ⟨s.consts, s.names⟩ f) ⟨s.consts, s.names⟩ is = some (unshareSs (wantSs P b.content)) := by
  have hw := compile_inv hP h
  cases hs : c.serialize with
  | error e => exact .inl ⟨e, rfl, serialize_sz hw e hs⟩
  | ok w =>
    refine .inr ⟨w, rfl, ?_⟩
    have hlen : c.consts.length < 2 ^ 16 := by
      unfold Compiled.serialize at hs
      obtain ⟨_, _, hs⟩ := rbind hs
      obtain ⟨_, _, hs⟩ := rbind hs
      obtain ⟨x, hx, hs⟩ := rbind hs
      have : ∃ t, serTable c = .ok t := by
        unfold serConstBlock at hx
        split at hx
        · obtain ⟨t, ht, _⟩ := rbind hx; exact ⟨t, ht⟩
        · obtain ⟨t, ht, _⟩ := rbind hx; exact ⟨t, ht⟩
      obtain ⟨t, ht⟩ := this
      unfold serTable at ht
      split at ht
      · cases ht
      · omega
    obtain ⟨k, hk⟩ := C26_round_trip hs hw.fits
    obtain ⟨hfiles, is, i, h1, h2, j, hj⟩ := C25_reads_back h (by omega)
    refine ⟨max k j, fun f hf => ⟨_, hk f (by omega), hfiles, is, i, ?_, ?_, ?_⟩⟩
    · simp only [plains_map, List.getElem?_map, h1]
      rfl
    · simp only [plains_map, List.getElem?_map, h2]
      rfl
    · rw [body_un (tree_un c.consts c.names f), hj f (by omega)]
      rfl

/-- Non-vacuity: the demonstration script of `C25` is written and read back. -/
example : (match demoBlock.compile demoProc [ascii "a.sqf"] with
    | .ok c => (match c.serialize with | .ok w => some w.length | .error _ => none)
    | .error _ => none) = some 153 := by decide +kernel

end Verif.Sqf

namespace Verif.Lzo

/-- C47. A stream that decompresses successfully tells its own end: with any further bytes behind it, decompression to
the same size reports unread input (-8) instead of succeeding. -/
theorem C47_trailing (cap : Nat) (z ext out : Bytes) (hext : ext ≠ []) (h : decompress cap z = .ok (.ok out)) :
    decompress cap (z ++ ext) = .ok (.error (-8)) := decompress_app cap z ext out hext h

/-- C47. No proper piece from the start of a complete stream is a complete stream, so a truncated stream is never
taken for a whole one. -/
theorem C47_truncated (cap : Nat) (z out : Bytes) (h : decompress cap z = .ok (.ok out)) (k : Nat) (hk : k < z.length) :
    ∀ out', decompress cap (z.take k) ≠ .ok (.ok out') := by
  intro out' h'
  have := decompress_app cap (z.take k) (z.drop k) out' (by
    intro h0
    have := congrArg List.length h0
    rw [List.length_drop, List.length_nil] at this
    omega) h'
  rw [List.take_append_drop, h] at this
  cases this

/-- Non-vacuity -/
example : decompress 3 [20, 1, 2, 3, 17, 0, 0] = .ok (.ok [1, 2, 3]) ∧
    decompress 3 [20, 1, 2, 3, 17, 0, 0, 9] = .ok (.error (-8)) := by decide +kernel

end Verif.Lzo
