import Verif.Lib.SqfComp
/-!
C25: compiled SQF reads back as the script it was compiled from.
-/
namespace Verif.Sqf

/-- C25. If a script compiles, the entry point of the result is a code constant whose instructions, executed on the
symbolic stack machine of `Verif.Spec.SqfRun` against the emitted tables, yield exactly the statements of the
script: same nesting, same order of operands, same literals, names in lower case and the source position of every
command; its source pointer leads to the script text, and the file table is the list of sources.

The bound on the table is the range of the entry index; see `C25_entry_wraps` and
`C26_pipeline` for what happens beyond it. -/
theorem C25_reads_back {P : Proc} {files : List Bytes} {b : Block} {c : Compiled}
    (h : b.compile P files = .ok c) (hlen : c.consts.length ≤ 65536) :
    c.files = files ∧
    ∃ is i, c.consts[c.entry.toNat]? = some (.code ⟨is, .const i⟩) ∧ c.consts[i.toNat]? = some (.str b.source) ∧
      ∃ k, ∀ f, k ≤ f → body (tree ⟨c.consts, c.names⟩ f) ⟨c.consts, c.names⟩ is = some (wantSs P b.content) := by
  obtain ⟨⟨is, ctx1⟩, h1, h⟩ := rbind h
  obtain ⟨⟨i, ctx2⟩, h2, h⟩ := rbind h
  cases h
  obtain ⟨e1, r1⟩ := compSs_ok P b.content _ _ _ h1
  obtain ⟨⟨j, l⟩, h3, h4⟩ := rbind h2
  cases h4
  obtain ⟨p, x, hx, hxe⟩ := addOrGet_ok h3
  have hx' : x = .str b.source := by
    rcases hxe with h | h
    · exact h
    · cases x <;> simp [constEq] at h
      rw [h]
  have hpre : l <+: l ++ [Const.code ⟨is, .const i.toUInt64⟩] := List.prefix_append _ _
  refine ⟨rfl, is, i.toUInt64, ?_, ?_, ?_⟩
  · simp only [List.length_append, List.length_singleton] at hlen
    simp only [UInt16.toNat_ofNat', Nat.mod_eq_of_lt (show l.length < 2 ^ 16 by omega)]
    simp
  · rw [UInt16.toNat_toUInt64]
    exact prefix_get hpre (hx' ▸ hx)
  · have hT : Has ⟨l ++ [Const.code ⟨is, .const i.toUInt64⟩], ctx1.names⟩ ctx1 :=
      ⟨p.trans hpre, List.prefix_refl _⟩
    obtain ⟨k, hk⟩ := r1 _ hT
    refine ⟨k, fun f hf => ?_⟩
    obtain ⟨st', g1, g2⟩ := hk f hf ([], []) [] rfl
    simp [body, g1, g2]

theorem compSs_nums (P : Proc) : ∀ (m k : Nat), k + m ≤ 65536 →
    ∃ is, compSs P ((List.range' k m).map fun i => .expr (.num (UInt32.ofNat i) (0, 0)) (0, 0))
      ⟨(List.range' 0 k).map fun i => .num (UInt32.ofNat i), []⟩
      = .ok (is, ⟨(List.range' 0 (k + m)).map fun i => .num (UInt32.ofNat i), []⟩)
  | 0, k, _ => ⟨[], by simp [compSs]⟩
  | m + 1, k, h => by
    obtain ⟨is, ih⟩ := compSs_nums P m (k + 1) (by omega)
    have hf : ((List.range' 0 k).map fun i => Const.num (UInt32.ofNat i)).findIdx?
        (fun x => constEq x (.num (UInt32.ofNat k))) = none := by
      rw [List.findIdx?_eq_none_iff]
      intro x hx
      obtain ⟨i, hi, rfl⟩ := List.mem_map.1 hx
      rw [List.mem_range'_1] at hi
      simp only [constEq, beq_eq_false_iff_ne, ne_eq]
      intro he
      have := congrArg UInt32.toNat he
      simp only [UInt32.toNat_ofNat'] at this
      omega
    have hr : (List.range' 0 (k + 1)).map (fun i => Const.num (UInt32.ofNat i))
        = (List.range' 0 k).map (fun i => Const.num (UInt32.ofNat i)) ++ [.num (UInt32.ofNat k)] := by
      rw [← List.range'_append_1 (s := 0) (m := k) (n := 1)]
      simp
    have hk : k < 65536 := by omega
    refine ⟨.endStatement :: .push (UInt16.ofNat k) :: is, ?_⟩
    rw [List.range'_succ, List.map_cons, compSs]
    simp only [compS, compInstr, pushConst, addConst, addOrGet, hf, toU16, List.length_map, List.length_range', if_pos hk]
    simp only [bind, Except.bind, pure, Except.pure]
    rw [← hr, ih]
    simp only [Except.ok.injEq, Prod.mk.injEq, List.cons_append, List.nil_append, true_and]
    congr 3
    omega

/-- The hypothesis of `C25_reads_back` matters: `compile` stores the entry index truncated to 16 bits without a check,
so a script with 65535 different numbers compiles successfully into an object whose entry point is the number 0 instead
of the script's code. -/
theorem C25_entry_wraps (P : Proc) (files : List Bytes) : ∃ (b : Block) (c : Compiled),
    b.compile P files = .ok c ∧ c.consts[c.entry.toNat]? = some (.num 0) := by
  obtain ⟨n, hn⟩ : ∃ n, n = 65535 := ⟨_, rfl⟩
  obtain ⟨is, h⟩ := compSs_nums P n 0 (by omega)
  have hf : ((List.range' 0 n).map fun i => Const.num (UInt32.ofNat i)).findIdx?
      (fun x => constEq x (.str [])) = none := by
    rw [List.findIdx?_eq_none_iff]
    intro x hx
    obtain ⟨i, hi, rfl⟩ := List.mem_map.1 hx
    rfl
  let b : Block := ⟨(List.range' 0 n).map fun i => .expr (.num (UInt32.ofNat i) (0, 0)) (0, 0), [], (0, 0)⟩
  refine ⟨b, { entry := 0, compress := true, consts := (((List.range' 0 n).map fun i => Const.num (UInt32.ofNat i)) ++ [.str []])
    ++ [.code ⟨is, .const (UInt16.ofNat n).toUInt64⟩], names := [], files := files }, ?_, ?_⟩
  · simp only [Block.compile, b]
    rw [show (⟨[], []⟩ : Ctx) = ⟨(List.range' 0 0).map fun i => .num (UInt32.ofNat i), []⟩ from rfl, h]
    simp only [bind, Except.bind, pure, Except.pure, addConst, addOrGet, Nat.zero_add, hf, toU16, List.length_map,
      List.length_range', if_pos (show n < 65536 by omega), List.length_append, List.length_singleton]
    rw [hn]
    rfl
  · obtain ⟨m, rfl⟩ : ∃ m, n = m + 1 := ⟨65534, hn⟩
    rw [show (0 : UInt16).toNat = 0 from rfl, List.range'_succ]
    rfl

/-- A concrete source: positions are offsets. -/
def demoProc : Proc := ⟨fun sp => some ⟨UInt32.ofNat sp.1, 0, 1⟩, UInt32.ofNat, fun sp => sp.2 - sp.1⟩

/-- `X = Y + {hint "a"}; hint "a"` -/
def demoBlock : Block :=
  { content := [
      .assignGlobal (ascii "X") (.bin .add (.var (ascii "Y") (4, 5))
        (.code [.expr (.un (.named (ascii "hint")) (.str (ascii "a") (14, 17) .double) (9, 17)) (9, 17)] (ascii "hint a") (9, 17))
        (6, 7)) (0, 18),
      .expr (.un (.named (ascii "hint")) (.str (ascii "a") (25, 28) .double) (20, 28)) (20, 28)],
    source := ascii "src", sp := (0, 28) }

/-- Non-vacuity: a script with an assignment, a nested code block and a shared constant compiles. -/
example : ∃ c, demoBlock.compile demoProc [ascii "a.sqf"] = .ok c ∧ c.consts.length = 4 ∧ c.entry = 3 ∧
    c.names = [ascii "y", ascii "hint", ascii "+", ascii "x"] := by
  refine ⟨_, rfl, ?_, ?_, ?_⟩ <;> decide +kernel

end Verif.Sqf
