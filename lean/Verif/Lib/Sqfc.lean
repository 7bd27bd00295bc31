import Verif.Model.Sqfc
import Verif.Spec.Sqfc
import Verif.Lib.LzoPrefix
import Verif.Lib.LzoComp
import Verif.Lib.SqfComp
/-! Lemmas: the SQFC reader inverts the SQFC writer. -/
namespace Verif.Sqfc
open Sqf

theorem num_le {k x : Nat} (rest : Bytes) (h : x < 256 ^ k) : num k (leBytes k x ++ rest) = some (x, rest) := by
  unfold num
  rw [if_neg (by simp), List.take_left' (by simp), List.drop_left' (by simp), leValue_leBytes_of_lt h]

theorem num1 (b : UInt8) (rest : Bytes) : num 1 (b :: rest) = some (b.toNat, rest) := by
  simp [num, leValue]

theorem num2 (n : UInt16) (rest : Bytes) : num 2 (leBytes 2 n.toNat ++ rest) = some (n.toNat, rest) :=
  num_le _ n.toNat_lt

theorem num4 (n : UInt32) (rest : Bytes) : num 4 (leBytes 4 n.toNat ++ rest) = some (n.toNat, rest) :=
  num_le _ n.toNat_lt

theorem raw_app (s rest : Bytes) : raw s.length (s ++ rest) = some (s, rest) := by simp [raw]

theorem string_ok {s w : Bytes} (h : serString s = .ok w) (rest : Bytes) : string (w ++ rest) = some (s, rest) := by
  unfold serString at h
  split at h
  · cases h
  · cases h
    unfold string
    rw [List.append_assoc, num_le _ (by omega)]
    exact raw_app s rest

theorem many_ok {α : Type} {f : α → SR} {r : Rd α} {g : α → α} : ∀ (l : List α) (w : Bytes),
    (∀ x ∈ l, ∀ w, f x = .ok w → ∀ rest, r (w ++ rest) = some (g x, rest)) →
    serAll f l = .ok w → ∀ rest, many r l.length (w ++ rest) = some (l.map g, rest)
  | [], w, _, h, rest => by cases h; rfl
  | x :: xs, w, hr, h, rest => by
    unfold serAll at h
    obtain ⟨a, h1, h⟩ := rbind h
    obtain ⟨b, h2, h⟩ := rbind h
    cases h
    simp only [List.length_cons, many, List.append_assoc]
    rw [hr x (by simp) a h1]
    simp only [Option.bind_eq_bind, Option.bind_some]
    rw [many_ok xs b (fun y hy => hr y (by simp [hy])) h2]
    rfl

theorem info_ok (s : SourceInfo) (rest : Bytes) : info (serInfo s ++ rest) = some (s, rest) := by
  unfold info serInfo
  simp only [List.append_assoc]
  rw [num_le _ s.offset.toNat_lt]
  simp only [Option.bind_eq_bind, Option.bind_some]
  rw [num_le _ s.file.toNat_lt]
  simp only [Option.bind_some]
  rw [num_le _ s.line.toNat_lt]
  simp

/-- Pointers that fit the format: 31 bits for a constant index or a length. -/
def PtrFits : CodePtr → Prop
  | .const i => i.toNat < 2 ^ 31
  | .source _ l => l.toNat < 2 ^ 31

theorem leBytes_append (a b x y : Nat) (hx : x < 256 ^ a) : leBytes a x ++ leBytes b y = leBytes (a + b) (x + 256 ^ a * y) := by
  induction a generalizing x with
  | zero => simp at hx; subst hx; simp [leBytes]
  | succ a ih =>
    rw [Nat.pow_succ] at hx
    simp only [leBytes, List.cons_append]
    rw [ih (x / 256) (by rw [Nat.div_lt_iff_lt_mul (by omega)]; exact hx), show a + 1 + b = (a + b) + 1 by omega, leBytes]
    have h1 : (x + 256 ^ (a + 1) * y) % 256 = x % 256 := by
      rw [Nat.pow_succ, Nat.mul_comm (256 ^ a) 256, Nat.mul_assoc, Nat.add_mul_mod_self_left]
    have h2 : (x + 256 ^ (a + 1) * y) / 256 = x / 256 + 256 ^ a * y := by
      rw [Nat.pow_succ, Nat.mul_comm (256 ^ a) 256, Nat.mul_assoc, Nat.add_mul_div_left _ _ (by omega)]
    rw [h1, h2]

theorem ptr_ok {p : CodePtr} (hp : PtrFits p) (rest : Bytes) : ptr (serPtr p ++ rest) = some (p, rest) := by
  unfold ptr
  cases p with
  | const i =>
    have hi : i.toNat < 2 ^ 31 := hp
    have h : (i &&& 0x7FFFFFFF).toNat = i.toNat := by
      rw [UInt64.toNat_and, show (0x7FFFFFFF : UInt64).toNat = 2 ^ 31 - 1 from rfl, Nat.and_two_pow_sub_one_eq_mod]
      exact Nat.mod_eq_of_lt hi
    simp only [serPtr]
    rw [h, num_le _ (by omega)]
    simp only [Option.bind_eq_bind, Option.bind_some]
    rw [if_pos (by omega)]
    simp
  | source o l =>
    have hl : l.toNat < 2 ^ 31 := hp
    have h : (l ||| 0x80000000).toNat = l.toNat + 2 ^ 31 := by
      rw [UInt32.toNat_or, show (0x80000000 : UInt32).toNat = 2 ^ 31 from rfl, Nat.or_comm]
      have := Nat.two_pow_add_eq_or_of_lt hl 1
      rw [Nat.mul_one] at this
      rw [← this]; omega
    have ho : o.toNat < 2 ^ 32 := o.toNat_lt
    simp only [serPtr]
    rw [h, leBytes_append 4 4 _ _ (by omega), num_le _ (by omega)]
    simp only [Option.bind_eq_bind, Option.bind_some]
    rw [if_neg (by omega)]
    have h1 : (o.toNat + 256 ^ 4 * (l.toNat + 2 ^ 31)) % 2 ^ 32 = o.toNat := by omega
    have h2 : (o.toNat + 256 ^ 4 * (l.toNat + 2 ^ 31)) / 2 ^ 32 % 2 ^ 31 = l.toNat := by omega
    rw [h1, h2]
    simp

theorem instr_ok {c : Compiled} {i : Instr} {w : Bytes} (h : serInstr c i = .ok w) (rest : Bytes) :
    instr (w ++ rest) = some (i, rest) := by
  unfold serInstr at h
  obtain ⟨b, hb, h⟩ := rbind h
  cases h
  unfold instr
  simp only [List.cons_append, num1, Option.bind_eq_bind, Option.bind_some]
  cases i with
  | endStatement => cases hb; rfl
  | push k =>
    simp only at hb
    split at hb
    · cases hb
    · cases hb
      simp [Instr.tag, num2]
  | makeArray n s =>
    cases hb
    simp [Instr.tag, info_ok, num2]
  | callUnary n s =>
    simp only at hb
    split at hb
    · cases hb
    · cases hb; simp [Instr.tag, info_ok, num2]
  | callBinary n s =>
    simp only at hb
    split at hb
    · cases hb
    · cases hb; simp [Instr.tag, info_ok, num2]
  | callNular n s =>
    simp only at hb
    split at hb
    · cases hb
    · cases hb; simp [Instr.tag, info_ok, num2]
  | assignTo n s =>
    simp only at hb
    split at hb
    · cases hb
    · cases hb; simp [Instr.tag, info_ok, num2]
  | assignToLocal n s =>
    simp only at hb
    split at hb
    · cases hb
    · cases hb; simp [Instr.tag, info_ok, num2]
  | getVariable n s =>
    simp only at hb
    split at hb
    · cases hb
    · cases hb; simp [Instr.tag, info_ok, num2]

mutual
/-- The format has one kind of array constant. -/
def plain : Const → Const
  | .arr cs => .arr (plains cs)
  | .carr cs => .arr (plains cs)
  | c => c
def plains : List Const → List Const
  | [] => []
  | c :: cs => plain c :: plains cs
end

mutual
def depth : Const → Nat
  | .arr cs => depths cs + 1
  | .carr cs => depths cs + 1
  | _ => 1
def depths : List Const → Nat
  | [] => 0
  | c :: cs => max (depth c) (depths cs)
end

mutual
/-- Every code pointer in the constant fits the format. -/
def Fits : Const → Prop
  | .code is => PtrFits is.ptr
  | .arr cs => FitsAll cs
  | .carr cs => FitsAll cs
  | _ => True
def FitsAll : List Const → Prop
  | [] => True
  | c :: cs => Fits c ∧ FitsAll cs
end

theorem code_ok {c : Compiled} {is : Instrs} {w : Bytes} (h : serInstrs c is = .ok w) (hp : PtrFits is.ptr) (f : Nat)
    (rest : Bytes) : const (f + 1) (0 :: (w ++ rest)) = some (.code is, rest) := by
  unfold serInstrs at h
  split at h
  · cases h
  · rename_i hl
    obtain ⟨a, h1, h⟩ := rbind h
    cases h
    unfold const
    simp only [num1, Option.bind_eq_bind, Option.bind_some, UInt8.toNat_zero, List.append_assoc]
    rw [ptr_ok hp]
    simp only [Option.bind_some]
    rw [num_le _ (by omega)]
    simp only [Option.bind_some]
    rw [many_ok (g := id) is.contents a (fun x _ w hw rest => instr_ok hw rest) h1]
    simp

mutual
theorem const_ok (c : Compiled) : ∀ (k : Const) (w : Bytes), serConst c k = .ok w → Fits k → ∀ f, depth k ≤ f → ∀ rest,
    const f (w ++ rest) = some (plain k, rest)
  | .code is, w, h, hp, f, hf, rest => by
    rw [serConst] at h
    obtain ⟨a, h1, h⟩ := rbind h
    cases h
    obtain ⟨g, rfl⟩ : ∃ g, f = g + 1 := ⟨f - 1, by simp [depth] at hf; omega⟩
    exact code_ok h1 hp g rest
  | .str s, w, h, _, f, hf, rest => by
    rw [serConst] at h
    obtain ⟨a, h1, h⟩ := rbind h
    cases h
    obtain ⟨g, rfl⟩ : ∃ g, f = g + 1 := ⟨f - 1, by simp [depth] at hf; omega⟩
    simp [const, num1, string_ok h1, plain]
  | .num x, w, h, _, f, hf, rest => by
    rw [serConst] at h
    cases h
    obtain ⟨g, rfl⟩ : ∃ g, f = g + 1 := ⟨f - 1, by simp [depth] at hf; omega⟩
    simp [const, num1, num4, plain]
  | .bool b, w, h, _, f, hf, rest => by
    rw [serConst] at h
    cases h
    obtain ⟨g, rfl⟩ : ∃ g, f = g + 1 := ⟨f - 1, by simp [depth] at hf; omega⟩
    cases b <;> simp [const, num1, plain]
  | .arr cs, w, h, hp, f, hf, rest => by
    rw [serConst] at h
    split at h
    · cases h
    · rename_i hl
      obtain ⟨a, h1, h⟩ := rbind h
      cases h
      obtain ⟨g, rfl⟩ : ∃ g, f = g + 1 := ⟨f - 1, by simp [depth] at hf; omega⟩
      simp only [depth, Nat.add_le_add_iff_right] at hf
      simp only [const, List.cons_append, num1, Option.bind_eq_bind, Option.bind_some, List.append_assoc]
      rw [show (4 : UInt8).toNat = 4 from rfl]
      simp only
      rw [num_le _ (by omega)]
      simp only [Option.bind_some]
      rw [consts_ok c cs a h1 hp g hf rest]
      simp [plain]
  | .carr cs, w, h, hp, f, hf, rest => by
    rw [serConst] at h
    split at h
    · cases h
    · rename_i hl
      obtain ⟨a, h1, h⟩ := rbind h
      cases h
      obtain ⟨g, rfl⟩ : ∃ g, f = g + 1 := ⟨f - 1, by simp [depth] at hf; omega⟩
      simp only [depth, Nat.add_le_add_iff_right] at hf
      simp only [const, List.cons_append, num1, Option.bind_eq_bind, Option.bind_some, List.append_assoc]
      rw [show (4 : UInt8).toNat = 4 from rfl]
      simp only
      rw [num_le _ (by omega)]
      simp only [Option.bind_some]
      rw [consts_ok c cs a h1 hp g hf rest]
      simp [plain]
  | .nular s, w, h, _, f, hf, rest => by
    rw [serConst] at h
    obtain ⟨a, h1, h⟩ := rbind h
    cases h
    obtain ⟨g, rfl⟩ : ∃ g, f = g + 1 := ⟨f - 1, by simp [depth] at hf; omega⟩
    simp [const, num1, string_ok h1, plain]
theorem consts_ok (c : Compiled) : ∀ (ks : List Const) (w : Bytes), serConsts c ks = .ok w → FitsAll ks → ∀ f, depths ks ≤ f →
    ∀ rest, many (const f) ks.length (w ++ rest) = some (plains ks, rest)
  | [], w, h, _, f, _, rest => by rw [serConsts] at h; cases h; rfl
  | k :: ks, w, h, hp, f, hf, rest => by
    rw [serConsts] at h
    obtain ⟨a, h1, h⟩ := rbind h
    obtain ⟨b, h2, h⟩ := rbind h
    cases h
    simp only [depths] at hf
    simp only [List.length_cons, many, List.append_assoc]
    rw [const_ok c k a h1 hp.1 f (by omega)]
    simp only [Option.bind_eq_bind, Option.bind_some]
    rw [consts_ok c ks b h2 hp.2 f (by omega)]
    rfl
end

theorem list_ok {l : List Bytes} {w : Bytes} (h : serList serString l = .ok w) (rest : Bytes) :
    list string (w ++ rest) = some (l, rest) := by
  unfold serList at h
  split at h
  · cases h
  · obtain ⟨a, h1, h⟩ := rbind h
    cases h
    unfold list
    rw [List.append_assoc, num_le _ (by omega)]
    simp only [Option.bind_eq_bind, Option.bind_some]
    rw [many_ok (g := id) l a (fun x _ w hw rest => string_ok hw rest) h1]
    simp

theorem table_ok {c : Compiled} {w : Bytes} (h : serTable c = .ok w) (hp : FitsAll c.consts) {f : Nat}
    (hf : depths c.consts ≤ f) (rest : Bytes) : list (const f) (w ++ rest) = some (plains c.consts, rest) := by
  unfold serTable at h
  split at h
  · cases h
  · obtain ⟨a, h1, h⟩ := rbind h
    cases h
    unfold list
    rw [List.append_assoc, num_le _ (by omega)]
    simp only [Option.bind_eq_bind, Option.bind_some]
    rw [consts_ok c c.consts a h1 hp f hf]

theorem stream_ok {n : Nat} {z out : Bytes} (h : Lzo.decompress n z = .ok (.ok out)) (rest : Bytes) :
    stream n (z ++ rest) = some (out, rest) := by
  unfold stream
  rw [List.findSome?_eq_some_iff]
  refine ⟨List.range z.length, z.length, List.range' (z.length + 1) rest.length, ?_, ?_, ?_⟩
  · rw [List.range_eq_range', List.range_eq_range', show z.length :: List.range' (z.length + 1) rest.length = List.range' z.length (rest.length + 1) from rfl]
    rw [show List.range' z.length (rest.length + 1) = List.range' (0 + 1 * z.length) (rest.length + 1) by simp, List.range'_append]
    simp [Nat.add_assoc]
  · rw [List.take_left, List.drop_left, h]
  · intro k hk
    rw [List.mem_range] at hk
    rw [List.take_append_of_le_length (by omega)]
    split
    · rename_i o' ho
      have := Lzo.decompress_app n (z.take k) (z.drop k) o' (by
        intro h0
        have := congrArg List.length h0
        rw [List.length_drop, List.length_nil] at this
        omega) ho
      rw [List.take_append_drop, h] at this
      cases this
    · rfl

theorem block_ok {b w : Bytes} (h : serBuffer b = .ok w) (rest : Bytes) : block (w ++ rest) = some (b, rest) := by
  unfold serBuffer at h
  split at h
  · cases h
  · rename_i hl
    obtain ⟨z, h1, _, h3⟩ := Lzo.compress_ok _ b (by omega) (Nat.le_refl _)
    rw [h1] at h
    cases h
    unfold block
    rw [List.append_assoc, num_le _ (by omega)]
    simp only [Option.bind_eq_bind, Option.bind_some, List.cons_append, num1]
    rw [if_pos (by rfl)]
    exact stream_ok h3 rest

theorem whole_ok {α : Type} {r : Rd α} {b : Bytes} {x : α} (h : r (b ++ []) = some (x, [])) : whole r b = some x := by
  unfold whole; rw [List.append_nil] at h; rw [h]

/-- The reader inverts the writer. -/
theorem read_ok {c : Compiled} {w : Bytes} (h : c.serialize = .ok w) (hp : FitsAll c.consts) {f : Nat}
    (hf : depths c.consts ≤ f) : read f w = some ⟨c.entry.toNat, plains c.consts, c.names, c.files⟩ := by
  unfold Compiled.serialize at h
  obtain ⟨nb, h1, h⟩ := rbind h
  obtain ⟨names, h2, h⟩ := rbind h
  obtain ⟨consts, h3, h⟩ := rbind h
  obtain ⟨files, h4, h⟩ := rbind h
  cases h
  have he : whole (num 8) (leBytes 8 c.entry.toNat) = some c.entry.toNat :=
    whole_ok (num_le [] (by have := c.entry.toNat_lt; omega))
  unfold read
  rw [num_le _ (by omega)]
  simp only [Option.bind_eq_bind, Option.bind_some, ne_eq, not_true_eq_false, if_false, expect, if_pos]
  rw [block_ok h2]
  simp only [Option.bind_some]
  rw [whole_ok (list_ok h1 [])]
  simp only [Option.bind_some]
  unfold serConstBlock at h3
  by_cases hc : c.compress = true
  · rw [if_pos hc] at h3
    obtain ⟨cz, h6, h3⟩ := rbind h3
    obtain ⟨cb, h5, h3⟩ := rbind h3
    cases h3
    simp only [List.cons_append, num1, Option.bind_some]
    rw [if_pos (by rfl), block_ok h5]
    simp only [Option.bind_some]
    rw [whole_ok (table_ok h6 hp hf [])]
    simp only [Option.bind_some, pure, expect, if_pos]
    rw [list_ok h4]
    simp [expect, he]
  · rw [if_neg hc] at h3
    obtain ⟨cz, h6, h3⟩ := rbind h3
    cases h3
    simp only [List.cons_append, num1, Option.bind_some]
    rw [if_neg (by decide), if_pos (by rfl), table_ok h6 hp hf]
    simp only [Option.bind_some, expect, if_pos]
    rw [list_ok h4]
    simp [expect, he]

end Verif.Sqfc
