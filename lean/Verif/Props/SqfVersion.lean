import Verif.Lib.SqfBlocks
/-! C70: versions of commands (S01), and that every part of a script is given to the lints. -/
namespace Verif.SqfLint
open Verif.Sqf Verif.SqfLex

/-- C70: the lints are given exactly the blocks, statements, expressions and commands written in a script, wherever they
are. -/
theorem C70_everywhere {C : Type} (run : Target → List C) (ss : List Stmt) (x : C) : x ∈ analyze run ss ↔
    (∃ b, IsBlock ss b ∧ x ∈ run (.stmts b)) ∨ (∃ s, IsStatement ss s ∧ x ∈ run (.stmt s)) ∨
    (∃ e, Written ss e ∧ x ∈ run (.expr e)) ∨ (∃ n sp, Written ss (.nular n sp) ∧ x ∈ run (.nular n)) ∨
    (∃ c e sp, Written ss (.un c e sp) ∧ x ∈ run (.unary c)) ∨
    ∃ c l r sp, Written ss (.bin c l r sp) ∧ x ∈ run (.binary c) := by
  have key : ∀ e : Expr, x ∈ atExpr run e ↔ x ∈ run (.expr e) ∨ (∃ n sp, e = .nular n sp ∧ x ∈ run (.nular n)) ∨
      (∃ c a sp, e = .un c a sp ∧ x ∈ run (.unary c)) ∨ (∃ c l r sp, e = .bin c l r sp ∧ x ∈ run (.binary c)) ∨
      ∃ b src sp, e = .code b src sp ∧ (x ∈ run (.stmts b) ∨ ∃ s ∈ b, x ∈ run (.stmt s)) := by
    intro e
    cases e <;> simp [atExpr]
  rw [analyze, List.mem_append, mem_analyzeSs]
  constructor
  · rintro (h | ⟨s, hs, h | ⟨y, hy, h⟩⟩)
    · exact .inl ⟨ss, .inl rfl, h⟩
    · exact .inr (.inl ⟨s, ⟨ss, .inl rfl, hs⟩, h⟩)
    · have hw : Written ss y := ⟨s, hs, hy⟩
      rcases (key y).1 h with g | ⟨n, sp, rfl, g⟩ | ⟨c, a, sp, rfl, g⟩ | ⟨c, l, r, sp, rfl, g⟩ | ⟨b, src, sp, rfl, g | ⟨t, ht, g⟩⟩
      · exact .inr (.inr (.inl ⟨y, hw, g⟩))
      · exact .inr (.inr (.inr (.inl ⟨n, sp, hw, g⟩)))
      · exact .inr (.inr (.inr (.inr (.inl ⟨c, a, sp, hw, g⟩))))
      · exact .inr (.inr (.inr (.inr (.inr ⟨c, l, r, sp, hw, g⟩))))
      · exact .inl ⟨b, .inr ⟨src, sp, hw⟩, g⟩
      · exact .inr (.inl ⟨t, ⟨b, .inr ⟨src, sp, hw⟩, ht⟩, g⟩)
  · have put : ∀ y, Written ss y → x ∈ atExpr run y → x ∈ run (.stmts ss) ∨
        ∃ s ∈ ss, (x ∈ run (.stmt s) ∨ ∃ y, Within y (body s) ∧ x ∈ atExpr run y) :=
      fun y ⟨s, hs, hy⟩ h => .inr ⟨s, hs, .inr ⟨y, hy, h⟩⟩
    rintro (⟨b, rfl | ⟨src, sp, hw⟩, h⟩ | ⟨s, ⟨b, rfl | ⟨src, sp, hw⟩, hs⟩, h⟩ | ⟨e, hw, h⟩ | ⟨n, sp, hw, h⟩ | ⟨c, a, sp, hw, h⟩ | ⟨c, l, r, sp, hw, h⟩)
    · exact .inl h
    · exact put _ hw ((key _).2 (.inr (.inr (.inr (.inr ⟨b, src, sp, rfl, .inl h⟩)))))
    · exact .inr ⟨s, hs, .inl h⟩
    · exact put _ hw ((key _).2 (.inr (.inr (.inr (.inr ⟨b, src, sp, rfl, .inr ⟨s, hs, h⟩⟩)))))
    · exact put _ hw ((key _).2 (.inl h))
    · exact put _ hw ((key _).2 (.inr (.inl ⟨n, sp, rfl, h⟩)))
    · exact put _ hw ((key _).2 (.inr (.inr (.inl ⟨c, a, sp, rfl, h⟩))))
    · exact put _ hw ((key _).2 (.inr (.inr (.inr (.inl ⟨c, l, r, sp, rfl, h⟩)))))

/-- C70: a command reported in a block is written there at the given place, came with the given version, and that is newer than
what the addon requires. -/
theorem C70_reported {since : Bytes → Option Nat} {required : Option (Nat × Nat)} {ss : List Stmt} {c : Bytes} {v : Nat} {sp : Span}
    (h : (c, v, sp) ∈ commandVersions since required ss) : ∃ major minor, required = some (major, minor) ∧
      (∃ x, Written ss x ∧ UseOf c sp x) ∧ since c = some v ∧ (major < 256 → minor < 256 → 256 * major + minor < v) := by
  unfold commandVersions at h
  split at h
  · cases h
  rename_i major minor
  dsimp only at h
  split at h
  · rename_i hlt
    have hf := versionSs_sound since ss (Written ss) ([], 0, (0, 0)) (.inl rfl) fun s hs x hx => ⟨s, hs, hx⟩
    have hu := List.mem_singleton.1 h
    have h0 : (versionSs since ([], 0, (0, 0)) ss).2.1 ≠ 0 := by
      unfold requiredVersion at hlt; omega
    obtain ⟨h1, h2⟩ := hf.resolve_left h0
    unfold requiredVersion at hu hlt
    rw [← hu] at h1 h2 hlt
    refine ⟨major, minor, rfl, h2, h1, fun hM hm => ?_⟩
    simpa [wikiVersion, hM, hm] using hlt
  · cases h

/-- C70: a command that is newer than what is required is not missed if the statement it is in is made of commands and code
only: then it, or a command at least as new, is reported for the block. It is false of statements with variables, literals or
arrays, see `C70_violated`. -/
theorem C70_found {since : Bytes → Option Nat} {major minor : Nat} {ss : List Stmt} (hM : major < 256) (hm : minor < 256)
    {s : Stmt} {x : Expr} {c : Bytes} {sp : Span} {w : Nat} (hs : s ∈ ss) (hc : Covered since (body s)) (hx : Within x (body s))
    (hu : UseOf c sp x) (hw : since c = some w) (hn : 256 * major + minor < w) :
    ∃ r ∈ commandVersions since (some (major, minor)) ss, w ≤ r.2.1 := by
  obtain ⟨u, h1, _, _, h2⟩ := covered_max hc
  have h3 := (versionSs_ge since ss ([], 0, (0, 0))).2 s hs u h1
  have h4 := h2 x c sp w hx hu hw
  refine ⟨requiredVersion since ss, ?_, le_trans h4 h3⟩
  unfold commandVersions
  dsimp only
  rw [if_pos (by simp only [wikiVersion, hM, hm, if_true]; unfold requiredVersion; omega)]
  simp

/-- A table for the examples. -/
def sampleSince (c : Bytes) : Option Nat :=
  if c = ascii "player" ∨ c = ascii "hint" then some 256 else if c = ascii "diag_tickTime" then some 300
  else if c = ascii "parseSimpleArray" then some 418 else none

/-- `hint player; call { hint diag_tickTime }` -/
def sampleVersions : List Stmt :=
  [.expr (.un (.named (ascii "hint")) (.nular (ascii "player") (5, 11)) (0, 4)) (0, 11),
   .expr (.code [.expr (.un (.named (ascii "hint")) (.nular (ascii "diag_tickTime") (25, 30)) (20, 24)) (20, 30)] [] (19, 31)) (13, 31)]

example : commandVersions sampleSince (some (1, 0)) sampleVersions = [(ascii "diag_tickTime", 300, (25, 30))] := by decide +kernel

example : ∃ r ∈ commandVersions sampleSince (some (1, 0)) sampleVersions, 300 ≤ r.2.1 :=
  C70_found (c := ascii "diag_tickTime") (sp := (25, 30)) (by decide) (by decide) (List.mem_cons_of_mem _ (List.mem_singleton.2 rfl))
    (.code (by simp) (by
      intro s hs
      cases List.mem_singleton.1 hs
      exact .un (v := 256) (by decide +kernel) (.nular (v := 300) (by decide +kernel) (by decide))))
    (.code (List.mem_singleton.2 rfl) (.un .here)) (.nular _ _) (by decide +kernel) (by decide)

/-- C70: a command applied to a variable is never reported, however new it is, nor is one with a number or a text as an operand;
a command is reported again for every block around it; and a required version of 256 or more counts as 0. -/
theorem C70_violated :
    (∀ since required c n s1 s2 s3, commandVersions since required [.expr (.un c (.var n s1) s2) s3] = []) ∧
    (∀ since required c e n s1 s2 s3, commandVersions since required [.expr (.bin c (.var n s1) e s2) s3] = []) ∧
    (∀ since required c t w s1 s2 s3, commandVersions since required [.expr (.un c (.str t s1 w) s2) s3] = []) ∧
    (∃ ss, analyze (fun t => match t with
        | .stmts b => commandVersions sampleSince (some (1, 0)) b
        | _ => []) ss = [(ascii "diag_tickTime", 300, (25, 30)), (ascii "diag_tickTime", 300, (25, 30))]) ∧
    commandVersions sampleSince (some (300, 0)) sampleVersions ≠ [] := by
  refine ⟨fun since required c n s1 s2 s3 => ?_, fun since required c e n s1 s2 s3 => ?_, fun since required c t w s1 s2 s3 => ?_,
    ⟨sampleVersions, by decide +kernel⟩, by decide +kernel⟩
  · unfold commandVersions requiredVersion
    rw [versionSs_cons, body, versionE, versionE]
    cases since c.asStr <;> rcases required with _ | ⟨a, b⟩ <;> simp [versionSs]
  · unfold commandVersions requiredVersion
    rw [versionSs_cons, body, versionE, versionE]
    cases since c.asStr <;> rcases required with _ | ⟨a, b⟩ <;> simp [versionSs]
  · unfold commandVersions requiredVersion
    rw [versionSs_cons, body, versionE, versionE]
    cases since c.asStr <;> rcases required with _ | ⟨a, b⟩ <;> simp [versionSs]

end Verif.SqfLint
