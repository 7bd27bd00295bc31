import Verif.Model.Preproc
/-!
The preprocessor and the files it has not read yet: a run with a file that cannot be told either comes to that file, and then gives whatever
is said about it, or is the run with all files.
-/
namespace Verif.Preproc

/-- The same world with other files. -/
abbrev Env.at (env : Env) (l : Text → Except PErr (List Tok)) : Env := { env with load := l }

theorem getWithGen_at (env : Env) (l : Text → Except PErr (List Tok)) (d : Defines) (k : Tok) (s : Pos) :
    d.getWithGen (env.at l) k s = d.getWithGen env k s := rfl

theorem directiveIf_at (env : Env) (l : Text → Except PErr (List Tok)) (st : St) (c : Tok) (toks : List Tok) :
    directiveIf (env.at l) st c toks = directiveIf env st c toks := rfl

/-- Two runs are the third one, or both have come to a file of `D`. -/
def Asks {α} (D : Text → Prop) (s0 s1 : Text → PErr) (a b c : Except PErr α) : Prop :=
  (a = c ∧ b = c) ∨ ∃ f, D f ∧ a = .error (s0 f) ∧ b = .error (s1 f)

variable {D : Text → Prop} {s0 s1 : Text → PErr}

theorem Asks.rfl {α} {a : Except PErr α} : Asks D s0 s1 a a a := .inl ⟨_root_.rfl, _root_.rfl⟩

theorem Asks.ask {α} {c : Except PErr α} {f : Text} (h : D f) : Asks D s0 s1 (.error (s0 f)) (.error (s1 f)) c :=
  .inr ⟨f, h, _root_.rfl, _root_.rfl⟩

/-- All functions ask for the files they need. -/
def Asking (D : Text → Prop) (s0 s1 : Text → PErr) (e0 e1 e2 : Env) (n : Nat) : Prop :=
  (∀ site im q jw quote st toks buf, Asks D s0 s1 (walk n e0 site im q jw quote st toks buf) (walk n e1 site im q jw quote st toks buf)
    (walk n e2 site im q jw quote st toks buf)) ∧
  (∀ site st toks buf, Asks D s0 s1 (defineUse n e0 site st toks buf) (defineUse n e1 site st toks buf) (defineUse n e2 site st toks buf)) ∧
  (∀ site q depth st toks args arg, Asks D s0 s1 (readArgs n e0 site q depth st toks args arg) (readArgs n e1 site q depth st toks args arg)
    (readArgs n e2 site q depth st toks args arg)) ∧
  (∀ st toks buf, Asks D s0 s1 (directive n e0 st toks buf) (directive n e1 st toks buf) (directive n e2 st toks buf)) ∧
  (∀ st cmd toks buf, Asks D s0 s1 (command n e0 st cmd toks buf) (command n e1 st cmd toks buf) (command n e2 st cmd toks buf)) ∧
  (∀ st toks buf, Asks D s0 s1 (file n e0 st toks buf) (file n e1 st toks buf) (file n e2 st toks buf)) ∧
  (∀ st toks buf, Asks D s0 s1 (line n e0 st toks buf) (line n e1 st toks buf) (line n e2 st toks buf))

theorem includeTarget_asks {env : Env} {l0 l1 l2 : Text → Except PErr (List Tok)}
    (hl : ∀ c t g b, env.locate c t = some (g, b) → Asks D s0 s1 (l0 g) (l1 g) (l2 g)) (st : St) (toks : List Tok) :
    Asks D s0 s1 (includeTarget (env.at l0) st toks) (includeTarget (env.at l1) st toks) (includeTarget (env.at l2) st toks) := by
  have go : ∀ opn close toks, Asks D s0 s1
      (match readPath close opn toks [] with
      | .error e => .error e
      | .ok (path, toks) => match expectNothing toks with
        | .error (.code _ t _) => .error (.code 14 t)
        | .error e => .error e
        | .ok toks => match st.files with
          | [] => .error .panic
          | cur :: _ => match env.locate cur (toksText path) with
            | none => .error (.code 12 opn (.toks path))
            | some (found, mismatch) => match l0 found with
              | .error e => .error e
              | .ok inner => .ok (found, inner, if mismatch then [Warn.includeCase path] else [], toks) :
        Except PErr (Text × List Tok × List Warn × List Tok))
      (match readPath close opn toks [] with
      | .error e => .error e
      | .ok (path, toks) => match expectNothing toks with
        | .error (.code _ t _) => .error (.code 14 t)
        | .error e => .error e
        | .ok toks => match st.files with
          | [] => .error .panic
          | cur :: _ => match env.locate cur (toksText path) with
            | none => .error (.code 12 opn (.toks path))
            | some (found, mismatch) => match l1 found with
              | .error e => .error e
              | .ok inner => .ok (found, inner, if mismatch then [Warn.includeCase path] else [], toks))
      (match readPath close opn toks [] with
      | .error e => .error e
      | .ok (path, toks) => match expectNothing toks with
        | .error (.code _ t _) => .error (.code 14 t)
        | .error e => .error e
        | .ok toks => match st.files with
          | [] => .error .panic
          | cur :: _ => match env.locate cur (toksText path) with
            | none => .error (.code 12 opn (.toks path))
            | some (found, mismatch) => match l2 found with
              | .error e => .error e
              | .ok inner => .ok (found, inner, if mismatch then [Warn.includeCase path] else [], toks)) := by
    intro opn close toks
    split
    · exact .rfl
    split
    · exact .rfl
    · exact .rfl
    split
    · exact .rfl
    split
    · exact .rfl
    · rename_i hloc
      rcases hl _ _ _ _ hloc with ⟨h0, h1⟩ | ⟨f, hf, h0, h1⟩
      · rw [h0, h1]; exact .rfl
      · rw [h0, h1]; exact .ask hf
  rw [includeTarget.eq_def (env.at l0), includeTarget.eq_def (env.at l1), includeTarget.eq_def (env.at l2)]
  split
  · exact .rfl
  · rename_i opn toks' _
    dsimp only
    split
    · exact go _ _ _
    · exact go _ _ _
    · exact .rfl

set_option simprocs false in
theorem asking {env : Env} {l0 l1 l2 : Text → Except PErr (List Tok)}
    (hl : ∀ c t g b, env.locate c t = some (g, b) → Asks D s0 s1 (l0 g) (l1 g) (l2 g)) (n : Nat) :
    Asking D s0 s1 (env.at l0) (env.at l1) (env.at l2) n := by
  induction n with
  | zero =>
    refine ⟨?_, ?_, ?_, ?_, ?_, ?_, ?_⟩ <;> intros <;> left
    · rw [walk, walk, walk]; exact ⟨rfl, rfl⟩
    · rw [defineUse, defineUse, defineUse]; exact ⟨rfl, rfl⟩
    · rw [readArgs, readArgs, readArgs]; exact ⟨rfl, rfl⟩
    · rw [directive, directive, directive]; exact ⟨rfl, rfl⟩
    · rw [command, command, command]; exact ⟨rfl, rfl⟩
    · rw [file, file, file]; exact ⟨rfl, rfl⟩
    · rw [line, line, line]; exact ⟨rfl, rfl⟩
  | succ n ih =>
    obtain ⟨hw, hd, hr, hdir, hc, hf, hln⟩ := ih
    refine ⟨?_, ?_, ?_, ?_, ?_, ?_, ?_⟩
    · intro site im q jw quote st toks buf
      rw [walk.eq_def (n + 1) (env.at l0), walk.eq_def (n + 1) (env.at l1), walk.eq_def (n + 1) (env.at l2)]
      cases toks with
      | nil => exact .rfl
      | cons t rest =>
        dsimp only
        split
        · split
          · exact .rfl
          split
          · exact .rfl
          split
          · rcases hd (site.getD t.pos) st (t :: rest) buf with ⟨h0, h1⟩ | ⟨f, hf, h0, h1⟩
            · rw [h0, h1]
              split
              · exact .rfl
              · exact hw ..
            · rw [h0, h1]; exact .ask hf
          · exact hw ..
        · split
          · rcases hdir st (t :: rest) buf with ⟨h0, h1⟩ | ⟨f, hf, h0, h1⟩
            · rw [h0, h1]
              split
              · exact .rfl
              · exact hw ..
            · rw [h0, h1]; exact .ask hf
          split <;> exact hw ..
        · split
          · exact .rfl
          · exact hw ..
        all_goals first | exact hw .. | exact .rfl
    · intro site st toks buf
      rw [defineUse.eq_def (n + 1) (env.at l0), defineUse.eq_def (n + 1) (env.at l1), defineUse.eq_def (n + 1) (env.at l2)]
      simp only [getWithGen_at]
      split
      · exact .rfl
      · split
        · exact .rfl
        · split
          · split
            · exact .rfl
            · split
              · exact .rfl
              · rename_i toks _ _ _ _ _ _ _ _ _ _ _ _ _
                rcases hr site false 0 _ _ [] [] with ⟨h0, h1⟩ | ⟨f, hf, h0, h1⟩
                · rw [h0, h1]
                  split
                  · exact .rfl
                  · split
                    · exact .rfl
                    · rcases hw (some site) _ false true none _ _ [] with ⟨h0, h1⟩ | ⟨f, hf, h0, h1⟩
                      · rw [h0, h1]; exact .rfl
                      · rw [h0, h1]; exact .ask hf
                · rw [h0, h1]; exact .ask hf
          · split
            · exact .rfl
            · rcases hw (some site) _ false true none _ _ [] with ⟨h0, h1⟩ | ⟨f, hf, h0, h1⟩
              · rw [h0, h1]; exact .rfl
              · rw [h0, h1]; exact .ask hf
          · exact .rfl
          · exact .rfl
    · intro site q depth st toks args arg
      rw [readArgs.eq_def (n + 1) (env.at l0), readArgs.eq_def (n + 1) (env.at l1), readArgs.eq_def (n + 1) (env.at l2)]
      cases toks with
      | nil => exact .rfl
      | cons t rest =>
        dsimp only
        split
        · exact hr ..
        split
        · split
          · rcases hd site st (t :: rest) [] with ⟨h0, h1⟩ | ⟨f, hf, h0, h1⟩
            · rw [h0, h1]
              split
              · exact .rfl
              · exact hr ..
            · rw [h0, h1]; exact .ask hf
          · exact hr ..
        · exact hr ..
        · split
          · exact .rfl
          · exact hr ..
        all_goals exact hr ..
    · intro st toks buf
      rw [directive.eq_def (n + 1) (env.at l0), directive.eq_def (n + 1) (env.at l1), directive.eq_def (n + 1) (env.at l2)]
      cases toks with
      | nil => exact .rfl
      | cons t rest =>
        cases rest with
        | nil => dsimp only; split <;> exact .rfl
        | cons c rest =>
          dsimp only
          split
          · split
            · rcases hc st c rest buf with ⟨h0, h1⟩ | ⟨f, hf, h0, h1⟩
              · rw [h0, h1]; exact .rfl
              · rw [h0, h1]; exact .ask hf
            · exact .rfl
          · exact .rfl
    · intro st cmd toks buf
      rw [command.eq_def (n + 1) (env.at l0), command.eq_def (n + 1) (env.at l1), command.eq_def (n + 1) (env.at l2)]
      dsimp only
      by_cases h1 : cmd.sym.text = kw "else"
      · rw [if_pos h1, if_pos h1, if_pos h1]; exact .rfl
      rw [if_neg h1, if_neg h1, if_neg h1]
      by_cases h2 : cmd.sym.text = kw "endif"
      · rw [if_pos h2, if_pos h2, if_pos h2]; exact .rfl
      rw [if_neg h2, if_neg h2, if_neg h2]
      by_cases h3 : st.ifs.reading = true
      · rw [if_pos h3, if_pos h3, if_pos h3]
        by_cases h4 : cmd.sym.text = kw "include"
        · rw [if_pos h4, if_pos h4, if_pos h4]
          rcases includeTarget_asks hl st toks with ⟨h0, h1⟩ | ⟨f, hf, h0, h1⟩
          · rw [h0, h1]
            split
            · exact .rfl
            · rename_i found inner ws toks _
              rcases hf { st with
                pragma := st.pragma.child, files := found :: st.files,
                included := st.included ++ [found], warns := st.warns ++ ws } inner buf with ⟨h0, h1⟩ | ⟨f, hf, h0, h1⟩
              · rw [h0, h1]; exact .rfl
              · rw [h0, h1]; exact .ask hf
          · rw [h0, h1]; exact .ask hf
        · rw [if_neg h4, if_neg h4, if_neg h4]
          simp only [directiveIf_at]
          exact .rfl
      · rw [if_neg h3, if_neg h3, if_neg h3]; exact .rfl
    · intro st toks buf
      rw [file.eq_def (n + 1) (env.at l0), file.eq_def (n + 1) (env.at l1), file.eq_def (n + 1) (env.at l2)]
      cases toks with
      | nil => exact .rfl
      | cons t rest =>
        dsimp only
        split
        · exact .rfl
        · rcases hln st (t :: rest) buf with ⟨h0, h1⟩ | ⟨f, hf, h0, h1⟩
          · rw [h0, h1]
            split
            · exact .rfl
            · exact hf ..
          · rw [h0, h1]; exact .ask hf
    · intro st toks buf
      rw [line.eq_def (n + 1) (env.at l0), line.eq_def (n + 1) (env.at l1), line.eq_def (n + 1) (env.at l2)]
      dsimp only
      rcases hdir st (skipWsOut st toks buf).1 (skipWsOut st toks buf).2 with ⟨h0, h1⟩ | ⟨f, hf, h0, h1⟩
      · rw [h0, h1]
        split
        · exact .rfl
        · exact .rfl
        · split
          · rename_i st' toks' buf' _ _
            rcases hw none none false true none st' toks' buf' with ⟨h0, h1⟩ | ⟨f, hf, h0, h1⟩
            · rw [h0, h1]; exact .rfl
            · rw [h0, h1]; exact .ask hf
          · exact .rfl
      · rw [h0, h1]; exact .ask hf

/-- A whole run. -/
theorem run_asks {env : Env} {l0 l1 l2 : Text → Except PErr (List Tok)} {root : Text} (hroot : Asks D s0 s1 (l0 root) (l1 root) (l2 root))
    (hl : ∀ c t g b, env.locate c t = some (g, b) → Asks D s0 s1 (l0 g) (l1 g) (l2 g)) (n : Nat) :
    Asks D s0 s1 (run n (env.at l0) root) (run n (env.at l1) root) (run n (env.at l2) root) := by
  rw [run.eq_def n (env.at l0), run.eq_def n (env.at l1), run.eq_def n (env.at l2)]
  dsimp only
  rcases hroot with ⟨h0, h1⟩ | ⟨f, hf, h0, h1⟩
  · rw [h0, h1]
    split
    · exact .rfl
    · rename_i toks _
      rcases (asking hl n).2.2.2.2.2.1 { files := [root] } toks [] with ⟨h0, h1⟩ | ⟨f, hf, h0, h1⟩
      · rw [h0, h1]; exact .rfl
      · rw [h0, h1]; exact .ask hf
  · rw [h0, h1]; exact .ask hf

end Verif.Preproc
