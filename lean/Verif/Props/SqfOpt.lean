import Verif.Lib.SqfOpt
/-! Properties C23 (optimised scripts mean the same), C24 (optimising never aborts), C27 (required version)
and C46 (shared constant arrays do not escape). -/
namespace Verif.Sqf

/-! ### C23 -/

/-- C23: under every compositional meaning of scripts that gives the folded commands their ordinary meaning,
the optimised script means the same as the original. -/
theorem C23_preserves {E S B : Type} (F : FloatOps) (lower : Bytes → Bytes) (M : Sem E S B) (L : Laws F lower M)
    (b b' : Block) (h : b.optimize F lower = .ok b') :
    M.block (M.ss b'.content) = M.block (M.ss b.content) ∧ b'.source = b.source ∧ b'.sp = b.sp := by
  obtain ⟨c, hc, h⟩ := bind_ok h
  cases h
  exact ⟨by rw [optSs_sem L _ _ hc], rfl, rfl⟩

/-! A concrete meaning with variables, errors and calls that satisfies the laws. -/
namespace Demo

inductive Val where
  | num (x : UInt32) | str (s : Bytes) | bool (b : Bool) | arr (l : List Val) | code (src : Bytes) | nothing

/-- variables to values -/
abbrev Env := Bytes → Option Val
/-- an expression reads the environment and may fail -/
abbrev E := Env → Option Val

def unV (F : FloatOps) (n : Bytes) : Val → Option Val
  | .num x => if n = ascii "-" then some (.num (F.neg x)) else if asciiLower n = ascii "sqrt" then some (.num (F.sqrt x)) else none
  | .str s =>
    if asciiLower n = ascii "tolower" ∨ asciiLower n = ascii "toloweransi" then some (.str (asciiLower s))
    else if asciiLower n = ascii "toupper" ∨ asciiLower n = ascii "toupperansi" then some (.str (asciiUpper s)) else none
  | .arr l => if n = ascii "+" then some (.arr l) else some (.num (UInt32.ofNat l.length))
  | _ => some .nothing

def binV (F : FloatOps) (n : Bytes) : Val → Val → Option Val
  | .num x, .num y =>
    if n = ascii "+" then some (.num (F.add x y)) else if n = ascii "-" then some (.num (F.sub x y))
    else if n = ascii "*" then some (.num (F.mul x y)) else if n = ascii "/" then some (.num (F.div x y))
    else if n = ascii "%" ∨ n = ascii "mod" then some (.num (F.rem x y)) else none
  | .str s, .str t => if n = ascii "+" then some (.str (s ++ t)) else none
  | .code s, .code t => if n = ascii "else" then some (.arr [.code s, .code t]) else none
  | _, _ => some .nothing

def set (env : Env) (n : Bytes) (v : Option Val) : Env := fun m => if m = n then v else env m

def arr (xs : List E) : E := fun env => (xs.mapM (fun (x : E) => x env) : Option (List Val)).map .arr

def un (F : FloatOps) (n : Bytes) (x : E) : E := fun env => (x env).bind (unV F n)

def sem (F : FloatOps) : Sem E (Bool × Bytes × E) (List (Bool × Bytes × E)) where
  code s _ := fun _ => some (.code s)
  str s := fun _ => some (.str s)
  num x := fun _ => some (.num x)
  bool b := fun _ => some (.bool b)
  arr := arr
  shared := arr
  nular _ := fun _ => some .nothing
  un := un F
  bin n x y :=
    if asciiLower n = ascii "call" then fun env => un F (ascii "call") y (set env (ascii "_this") (x env))
    else fun env => (x env).bind fun a => (y env).bind (binV F n a)
  var n := fun env => env n
  assign l n x := (l, n, x)
  expr x := (false, [], x)
  block l := l

theorem laws (F : FloatOps) : Laws F asciiLower (sem F) where
  neg x _ := by funext env; simp [sem, un, unV]
  sqrt n x hn _ := by
    have : n ≠ ascii "-" := by rintro rfl; revert hn; decide +kernel
    funext env; simp [sem, un, unV, hn, this]
  toLower n s hn _ := by funext env; simp [sem, un, unV, hn]
  toUpper n s hn _ := by
    have h1 : asciiLower n ≠ ascii "tolower" := by rcases hn with hn | hn <;> rw [hn] <;> decide +kernel
    have h2 : asciiLower n ≠ ascii "toloweransi" := by rcases hn with hn | hn <;> rw [hn] <;> decide +kernel
    funext env; simp [sem, un, unV, hn, h1, h2]
  add x y _ := by
    have h : asciiLower (ascii "+") ≠ ascii "call" := by decide +kernel
    funext env; simp [sem, h, binV]
  append s t _ _ := by
    have h : asciiLower (ascii "+") ≠ ascii "call" := by decide +kernel
    funext env; simp [sem, h, binV]
  sub x y _ := by
    have h : asciiLower (ascii "-") ≠ ascii "call" := by decide +kernel
    have h' : ascii "-" ≠ ascii "+" := by decide +kernel
    funext env; simp [sem, h, h', binV]
  mul x y _ := by
    have h : asciiLower (ascii "*") ≠ ascii "call" := by decide +kernel
    have h' : ascii "*" ≠ ascii "+" ∧ ascii "*" ≠ ascii "-" := by decide +kernel
    funext env; simp [sem, h, h', binV]
  div x y _ := by
    have h : asciiLower (ascii "/") ≠ ascii "call" := by decide +kernel
    have h' : ascii "/" ≠ ascii "+" ∧ ascii "/" ≠ ascii "-" ∧ ascii "/" ≠ ascii "*" := by decide +kernel
    funext env; simp [sem, h, h', binV]
  rem x y _ := by
    have h : asciiLower (ascii "%") ≠ ascii "call" := by decide +kernel
    have h' : ascii "%" ≠ ascii "+" ∧ ascii "%" ≠ ascii "-" ∧ ascii "%" ≠ ascii "*" ∧ ascii "%" ≠ ascii "/" := by decide +kernel
    funext env; simp [sem, h, h', binV]
  mod x y _ := by
    have h : asciiLower (ascii "mod") ≠ ascii "call" := by decide +kernel
    have h' : ascii "mod" ≠ ascii "+" ∧ ascii "mod" ≠ ascii "-" ∧ ascii "mod" ≠ ascii "*" ∧ ascii "mod" ≠ ascii "/" := by decide +kernel
    funext env; simp [sem, h, h', binV]
  els s t a b := by
    have h : asciiLower (ascii "else") ≠ ascii "call" := by decide +kernel
    funext env; simp [sem, h, binV, arr]
  call n x hn := by
    funext env
    have : set env (ascii "_this") (env (ascii "_this")) = env := by
      funext m; unfold set; split
      · rename_i h; rw [h]
      · rfl
    simp [sem, hn, this]
  copy es _ := by
    funext env
    show Option.bind (arr ((sem F).es es) env) (unV F (ascii "+")) = arr ((sem F).es es) env
    unfold arr
    cases (((sem F).es es).mapM (fun (x : E) => x env) : Option (List Val)) <;> simp [unV]
  consumeUn _ _ _ _ := rfl
  consumeLeft _ _ _ _ _ := rfl
  consumeRight _ _ _ _ _ := rfl
  paramsUn _ _ _ _ _ := rfl
  paramsBin _ _ _ _ _ _ := rfl
  paramUn _ _ _ _ _ _ := rfl
  dfltBin _ _ _ _ _ _ _ := rfl

end Demo

/-- a script that is rewritten in several places: `x = -1 + 2; _this call {params [["_a", []]]}` -/
def demoScript (one two : UInt32) : Block where
  content := [.assignGlobal (ascii "x") (.bin .add (.un .minus (.num one (5, 6)) (4, 5)) (.num two (9, 10)) (7, 8)) (0, 10),
    .expr (.bin (.named (ascii "Call")) (.var (ascii "_this") (12, 17))
      (.code [.expr (.un (.named (ascii "params"))
        (.arr [.arr [.str (ascii "_a") (33, 37) .double, .arr [] (39, 41)] (32, 42)] (31, 43)) (24, 30)) (24, 43)]
        (ascii "params [[\"_a\", []]]") (23, 44)) (18, 22)) (12, 44)]
  source := ascii "x = -1 + 2; _this call {params [[\"_a\", []]]}"
  sp := (0, 44)

example (F : FloatOps) (h1 : F.finite (F.neg 1) = true) (h2 : F.finite (F.add (F.neg 1) 2) = true) :
    ∃ b', (demoScript 1 2).optimize F asciiLower = .ok b' ∧
      b'.content = [.assignGlobal (ascii "x") (.num (F.add (F.neg 1) 2) (7, 8)) (0, 10),
        .expr (.un (.named (ascii "call"))
          (.code [.expr (.un (.named (ascii "params"))
            (.un .plus (.carr [.arr [.str (ascii "_a") (33, 37) .double, .arr [] (39, 41)] (32, 42)] (31, 43)) (31, 43)) (24, 30)) (24, 43)]
            (ascii "params [[\"_a\", []]]") (23, 44)) (18, 22)) (12, 44)] := by
  have k1 : knownUn (asciiLower (ascii "params")) = .params := by decide +kernel
  have k2 : knownBin (asciiLower (ascii "Call")) = .call := by decide +kernel
  refine ⟨⟨_, (demoScript 1 2).source, (demoScript 1 2).sp⟩, ?_, rfl⟩
  simp [Block.optimize, demoScript, optSs, optS, optE, optBin, optUn, opUniFloat, opBinFloat, h1, h2, k1, k2, optEs,
    consumeParams, consume, isConst, isConstAll, isNotArrayDefault, isArray, isThis, bind, Except.bind, pure, Except.pure]

/-! ### C24 -/

/-- C24 is violated: `random [{} else {}]` aborts the optimiser, whatever the arithmetic. -/
theorem C24_abort (F : FloatOps) :
    Block.optimize F asciiLower
      ⟨[.expr (.un (.named (ascii "random"))
        (.arr [.bin .els (.code [] [] (8, 10)) (.code [] [] (16, 18)) (11, 15)] (7, 19)) (0, 6)) (0, 19)],
        ascii "random [{} else {}]", (0, 19)⟩ = .error .panic := by
  have k1 : knownUn (asciiLower (ascii "random")) = .consumeUn := by decide +kernel
  simp [Block.optimize, optSs, optS, optE, optEs, optBin, optUn, k1, consume, isConst, isConstAll, isCode,
    bind, Except.bind, pure, Except.pure]

/-- C24, the part that holds: optimising a script returns a script unless `{ … } else { … }` occurs as an
element of an array literal. -/
theorem C24_no_abort_partial (F : FloatOps) (lower : Bytes → Bytes) (b : Block) (h : NoElseInArraySs b.content) :
    ∃ b', b.optimize F lower = .ok b' := by
  obtain ⟨c, hc⟩ := optSs_safe (F := F) (lower := lower) b.content h
  exact ⟨{ b with content := c }, by simp [Block.optimize, hc, bind, Except.bind, pure, Except.pure]⟩

/-- `if (a) then {b = [1]} else {}` and `random [1, 2]` meet the hypothesis -/
example : NoElseInArraySs
    [.expr (.bin (.named (ascii "then")) (.un (.named (ascii "if")) (.var (ascii "a") (4, 5)) (0, 2))
      (.bin .els (.code [.assignGlobal (ascii "b") (.arr [.num 1 (0, 0)] (0, 0)) (0, 0)] [] (0, 0)) (.code [] [] (0, 0)) (0, 0)) (0, 0)) (0, 0),
     .expr (.un (.named (ascii "random")) (.arr [.num 1 (0, 0), .num 2 (0, 0)] (0, 0)) (0, 0)) (0, 0)] := by
  simp [NoElseInArraySs, NoElseInArrayS, NoElseInArray, NoElseInArrays]

/-! ### C46 -/

/-- C46: every array constant the optimiser shares between executions of a script is either handed directly to
a command that keeps no part of it, or is the pair of code blocks of an `else`. -/
theorem C46_shared_positions_partial (F : FloatOps) (lower : Bytes → Bytes) (b b' : Block) (hp : PlainSs b.content)
    (h : b.optimize F lower = .ok b') : SharedOkSs lower b'.content := by
  obtain ⟨c, hc, h⟩ := bind_ok h
  cases h
  exact optSs_shared _ _ hc hp

/-- C46 is violated by the exception: the pair of an `else` can be kept by the script, here in a variable, where
it can be modified by a later command and then is still modified when the script runs again. -/
theorem C46_else_escapes (F : FloatOps) (lower : Bytes → Bytes) (n : Bytes) (p q r s : Span) :
    optS F lower (.assignGlobal n (.bin .els (.code [] [] p) (.code [] [] q) r) s) =
      .ok (.assignGlobal n (.carr [.code [] [] p, .code [] [] q] r) s) := by
  simp [optS, optE, optSs, optBin, isCode, bind, Except.bind, pure, Except.pure]

example : PlainSs (demoScript 1 2).content := by
  simp [demoScript, PlainSs, PlainS, Plain, Plains]

/-- The predicate does rule things out: a shared array in a variable that is not an `else` pair. -/
example (lower : Bytes → Bytes) (n : Bytes) (p q : Span) :
    ¬ SharedOkSs lower [.assignGlobal n (.carr [.num 1 p] q) q] := by
  simp [SharedOkSs, SharedOkS, SharedOk, CodePair]

/-! ### C27 -/

mutual
/-- Names of all commands used anywhere in an expression. -/
def cmdsE : Expr → List Bytes
  | .code c _ _ => cmdsSs c
  | .arr es _ => cmdsEs es
  | .carr es _ => cmdsEs es
  | .nular n _ => [n]
  | .un c e _ => c.asStr :: cmdsE e
  | .bin c l r _ => c.asStr :: (cmdsE l ++ cmdsE r)
  | _ => []
def cmdsEs : List Expr → List Bytes
  | [] => []
  | e :: es => cmdsE e ++ cmdsEs es
def cmdsS : Stmt → List Bytes
  | .assignGlobal _ e _ | .assignLocal _ e _ | .expr e _ => cmdsE e
def cmdsSs : List Stmt → List Bytes
  | [] => []
  | s :: ss => cmdsS s ++ cmdsSs ss
end

mutual
theorem extractE_used (ver : Bytes → Option Nat) : ∀ (e : Expr) (r : Report), extractE ver e = some r →
    r.2.1 = 0 ∨ r.1 ∈ cmdsE e ∧ ver r.1 = some r.2.1
  | .nular n sp, r, h => by
    simp only [extractE] at h
    cases hv : ver n <;> simp [hv] at h
    subst h; exact .inr ⟨by simp [cmdsE], hv⟩
  | .un c e sp, r, h => by
    simp only [extractE, Option.bind_eq_bind, Option.bind_eq_some_iff] at h
    obtain ⟨cv, hv, l, hl, lv, hlv, h⟩ := h
    split at h
    · cases h; exact .inr ⟨by simp [cmdsE], hv⟩
    · cases h
      exact (extractE_used ver e _ hl).imp id fun x => ⟨by simp [cmdsE, x.1], x.2⟩
  | .bin c l r' sp, r, h => by
    simp only [extractE, Option.bind_eq_bind, Option.bind_eq_some_iff] at h
    obtain ⟨cv, hv, l1, hl, lv, hlv, r1, hr, rv, hrv, h⟩ := h
    split at h
    · cases h; exact .inr ⟨by simp [cmdsE], hv⟩
    · split at h
      · cases h
        exact (extractE_used ver l _ hl).imp id fun x => ⟨by simp [cmdsE, x.1], x.2⟩
      · cases h
        exact (extractE_used ver r' _ hr).imp id fun x => ⟨by simp [cmdsE, x.1], x.2⟩
  | .code c _ _, r, h => by
    simp only [extractE, Option.some.injEq] at h
    subst h
    rcases requiredSs_used ver c ([], 0, (0, 0)) with h | h
    · exact .inl (by rw [h])
    · exact h.imp id fun x => ⟨by simpa [cmdsE] using x.1, x.2⟩
  | .str _ _ _, r, h => by simp [extractE] at h
  | .num _ _, r, h => by simp [extractE] at h
  | .bool _ _, r, h => by simp [extractE] at h
  | .arr _ _, r, h => by simp [extractE] at h
  | .carr _ _, r, h => by simp [extractE] at h
  | .var _ _, r, h => by simp [extractE] at h
theorem requiredS_used (ver : Bytes → Option Nat) : ∀ (s : Stmt) (r : Report), requiredS ver s = some r →
    r.2.1 = 0 ∨ r.1 ∈ cmdsS s ∧ ver r.1 = some r.2.1
  | .assignGlobal _ e _, r, h => by
    simp only [requiredS, cmdsS] at h ⊢
    exact extractE_used ver e r h
  | .assignLocal _ e _, r, h => by
    simp only [requiredS, cmdsS] at h ⊢
    exact extractE_used ver e r h
  | .expr e _, r, h => by
    simp only [requiredS, cmdsS] at h ⊢
    exact extractE_used ver e r h
theorem requiredSs_used (ver : Bytes → Option Nat) : ∀ (ss : List Stmt) (acc : Report),
    requiredSs ver ss acc = acc ∨ (requiredSs ver ss acc).2.1 = 0 ∨
      (requiredSs ver ss acc).1 ∈ cmdsSs ss ∧ ver (requiredSs ver ss acc).1 = some (requiredSs ver ss acc).2.1
  | [], acc => .inl (by simp [requiredSs])
  | s :: ss, acc => by
    simp only [requiredSs, cmdsSs]
    rcases requiredSs_used ver ss (keepMax acc (requiredS ver s)) with h | h | h
    · rw [h]
      cases hr : requiredS ver s with
      | none => exact .inl rfl
      | some r =>
        simp only [keepMax]
        split
        · exact .inr ((requiredS_used ver s r hr).imp id fun x => ⟨by simp [x.1], x.2⟩)
        · exact .inl rfl
    · exact .inr (.inl h)
    · exact .inr (.inr ⟨by simp [h.1], h.2⟩)
end

/-- C27, soundness: a reported version is the version of a command the script uses. -/
theorem C27_never_over (ver : Bytes → Option Nat) (b : Block) :
    (b.required ver).2.1 = 0 ∨ (b.required ver).1 ∈ cmdsSs b.content ∧ ver (b.required ver).1 = some (b.required ver).2.1 := by
  rcases requiredSs_used ver b.content ([], 0, (0, 0)) with h | h
  · exact .inl (by simp only [Block.required]; rw [h])
  · exact h

/-- C27 is violated: `hint "x"` reports nothing although `hint` has a version. -/
theorem C27_under_reports : ∃ (ver : Bytes → Option Nat) (b : Block) (n : Bytes) (v : Nat),
    n ∈ cmdsSs b.content ∧ ver n = some v ∧ (b.required ver).2.1 < v :=
  ⟨fun n => if n = ascii "hint" then some 5 else none,
   ⟨[.expr (.un (.named (ascii "hint")) (.str (ascii "x") (5, 8) .double) (0, 4)) (0, 8)], ascii "hint \"x\"", (0, 8)⟩,
   ascii "hint", 5, by simp [cmdsSs, cmdsS, cmdsE, UnCmd.asStr],
   by simp, by simp [Block.required, requiredSs, requiredS, extractE, keepMax]⟩

/-- Expressions made of commands with known versions only. -/
inductive Versioned (ver : Bytes → Option Nat) : Expr → Prop where
  | nular (n sp v) : ver n = some v → Versioned ver (.nular n sp)
  | un (c e sp v) : ver c.asStr = some v → Versioned ver e → Versioned ver (.un c e sp)
  | bin (c l r sp v) : ver c.asStr = some v → Versioned ver l → Versioned ver r → Versioned ver (.bin c l r sp)

theorem extractE_max {ver : Bytes → Option Nat} {e : Expr} (h : Versioned ver e) :
    ∃ r, extractE ver e = some r ∧ ver r.1 = some r.2.1 ∧ ∀ n ∈ cmdsE e, ∀ v, ver n = some v → v ≤ r.2.1 := by
  induction h with
  | nular n sp v hv => exact ⟨(n, v, sp), by simp [extractE, hv], hv, by simp [cmdsE, hv]⟩
  | un c e sp v hv _ ih =>
    obtain ⟨r, h1, h2, h3⟩ := ih
    by_cases hc : v > r.2.1
    · refine ⟨(c.asStr, v, sp), by simp [extractE, hv, h1, h2, hc], hv, ?_⟩
      intro n hn w hw
      simp only [cmdsE, List.mem_cons] at hn
      rcases hn with rfl | hn
      · rw [hv] at hw; cases hw; exact le_rfl
      · exact (h3 n hn w hw).trans hc.le
    · refine ⟨r, by simp [extractE, hv, h1, h2, hc], h2, ?_⟩
      intro n hn w hw
      simp only [cmdsE, List.mem_cons] at hn
      rcases hn with rfl | hn
      · rw [hv] at hw; cases hw; omega
      · exact h3 n hn w hw
  | bin c l r sp v hv _ _ ihl ihr =>
    obtain ⟨a, a1, a2, a3⟩ := ihl
    obtain ⟨b, b1, b2, b3⟩ := ihr
    by_cases hc : v > a.2.1 ∧ v > b.2.1
    · refine ⟨(c.asStr, v, sp), by simp [extractE, hv, a1, a2, b1, b2, hc], hv, ?_⟩
      intro n hn w hw
      simp only [cmdsE, List.mem_cons, List.mem_append] at hn
      rcases hn with rfl | hn | hn
      · rw [hv] at hw; cases hw; exact le_rfl
      · exact (a3 n hn w hw).trans hc.1.le
      · exact (b3 n hn w hw).trans hc.2.le
    · by_cases hd : a.2.1 > b.2.1
      · refine ⟨a, ?_, a2, ?_⟩
        · simp only [extractE, hv, a1, a2, b1, b2, Option.bind_eq_bind, Option.bind_some]
          rw [if_neg hc, if_pos hd]
        intro n hn w hw
        simp only [cmdsE, List.mem_cons, List.mem_append] at hn
        rcases hn with rfl | hn | hn
        · rw [hv] at hw; cases hw; omega
        · exact a3 n hn w hw
        · exact (b3 n hn w hw).trans hd.le
      · refine ⟨b, ?_, b2, ?_⟩
        · simp only [extractE, hv, a1, a2, b1, b2, Option.bind_eq_bind, Option.bind_some]
          rw [if_neg hc, if_neg hd]
        intro n hn w hw
        simp only [cmdsE, List.mem_cons, List.mem_append] at hn
        rcases hn with rfl | hn | hn
        · rw [hv] at hw; cases hw; omega
        · exact (a3 n hn w hw).trans (by omega)
        · exact b3 n hn w hw

theorem requiredSs_ge (ver : Bytes → Option Nat) : ∀ (ss : List Stmt) (acc : Report),
    acc.2.1 ≤ (requiredSs ver ss acc).2.1
  | [], acc => by simp [requiredSs]
  | s :: ss, acc => by
    simp only [requiredSs]
    refine le_trans ?_ (requiredSs_ge ver ss _)
    cases requiredS ver s with
    | none => exact le_rfl
    | some r =>
      simp only [keepMax]
      split
      · rename_i h; exact h.le
      · exact le_rfl

/-- the expression of a statement -/
def Stmt.e : Stmt → Expr
  | .assignGlobal _ e _ | .assignLocal _ e _ | .expr e _ => e

/-- C27, the part of completeness that holds: in a script whose expressions consist of commands with known
versions only, the reported version is at least that of every command used. Missing: any operand that is not
such a command (a literal, a variable, an array, code) makes the code ignore the commands applied to it. -/
theorem C27_exact_partial (ver : Bytes → Option Nat) (b : Block) (h : ∀ s ∈ b.content, Versioned ver s.e) :
    ∀ n ∈ cmdsSs b.content, ∀ v, ver n = some v → v ≤ (b.required ver).2.1 := by
  have key : ∀ (ss : List Stmt) (acc : Report), (∀ s ∈ ss, Versioned ver s.e) →
      ∀ n ∈ cmdsSs ss, ∀ v, ver n = some v → v ≤ (requiredSs ver ss acc).2.1 := by
    intro ss
    induction ss with
    | nil => intro acc _ n hn; simp [cmdsSs] at hn
    | cons s ss ih =>
      intro acc hs n hn v hv
      simp only [cmdsSs, List.mem_append] at hn
      simp only [requiredSs]
      rcases hn with hn | hn
      · refine le_trans ?_ (requiredSs_ge ver ss _)
        obtain ⟨r, hr, _, hm⟩ := extractE_max (hs s (by simp))
        have hn' : n ∈ cmdsE s.e := by cases s <;> simpa [cmdsS, Stmt.e] using hn
        have hr' : requiredS ver s = some r := by cases s <;> simpa [requiredS, Stmt.e] using hr
        have := hm n hn' v hv
        rw [hr']
        simp only [keepMax]
        split <;> omega
      · exact ih _ (fun s' h' => hs s' (by simp [h'])) n hn v hv
  exact key b.content _ h

/-- `getPos player` -/
example : ∀ s ∈ [Stmt.expr (.un (.named (ascii "getPos")) (.nular (ascii "player") (7, 13)) (0, 6)) (0, 13)],
    Versioned (fun n => if n = ascii "getPos" then some 1 else some 0) s.e := by
  simp only [List.mem_singleton, forall_eq, Stmt.e]
  exact .un _ _ _ 1 (by simp [UnCmd.asStr]) (.nular _ _ 0 (by decide +kernel))

end Verif.Sqf
