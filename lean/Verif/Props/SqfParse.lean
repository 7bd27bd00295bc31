import Verif.Lib.SqfStrip
/-!
C28: the SQF parser reads expressions as the precedence table says.

The grammar (`Der` and its companions in `Verif.Lib.SqfGrammar`) is the specification: ten levels, binary commands to the
left, unary commands stronger than all of them. Superfluous terminators (`flex = true`) and comments are part of it.
-/
namespace Verif.SqfParse
open Verif.Sqf

/-! ### The parser and the grammar -/

/-- What is not a comment. -/
def code (ts : List Tok) : List Tok := ts.filter fun t => match t.1 with
  | .comment _ => false
  | _ => true

/-- C28: what the parser returns is what the grammar says of the tokens, including the position of every command. Only the
binary commands must not have names with a meaning of their own. -/
theorem C28_sound {env : Env} (hs : ∀ n, asciiLower n ∈ reserved → env.db.hasBinary n = false) {ts : List Tok}
    {ss : List Stmt} (h : run env ts = some ss) : DerBlock env.db true ss (code ts) := run_sound hs h

/-- C28: every program of the grammar is read, and what is read is that program. -/
theorem C28_complete {env : Env} (hdb : env.db.Plain) {ts : List Tok} {ss : List Stmt}
    (h : DerBlock env.db true ss (code ts)) : ∃ ss', run env ts = some ss' ∧ eraseSs ss' = eraseSs ss := run_complete hdb h

/-- C28: the table leaves nothing open: a sequence of tokens is at most one program. -/
theorem C28_unambiguous {db : Db} (hdb : db.Plain) {ts : List Tok} {ss ss' : List Stmt}
    (h : DerBlock db true ss (code ts)) (h' : DerBlock db true ss' (code ts)) : eraseSs ss = eraseSs ss' := by
  obtain ⟨r, hr, he⟩ := C28_complete (env := ⟨db, fun _ _ => (0, 0), fun _ => []⟩) hdb h
  obtain ⟨r', hr', he'⟩ := C28_complete (env := ⟨db, fun _ _ => (0, 0), fun _ => []⟩) hdb h'
  rw [hr] at hr'
  cases hr'
  rw [← he, he']

theorem Der.weaken_le {db : Db} {flex : Bool} {p q : Nat} {e : Expr} {ts : List Tok} (h : Der db flex q e ts) (hq : q ≤ 10)
    (hpq : p ≤ q) : Der db flex p e ts := by
  induction hpq with
  | refl => exact h
  | step hle ih => exact ih (.weaken (by omega) h) (by omega)

theorem prec_pos (c : BinCmd) : 1 ≤ prec c ∧ prec c ≤ 9 := by cases c <;> simp [prec]

/-- C28: of two commands the stronger one takes the operand between them, and of two equally strong ones the left one. -/
theorem C28_binding {env : Env} (hdb : env.db.Plain) {a b c : Expr} {ta tb tc ts : List Tok} {t1 t2 : Token} {s1 s2 : Span}
    {o1 o2 : BinCmd} (ha : Der env.db true 10 a ta) (hb : Der env.db true 10 b tb) (hc : Der env.db true 10 c tc)
    (h1 : binOf env.db t1 = some o1) (h2 : binOf env.db t2 = some o2)
    (ht : code ts = ta ++ (t1, s1) :: (tb ++ (t2, s2) :: tc)) :
    ∃ ss, run env ts = some ss ∧ eraseSs ss = eraseSs [.expr
      (if prec o2 ≤ prec o1 then .bin o2 (.bin o1 a b s1) c s2 else .bin o1 a (.bin o2 b c s2) s1) (0, 0)] := by
  have p1 := prec_pos o1
  have p2 := prec_pos o2
  refine C28_complete hdb (.last (.expr ?_))
  rw [ht]
  split
  · rename_i hle
    rw [← List.cons_append, ← List.append_assoc]
    exact (Der.bin h2 rfl ((Der.bin h1 rfl (ha.weaken_le (by omega) (by omega)) (hb.weaken_le (by omega) (by omega))).weaken_le
      (by omega) hle) (hc.weaken_le (by omega) (by omega))).weaken_le (by omega) p2.1
  · rename_i hle
    exact (Der.bin h1 rfl (ha.weaken_le (by omega) (by omega)) ((Der.bin h2 rfl (hb.weaken_le (by omega) (by omega))
      (hc.weaken_le (by omega) (by omega))).weaken_le (by omega) (by omega))).weaken_le (by omega) p1.1

/-- C28: a unary command takes the next operand alone. -/
theorem C28_unary {env : Env} (hdb : env.db.Plain) {a b : Expr} {ta tb ts : List Tok} {t1 t2 : Token} {s1 s2 : Span}
    {o1 : UnCmd} {o2 : BinCmd} (ha : Der env.db true 10 a ta) (hb : Der env.db true 10 b tb)
    (h1 : unOf env.db t1 = some o1) (h2 : binOf env.db t2 = some o2) (ht : code ts = (t1, s1) :: (ta ++ (t2, s2) :: tb)) :
    ∃ ss, run env ts = some ss ∧ eraseSs ss = eraseSs [.expr (.bin o2 (.un o1 a s1) b s2) (0, 0)] := by
  have p2 := prec_pos o2
  refine C28_complete hdb (.last (.expr ?_))
  rw [ht, ← List.cons_append]
  exact (Der.bin h2 rfl ((Der.un h1 ha).weaken_le (by omega) (by omega)) (hb.weaken_le (by omega) (by omega))).weaken_le
    (by omega) p2.1

/-! ### Printing with as few parentheses as possible -/

def unName : UnCmd → Token
  | .plus => .op .add | .minus => .op .sub | .not => .op .not | .named n => .ident n

def binName : BinCmd → Token
  | .or => .op .or | .and => .op .and | .eq => .op .eq | .notEq => .op .notEq | .greater => .op .greater | .less => .op .less
  | .greaterEq => .op .greaterEq | .lessEq => .op .lessEq | .configPath => .op .configPath | .associate => .op .associate
  | .els => .ident (ascii "else") | .add => .op .add | .sub => .op .sub | .max => .ident (ascii "max")
  | .min => .ident (ascii "min") | .mul => .op .mul | .div => .op .div | .rem => .op .rem | .mod => .ident (ascii "mod")
  | .atan2 => .ident (ascii "atan2") | .exp => .op .exp | .select => .op .select | .named n => .ident n

mutual
/-- An expression where one of level `p` is expected. -/
def pr (p : Nat) : Expr → List Tok
  | .num x sp => [(.num x, sp)]
  | .str s sp w => [(.str s w, sp)]
  | .bool b sp => [(.ident (if b then ascii "true" else ascii "false"), sp)]
  | .nular n sp => [(.ident n, sp)]
  | .var n sp => [(.ident n, sp)]
  | .arr es sp => (.ctl .squareOpen, sp) :: prs es ++ [(.ctl .squareClose, sp)]
  | .carr _ _ => []
  | .code ss _ sp => (.ctl .curlyOpen, sp) :: prBlock ss ++ [(.ctl .curlyClose, sp)]
  | .un c e sp => (unName c, sp) :: pr 10 e
  | .bin c l r sp =>
    if p ≤ prec c then pr (prec c) l ++ (binName c, sp) :: pr (prec c + 1) r
    else (.ctl .roundOpen, sp) :: (pr (prec c) l ++ (binName c, sp) :: pr (prec c + 1) r) ++ [(.ctl .roundClose, sp)]
/-- Elements of an array. -/
def prs : List Expr → List Tok
  | [] => []
  | [e] => pr 1 e
  | e :: es => pr 1 e ++ (.ctl .separator, (0, 0)) :: prs es
/-- A statement. -/
def prStmt : Stmt → List Tok
  | .expr e _ => pr 1 e
  | .assignGlobal n e sp => (.ident n, sp) :: (.op .assign, sp) :: pr 1 e
  | .assignLocal n e sp => (.ident (ascii "private"), sp) :: (.ident n, sp) :: (.op .assign, sp) :: pr 1 e
/-- Statements. -/
def prBlock : List Stmt → List Tok
  | [] => []
  | s :: ss => prStmt s ++ (.ctl .terminator, (0, 0)) :: prBlock ss
end

mutual
/-- The names in a tree are of the kind their place asks for. -/
def Named (db : Db) : Expr → Prop
  | .num _ _ | .str _ _ _ | .bool _ _ => True
  | .nular n _ => db.hasNular n = true ∧ asciiLower n ≠ ascii "true" ∧ asciiLower n ≠ ascii "false"
  | .var n _ => IsVar db n
  | .arr es _ => Nameds db es
  | .carr _ _ => False
  | .code ss _ _ => NamedBlock db ss
  | .un c e _ => (∀ n, c = .named n → db.hasUnary n = true) ∧ Named db e
  | .bin c l r _ => (∀ n, c = .named n → db.hasBinary n = true) ∧ Named db l ∧ Named db r
def Nameds (db : Db) : List Expr → Prop
  | [] => True
  | e :: es => Named db e ∧ Nameds db es
def NamedStmt (db : Db) : Stmt → Prop
  | .expr e _ => Named db e
  | .assignGlobal n e _ | .assignLocal n e _ => IsVar db n ∧ Named db e
def NamedBlock (db : Db) : List Stmt → Prop
  | [] => True
  | s :: ss => NamedStmt db s ∧ NamedBlock db ss
end

theorem unName_of {db : Db} {c : UnCmd} (h : ∀ n, c = .named n → db.hasUnary n = true) : unOf db (unName c) = some c := by
  cases c with
  | named n => simp [unName, unOf, h n rfl]
  | _ => rfl

theorem binName_of {db : Db} (hdb : db.Plain) {c : BinCmd} (h : ∀ n, c = .named n → db.hasBinary n = true) :
    binOf db (binName c) = some c := by
  cases c with
  | named n =>
    have hn : asciiLower n ∉ reserved := fun hr => by
      have := hdb.special n hr
      rw [h n rfl] at this
      cases this
    simp only [reserved, List.mem_cons, List.not_mem_nil, or_false, not_or] at hn
    simp [binName, binOf, hn, h n rfl]
  | els | max | min | mod | atan2 =>
    simp only [binName, binOf]
    simp (decide := true) only [if_true, if_false]
  | _ => rfl

mutual
theorem pr_der {db : Db} (hdb : db.Plain) : ∀ (e : Expr) (p : Nat), p ≤ 10 → Named db e → Der db true p e (pr p e)
  | .num .., _, hp, _ => by rw [pr]; exact Der.num.weaken_le (by omega) hp
  | .str .., _, hp, _ => by rw [pr]; exact Der.str.weaken_le (by omega) hp
  | .bool true _, _, hp, _ => by
    rw [pr, if_pos rfl]; exact (Der.tru (by decide)).weaken_le (by omega) hp
  | .bool false _, _, hp, _ => by
    rw [pr, if_neg (by simp)]; exact (Der.fls (by decide)).weaken_le (by omega) hp
  | .nular .., _, hp, h => by
    rw [Named] at h
    rw [pr]; exact (Der.nular h.1 h.2.1 h.2.2).weaken_le (by omega) hp
  | .var .., _, hp, h => by
    rw [Named] at h
    rw [pr]; exact (Der.var h).weaken_le (by omega) hp
  | .arr [] sp, _, hp, _ => by
    rw [pr, prs]; exact Der.arr0.weaken_le (by omega) hp
  | .arr (e :: es) sp, _, hp, h => by
    rw [Named] at h
    rw [pr]; exact (Der.arr (prs_der hdb (e :: es) (by simp) h)).weaken_le (by omega) hp
  | .carr .., _, _, h => by rw [Named] at h; exact h.elim
  | .code ss _ _, _, hp, h => by
    rw [Named] at h
    rw [pr]; exact (Der.code (prBlock_der hdb ss h)).weaken_le (by omega) hp
  | .un c e sp, _, hp, h => by
    rw [Named] at h
    rw [pr]; exact (Der.un (unName_of h.1) (pr_der hdb e 10 (by omega) h.2)).weaken_le (by omega) hp
  | .bin c l r sp, p, hp, h => by
    rw [Named] at h
    have hc := prec_pos c
    have hd := Der.bin (sp := sp) (binName_of hdb h.1) rfl (pr_der hdb l (prec c) (by omega) h.2.1)
      (pr_der hdb r (prec c + 1) (by omega) h.2.2)
    rw [pr]
    split
    · exact hd.weaken_le (by omega) (by assumption)
    · exact (Der.paren (hd.weaken_le (by omega) hc.1)).weaken_le (by omega) hp
theorem prs_der {db : Db} (hdb : db.Plain) : ∀ es : List Expr, es ≠ [] → Nameds db es → DerList db true es (prs es)
  | [], h0, _ => absurd rfl h0
  | [e], _, h => by
    rw [Nameds] at h
    rw [prs]
    exact .one (pr_der hdb e 1 (by omega) h.1)
  | e :: e' :: es, _, h => by
    rw [Nameds] at h
    rw [prs]
    · exact .cons (pr_der hdb e 1 (by omega) h.1) (prs_der hdb (e' :: es) (by simp) h.2)
    · simp
theorem prStmt_der {db : Db} (hdb : db.Plain) : ∀ s : Stmt, NamedStmt db s → DerStmt db true s (prStmt s)
  | .expr e _, h => by
    rw [NamedStmt] at h
    rw [prStmt]
    exact .expr (pr_der hdb e 1 (by omega) h)
  | .assignGlobal _ e _, h => by
    rw [NamedStmt] at h
    rw [prStmt]
    exact .global h.1 (pr_der hdb e 1 (by omega) h.2)
  | .assignLocal _ e _, h => by
    rw [NamedStmt] at h
    rw [prStmt]
    exact .priv (by decide) h.1 (pr_der hdb e 1 (by omega) h.2)
theorem prBlock_der {db : Db} (hdb : db.Plain) : ∀ ss : List Stmt, NamedBlock db ss → DerBlock db true ss (prBlock ss)
  | [], _ => by rw [prBlock]; exact .nil
  | s :: ss, h => by
    rw [NamedBlock] at h
    rw [prBlock]
    exact .cons (prStmt_der hdb s h.1) (prBlock_der hdb ss h.2)
end

/-- C28: a program printed with parentheses only where the table asks for them is read back as that program, whatever
comments are put between its tokens. -/
theorem C28_print {env : Env} (hdb : env.db.Plain) {ss : List Stmt} (hn : NamedBlock env.db ss) {ts : List Tok}
    (ht : code ts = prBlock ss) : ∃ ss', run env ts = some ss' ∧ eraseSs ss' = eraseSs ss :=
  C28_complete hdb (by rw [ht]; exact prBlock_der hdb ss hn)

/-! ### The tables -/

theorem foldl_insert_binary {ops : List (Bytes × Db.Call)} {n : Bytes} : ∀ db : Db,
    (ops.foldl (fun db c => db.insert c.1 c.2) db).hasBinary n =
      (ops.any (fun c => c.2 = .binary ∧ asciiLower n = asciiLower c.1) || db.hasBinary n) := by
  induction ops with
  | nil => intro db; simp
  | cons c ops ih =>
    intro db
    rw [List.foldl_cons, ih, List.any_cons]
    obtain ⟨m, k⟩ := c
    cases k <;> simp [Db.insert, Db.hasBinary, Bool.or_comm, Bool.or_left_comm, Bool.or_assoc]

/-- C28: with the built-in commands no name with a meaning of its own is among the binary commands, whatever the wiki
has. -/
theorem C28_db_a3 (wiki : List (Bytes × Db.Call)) (hw : ∀ c ∈ wiki, c.2 = .binary → asciiLower c.1 ∉ nularSpecial) (n : Bytes)
    (hn : asciiLower n ∈ reserved) : (Db.a3 wiki).hasBinary n = false := by
  have hsplit : asciiLower n ∈ nularSpecial ∨ asciiLower n ∈ binarySpecial := by
    simp only [reserved, nularSpecial, binarySpecial, List.mem_cons, List.not_mem_nil, or_false] at hn ⊢
    tauto
  rcases hsplit with h | h
  · have hb : (wiki.foldl (fun db c => db.insert c.1 c.2) Db.empty).hasBinary n = false := by
      rw [foldl_insert_binary, Bool.or_eq_false_iff]
      refine ⟨List.any_eq_false.2 fun c hc => ?_, rfl⟩
      simp only [decide_eq_true_eq]
      rintro ⟨h1, h2⟩
      exact hw c hc h1 (h2 ▸ h)
    simp only [Db.hasBinary] at hb
    simp only [Db.a3, Db.hasBinary, hb, Bool.and_false]
  · simp only [Db.a3, Db.hasBinary, List.contains_iff_mem.2 h, Bool.not_true, Bool.false_and]

/-- C28: nor after `add_nular_command`, `add_unary_command` and `add_binary_command`. -/
theorem C28_db_add (db : Db) (hdb : ∀ n, asciiLower n ∈ binarySpecial → db.hasBinary n = false) (m n : Bytes)
    (hn : asciiLower n ∈ binarySpecial) :
    (db.addNular m).hasBinary n = false ∧ (db.addUnary m).hasBinary n = false ∧ (db.addBinary m).hasBinary n = false := by
  have h := hdb n hn
  refine ⟨?_, ?_, ?_⟩
  · unfold Db.addNular; split <;> exact h
  · unfold Db.addUnary; split <;> exact h
  · unfold Db.addBinary
    split
    · rename_i hc
      simp only [Bool.and_eq_true, Bool.not_eq_true', isIn, List.any_eq_false] at hc
      simp only [Db.hasBinary, Db.insert, Bool.or_eq_false_iff, decide_eq_false_iff_not]
      refine ⟨fun e => hc.2 _ hn ?_, h⟩
      rw [eqIgnore, ← e]
      simp only [beq_iff_eq]
      revert hn
      generalize asciiLower n = x
      intro hn
      simp only [binarySpecial, List.mem_cons, List.not_mem_nil, or_false] at hn
      rcases hn with rfl | rfl | rfl | rfl | rfl | rfl | rfl <;> decide
    · exact h

/-! ### Commands of the project -/

/-- A table with `private`, one command before an operand and one between operands. -/
def sampleDb : Db := Db.a3 [(ascii "private", .unary), (ascii "hint", .unary), (ascii "isEqualTo", .binary),
  (ascii "player", .nular)]

def sampleEnv (db : Db) : Env := ⟨db, fun _ _ => (0, 0), fun _ => []⟩

theorem sample_plain : sampleDb.Plain := by
  refine ⟨C28_db_a3 _ (by decide +kernel), fun n h => ?_, fun n h => ?_⟩
  · simp only [sampleDb, Db.a3, List.foldl, Db.insert, Db.hasUnary, Db.empty, Bool.or_false, Bool.or_eq_true,
      decide_eq_true_eq] at h
    simp only [sampleDb, Db.a3, List.foldl, Db.insert, Db.hasNular, Db.empty]
    rcases h with h | h <;> rw [h] <;> decide +kernel
  · simp only [sampleDb, Db.a3, List.foldl, Db.insert, Db.hasUnary, h, Db.empty]
    decide +kernel

def tok (t : Token) : Tok := (t, (0, 0))
def word (s : String) : Tok := tok (.ident (ascii s))

/-- `a || b isEqualTo -c # d`: the tree `a || (b isEqualTo ((-c) # d))`, in a comment and with a superfluous terminator. -/
example : run (sampleEnv sampleDb) [tok (.ctl .terminator), word "a", tok (.op .or), tok (.comment (ascii "//x")), word "b",
      word "ISEQUALTO", tok (.op .sub), word "c", tok (.op .select), word "d"] =
    some [.expr (.bin .or (.var (ascii "a") (0, 0)) (.bin (.named (ascii "ISEQUALTO")) (.var (ascii "b") (0, 0))
      (.bin .select (.un .minus (.var (ascii "c") (0, 0)) (0, 0)) (.var (ascii "d") (0, 0)) (0, 0)) (0, 0)) (0, 0)) (0, 0)] := by
  rfl

/-- The hypotheses of the theorems above are met: a program with all three kinds of statements. -/
example : NamedBlock sampleDb
      [.assignLocal (ascii "x") (.bin .mul (.bin .add (.num 1 (0, 0)) (.num 2 (0, 0)) (0, 0)) (.num 3 (0, 0)) (0, 0)) (0, 0),
       .expr (.un (.named (ascii "hint")) (.code [.assignGlobal (ascii "y") (.arr [.nular (ascii "player") (0, 0)] (0, 0))
         (0, 0)] [] (0, 0)) (0, 0)) (0, 0)] ∧
    prBlock [.assignLocal (ascii "x") (.bin .mul (.bin .add (.num 1 (0, 0)) (.num 2 (0, 0)) (0, 0)) (.num 3 (0, 0)) (0, 0))
        (0, 0)] =
      [word "private", word "x", tok (.op .assign), tok (.ctl .roundOpen), tok (.num 1), tok (.op .add), tok (.num 2),
        tok (.ctl .roundClose), tok (.op .mul), tok (.num 3), tok (.ctl .terminator)] := by
  constructor
  · simp only [NamedBlock, NamedStmt, Named, Nameds, IsVar]
    refine ⟨⟨by decide +kernel, ⟨by simp, ⟨by simp, trivial, trivial⟩, trivial⟩⟩, ⟨?_, ⟨by decide +kernel, ?_, trivial⟩, trivial⟩, trivial⟩
    · rintro n h
      cases h
      decide +kernel
    · decide +kernel
  · decide +kernel

/-- C28, violated: a command of the project that is called `or` and stands between operands makes `a or b == c` mean
`(a or b) == c`; the name is not taken out of the table as it is for the built-in commands. -/
theorem C28_workspace_violated : ∃ (wiki custom : List (Bytes × Db.Call)) (ts : List Tok) (a b c : Expr),
    run (sampleEnv (Db.a3 wiki)) ts = some [.expr (.bin .or a (.bin .eq b c (0, 0)) (0, 0)) (0, 0)] ∧
    run (sampleEnv (Db.a3WithWorkspace wiki custom)) ts =
      some [.expr (.bin .eq (.bin (.named (ascii "or")) a b (0, 0)) c (0, 0)) (0, 0)] :=
  ⟨[(ascii "or", .binary)], [(ascii "or", .binary)], [word "a", word "or", word "b", tok (.op .eq), word "c"],
    .var (ascii "a") (0, 0), .var (ascii "b") (0, 0), .var (ascii "c") (0, 0), by rfl, by rfl⟩

/-- C28, violated: a command that can stand alone and can also stand before an operand is not read when it stands alone. -/
theorem C28_both_violated : ∃ (wiki : List (Bytes × Db.Call)) (ts : List Tok) (ss : List Stmt),
    DerBlock (Db.a3 wiki) true ss (code ts) ∧ ∀ env : Env, env.db = Db.a3 wiki → run env ts = none :=
  ⟨[(ascii "foo", .nular), (ascii "foo", .unary)], [word "foo"], [.expr (.nular (ascii "foo") (0, 0)) (0, 0)],
    .last (.expr ((Der.nular (by decide +kernel) (by decide +kernel) (by decide +kernel)).weaken_le (by omega) (by omega))), by
      rintro ⟨db, s, x⟩ h
      subst h
      rfl⟩

end Verif.SqfParse
