import Verif.Lib.SqfFits
set_option linter.unusedSimpArgs false
/-!
C129: from the text of a script to the compiled file and to what it means.

Specification: the grammar of Lib/SqfGrammar (`DerBlock`), the layout of tokens of Lib/SqfLex (`Layout`), the reader of
compiled scripts of Spec/SqfFile (`found`), and any meaning of scripts (`Sem`) for which the commands the optimiser knows
mean what they mean in the game (`Laws`) and names are not distinguished by case (`NameLaws`).
-/
namespace Verif.Sqf
open Verif.SqfParse (DerBlock Env Tok)
open Verif.SqfLex (Layout F32)

section
variable {E S B : Type} {M : Sem E S B} {F : FloatOps} {lower : Bytes → Bytes} {loc : Span → Option SourceInfo}

/-- C129. The offset and the length kept for a piece of code lead to its text. -/
theorem C129_text (s : Text) (hs : (Processed.bytesOf s).length < 2 ^ 32) (sp : Span) :
    ((Processed.bytesOf s).drop ((procOf loc s).offset sp.1).toNat).take (UInt32.ofNat ((procOf loc s).len sp)).toNat =
      textOf s sp := by
  have e1 := (Processed.C34_byte_offset s sp.1 hs).1
  show ((Processed.bytesOf s).drop (Processed.byteOffset s sp.1).toNat).take (UInt32.ofNat (textOf s sp).length).toNat = _
  rw [e1]
  have key : textOf s sp = [] ∨ textOf s sp = Processed.bytesOf ((s.take sp.2).drop sp.1) := by
    unfold textOf
    rw [Processed.C34_extract]
    split
    · rename_i h; split at h
      · cases h; exact .inr rfl
      · cases h
    · exact .inl rfl
  rcases key with h | h
  · rw [h]; rfl
  · rw [h]
    have hd : Processed.bytesOf (s.drop sp.1) = Processed.bytesOf ((s.take sp.2).drop sp.1) ++
        Processed.bytesOf ((s.drop sp.1).drop (sp.2 - sp.1)) := by
      rw [← Processed.bytesOf_append, List.drop_take, List.take_append_drop]
    have hl : (Processed.bytesOf ((s.take sp.2).drop sp.1)).length ≤ (Processed.bytesOf s).length := by
      have h2 : Processed.bytesOf s = Processed.bytesOf (s.take sp.1) ++ Processed.bytesOf (s.drop sp.1) := by
        rw [← Processed.bytesOf_append, List.take_append_drop]
      rw [h2, hd]; simp only [List.length_append]; omega
    rw [UInt32.toNat_ofNat', Nat.mod_eq_of_lt (by omega), hd, List.take_left]

/-- C129. What a compiled script holds is the script that was compiled, down to which arrays are shared, and with it the
text and the names of the source files. -/
theorem C129_found {X : Span → Bytes} {P : Proc} (hP : ∀ sp, P.len sp < 2 ^ 31) {files : List Bytes} {b : Block}
    {c : Compiled} (hf : FileOkSs X b.content) (h : b.compile P files = .ok c) {w : Bytes} (hw : c.serialize = .ok w) :
    ∃ k, ∀ f, k ≤ f → found f w = some ⟨files, b.source, wantSs P b.content⟩ := by
  have hinv := compile_inv hP h
  have hlen : c.consts.length < 2 ^ 16 := by
    have hs := hw
    unfold Compiled.serialize at hs
    obtain ⟨_, _, hs⟩ := rbind hs
    obtain ⟨_, _, hs⟩ := rbind hs
    obtain ⟨x, hx, hs⟩ := rbind hs
    have : ∃ t, serTable c = .ok t := by
      unfold serConstBlock at hx
      split at hx
      · obtain ⟨t, ht, _⟩ := rbind hx; exact ⟨t, ht⟩
      · obtain ⟨t, ht, _⟩ := rbind hx; exact ⟨t, ht⟩
    obtain ⟨t, ht⟩ := this
    unfold serTable at ht
    split at ht
    · cases ht
    · omega
  obtain ⟨k, hk⟩ := C26_round_trip hw hinv.fits
  obtain ⟨hfiles, is, i, h1, h2, j, hj⟩ := C25_reads_back h (by omega)
  refine ⟨max k j, fun f hfu => ?_⟩
  have e1 : (Sqfc.plains c.consts)[c.entry.toNat]? = some (.code ⟨is, .const i⟩) := by
    simp only [plains_map, List.getElem?_map, h1]; rfl
  have e2 : (Sqfc.plains c.consts)[i.toNat]? = some (.str b.source) := by
    simp only [plains_map, List.getElem?_map, h2]; rfl
  have e3 := body_sub (ns := c.names) (v' := ftree ⟨Sqfc.plains c.consts, c.names⟩ f true)
    (fun x hx t ht => (ftree_eq (compile_tops h hf) f x t ht).1 (compile_tops h hf x hx)) is _ (hj f (by omega))
  unfold found
  rw [hk f (by omega)]
  simp only [Option.bind_eq_bind, Option.bind_some, e1, e2, e3, hfiles, pure]

/-- C129. From the text of a script to the compiled file: the text is a program by the rules of the language; the file holds
the text and the names of the source files; and what is found in the file means what the program means. -/
theorem C129_meaning (L : Laws F lower M) (N : NameLaws M) {env : Env} {F' : F32} {s : Text} {ss : List Stmt}
    (hdb : env.db.Plain) (hx : env.extract = textOf s) (hs : (Processed.bytesOf s).length < 2 ^ 31)
    (hp : SqfLex.compile env F' s = some ss) {sp : Span} {b : Block}
    (ho : Block.optimize F lower ⟨ss, Processed.bytesOf s, sp⟩ = .ok b) {files : List Bytes} {c : Compiled}
    (hc : b.compile (procOf loc s) files = .ok c) {w : Bytes} (hw : c.serialize = .ok w) :
    ∃ ts, Layout F' 0 ts s ∧ DerBlock env.db true ss (SqfParse.code ts) ∧
      ∃ k stmts, (∀ f, k ≤ f → found f w = some ⟨files, Processed.bytesOf s, stmts⟩) ∧
        M.block (M.tss (Processed.bytesOf s) stmts) = M.block (M.ss ss) := by
  obtain ⟨ts, h1, h2⟩ := (SqfLex.C50_program (F := F') hdb).1 ss hp
  refine ⟨ts, h1, h2, ?_⟩
  obtain ⟨m1, m2, m3⟩ := C23_preserves F lower M L _ b ho
  obtain ⟨c', hc', ho'⟩ := bind_ok ho
  cases ho'
  obtain ⟨us, -, hr⟩ := Option.bind_eq_some_iff.1 hp
  have ht := SqfParse.run_text hr
  rw [hx] at ht
  have hf := optSs_file ss c' hc' ht
  have hP : ∀ sp, (procOf loc s).len sp < 2 ^ 31 := by
    intro sp
    have := congrArg List.length (C129_text (loc := loc) s (by omega) sp)
    have h3 : (textOf s sp).length ≤ (Processed.bytesOf s).length := by
      rw [← this]; simp only [List.length_take, List.length_drop]; omega
    show (textOf s sp).length < _
    omega
  obtain ⟨k, hk⟩ := C129_found hP hf hc hw
  refine ⟨k, _, hk, ?_⟩
  rw [wantSs_sem N (C129_text (loc := loc) s (by omega)) _ hf]
  exact m1

/-- C129. What becomes of a text that is a program: if no array of it has 65536 elements or holds an `else` with code on both
sides, and the positions of the text are known, then no name is refused and nothing aborts: there is a file, or something in
the script is too large for the format. -/
theorem C129_outcome {env : Env} {F' : F32} {s : Text} {ss : List Stmt}
    (hdb : env.db.Plain) (hs : (Processed.bytesOf s).length < 2 ^ 31) (hloc : ∀ sp, (loc sp).isSome)
    (hp : SqfLex.compile env F' s = some ss) (hsm : SmallSs ss) (hel : NoElseInArraySs ss) (sp : Span) (files : List Bytes) :
    ∃ b, Block.optimize F lower ⟨ss, Processed.bytesOf s, sp⟩ = .ok b ∧
      (b.compile (procOf loc s) files = .error .listTooLong ∨
       ∃ c, b.compile (procOf loc s) files = .ok c ∧
         ((∃ e, c.serialize = .error e ∧ e.Size) ∨ ∃ w, c.serialize = .ok w)) := by
  obtain ⟨ts, h1, h2⟩ := (SqfLex.C50_program (F := F') hdb).1 ss hp
  obtain ⟨ss', hss⟩ := optSs_safe (F := F) (lower := lower) ss hel
  refine ⟨⟨ss', Processed.bytesOf s, sp⟩, by simp [Block.optimize, hss, bind, Except.bind, pure, Except.pure], ?_⟩
  have hc := optSs_comp ss ss' hss (h2.comp (fun m q hm => SqfParse.layout_names h1 m q (List.mem_of_mem_filter hm)) hsm)
  have htl := compile_tl (P := procOf loc s) hloc (b := ⟨ss', Processed.bytesOf s, sp⟩) files hc
  cases hb : Block.compile (procOf loc s) files ⟨ss', Processed.bytesOf s, sp⟩ with
  | error e => left; rw [htl e hb]
  | ok c =>
    right
    refine ⟨c, rfl, ?_⟩
    cases hw : c.serialize with
    | ok w => exact .inr ⟨w, rfl⟩
    | error e =>
      refine .inl ⟨e, rfl, serialize_sz (compile_inv (fun sp => ?_) hb) e hw⟩
      have := congrArg List.length (C129_text (loc := loc) s (by omega) sp)
      have h3 : (textOf s sp).length ≤ (Processed.bytesOf s).length := by
        rw [← this]; simp only [List.length_take, List.length_drop]; omega
      show (textOf s sp).length < _
      omega

end

/-! A meaning with variables, errors and calls that satisfies both kinds of laws. -/
namespace Demo

theorem lower_idem (n : Bytes) : asciiLower (asciiLower n) = asciiLower n := by
  unfold asciiLower
  rw [List.map_map]
  have h : ∀ i : Fin 256, lowerByte (lowerByte (UInt8.ofNat i)) = lowerByte (UInt8.ofNat i) := by decide +kernel
  refine List.map_congr_left fun b _ => ?_
  have := h ⟨b.toNat, b.toNat_lt⟩
  simpa using this

def semLow (F : FloatOps) : Sem E (Bool × Bytes × E) (List (Bool × Bytes × E)) where
  code s b := fun _ => some (.code (if b.isEmpty then [] else s))
  str s := fun _ => some (.str s)
  num x := fun _ => some (.num x)
  bool b := fun _ => some (.bool b)
  arr := arr
  shared := arr
  nular _ := fun _ => some .nothing
  un n := un F (asciiLower n)
  bin n x y :=
    if asciiLower n = ascii "call" then fun env => un F (ascii "call") y (set env (ascii "_this") (x env))
    else fun env => (x env).bind fun a => (y env).bind (binV F (asciiLower n) a)
  var n := fun env => env (asciiLower n)
  assign l n x := (l, asciiLower n, x)
  expr x := (false, [], x)
  block l := l

theorem namesLow (F : FloatOps) : NameLaws (semLow F) where
  nular _ := rfl
  un n x := by simp only [semLow, lower_idem]
  bin n x y := by simp only [semLow, lower_idem]
  var n := by simp only [semLow, lower_idem]
  assign l n x := by simp only [semLow, lower_idem]
  empty s t := by simp [semLow]

theorem ops : asciiLower (ascii "-") = ascii "-" ∧ asciiLower (ascii "+") = ascii "+" ∧ asciiLower (ascii "*") = ascii "*" ∧
    asciiLower (ascii "/") = ascii "/" ∧ asciiLower (ascii "%") = ascii "%" ∧ asciiLower (ascii "mod") = ascii "mod" ∧
    asciiLower (ascii "else") = ascii "else" ∧ asciiLower (ascii "call") = ascii "call" ∧
    asciiLower (ascii "_this") = ascii "_this" := by decide +kernel

theorem nes : ascii "+" ≠ ascii "call" ∧
    ascii "-" ≠ ascii "call" ∧
    ascii "*" ≠ ascii "call" ∧
    ascii "/" ≠ ascii "call" ∧
    ascii "%" ≠ ascii "call" ∧
    ascii "mod" ≠ ascii "call" ∧
    ascii "else" ≠ ascii "call" ∧
    ascii "sqrt" ≠ ascii "call" ∧
    ascii "sqrt" ≠ ascii "-" ∧
    asciiLower (ascii "sqrt") = ascii "sqrt" ∧
    asciiLower (ascii "tolower") = ascii "tolower" ∧
    asciiLower (ascii "toloweransi") = ascii "toloweransi" ∧
    asciiLower (ascii "toupper") = ascii "toupper" ∧
    asciiLower (ascii "toupperansi") = ascii "toupperansi" := by decide +kernel

theorem lawsLow (F : FloatOps) : Laws F asciiLower (semLow F) where
  neg x _ := by funext env; simp [semLow, ops, nes, lower_idem, un, unV]
  sqrt n x hn _ := by
    have : n ≠ ascii "-" := by rintro rfl; revert hn; decide +kernel
    funext env; simp [semLow, ops, nes, lower_idem, un, unV, hn, this]
  toLower n s hn _ := by funext env; simp [semLow, ops, nes, lower_idem, un, unV, hn]
  toUpper n s hn _ := by
    have h1 : asciiLower n ≠ ascii "tolower" := by rcases hn with hn | hn <;> rw [hn] <;> decide +kernel
    have h2 : asciiLower n ≠ ascii "toloweransi" := by rcases hn with hn | hn <;> rw [hn] <;> decide +kernel
    funext env; simp [semLow, ops, nes, lower_idem, un, unV, hn, h1, h2]
  add x y _ := by
    have h : asciiLower (ascii "+") ≠ ascii "call" := by decide +kernel
    funext env; simp [semLow, ops, nes, lower_idem, h, binV]
  append s t _ _ := by
    have h : asciiLower (ascii "+") ≠ ascii "call" := by decide +kernel
    funext env; simp [semLow, ops, nes, lower_idem, h, binV]
  sub x y _ := by
    have h : asciiLower (ascii "-") ≠ ascii "call" := by decide +kernel
    have h' : ascii "-" ≠ ascii "+" := by decide +kernel
    funext env; simp [semLow, ops, nes, lower_idem, h, h', binV]
  mul x y _ := by
    have h : asciiLower (ascii "*") ≠ ascii "call" := by decide +kernel
    have h' : ascii "*" ≠ ascii "+" ∧ ascii "*" ≠ ascii "-" := by decide +kernel
    funext env; simp [semLow, ops, nes, lower_idem, h, h', binV]
  div x y _ := by
    have h : asciiLower (ascii "/") ≠ ascii "call" := by decide +kernel
    have h' : ascii "/" ≠ ascii "+" ∧ ascii "/" ≠ ascii "-" ∧ ascii "/" ≠ ascii "*" := by decide +kernel
    funext env; simp [semLow, ops, nes, lower_idem, h, h', binV]
  rem x y _ := by
    have h : asciiLower (ascii "%") ≠ ascii "call" := by decide +kernel
    have h' : ascii "%" ≠ ascii "+" ∧ ascii "%" ≠ ascii "-" ∧ ascii "%" ≠ ascii "*" ∧ ascii "%" ≠ ascii "/" := by decide +kernel
    funext env; simp [semLow, ops, nes, lower_idem, h, h', binV]
  mod x y _ := by
    have h : asciiLower (ascii "mod") ≠ ascii "call" := by decide +kernel
    have h' : ascii "mod" ≠ ascii "+" ∧ ascii "mod" ≠ ascii "-" ∧ ascii "mod" ≠ ascii "*" ∧ ascii "mod" ≠ ascii "/" := by decide +kernel
    funext env; simp [semLow, ops, nes, lower_idem, h, h', binV]
  els s t a b := by
    have h : asciiLower (ascii "else") ≠ ascii "call" := by decide +kernel
    funext env; simp [semLow, ops, nes, lower_idem, h, binV, arr]
  call n x hn := by
    funext env
    have : set env (ascii "_this") (env (ascii "_this")) = env := by
      funext m; unfold set; split
      · rename_i h; rw [h]
      · rfl
    simp [semLow, ops, nes, lower_idem, hn, this]
  copy es _ := by
    funext env
    show Option.bind (arr ((semLow F).es es) env) (unV F (ascii "+")) = arr ((semLow F).es es) env
    unfold arr
    cases (((semLow F).es es).mapM (fun (x : E) => x env) : Option (List Val)) <;> simp [unV]
  consumeUn _ _ _ _ := rfl
  consumeLeft _ _ _ _ _ := rfl
  consumeRight _ _ _ _ _ := rfl
  paramsUn _ _ _ _ _ := rfl
  paramsBin _ _ _ _ _ _ := rfl
  paramUn _ _ _ _ _ _ := rfl
  dfltBin _ _ _ _ _ _ _ := rfl

/-! A script from its text to the file and back. -/

/-- The positions from the first token to the last one that was read. -/
def since (before after : List Tok) : Span :=
  match before.head?, (before.take (before.length - after.length)).getLast? with
  | some t, some u => (t.2.1, u.2.2)
  | _, _ => (0, 0)

def fileText : Text := "Fn = {Hint \"é\"}; private _y = +[1, []]; hint (\"a\" + \"b\")".toList

def fileEnv : SqfParse.Env := ⟨SqfParse.sampleDb, since, textOf fileText⟩

def fileO : FloatOps := ⟨id, id, fun x _ => x, fun x _ => x, fun x _ => x, fun x _ => x, fun x _ => x, fun _ => true⟩

def fileLoc : Span → Option SourceInfo := fun _ => some ⟨0, 0, 1⟩

def fileHead : List Stmt :=
  [.assignGlobal (ascii "Fn") (.code [.expr (.un (.named (ascii "Hint")) (.str [195, 169] (11, 14) .double) (6, 10)) (6, 14)]
     ([72, 105, 110, 116, 32, 34, 195, 169, 34]) (6, 14)) (0, 15),
   .assignLocal (ascii "_y") (.un .plus (.arr [.num 1 (32, 33), .arr [] (0, 0)] (32, 37)) (30, 31)) (17, 38)]

def fileToks : List Tok :=
  [(.ident (ascii "Fn"), (0, 2)), (.op .assign, (3, 4)), (.ctl .curlyOpen, (5, 6)), (.ident (ascii "Hint"), (6, 10)),
   (.str [195, 169] .double, (11, 14)), (.ctl .curlyClose, (14, 15)), (.ctl .terminator, (15, 16)),
   (.ident (ascii "private"), (17, 24)), (.ident (ascii "_y"), (25, 27)), (.op .assign, (28, 29)), (.op .add, (30, 31)),
   (.ctl .squareOpen, (31, 32)), (.num 1, (32, 33)), (.ctl .separator, (33, 34)), (.ctl .squareOpen, (35, 36)),
   (.ctl .squareClose, (36, 37)), (.ctl .squareClose, (37, 38)), (.ctl .terminator, (38, 39)), (.ident (ascii "hint"), (40, 44)),
   (.ctl .roundOpen, (45, 46)), (.str (ascii "a") .double, (46, 49)), (.op .add, (50, 51)), (.str (ascii "b") .double, (52, 55)),
   (.ctl .roundClose, (55, 56))]

def fileStmts : List Stmt := fileHead ++
  [.expr (.un (.named (ascii "hint")) (.bin .add (.str (ascii "a") (46, 49) .double) (.str (ascii "b") (52, 55) .double) (50, 51))
    (40, 44)) (40, 56)]

theorem file_lex : SqfLex.lex SqfLex.sampleF fileText = some fileToks := by decide +kernel

theorem file_run : SqfParse.run fileEnv fileToks = some fileStmts := by rfl

theorem file_parse : SqfLex.compile fileEnv SqfLex.sampleF fileText = some fileStmts := by
  rw [SqfLex.compile, file_lex]; exact file_run

def fileBlock : Block :=
  ⟨fileHead ++ [.expr (.un (.named (ascii "hint")) (.str (ascii "ab") (50, 51) .double) (40, 44)) (40, 56)],
    Processed.bytesOf fileText, (0, 56)⟩

theorem file_opt : Block.optimize fileO asciiLower ⟨fileStmts, Processed.bytesOf fileText, (0, 56)⟩ = .ok fileBlock := by rfl

def fileComp : Compiled where
  entry := 5
  compress := true
  consts := [.str [195, 169], .code ⟨[.endStatement, .push 0, .callUnary 0 ⟨0, 0, 1⟩], .source 6 9⟩, .num 1, .str (ascii "ab"),
    .str (Processed.bytesOf fileText),
    .code ⟨[.endStatement, .push 1, .assignTo 1 ⟨0, 0, 1⟩, .endStatement, .push 2, .makeArray 0 ⟨0, 0, 0⟩, .makeArray 2 ⟨0, 0, 0⟩,
      .callUnary 2 ⟨0, 0, 1⟩, .assignToLocal 3 ⟨0, 0, 1⟩, .endStatement, .push 3, .callUnary 0 ⟨0, 0, 1⟩], .const 4⟩]
  names := [ascii "hint", ascii "fn", ascii "+", ascii "_y"]
  files := [ascii "fn.sqf"]

theorem file_comp : fileBlock.compile (procOf fileLoc fileText) [ascii "fn.sqf"] = .ok fileComp := by rfl


theorem file_ser : (match fileComp.serialize with | .ok w => some w.length | .error _ => none) = some 232 := by decide +kernel

/-- All hypotheses of `C129_meaning` hold: the file of 232 bytes holds three statements that mean what the text says, although
two strings were joined and names were written in lower case. -/
example : ∃ w, fileComp.serialize = .ok w ∧ ∃ k stmts,
    (∀ f, k ≤ f → found f w = some ⟨[ascii "fn.sqf"], Processed.bytesOf fileText, stmts⟩) ∧
      (semLow fileO).block ((semLow fileO).tss (Processed.bytesOf fileText) stmts) = (semLow fileO).block ((semLow fileO).ss fileStmts) := by
  cases hw : fileComp.serialize with
  | error e => have := file_ser; rw [hw] at this; cases this
  | ok w =>
    obtain ⟨_, _, _, h⟩ := C129_meaning (lawsLow fileO) (namesLow fileO) SqfParse.sample_plain rfl (by decide +kernel) file_parse file_opt
      file_comp hw
    exact ⟨w, rfl, h⟩

/-- And those of `C129_outcome`. -/
example : ∃ b, Block.optimize fileO asciiLower ⟨fileStmts, Processed.bytesOf fileText, (0, 56)⟩ = .ok b ∧
    (b.compile (procOf fileLoc fileText) [ascii "fn.sqf"] = .error .listTooLong ∨
     ∃ c, b.compile (procOf fileLoc fileText) [ascii "fn.sqf"] = .ok c ∧
       ((∃ e, c.serialize = .error e ∧ e.Size) ∨ ∃ w, c.serialize = .ok w)) :=
  C129_outcome SqfParse.sample_plain (by decide +kernel) (fun _ => rfl) file_parse
    (by simp [fileStmts, fileHead, SmallSs, SmallS, Small, Smalls])
    (by simp [fileStmts, fileHead, NoElseInArraySs, NoElseInArrayS, NoElseInArray, NoElseInArrays]) _ _

/-- The text of the code is found in the file by offset and length: 9 bytes from the sixth on, for a span of 8 characters. -/
example : ((Processed.bytesOf fileText).drop 6).take 9 = textOf fileText (6, 14) ∧
    ((procOf fileLoc fileText).offset 6, (procOf fileLoc fileText).len (6, 14)) = (6, 9) := by decide +kernel

end Demo

end Verif.Sqf
