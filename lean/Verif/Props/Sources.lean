import Verif.Lib.Sources
import Verif.Props.Release
import Verif.Props.SqfFile
import Verif.Props.ConfigFile
/-! C131: from the sources of the addons to what the game finds in the PBOs. -/
namespace Verif.Sources
open Verif.Rapifier
open Verif.Commands (Pre Parsed compiled settings scripts)
open Verif.Workspace (Addon FILES)
open Verif.Release hiding Path withExtension
open Verif.Pbo (RPbo)
open Verif.SqfLex (enc)

section
variable {P Q S C K E : Type} (T : Tools P S K E) (err : K → Bool)

theorem jobs_apart {walk : Addon → List Path} {addons : List Addon} (w : Files)
    (hn : ((scripts walk addons).map Prod.snd).Nodup)
    (hr : ∀ e ∈ scripts walk addons, ∀ e' ∈ scripts walk addons, e.2 ≠ e'.2 → compiled e.2 ∉ (T.pre e'.2).reads w) :
    Apart (jobs T err (scripts walk addons)) w := by
  intro i j a b ha hb hij p hp
  unfold jobs at ha hb
  rw [List.getElem?_map, Option.map_eq_some_iff] at ha hb
  obtain ⟨x, hx, rfl⟩ := ha
  obtain ⟨y, hy, rfl⟩ := hb
  have hxy : x.2 ≠ y.2 := by
    intro e
    have h1 : ((scripts walk addons).map Prod.snd)[i]? = some x.2 := by simp [hx]
    have h2 : ((scripts walk addons).map Prod.snd)[j]? = some y.2 := by simp [hy]
    have hlt : i < ((scripts walk addons).map Prod.snd).length := (List.getElem?_eq_some_iff.1 h1).1
    exact hij ((List.getElem?_inj hlt hn).1 (by rw [h1, h2, e]))
  have hxm := List.mem_of_getElem? hx
  have hym := List.mem_of_getElem? hy
  rw [script_writes T err w _ _ p hp, script_reads]
  refine ⟨hr x hxm y hym hxy, fun hw => hxy ?_⟩
  have hw := script_writes T err w _ _ _ hw
  obtain ⟨d, b, _, h1, h2⟩ := script_names (a := x.1) (f := x.2) hxm
  obtain ⟨d', b', _, h1', h2'⟩ := script_names (a := y.1) (f := y.2) hym
  rw [h2, h2'] at hw
  obtain ⟨k1, k2⟩ := List.append_inj' hw rfl
  rw [List.cons.injEq] at k2
  rw [h1, h1', k1, List.append_cancel_right k2.1]

/-- C131: no matter in which order the threads take their steps: when all scripts have been handled, each one without errors has its
compiled form beside it, every other path has what it had before, and about each script is said what is said when it is handled alone. This
holds if no script includes a compiled one. -/
theorem C131_threads {walk : Addon → List Path} {addons : List Addon} {w w' : Files} {js' : List (Job (Except E (List K)))}
    (hn : ((scripts walk addons).map Prod.snd).Nodup)
    (hr : ∀ e ∈ scripts walk addons, ∀ e' ∈ scripts walk addons, e.2 ≠ e'.2 → compiled e.2 ∉ (T.pre e'.2).reads w)
    (hs : Steps (w, jobs T err (scripts walk addons)) (w', js')) (hd : ∀ j ∈ js', ∃ r, j = .done r) :
    (∀ e ∈ scripts walk addons, ∀ b, Made T err w e.1 e.2 (.ok b) → w' (compiled e.2) = some b) ∧
      (∀ q, (∀ e ∈ scripts walk addons, (∃ r, Made T err w e.1 e.2 r) → q ≠ compiled e.2) → w' q = w q) ∧
      ∃ rs : List (Except E (List K)), js' = rs.map .done ∧
        List.Forall₂ (fun e r => Said T err w e.1 e.2 r) (scripts walk addons) rs := by
  obtain ⟨h1, h2, h3⟩ := threads (jobs_apart T err w hn hr) hs hd
  refine ⟨fun e he b hm => ?_, fun q hq => h3 q fun a ha hqa => ?_,
    (scripts walk addons).map fun e => ((compileScript T err e.1 e.2).run w).1, ?_, ?_⟩
  · obtain ⟨k1, k2⟩ := script_made T err w e.1 e.2 hm
    rw [← k2 b rfl]
    exact h2 _ (List.mem_map.2 ⟨e, he, rfl⟩) _ ((k1 _).2 rfl)
  · obtain ⟨e, he, rfl⟩ := List.mem_map.1 ha
    by_cases hm : ∃ r, Made T err w e.1 e.2 r
    · exact hq e he hm (script_writes T err w _ _ _ hqa)
    · rw [script_unmade T err w _ _ hm] at hqa; simp at hqa
  · rw [h1, jobs, List.map_map, List.map_map]
    rfl
  · exact List.forall₂_map_right_iff.2 (List.forall₂_same.2 fun e _ => script_said T err w e.1 e.2)

/-- The scripts of the addons have been compiled and then the configs rapified, from the files `w` to the files `w'`: each by
threads that have finished. No work reads the result of another one. -/
structure Built (T : Tools P S K E) (err : K → Bool) (R : Rapifier.Tools Q C K E) (walk : Addon → List Path) (addons : List Addon)
    (l : List (Addon × Path)) (w w' : Files) : Prop where
  nodup : ((scripts walk addons).map Prod.snd).Nodup
  nodup' : (l.map Prod.snd).Nodup
  configs : ∃ glob toml walk', entries glob toml walk' addons = some l
  reads : ∀ e ∈ scripts walk addons, ∀ e' ∈ scripts walk addons, e.2 ≠ e'.2 → compiled e.2 ∉ (T.pre e'.2).reads w
  reads' : ∀ e ∈ l, ∀ e' ∈ l, e.2 ≠ e'.2 → outPath e.2 ∉ (R.pre e'.2).reads w
  apart : ∀ e ∈ scripts walk addons, ∀ e' ∈ l, compiled e.2 ∉ (R.pre e'.2).reads w
  steps : ∃ w₁ js₁ js₂, Steps (w, jobs T err (scripts walk addons)) (w₁, js₁) ∧ (∀ j ∈ js₁, ∃ r, j = .done r) ∧
    Steps (w₁, Rapifier.jobs R l) (w', js₂) ∧ ∀ j ∈ js₂, ∃ r, j = .done r

/-- C131: after both, each script without errors has its compiled form, each config without errors its binary form, made of the
sources as they were in the beginning, and every other path has what it had in the beginning. -/
theorem C131_sources {R : Rapifier.Tools Q C K E} {walk : Addon → List Path} {addons : List Addon} {l : List (Addon × Path)}
    {w w' : Files} (h : Built T err R walk addons l w w') :
    (∀ e ∈ scripts walk addons, ∀ b, Made T err w e.1 e.2 (.ok b) → w' (compiled e.2) = some b) ∧
      (∀ e ∈ l, ∀ b, Rapifier.Made R w e.2 (.ok b) → w' (outPath e.2) = some b) ∧
      ∀ q, (∀ e ∈ scripts walk addons, (∃ r, Made T err w e.1 e.2 r) → q ≠ compiled e.2) →
        (∀ e ∈ l, (∃ r, Rapifier.Made R w e.2 r) → q ≠ outPath e.2) → w' q = w q := by
  obtain ⟨hn, hn', ⟨glob, toml, walk', hl⟩, hr, hr', ha, w₁, js₁, js₂, s1, d1, s2, d2⟩ := h
  obtain ⟨k1, k2, _⟩ := C131_threads T err hn hr s1 d1
  have hsame : ∀ e ∈ l, ∀ q ∈ (R.pre e.2).reads w, w₁ q = w q := fun e he q hq =>
    k2 q fun x hx _ hxe => ha x hx e he (hxe ▸ hq)
  have hreads : ∀ e ∈ l, (R.pre e.2).reads w₁ = (R.pre e.2).reads w := fun e he => (run_congr _ (hsame e he)).2
  have hmade : ∀ e ∈ l, ∀ r, Rapifier.Made R w₁ e.2 r ↔ Rapifier.Made R w e.2 r := fun e he => made_congr R (hsame e he)
  obtain ⟨m1, m2, _⟩ := C130_threads R hl hn' (fun e he e' he' hne => by rw [hreads e' he']; exact hr' e he e' he' hne) s2 d2
  refine ⟨fun e he b hm => ?_, fun e he b hm => m1 e he b ((hmade e he _).2 hm), fun q h1 h2 => ?_⟩
  · rw [m2 (compiled e.2) fun e' he' _ hc => ?_]
    · exact k1 e he b hm
    · obtain ⟨d, b', _, _, h2⟩ := script_names (a := e.1) (f := e.2) he
      rw [h2] at hc
      exact sqfc_ne ((canRapify_iff _).2 ((C130_which hl e'.1 e'.2).1 he').2.2.1) hc.symm
  · rw [m2 q fun e he hm => h2 e he ?_]
    · exact k2 q h1
    · obtain ⟨r, hm⟩ := hm
      exact ⟨r, (hmade e he r).1 hm⟩

/-- C131: the PBO of an addon, read back: each script without errors that the user wants is in it, compiled, each `config.cpp`
without errors is in it as `config.bin` and no longer as text, and each file that is not the place of a result is in it unchanged. -/
theorem C131_pbo {R : Rapifier.Tools Q C K E} {walk : Addon → List Path} {addons : List Addon} {l : List (Addon × Path)}
    {w w' : Files} (h : Built T err R walk addons l w w')
    {d : Digest} {env : Env} {s : Settings} {c : Bool} (hH : ∀ x, (d.H x).length = 20)
    (hord : ∀ l, (d.order l).Perm l) {xs : List Source} {o o' : World} (hb : build d env s c xs o = .ok o')
    (hdist : (xs.map fun x => target s c x.addon).Nodup) {x : Source} (hx : x ∈ xs) (ht : TreeOk x.tree) (hc : Clean env s x)
    (hcase : ∀ e e', Packed env s x e → Packed env s x e' → d.lower (enc (inPbo e)) = d.lower (enc (inPbo e')) → e = e')
    (hshow : Shows w' x) :
    ∃ out r, o' (target s c x.addon) = some out ∧ RPbo.from out = .ok r ∧
      (∀ dir n b, (x.addon, home x.addon ++ dir ++ [n ++ ".sqf".toList]) ∈ scripts walk addons →
        Made T err w x.addon (home x.addon ++ dir ++ [n ++ ".sqf".toList]) (.ok b) →
        Wanted env s x ⟨dir, n ++ ".sqfc".toList, true, b⟩ →
        r.file d.lower (enc (joinWith '/' (dir ++ [n ++ ".sqfc".toList]))) = some b) ∧
      (∀ dir b, (x.addon, home x.addon ++ dir ++ ["config.cpp".toList]) ∈ l →
        Rapifier.Made R w (home x.addon ++ dir ++ ["config.cpp".toList]) (.ok b) →
        Wanted env s x ⟨dir, "config.bin".toList, true, b⟩ →
        r.file d.lower (enc (joinWith '/' (dir ++ ["config.bin".toList]))) = some b ∧
          ∀ t, ¬ Packed env s x ⟨dir, "config.cpp".toList, true, t⟩) ∧
      ∀ dir n b, w (home x.addon ++ dir ++ [n]) = some b → n ≠ "config.cpp".toList →
        (∀ e ∈ scripts walk addons, (∃ r, Made T err w e.1 e.2 r) → home x.addon ++ dir ++ [n] ≠ compiled e.2) →
        (∀ e ∈ l, (∃ r, Rapifier.Made R w e.2 r) → home x.addon ++ dir ++ [n] ≠ outPath e.2) →
        Wanted env s x ⟨dir, n, true, b⟩ → r.file d.lower (enc (joinWith '/' (dir ++ [n]))) = some b := by
  obtain ⟨k1, k2, k3⟩ := C131_sources T err h
  obtain ⟨out, r, h1, h2, h3, _⟩ := C78_read_back hH hord hb hdist hx ht hc hcase
  have key : ∀ dir n b, w' (home x.addon ++ dir ++ [n]) = some b → n ≠ "config.cpp".toList →
      Wanted env s x ⟨dir, n, true, b⟩ → r.file d.lower (enc (joinWith '/' (dir ++ [n]))) = some b := by
    intro dir n b hw hn hk
    refine h3 ⟨dir, n, true, b⟩ ⟨⟨(hshow dir n b).2 hw, rfl, hk.2.2, fun he => absurd he hn, hk.1⟩, hk.2.1⟩
  refine ⟨out, r, h1, h2, fun dir n b hin hm hk => ?_, fun dir b hin hm hk => ?_, fun dir n b hw hn hs hl hk => ?_⟩
  · refine key dir _ b ?_ (fun he => ?_) hk
    · have := k1 _ hin b hm
      rw [Verif.Commands.C101_name] at this
      exact this
    · have := congrArg List.getLast? he
      simp at this
  · have hw : w' (home x.addon ++ dir ++ ["config.bin".toList]) = some b := by
      have := k2 _ hin b hm
      have e := (C130_where (home x.addon ++ dir) "config".toList (by decide)).1
      have e1 : "config".toList ++ ".cpp".toList = "config.cpp".toList := by decide
      have e2 : "config".toList ++ ".bin".toList = "config.bin".toList := by decide
      rw [e1, e2] at e
      rwa [e] at this
    refine ⟨key dir _ b hw (by decide) hk, fun t hp => ?_⟩
    exact hp.1.notReplaced rfl _ ((hshow dir _ b).2 hw) rfl rfl
  · exact key dir n b ((k3 _ hs hl).trans hw) hn hk

end

/-! ### What the results mean -/

/-- C131: a compiled script that is made by the parser, the optimiser and the compiler means what its preprocessed text means: the
text splits into tokens, these are a script by the grammar, and in the file the game finds statements with the meaning of that
script. -/
theorem C131_script {P K E Ex St Bl : Type} {M : Sqf.Sem Ex St Bl} {F : Sqf.FloatOps} {lower : Bytes → Bytes} (L : Sqf.Laws F lower M)
    (N : Sqf.NameLaws M) {pre : Path → Reading (Pre P K E)} {warnings : P → List K} {text : P → Text} {env : P → SqfParse.Env}
    {F' : SqfLex.F32} {names : P → List Bytes} {loc : P → Sqf.Span → Option Sqf.SourceInfo} {span : P → Sqf.Span} {errs : P → List K}
    {lint : Addon → P → List Sqf.Stmt → List K} {bad : E} {err : K → Bool} {w : Files} {a : Addon} {f : Path} {b : Bytes}
    (hdb : ∀ t, (env t).db.Plain) (hx : ∀ t, (env t).extract = Sqf.textOf (text t))
    (hm : Made (sqfTools pre warnings text env F' F lower names loc span errs lint bad) err w a f (.ok b)) :
    ∃ p ss, (pre f).run w = .ok p ∧ (∀ k ∈ lint a p ss, err k = false) ∧
      ((Processed.bytesOf (text p)).length < 2 ^ 31 →
        ∃ ts, SqfLex.Layout F' 0 ts (text p) ∧ SqfParse.DerBlock (env p).db true ss (SqfParse.code ts) ∧
        ∃ k stmts, (∀ g, k ≤ g → Sqf.found g b = some ⟨names p, Processed.bytesOf (text p), stmts⟩) ∧
          M.block (M.tss (Processed.bytesOf (text p)) stmts) = M.block (M.ss ss)) := by
  obtain ⟨t, ss, h1, h2, h3, h4⟩ := hm
  refine ⟨t, ss, h1, h3, fun hs => ?_⟩
  have hp : SqfLex.compile (env t) F' (text t) = some ss := by
    unfold sqfTools at h2
    dsimp only at h2
    split at h2
    · rename_i h; cases h2; exact h
    · cases h2
  unfold sqfTools at h4
  dsimp only at h4
  split at h4
  · cases h4
  rename_i bl ho
  split at h4
  · cases h4
  rename_i c hc
  split at h4
  · cases h4
  rename_i w' hw
  cases h4
  exact Sqf.C129_meaning L N (hdb t) (hx t) hs hp ho hc hw

/-- C131: a binary config that is made by the parser and the rapifier stands for the tree that its preprocessed text is written
for. -/
theorem C131_config {P α K E : Type} {pre : Path → Reading (Pre P K E)} {warnings : P → List K} {text : P → Text}
    {F : ConfigParse.Fl α} {lower : Text → Text}
    {ofF32 : Nat → Ver.Version} {pfx : Option Text} {configs : Text → Option Lints.Override}
    {lints : List (Lints.Lint ConfigLint.Target ConfigLint.Code)} (hl : lints.Perm (ConfigLint.configLints lower pfx))
    {noRapify : P → Bool} {errs : P → List K} {code : ConfigLint.Code → K} {lintErr : Lints.LErr → K} {bad : E} {w : Files}
    {f : Path} {b : Bytes}
    (hm : Rapifier.Made (configTools pre warnings text F lower ofF32 configs lints noRapify errs code lintErr bad) w f (.ok b)) :
    ∃ p ps, (pre f).run w = .ok p ∧ noRapify p = false ∧ ('\x00' ∉ text p → b.length < 2 ^ 32 →
      ConfigParse.Written (ConfigParse.Reading F) ps (text p) ∧ Rap.Spec.decode b = some (ConfigLint.propsRap ps)) := by
  obtain ⟨t, ps, h1, h2, h3, h4, h5⟩ := hm
  refine ⟨t, ps, h1, h4, fun ht hb => ?_⟩
  have hp : ConfigParse.config F (text t) = .ok ps [] := by
    unfold configTools at h2
    dsimp only at h2
    split at h2
    · rename_i qs hq
      split at h2
      · cases h2
      · cases h2; exact hq
    · cases h2
  have hf : ConfigLint.build lower ofF32 configs lints ps = .written b := by
    unfold configTools at h5
    dsimp only at h5
    split at h5
    · rename_i file hfile; cases h5; exact hfile
    · cases h5
  exact ConfigLint.C56_file hl hp ht hf hb

/-- When a config is made. -/
theorem config_made {P α K E : Type} {pre : Path → Reading (Pre P K E)} {warnings : P → List K} {text : P → Text}
    {F : ConfigParse.Fl α} {lower : Text → Text}
    {ofF32 : Nat → Ver.Version} {configs : Text → Option Lints.Override}
    {lints : List (Lints.Lint ConfigLint.Target ConfigLint.Code)}
    {noRapify : P → Bool} {errs : P → List K} {code : ConfigLint.Code → K} {lintErr : Lints.LErr → K} {bad : E} {w : Files}
    {f : Path} {t : P} {ps : List ConfigParse.Prp} {b : Bytes} (h1 : (pre f).run w = .ok t) (h2 : noRapify t = false)
    (h3 : ConfigParse.config F (text t) = .ok ps []) (h4 : ConfigLint.build lower ofF32 configs lints ps = .written b) :
    Rapifier.Made (configTools pre warnings text F lower ofF32 configs lints noRapify errs code lintErr bad) w f (.ok b) := by
  cases hr : ConfigLint.report lower ofF32 configs lints ps with
  | error es => rw [ConfigLint.build, hr] at h4; cases h4
  | ok r =>
    refine ⟨t, ps, h1, ?_, ?_, h2, ?_⟩
    · simp only [configTools, h3, hr]
    · simp only [configTools, hr, List.map_eq_nil_iff]
      rw [ConfigLint.build, hr] at h4
      dsimp only at h4
      split at h4
      · cases h4
      · split at h4
        · cases h4
        · rename_i he
          simpa using he
    · simp only [configTools, h4]

/-- When a script is made. -/
theorem sqf_made {P K E : Type} {F : Sqf.FloatOps} {lower : Bytes → Bytes} {pre : Path → Reading (Pre P K E)} {warnings : P → List K}
    {text : P → Text} {env : P → SqfParse.Env} {F' : SqfLex.F32} {names : P → List Bytes}
    {loc : P → Sqf.Span → Option Sqf.SourceInfo}
    {span : P → Sqf.Span} {errs : P → List K} {lint : Addon → P → List Sqf.Stmt → List K} {bad : E} {err : K → Bool}
    {w : Files} {a : Addon} {f : Path} {t : P} {ss : List Sqf.Stmt} {bl : Sqf.Block} {c : Sqf.Compiled} {b : Bytes}
    (h1 : (pre f).run w = .ok t) (h2 : SqfLex.compile (env t) F' (text t) = some ss) (h3 : ∀ k ∈ lint a t ss, err k = false)
    (h4 : Sqf.Block.optimize F lower ⟨ss, Processed.bytesOf (text t), span t⟩ = .ok bl)
    (h5 : bl.compile (Sqf.procOf (loc t) (text t)) (names t) = .ok c) (h6 : c.serialize = .ok b) :
    Made (sqfTools pre warnings text env F' F lower names loc span errs lint bad) err w a f (.ok b) := by
  refine ⟨t, ss, h1, ?_, h3, ?_⟩
  · simp only [sqfTools, h2]
  · simp only [sqfTools, h4, h5, h6]

namespace Demo
open Verif.Sqf.Demo (fileText fileEnv fileO fileLoc fileComp fileStmts file_parse file_opt file_comp file_ser lawsLow namesLow since)

/-! A script and a config with the tools of the models. -/

/-- A preprocessor that takes each byte of the file for a character. -/
def plainPre : Path → Reading (Pre Text String String) := fun p => .read p fun
  | none => .done (.other "not found")
  | some b => .done (.ok (b.map fun x => Char.ofNat x.toNat))

def plainEnv (t : Text) : SqfParse.Env := ⟨SqfParse.sampleDb, since, Sqf.textOf t⟩

def realScripts : Tools Text (List Sqf.Stmt) String String :=
  sqfTools plainPre (fun _ => []) id plainEnv SqfLex.sampleF fileO Sqf.asciiLower (fun _ => [ascii "fn.sqf"]) (fun _ => fileLoc) (fun _ => (0, 56))
    (fun _ => ["syntax"]) (fun _ _ ss => if ss = [] then ["empty"] else []) "too large"

def scriptAt : Path := home mainAddon ++ ["fn.sqf".toList]

def fileBytes : Bytes := fileText.map fun c => UInt8.ofNat c.toNat

theorem decode_file : (fileBytes.map fun x => Char.ofNat x.toNat) = fileText := by decide +kernel

/-- The script of `C129`'s example is made, and what the game finds in the compiled file means what the text says. -/
example : ∃ b, Made realScripts (fun _ => true) (fun _ => some fileBytes) mainAddon scriptAt (.ok b) ∧
    ∃ k stmts, (∀ g, k ≤ g → Sqf.found g b = some ⟨[ascii "fn.sqf"], Processed.bytesOf fileText, stmts⟩) ∧
      (Sqf.Demo.semLow fileO).block ((Sqf.Demo.semLow fileO).tss (Processed.bytesOf fileText) stmts) =
        (Sqf.Demo.semLow fileO).block ((Sqf.Demo.semLow fileO).ss fileStmts) := by
  have hpre : (realScripts.pre scriptAt).run (fun _ => some fileBytes) = .ok fileText := by
    show Pre.ok (fileBytes.map fun x => Char.ofNat x.toNat) = _
    rw [decode_file]
  have hparse : SqfLex.compile (plainEnv fileText) SqfLex.sampleF fileText = some fileStmts := file_parse
  cases hw : fileComp.serialize with
  | error e => have := file_ser; rw [hw] at this; cases this
  | ok b =>
    have hm : Made realScripts (fun _ => true) (fun _ => some fileBytes) mainAddon scriptAt (.ok b) := by
      refine sqf_made hpre hparse (fun k hk => ?_) file_opt file_comp hw
      simp [fileStmts] at hk
    obtain ⟨t, ss, h1, h2, h3⟩ := C131_script (lawsLow fileO) (namesLow fileO) (fun _ => SqfParse.sample_plain) (fun _ => rfl) hm
    have h1' : (realScripts.pre scriptAt).run (fun _ => some fileBytes) = .ok t := h1
    rw [hpre] at h1'
    cases h1'
    have hlen : (Processed.bytesOf fileText).length < 2 ^ 31 := by decide +kernel
    obtain ⟨_, _, _, _⟩ := h3 hlen
    exact ⟨b, hm, by
      obtain ⟨_, _, _, h⟩ := Sqf.C129_meaning (lawsLow fileO) (namesLow fileO) SqfParse.sample_plain rfl hlen file_parse file_opt
        file_comp hw
      exact h⟩

def tidyBytes : Bytes := ConfigLint.tidyText.map fun c => UInt8.ofNat c.toNat

theorem decode_tidy : (tidyBytes.map fun x => Char.ofNat x.toNat) = ConfigLint.tidyText := by decide +kernel

theorem tidy_built : (match ConfigParse.config ConfigParse.sampleFl ConfigLint.tidyText with
    | .ok ps [] => match ConfigLint.build ConfigLint.low (fun b => ⟨b / 100, b % 100, 0, none, none⟩) (fun _ => none)
        (ConfigLint.configLints ConfigLint.low none) ps with
      | .written b => decide (b.length < 1000)
      | _ => false
    | _ => false) = true := by decide +kernel

/-- A config with the tools of the models: it is made, and what is read back from the binary form is what the text says. -/
example : ∃ b ps, Rapifier.Made (configTools plainPre (fun _ => []) id ConfigParse.sampleFl ConfigLint.low (fun b => ⟨b / 100, b % 100, 0, none, none⟩)
      (fun _ => none) (ConfigLint.configLints ConfigLint.low none) (fun _ => false) (fun _ => ["syntax"]) (fun _ => "code")
      (fun _ => "lint") "too large") (fun _ => some tidyBytes) (home mainAddon ++ ["config.cpp".toList]) (.ok b) ∧
    ConfigParse.Written (ConfigParse.Reading ConfigParse.sampleFl) ps ConfigLint.tidyText ∧
    Rap.Spec.decode b = some (ConfigLint.propsRap ps) := by
  have hpre : (plainPre (home mainAddon ++ ["config.cpp".toList])).run (fun _ => some tidyBytes) = .ok ConfigLint.tidyText := by
    show Pre.ok (tidyBytes.map fun x => Char.ofNat x.toNat) = _
    rw [decode_tidy]
  have hd := tidy_built
  rcases hc : ConfigParse.config ConfigParse.sampleFl ConfigLint.tidyText with ⟨ps, r⟩ | _
  · rw [hc] at hd
    rcases r with _ | ⟨x, r⟩
    · dsimp only at hd
      cases hb : ConfigLint.build ConfigLint.low (fun b => ⟨b / 100, b % 100, 0, none, none⟩) (fun _ => none)
        (ConfigLint.configLints ConfigLint.low none) ps with
      | written b =>
        rw [hb] at hd
        have hm := config_made (text := id) (warnings := fun _ => []) (noRapify := fun _ => false) (errs := fun _ => ["syntax"]) (code := fun _ => "code")
          (lintErr := fun _ => "lint") (bad := "too large") hpre rfl hc hb
        obtain ⟨t, qs, h1, _, h3⟩ := C131_config (List.Perm.refl _) hm
        have h1' := hpre.symm.trans h1
        cases h1'
        have hlen : b.length < 2 ^ 32 := lt_trans (of_decide_eq_true hd) (by decide)
        exact ⟨b, qs, hm, h3 (by decide) hlen⟩
      | _ => rw [hb] at hd; cases hd
    · cases hd
  · rw [hc] at hd; cases hd
  · rw [hc] at hd; cases hd

/-! An addon with a script and a config, from its files to the PBO and back. -/

def fnText : Text := "fn.sqf".toList
def fnName : Text := "fn.sqfc".toList
def cfgText : Text := "config.cpp".toList
def cfgName : Text := "config.bin".toList

/-- Small tools: a file is its own text, the compiled form and the binary form have a byte in front. -/
def toyScripts : Tools Bytes Bytes String String where
  pre p := .read p fun
    | none => .done (.other "not found")
    | some b => .done (.ok b)
  warnings _ := []
  text _ := []
  parse b := if b = [] then .parsing ["empty"] else .ok b
  lint _ _ _ := []
  compile _ b := .ok (1 :: b)

def toyConfigs : Rapifier.Tools Bytes Bytes String String where
  pre p := .read p fun
    | none => .done (.other "not found")
    | some b => .done (.ok b)
  warnings _ := []
  noRapify _ := false
  parse b := .ok b
  lintWarnings _ := []
  lintErrors _ := []
  rapify b := .ok (2 :: b)

def inMain (n : Text) : Path := home mainAddon ++ [n]

def before : Files := fun p => if p = inMain fnText then some [83] else if p = inMain cfgText then some [67] else none

def after : Files := ((before.put (inMain fnName) []).put (inMain fnName) [1, 83]).put (inMain cfgName) [] |>.put (inMain cfgName) [2, 67]

def toyWalk : Addon → List Path := fun _ => [inMain fnText, inMain cfgText]

theorem toy_scripts : scripts toyWalk [mainAddon] = [(mainAddon, inMain fnText)] := by decide +kernel

theorem toy_entries : entries plainGlob (fun _ => none) toyWalk [mainAddon] = some [(mainAddon, inMain cfgText)] := by decide +kernel

theorem toy_built : Built toyScripts (fun _ => true) toyConfigs toyWalk [mainAddon] [(mainAddon, inMain cfgText)] before after where
  nodup := by rw [toy_scripts]; decide
  nodup' := by decide
  configs := ⟨_, _, _, toy_entries⟩
  reads := by
    rw [toy_scripts]
    intro e he e' he'
    rw [List.mem_singleton.1 he, List.mem_singleton.1 he']
    exact fun h => absurd rfl h
  reads' := by
    intro e he e' he'
    rw [List.mem_singleton.1 he, List.mem_singleton.1 he']
    exact fun h => absurd rfl h
  apart := by
    rw [toy_scripts]
    intro e he e' he'
    rw [List.mem_singleton.1 he, List.mem_singleton.1 he']
    decide
  steps := by
    rw [toy_scripts]
    refine ⟨(before.put (inMain fnName) []).put (inMain fnName) [1, 83], [.done (.ok [])], [.done (.ok [])], ?_, by simp, ?_, by simp⟩
    · exact finish (compileScript toyScripts (fun _ => true) mainAddon (inMain fnText)) before _ 0 rfl
    · exact finish (rapify toyConfigs (inMain cfgText)) _ _ 0 rfl

def toySource : Source :=
  ⟨mainAddon, none, [⟨[], fnText, true, [83]⟩, ⟨[], cfgText, true, [67]⟩, ⟨[], fnName, true, [1, 83]⟩, ⟨[], cfgName, true, [2, 67]⟩]⟩

theorem inMain_iff (d : List Text) (n m : Text) : home mainAddon ++ d ++ [n] = inMain m ↔ d = [] ∧ n = m := by
  unfold inMain
  rw [List.append_assoc, List.append_cancel_left_eq]
  rcases d with _ | ⟨x, d⟩ <;> simp

theorem toy_shows : Shows after toySource := by
  intro d n c
  have e : home toySource.addon = home mainAddon := rfl
  have hne : fnText ≠ fnName ∧ fnText ≠ cfgText ∧ fnText ≠ cfgName ∧ fnName ≠ cfgText ∧ fnName ≠ cfgName ∧ cfgText ≠ cfgName := by
    decide
  obtain ⟨h1, h2, h3, h4, h5, h6⟩ := hne
  simp only [after, before, Files.put, e, inMain_iff, toySource, List.mem_cons, List.not_mem_nil, or_false, Entry.mk.injEq, true_and]
  by_cases hd : d = []
  · subst hd
    simp only [true_and]
    by_cases k1 : n = cfgName
    · subst k1; simp [h3.symm, h5.symm, h6.symm, eq_comm]
    · by_cases k2 : n = fnName
      · subst k2; simp [h1.symm, h4, h5, eq_comm]
      · by_cases k3 : n = fnText
        · subst k3; simp [h1, h2, h3, eq_comm]
        · by_cases k4 : n = cfgText
          · subst k4; simp [h2.symm, h4.symm, h6, eq_comm]
          · simp [k1, k2, k3, k4]
  · simp [hd]

theorem toy_wanted (n : Text) (c : Bytes) (h : sampleEnv.lower n ∉ FILES) (h' : n ≠ "addon.toml".toList) :
    Wanted sampleEnv sampleSettings toySource ⟨[], n, true, c⟩ := by
  refine ⟨?_, h, h'⟩
  rintro (⟨p, hp, -⟩ | ⟨t, ht, -⟩)
  · simp [sampleSettings] at hp
  · cases ht

/-- What is said about scripts: an empty one is no script, but nothing is wrong with the other one. -/
example : Said toyScripts (fun _ => true) (before.put (inMain fnText) []) mainAddon (inMain fnText) (.ok ["empty"]) ∧
    Said toyScripts (fun _ => true) before mainAddon (inMain fnText) (.ok []) :=
  ⟨.parsing (p := []) (ks := ["empty"]) (by rfl) (by rfl) (by decide), .lint (p := [83]) (s := [83]) (by rfl) (by rfl) (.inr ⟨[1, 83], rfl⟩)⟩

/-- All hypotheses of `C131_pbo` hold, and in the PBO are the compiled script, the binary config and the script's text. -/
example (o : World) : ∃ o' out r, build sampleDigest sampleEnv sampleSettings false [toySource] o = .ok o' ∧
    o' (target sampleSettings false mainAddon) = some out ∧ RPbo.from out = .ok r ∧
    r.file id (enc "fn.sqfc".toList) = some [1, 83] ∧ r.file id (enc "config.bin".toList) = some [2, 67] ∧
    r.file id (enc "fn.sqf".toList) = some [83] := by
  have ht : TreeOk toySource.tree := ⟨by decide +kernel, by decide +kernel⟩
  have hl : ∀ e ∈ toySource.tree, sampleEnv.lower e.filename ∉ FILES := by decide +kernel
  have hc : Clean sampleEnv sampleSettings toySource :=
    ⟨by decide +kernel, by decide +kernel, by decide +kernel, by decide +kernel, by simp [sampleEnv],
      fun e he hp => absurd hp.2 (hl e he)⟩
  obtain ⟨o', hb⟩ := build_total (d := sampleDigest) (env := sampleEnv) (s := sampleSettings) (c := false) (fun _ => rfl)
    (fun _ => List.Perm.refl _) [toySource] o (by simpa using ht) (by simpa using hc) (by decide +kernel)
  have hcase : ∀ e e', Packed sampleEnv sampleSettings toySource e → Packed sampleEnv sampleSettings toySource e' →
      sampleDigest.lower (enc (inPbo e)) = sampleDigest.lower (enc (inPbo e')) → e = e' := by
    have : ∀ e ∈ toySource.tree, ∀ e' ∈ toySource.tree, enc (inPbo e) = enc (inPbo e') → e = e' := by decide +kernel
    exact fun e e' h h' => this e h.1.mem e' h'.1.mem
  obtain ⟨out, r, h1, h2, h3, h4, h5⟩ := C131_pbo toyScripts (fun _ => true) toy_built (fun _ => rfl) (fun _ => List.Perm.refl _) hb
    (by simp) (x := toySource) (by simp) ht hc hcase toy_shows
  refine ⟨o', out, r, hb, h1, h2, ?_, ?_, ?_⟩
  · refine h3 [] "fn".toList [1, 83] (by rw [toy_scripts]; decide) ⟨[83], [83], by rfl, by rfl, by simp [toyScripts], rfl⟩
      (toy_wanted _ _ (by decide +kernel) (by decide +kernel))
  · exact (h4 [] [2, 67] (by decide) ⟨[67], [67], by rfl, by rfl, rfl, rfl, rfl⟩ (toy_wanted _ _ (by decide +kernel) (by decide +kernel))).1
  · refine h5 [] "fn.sqf".toList [83] (by rfl) (by decide) ?_ ?_ (toy_wanted _ _ (by decide +kernel) (by decide +kernel))
    · rw [toy_scripts]
      intro e he _
      rw [List.mem_singleton.1 he]
      decide
    · intro e he _
      rw [List.mem_singleton.1 he]
      decide

end Demo

end Verif.Sources
