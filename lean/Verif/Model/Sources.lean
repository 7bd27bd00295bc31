import Verif.Model.Rapifier
import Verif.Model.Sqf
import Verif.Model.Sqfc
import Verif.Model.SqfLex
import Verif.Model.ConfigLint
import Verif.Model.ConfigParse
import Verif.Model.Processed
import Verif.Spec.SqfFile
/-! From the sources of the addons to the files that are packed: compiling the scripts by several threads
(`bin/src/modules/sqf.rs`), then rapifying (Model/Rapifier), as `build` and `release` do it one after the other
(`bin/src/commands/mod.rs:23-26`, `bin/src/commands/build.rs:104`). -/
namespace Verif.Sources
open Verif.Rapifier
open Verif.Commands (Pre Parsed compiled settings)
open Verif.Workspace (Addon)

/-- The parts of the work that are modelled elsewhere: the preprocessor, its warnings and its text, the parser, the lints and the
compiler. -/
structure Tools (P S K E : Type) where
  pre : Path → Reading (Pre P K E)
  warnings : P → List K
  text : P → Text
  parse : P → Parsed S K
  lint : Addon → P → S → List K
  compile : P → S → Except E Bytes

/-- `sqf.rs:74-129`: the work for one script, done by a thread. Creating a file makes an empty one, which gets its content when it
is closed. `err` says of a code whether it is an error. -/
def compileScript {P S K E : Type} (T : Tools P S K E) (err : K → Bool) (a : Addon) (f : Path) : Job (Except E (List K)) :=
  (T.pre f).bind fun
    | .code k => .done (.ok [k])
    | .other e => .done (.error e)
    | .ok p => match T.parse p with
      | .ok s =>
        let report := T.warnings p ++ T.lint a p s
        if (T.lint a p s).any err then .done (.ok report)
        else match T.compile p s with
          | .ok b => .write (compiled f) [] (.write (compiled f) b (.done (.ok report)))
          | .error e => .write (compiled f) [] (.done (.error e))
      | .parsing ks => .done (.ok (T.warnings p ++ if settings (T.text p) then [] else ks))
      | .lexing ks => .done (.ok (T.warnings p ++ ks))

/-- `sqf.rs:72-131`: the threads, one piece of work for each script. -/
def jobs {P S K E : Type} (T : Tools P S K E) (err : K → Bool) (l : List (Addon × Path)) : List (Job (Except E (List K))) :=
  l.map fun e => compileScript T err e.1 e.2

/-- The tools for scripts: the parser of Model/SqfLex and Model/SqfParse, the optimiser and the compiler of
Model/Sqf; `sqf.rs:91-104`. `text` gives the characters of a processed text and `warnings` what the preprocessor says about it; `names`
gives the files it was made of and `loc` where a place of it comes from. `span` is what the whole script spans. -/
def sqfTools {P K E : Type} (pre : Path → Reading (Pre P K E)) (warnings : P → List K) (text : P → Text) (env : P → SqfParse.Env)
    (F' : SqfLex.F32) (F : Sqf.FloatOps) (lower : Bytes → Bytes) (names : P → List Bytes)
    (loc : P → Sqf.Span → Option Sqf.SourceInfo) (span : P → Sqf.Span) (errs : P → List K)
    (lint : Addon → P → List Sqf.Stmt → List K) (bad : E) : Tools P (List Sqf.Stmt) K E where
  pre := pre
  warnings := warnings
  text := text
  parse p := match SqfLex.compile (env p) F' (text p) with
    | some ss => .ok ss
    | none => .parsing (errs p)
  lint := lint
  compile p ss := match Sqf.Block.optimize F lower ⟨ss, Processed.bytesOf (text p), span p⟩ with
    | .error _ => .error bad
    | .ok b => match b.compile (Sqf.procOf (loc p) (text p)) (names p) with
      | .error _ => .error bad
      | .ok c => match c.serialize with
        | .error _ => .error bad
        | .ok w => .ok w

/-- The tools for configs: the parser of Model/ConfigParse, the lints and the binary form of Model/ConfigLint. -/
def configTools {P α K E : Type} (pre : Path → Reading (Pre P K E)) (warnings : P → List K) (text : P → Text) (F : ConfigParse.Fl α)
    (lower : Text → Text) (ofF32 : Nat → Ver.Version) (configs : Text → Option Lints.Override)
    (lints : List (Lints.Lint ConfigLint.Target ConfigLint.Code)) (noRapify : P → Bool) (errs : P → List K) (code : ConfigLint.Code → K)
    (lintErr : Lints.LErr → K) (bad : E) : Rapifier.Tools P (List ConfigParse.Prp) K E where
  pre := pre
  warnings := warnings
  noRapify := noRapify
  parse p := match ConfigParse.config F (text p) with
    | .ok ps [] => match ConfigLint.report lower ofF32 configs lints ps with
      | .error es => .error (es.map lintErr)
      | .ok _ => .ok ps
    | _ => .error (errs p)
  lintWarnings ps := match ConfigLint.report lower ofF32 configs lints ps with
    | .error _ => []
    | .ok r => (r.codes.filter fun c => c.severity ≠ .error).map code
  lintErrors ps := match ConfigLint.report lower ofF32 configs lints ps with
    | .error _ => []
    | .ok r => r.errors.map code
  rapify ps := match ConfigLint.build lower ofF32 configs lints ps with
    | .written file => .ok file
    | _ => .error bad

end Verif.Sources
