import Verif.Model.Commands
/-!
What of the modules matters for comparing `hemtt check` with `hemtt build` and `hemtt release`: which phases a module has code for
(`/repo/bin/src/modules/*.rs`), and what binarizing does with its flag and with the setting for the P drive
(`/repo/bin/src/modules/binarize/mod.rs`). What they do otherwise is a parameter, as in `Verif.Model.Commands`.

The name of the output folder, which differs between the commands, is left out of the world.
-/
namespace Verif.Commands

open Verif.Executor (Stage Phase Executor Res)

/-- The phases a module has code for: `bom.rs:17`, `hook/mod.rs:195-238`, `stringtables/mod.rs:30-36`, `sqf.rs:36-140`,
`rapifier.rs:42-48`, `binarize/mod.rs:58-279`, `files.rs:15`, `file_patching.rs:17-38`, `sign.rs:34-66`. -/
def Module.has : Module → Phase → Bool
  | .bom, p => p = .check
  | .hooks, p => p ≠ .check
  | .stringtables, p => p = .check ∨ p = .preBuild
  | .sqf, p => p = .init ∨ p = .check ∨ p = .preBuild ∨ p = .postBuild
  | .rapifier, p => p = .check ∨ p = .preBuild
  | .binarize _, p => p = .init ∨ p = .check ∨ p = .preBuild
  | .files, p => p = .postBuild
  | .filePatching, p => p = .preBuild ∨ p = .postBuild
  | .sign, p => p = .check ∨ p = .preRelease

/-- `PDriveOption`, `libs/common/src/config/pdrive.rs:4-9`. -/
inductive PDriveOption
  | disallow | ignore | require
  deriving DecidableEq, Repr

/-- The modules as they are written. A phase that a module has no code for does nothing (`modules/mod.rs:33-75`). Binarizing does
nothing in `pre_build` if it only checks (`binarize/mod.rs:280-282`), looks at the flag nowhere else, and its `check` goes by the
setting for the P drive (`binarize/mod.rs:142-146`): `binarizeCheck`. The `check` of signing changes nothing (`sign.rs:34-64`). -/
def Acts.asWritten {R E K : Type} (acts : Acts R E K) (binarizeCheck : PDriveOption → R → Res R E K) (pdrive : PDriveOption) :
    Acts R E K :=
  { acts with other := fun m p r =>
      match m, p with
      | .binarize true, .preBuild => (.ok [], r)
      | .binarize _, .check => binarizeCheck pdrive r
      | .binarize _, p => if Module.has (.binarize false) p then acts.other (.binarize false) p r else (.ok [], r)
      | .sign, .check => ((acts.other .sign .check r).1, r)
      | m, p => if m.has p then acts.other m p r else (.ok [], r) }

/-- The settings `hemtt.check.pdrive` and `hemtt.build.pdrive` of a project, `libs/common/src/config/project/hemtt/check.rs:8-10`
and `build.rs:8-11`. -/
structure PDrives where
  check : PDriveOption
  build : PDriveOption

section
variable {R E K : Type} (acts : Acts R E K) (binarizeCheck : PDriveOption → R → Res R E K) (pbos archive : R → Res R E K)

/-- `hemtt check`, `commands/check.rs:25-47`. `binarize/mod.rs:142` looks for the folder `check`. -/
def runCheck (sev : K → Lints.Severity) (pd : PDrives) (all : List Workspace.Addon) (w : World R) : Res (World R) E K :=
  ((check all).executor (acts.asWritten binarizeCheck pd.check) pbos archive).run sev w

/-- `hemtt build` with its flags, for all addons, `commands/build.rs:65-94`. -/
def runBuild (sev : K → Lints.Severity) (pd : PDrives) (lower : Text → Text) (all : List Workspace.Addon) (noBin noRap : Bool)
    (w : World R) : Res (World R) E K :=
  ((build lower all [] noBin noRap).executor (acts.asWritten binarizeCheck pd.build) pbos archive).run sev w

/-- `hemtt release` with its flags, `commands/release.rs:73-97`. -/
def runRelease (sev : K → Lints.Severity) (pd : PDrives) (all : List Workspace.Addon) (noSign noArchive signs archives : Bool)
    (w : World R) : Res (World R) E K :=
  ((release all false false noSign noArchive signs archives).executor (acts.asWritten binarizeCheck pd.build) pbos archive).run sev w

end

end Verif.Commands
