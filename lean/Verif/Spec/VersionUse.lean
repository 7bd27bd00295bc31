import Verif.Model.VersionCache
/-!
What hooks and scripts do if no version is kept anywhere: each hook is run with the version that can be read when it
starts, and scripts it calls are told that one, too. There is nothing but the disk.
-/
namespace Verif.VersionUse
open Verif.Hooks (Prog Node Files Stop Code Ran)
open Verif.VersionCache (Script Place Source)

/-- A script that is told `v`. -/
def told {D V : Type} (v : V) : Script D V → Prog D
  | .done => .done
  | .throw => .throw
  | .fatal k => .fatal (told v k)
  | .step f k => .step f fun d => told v (k d)
  | .version k => told v (k v)
  | .script n k => .script n fun b => told v (k b)

def place {D V : Type} (v : V) : Place D V → Node D
  | .missing => .missing
  | .folder => .folder
  | .unreadable => .unreadable
  | .file p => .file (told v p)

/-- The files, to scripts that are told `v`. -/
def files {D V : Type} (src : Source D V) (v : V) : Files D where
  hook d phase name := place v (src.hook d phase name)
  script d name := place v (src.script d name)
  list d phase := src.list d phase
  versionKnown _ := true
  invalidate d := d

/-- The hooks of a folder, each told what is the version when it starts. -/
def entries {D V : Type} (src : Source D V) (n : Nat) (phase : Text) : List Text → D → Except Stop (Ran D)
  | [], d => .ok ⟨d, [], []⟩
  | name :: rest, d =>
    match src.hook d phase name with
    | .missing | .folder => entries src n phase rest d
    | x => match src.read d with
      | none => .error .panic
      | some v => match Hooks.run (files src v) n (phase ++ '/' :: name) (place v x) d with
        | .error e => .error e
        | .ok (d', codes) => match entries src n phase rest d' with
          | .error e => .error e
          | .ok r => .ok ⟨r.world, codes ++ r.codes, name :: r.started⟩

end Verif.VersionUse
