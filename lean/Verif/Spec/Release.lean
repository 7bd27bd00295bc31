import Verif.Model.Release
/-!
What belongs into a PBO, said without reference to how it is put together.
-/
namespace Verif.Release
open Verif.Io Verif.Pbo
open Verif.Workspace (FILES)

/-- Entries of a folder as a file system gives them: names that are not empty and hold no separator, no path twice. -/
structure TreeOk (tree : List Entry) : Prop where
  names : ∀ e ∈ tree, ∀ c ∈ e.dir ++ [e.filename], c ≠ [] ∧ '/' ∉ c ∧ '\\' ∉ c
  nodup : (tree.map fun e => (e.dir, e.filename)).Nodup

/-- A pattern of the list matches the path. -/
def Hit (glob : Text → Option (Text → Bool)) (ps : List Text) (path : Text) : Prop :=
  ∃ p ∈ ps, ∃ m, glob p = some m ∧ m path = true

/-- The user has asked for the file to be left out: a pattern of the project matches its path from the root of the
project, with a slash in front, or one of the addon's matches its path below the addon's folder. -/
def LeftOut (env : Env) (s : Settings) (x : Source) (e : Entry) : Prop :=
  Hit env.glob s.exclude ('/' :: folder x.addon ++ '/' :: e.rel) ∨
    ∃ t, x.toml = some t ∧ Hit env.glob t.exclude e.rel

/-- A file of the addon that is looked at: not the addon's settings, not a config that there is a binary one of, and not
left out by the user. -/
structure Considered (env : Env) (s : Settings) (x : Source) (e : Entry) : Prop where
  mem : e ∈ x.tree
  file : e.file = true
  notSettings : e.filename ≠ "addon.toml".toList
  notReplaced : e.filename = "config.cpp".toList → ∀ b ∈ x.tree, b.dir = e.dir → b.filename ≠ "config.bin".toList
  kept : ¬ LeftOut env s x e

/-- The file says what the prefix is. -/
def PrefixFile (env : Env) (s : Settings) (x : Source) (e : Entry) : Prop :=
  Considered env s x e ∧ env.lower e.filename ∈ FILES

/-- The file belongs into the PBO. -/
def Packed (env : Env) (s : Settings) (x : Source) (e : Entry) : Prop :=
  Considered env s x e ∧ env.lower e.filename ∉ FILES

/-- The name of a file in a PBO: its path below the addon's folder with backslashes. -/
def inPbo (e : Entry) : Text := joinWith '\\' (e.dir ++ [e.filename])

end Verif.Release
