import Verif.Model.Binarize
import Verif.Spec.Release
/-!
Which files are binarized, where they end up, and which textures and materials are missing, said without reference to how
they are found.
-/
namespace Verif.Binarize
open Verif.Release (Entry folder Hit)
open Verif.Workspace (Addon)

/-- The name has one of the extensions, with something in front of it. -/
def Kind (name : Text) : Prop :=
  ∃ stem, stem ≠ [] ∧ (name = stem ++ ".rtm".toList ∨ name = stem ++ ".p3d".toList ∨ name = stem ++ ".wrp".toList)

/-- The file says that it is binarized: it begins with `ODOL`, `BMTR` or `OPRW`. -/
def Done (b : Bytes) : Prop := ascii "ODOL" <+: b ∨ ascii "BMTR" <+: b ∨ ascii "OPRW" <+: b

/-- The file is to be binarized: a model, animation or terrain of an addon for which that is not switched off, which no
pattern of the addon leaves out and which is not binarized yet. -/
structure Binarized (env : Env) (x : Source) (e : Entry) : Prop where
  mem : e ∈ x.tree
  file : e.file = true
  kind : Kind e.filename
  enabled : ∀ t, x.toml = some t → t.enabled = true
  kept : ∀ t, x.toml = some t → ¬ Hit env.glob t.exclude e.rel
  raw : ¬ Done e.content

/-- A file that can be looked at: it has a signature, and one with that of an editable model is one. -/
def Readable (e : Entry) : Prop :=
  4 ≤ e.content.length ∧ (ascii "MLOD" <+: e.content → ∃ r, P3d.Model.read e.content = .ok r)

/-- A texture is there: under its name, or as an image that it is made from or is made of it. -/
def Found (locate : Bytes → Option Bool) (t : Bytes) : Prop :=
  locate t = some true ∨ ∃ s,
    t = s ++ ascii ".paa" ∧ locate (s ++ ascii ".tga") = some true ∨
    t = s ++ ascii ".tga" ∧ locate (s ++ ascii ".paa") = some true ∨
    t = s ++ ascii ".png" ∧ locate (s ++ ascii ".paa") = some true

/-- The names of images. -/
def images : List Bytes := [ascii ".paa", ascii ".tga", ascii ".png"]

/-- The name with a backslash in front. -/
def rooted (n r : Bytes) : Prop := (∃ s, n = 92 :: s ∧ r = n) ∨ ((∀ s, n ≠ 92 :: s) ∧ r = 92 :: n)

/-- A texture of the model that has to be there: not empty and not made by the game (`#`). -/
def Texture (m : P3d.Model) (r : Bytes) : Prop :=
  ∃ lod ∈ m.lods, ∃ f ∈ lod.faces, f.texture ≠ [] ∧ (∀ s, f.texture ≠ 35 :: s) ∧ rooted f.texture r

/-- A material of the model. -/
def Material (m : P3d.Model) (r : Bytes) : Prop :=
  ∃ lod ∈ m.lods, ∃ f ∈ lod.faces, f.material ≠ [] ∧ rooted f.material r

/-- No material is named like an image, and the extension of a texture is only at its end. -/
structure Usual (m : P3d.Model) : Prop where
  materials : ∀ r, Material m r → ∀ p ∈ images, ¬ p <:+ r
  textures : ∀ r, Texture m r → ∀ p ∈ images, ∀ s, r = s ++ p → ¬ p <:+: s

/-- The addons of a project: no folder twice, names without separators, and folders as a file system gives them. -/
structure SourcesOk (xs : List Source) : Prop where
  nodup : (xs.map fun x => folder x.addon).Nodup
  names : ∀ x ∈ xs, '/' ∉ x.addon.name ∧ '\\' ∉ x.addon.name
  trees : ∀ x ∈ xs, Release.TreeOk x.tree

/-- The path of a file in the project. -/
def path (x : Source) (e : Entry) : Text := '/' :: folder x.addon ++ '/' :: e.rel

/-- What is reported for a file: nothing unless it is an editable model; for one the textures and materials that are
missing, an error unless the P drive is to be ignored. -/
def Says (env : Env) (x : Source) (e : Entry) (cs : List Code) : Prop :=
  (¬ ascii "MLOD" <+: e.content → cs = []) ∧
  (ascii "MLOD" <+: e.content → ∃ m rest ts ms, P3d.Model.read e.content = .ok (m, rest) ∧
    (∀ r, r ∈ ts ↔ Texture m r ∧ ¬ Found env.locate r) ∧
    (∀ r, r ∈ ms ↔ Material m r ∧ env.locate r ≠ some true) ∧
    cs = (if ts = [] then [] else [.textures (path x e) ts env.ignorePdrive]) ++
      (if ms = [] then [] else [.materials (path x e) ms env.ignorePdrive]))

open Classical in
/-- All files that are to be binarized, in order, with their addons. -/
noncomputable def wanted (env : Env) (xs : List Source) : List (Source × Entry) :=
  xs.flatMap fun x => (x.tree.filter fun e => decide (Binarized env x e)).map (x, ·)

/-- The parts of the prefix of an addon: as `Prefix::new` makes them. -/
structure PrefixOk (a : Addon) : Prop where
  ne : a.pfx ≠ []
  first : ∀ p, a.pfx.head? = some p → p ≠ []
  names : ∀ p ∈ a.pfx, '/' ∉ p ∧ '\\' ∉ p

/-- The temporary folder: it has a name; on Windows it begins with a drive; elsewhere its first folder is not the first
part of the addon's prefix, nor is it the one the tool writes to. -/
def TmpOk (env : Env) (a : Addon) : Prop :=
  (env.sep = '\\' ∧ ∃ c s, env.tmp = c :: s ∧ c ≠ '\\') ∨
  (env.sep = '/' ∧ ∃ c s, env.tmp = '/' :: c ++ '/' :: s ∧ '/' ∉ c ∧ a.pfx.head? ≠ some c ∧
    c ≠ "hemtt_binarize_output".toList)

/-- What the tool is to be told for a file: to read it in the folder the game knows it by, and to write it to the folder
of the build. -/
def ask (a : Addon) (e : Entry) : Text × Text × Text :=
  (joinWith '\\' (a.pfx ++ e.dir) ++ ['\\'],
    joinWith '\\' (["hemtt_binarize_output".toList] ++ split '/' (folder a) ++ e.dir), e.filename)

/-- What the tool does when told that. -/
def asked (tool : Tool) (a : Addon) (e : Entry) : Option (Option Bytes) :=
  tool (ask a e).1 (ask a e).2.1 (ask a e).2.2

end Verif.Binarize
