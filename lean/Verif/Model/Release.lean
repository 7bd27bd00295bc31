import Verif.Model.Pbo
import Verif.Model.Signing
import Verif.Model.Workspace
import Verif.Model.SqfLex
/-!
Model of what a build puts into the build folder and what a release makes of it: `/repo/bin/src/modules/pbo.rs`,
`sign.rs`, `files.rs`, `archive.rs` and `/repo/libs/common/src/config/project/files.rs`.

* The workspace (crate `vfs`) enters as the list that `walk_dir` gives of a folder. The build folder is a map from paths
  below it to contents; creating folders is left out, and so are file systems that are full or read-only.
* Glob patterns (crate `glob`) are a parameter: what a pattern matches, or nothing if it is not a pattern.
* RSA keys (crate `rsa`) are a parameter, and so are SHA-1, `to_lowercase` and the iteration order of hash maps.
* File names are taken to hold no `/`, as the operating system has it.
* The zip format is left out: the archive is the list of its entries.
-/
namespace Verif.Release
open Verif.Io Verif.Pbo Verif.Sign
open Verif.Workspace (Location Addon FILES)
open Verif.SqfLex (enc)

/-! ### Names -/

/-- The part of a file name before its last dot, if it has one that is not its first character, and otherwise the whole:
`std::path::Path::file_stem`. -/
def stem (s : Text) : Text :=
  match s.reverse.dropWhile (· ≠ '.') with
  | [] => s
  | [_] => s
  | _ :: r => r.reverse

/-- `std::path::Path::with_extension` for a path whose last component is `s`. -/
def withExtension (s ext : Text) : Text := stem s ++ '.' :: ext

/-- A path below a folder, as its components. -/
abbrev Path := List Text

/-- `libs/workspace/src/addons.rs:88-90`, `pbo_name`. -/
def pboName (a : Addon) (pfx : Text) : Text := pfx ++ '_' :: a.name

/-- `libs/workspace/src/addons.rs:224-234`, `Display` of `Location`. -/
def Location.show : Location → Text
  | .addons => "addons".toList
  | .optionals => "optionals".toList

/-- `libs/workspace/src/addons.rs:106-108`, `folder`. -/
def folder (a : Addon) : Text := Location.show a.location ++ '/' :: a.name

/-! ### One PBO -/

/-- An entry of `walk_dir`: the folders it is in below the addon's folder, its name and its content. -/
structure Entry where
  dir : List Text
  filename : Text
  file : Bool
  content : Bytes
  deriving DecidableEq, Repr

/-- The path below the addon's folder. -/
def Entry.rel (e : Entry) : Text := joinWith '/' (e.dir ++ [e.filename])

/-- `as_str` of the entry of an addon in `folder`. -/
def Entry.asStr (folder : Text) (e : Entry) : Text := '/' :: folder ++ '/' :: e.rel

/-- `str::trim_start_matches(&str)`; a pattern that is empty is not needed. -/
def trimStart (p : Text) (s : Text) : Text :=
  if _h : p ≠ [] ∧ p.isPrefixOf s then trimStart p (s.drop p.length) else s
termination_by s.length
decreasing_by
  obtain ⟨t, rfl⟩ := List.isPrefixOf_iff_prefix.1 _h.2
  have := List.length_pos_iff.2 _h.1
  simp; omega

/-- What can go wrong. -/
inductive BErr
  | glob | prefix_ | text | size | open_ | read | sign | write
  deriving DecidableEq, Repr

/-- A project's settings; the properties are in the order their hash map gives them. -/
structure Settings where
  pfx : Text
  /-- `hemtt.release.folder` -/
  release : Text
  /-- `hemtt.build.optional_mod_folders` -/
  optionalFolders : Bool
  exclude : List Text
  properties : List (Text × Text)
  include_ : List Text
  /-- `signing.authority` -/
  authority : Option Text
  sigVersion : SigVersion
  deriving DecidableEq, Repr

/-- An addon's `addon.toml`. -/
structure AddonToml where
  exclude : List Text
  properties : List (Text × Text)
  deriving DecidableEq, Repr

/-- What the program takes from outside. -/
structure Env where
  glob : Text → Option (Text → Bool)
  lower : Text → Text
  /-- `env!("HEMTT_VERSION")` -/
  hemtt : Text
  /-- the project's version, printed -/
  version : Text
  /-- the hash of the commit, if the project is in a repository -/
  git : Option Text

/-- `pbo.rs:119-123` and `125-133`: does a pattern match? A pattern that is none stops the build, if it is reached. -/
def excluded (glob : Text → Option (Text → Bool)) (s : Text) : List Text → Except BErr Bool
  | [] => .ok false
  | p :: ps => match glob p with
    | none => .error .glob
    | some m => if m s then .ok true else excluded glob s ps

/-- `read_to_string` -/
def decode? (b : Bytes) : Option Text := (b.toByteArray.utf8Decode?).map Array.toList

/-- `pbo.rs:110-152`, one turn of the loop over the entries of the addon's folder, `tree`. -/
def packEntry (env : Env) (s : Settings) (a : Addon) (toml : Option AddonToml) (tree : List Entry) (pbo : WPbo)
    (e : Entry) : Except BErr WPbo :=
  if e.file = false then .ok pbo
  else if e.filename = "config.cpp".toList ∧ (tree.any fun x => x.dir = e.dir ∧ x.filename = "config.bin".toList) then .ok pbo
  else if e.filename = "addon.toml".toList then .ok pbo
  else match excluded env.glob (e.asStr (folder a)) s.exclude with
  | .error x => .error x
  | .ok true => .ok pbo
  | .ok false =>
    let rel := trimStart ('/' :: folder a ++ ['/']) (e.asStr (folder a))
    match excluded env.glob rel ((toml.map (·.exclude)).getD []) with
    | .error x => .error x
    | .ok true => .ok pbo
    | .ok false =>
      if env.lower e.filename ∈ FILES then
        match decode? e.content with
        | none => .error .text
        | some t => match Prefix.new t with
          | .error _ => .error .prefix_
          | .ok p =>
            let pbo := pbo.addProperty prefixKey (enc (Prefix.display p))
            let pbo := pbo.addProperty (ascii "version") (enc env.version)
            match env.git with
            | none => .ok pbo
            | some h => .ok (pbo.addProperty (ascii "git") (enc h))
      else match pbo.addFile (enc (rel.map fun c => if c = '/' then '\\' else c)) e.content with
        | .error _ => .error .size
        | .ok pbo => .ok pbo

/-- The loop of `pbo.rs:109-154`. -/
def packEntries (env : Env) (s : Settings) (a : Addon) (toml : Option AddonToml) (tree : List Entry) :
    List Entry → WPbo → Except BErr WPbo
  | [], pbo => .ok pbo
  | e :: es, pbo => match packEntry env s a toml tree pbo e with
    | .error x => .error x
    | .ok pbo => packEntries env s a toml tree es pbo

/-- `pbo.rs:155-162`: adding properties in order. -/
def addProperties : List (Text × Text) → WPbo → WPbo
  | [], pbo => pbo
  | (k, v) :: l, pbo => addProperties l (pbo.addProperty (enc k) (enc v))

/-- `pbo.rs:66, 106-162`: the PBO that is written for an addon. -/
def pack (env : Env) (s : Settings) (a : Addon) (toml : Option AddonToml) (tree : List Entry) : Except BErr WPbo :=
  let pbo := (WPbo.new.addProperty (ascii "hemtt") (enc env.hemtt)).addProperty (ascii "version") (enc env.version)
  match packEntries env s a toml tree tree pbo with
  | .error x => .error x
  | .ok pbo => .ok (addProperties ((toml.map (·.properties)).getD []) (addProperties s.properties pbo))

/-- `pbo.rs:71-93`: where it is written, below the build folder. `collapse` is `Collapse::Yes`. -/
def target (s : Settings) (collapse : Bool) (a : Addon) : Path :=
  let name := withExtension (pboName a s.pfx) "pbo".toList
  if collapse then ["addons".toList, name]
  else match a.location with
    | .addons => ["addons".toList, name]
    | .optionals =>
      if s.optionalFolders then ["optionals".toList, '@' :: pboName a s.release, "addons".toList, name]
      else [Location.show a.location, name]

/-! ### The build folder -/

/-- The build folder: the content of the file at a path, if there is one. -/
abbrev World := Path → Option Bytes

/-- `File::create` and writing. -/
def World.put (w : World) (p : Path) (b : Bytes) : World := fun q => if q = p then some b else w q

/-- An addon with its settings and its folder. -/
structure Source where
  addon : Addon
  toml : Option AddonToml
  tree : List Entry
  deriving DecidableEq, Repr

/-- The digest and the orders of `write`: `order` is the hash map's iteration order. -/
structure Digest where
  H : Bytes → Bytes
  lower : Bytes → Bytes
  order : List (Bytes × (Bytes × Header)) → List (Bytes × (Bytes × Header))

/-- `pbo.rs:60-165`, `internal_build`. -/
def internalBuild (d : Digest) (env : Env) (s : Settings) (collapse : Bool) (x : Source) (w : World) :
    Except BErr World :=
  match pack env s x.addon x.toml x.tree with
  | .error e => .error e
  | .ok pbo => match pbo.write d.H d.lower (d.order pbo.files) true with
    | .error _ => .error .write
    | .ok (out, _) => .ok (w.put (target s collapse x.addon) out)

/-- `pbo.rs:34-58`, `build`. -/
def build (d : Digest) (env : Env) (s : Settings) (collapse : Bool) : List Source → World → Except BErr World
  | [], w => .ok w
  | x :: xs, w => match internalBuild d env s collapse x w with
    | .error e => .error e
    | .ok w => build d env s collapse xs w

/-! ### Files that are copied -/

/-- `libs/common/src/config/project/files.rs:39-67`, without the sorting and removing of duplicates: the patterns of the
files to copy. -/
def includes (s : Settings) : List Text :=
  (s.include_.map fun i => if i.head? = some '/' then i else '/' :: i) ++
    ["/mod.cpp".toList, "/meta.cpp".toList, "/LICENSE".toList, "/logo_ca.paa".toList, "/logo_co.paa".toList]

/-- An entry of the workspace: its path and its content, if it is a file. -/
abbrev WEntry := Path × Option Bytes

/-- `as_str` of a path of the workspace. -/
def asStr (p : Path) : Text := '/' :: joinWith '/' p

/-- `all` of `Pattern::new(..)?` of `files.rs:20-22`. -/
def compile (glob : Text → Option (Text → Bool)) : List Text → Except BErr (List (Text → Bool))
  | [] => .ok []
  | p :: ps => match glob p with
    | none => .error .glob
    | some m => match compile glob ps with
      | .error e => .error e
      | .ok l => .ok (m :: l)

/-- Is the entry copied? `files.rs:24-40`. -/
def copied (pats : List (Text → Bool)) (e : WEntry) : Bool :=
  !("/.hemtt".toList).isPrefixOf (asStr e.1) && e.2.isSome && pats.any fun m => m (asStr e.1)

/-- `files.rs:14-60`, `post_build`; `glob` matches with a literal separator. -/
def copyFiles (glob : Text → Option (Text → Bool)) (s : Settings) (entries : List WEntry) (w : World) : Except BErr World :=
  match compile glob (includes s) with
  | .error e => .error e
  | .ok pats => .ok ((entries.filter (copied pats)).foldl (fun w e => w.put e.1 (e.2.getD [])) w)

/-! ### Signing -/

/-- `sign.rs:141-155`, `get_authority`. -/
def authority (env : Env) (s : Settings) (suffix : Option Text) : Text :=
  s.authority.getD s.pfx ++ '_' :: env.version ++ (suffix.map fun x => '_' :: x).getD []

/-- The keys that `BIPrivateKey::generate` makes: the first is for the mod, the others for single addons. -/
structure Keys where
  main : PrivKey
  single : Addon → PrivKey

/-- `sign.rs:78-133`: where the PBO is, the key and the authority it is signed with, and where its own key goes. -/
def signing (env : Env) (s : Settings) (k : Keys) (a : Addon) : Path × PrivKey × Text × Option Path :=
  let name := withExtension (pboName a s.pfx) "pbo".toList
  match a.location with
  | .addons => (["addons".toList, name], k.main, authority env s none, none)
  | .optionals =>
    if s.optionalFolders then
      let au := authority env s (some (pboName a s.pfx))
      let root := ["optionals".toList, '@' :: pboName a s.release]
      (root ++ ["addons".toList, name], k.single a, au, some (root ++ ["keys".toList, au ++ ".bikey".toList]))
    else ([Location.show a.location, name], k.main, authority env s none, none)

/-- The signature's path, `sign.rs:93, 129`. -/
def sigPath (p : Path) (au : Text) : Path :=
  p.dropLast ++ [withExtension (p.getLastD []) ("pbo.".toList ++ au ++ ".bisign".toList)]

/-- `sign.rs:78-138`: signing one addon. -/
def signOne (d : Digest) (env : Env) (s : Settings) (k : Keys) (a : Addon) (w : World) : Except BErr World :=
  let (p, key, au, own) := signing env s k a
  let w := match own with
    | none => w
    | some q => w.put q key.toPublic.write
  match w p with
  | none => .error .open_
  | some out => match RPbo.from out with
    | .error _ => .error .read
    | .ok r => match key.sign d.H d.lower r s.sigVersion with
      | .error _ => .error .sign
      | .ok sig => .ok (w.put (sigPath p au) sig.write)

/-- The loop of `sign.rs:78`, in the order in which the threads take the addons. -/
def signAll (d : Digest) (env : Env) (s : Settings) (k : Keys) : List Addon → World → Except BErr World
  | [], w => .ok w
  | a :: as, w => match signOne d env s k a w with
    | .error e => .error e
    | .ok w => signAll d env s k as w

/-- `sign.rs:64-140`, `pre_release`. -/
def sign (d : Digest) (env : Env) (s : Settings) (k : Keys) (addons : List Addon) (w : World) : Except BErr World :=
  signAll d env s k addons
    (w.put ["keys".toList, authority env s none ++ ".bikey".toList] k.main.toPublic.write)

/-- `sign.rs:41-59`: is an addon reported to be empty? `names` are the entries of its folder, not of those below it. -/
def reportedEmpty (lower : Text → Text) : List Text → Bool
  | [] => true
  | [n] => lower n ∈ FILES
  | _ => false

/-! ### The archive -/

/-- `archive.rs:39-71`: the names of the entries, for the paths of the build folder, files and folders. -/
def zipName (s : Settings) (p : Path) : Text :=
  '@' :: s.release ++ '/' :: (joinWith '/' p).map fun c => if c = '\\' then '/' else c

/-- `archive.rs:38-92`: the archive's files. -/
def zip (s : Settings) (files : List (Path × Bytes)) : List (Text × Bytes) := files.map fun f => (zipName s f.1, f.2)

/-- `archive.rs:32-34, 96-104`: the names of the archives in the folder for releases. -/
def zipNames (env : Env) (s : Settings) : Text × Text :=
  (withExtension (s.pfx ++ "-latest".toList) "zip".toList, s.pfx ++ '-' :: env.version ++ ".zip".toList)

end Verif.Release
