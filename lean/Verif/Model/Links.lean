import Verif.Lib.Text
import Verif.Lib.Bytes
/-!
Model of the links that the program makes: `/repo/bin/src/link.rs`, the folders that the game reads loose files from
(`/repo/bin/src/modules/file_patching.rs`, `/repo/bin/src/commands/launch/mod.rs:288-314`), the folder of a build
(`/repo/bin/src/context.rs:90-109`) and the tree that is put together for the tool that makes models binary
(`/repo/bin/src/modules/binarize/mod.rs:388-460`).

* A file system is a function of absolute paths, each a list of names. Following links stops after `lim` of them, as the
  operating systems do; `lim` is a parameter. `.` and `..` are left out, as are rights: an operation fails only for what is
  there or not there.
* The links the program makes are absolute. The names are compared as they are; that Windows takes upper and lower case for the
  same is left out.
* What the rest of a build writes to its folder is left out.
-/
namespace Verif.Links

abbrev Name := Text
abbrev Path := List Name

/-- What is at a path. -/
inductive Node where
  | file (content : Bytes)
  | dir
  | link (target : Path)
  deriving DecidableEq, Repr

/-- A file system; the root is always a folder. -/
abbrev Fs := Path → Option Node

/-- Whatever is at one path replaced. -/
def Fs.set (fs : Fs) (p : Path) (n : Option Node) : Fs := fun q => if q = p then n else fs q

/-- Going down a path until it ends, or until there is a link: its target and the rest of the path. -/
def walk (fs : Fs) (done : Path) : List Name → Option (Path ⊕ Path)
  | [] => some (.inl done)
  | n :: rest => match fs (done ++ [n]) with
    | none => none
    | some (.link t) => some (.inr (t ++ rest))
    | some _ => walk fs (done ++ [n]) rest

/-- Where a path leads when links are followed, at most `lim` of them. -/
def real : Nat → Fs → Path → Option Path
  | 0, fs, p => match walk fs [] p with
    | some (.inl q) => some q
    | _ => none
  | lim + 1, fs, p => match walk fs [] p with
    | some (.inl q) => some q
    | some (.inr q) => real lim fs q
    | none => none

/-- `Path::exists`: links are followed. -/
def there (lim : Nat) (fs : Fs) (p : Path) : Bool := (real lim fs p).isSome

/-- The place of a path: its last name in the folder that the path before leads to. -/
def place (lim : Nat) (fs : Fs) (p : Path) : Option Path :=
  match p.getLast? with
  | none => none
  | some n => (real lim fs p.dropLast).map (· ++ [n])

/-- `Path::is_symlink` and `Path::read_link`: the target if there is a link at a path, which is not followed. -/
def readLink (lim : Nat) (fs : Fs) (p : Path) : Option Path :=
  match place lim fs p with
  | none => none
  | some q => match fs q with
    | some (.link t) => some t
    | _ => none

/-- Removing a folder or a link and all beneath it, `std::fs::remove_dir_all` and `rmdir`; a link is not followed. -/
def remove (lim : Nat) (fs : Fs) (p : Path) : Option Fs :=
  (place lim fs p).map fun q => fun r => if q <+: r then none else fs r

/-- `std::os::unix::fs::symlink` and `mklink`: fails if there is anything already, or no folder to put it in. -/
def symlink (lim : Nat) (fs : Fs) (target link : Path) : Option Fs :=
  match place lim fs link with
  | none => none
  | some q => match fs q with
    | some _ => none
    | none => some (fs.set q (some (.link target)))

/-- `std::fs::create_dir_all`, below `done`. A file in the way, or a link that leads nowhere, makes it fail. -/
def mkdirs (lim : Nat) (fs : Fs) (done : Path) : List Name → Option Fs
  | [] => some fs
  | n :: rest => match real lim fs (done ++ [n]) with
    | some q => match fs q with
      | some (.file _) => none
      | _ => mkdirs lim fs (done ++ [n]) rest
    | none => match place lim fs (done ++ [n]) with
      | none => none
      | some q => match fs q with
        | some _ => none
        | none => mkdirs lim (fs.set q (some .dir)) (done ++ [n]) rest

/-- `link.rs:96-112`: making a link where there is no Windows. -/
def linkUnix (lim : Nat) (fs : Fs) (link target : Path) : Option Fs :=
  if there lim fs link then some fs else symlink lim fs target link

/-- `link.rs:65-92`: the two ways to make a link on Windows, which differ only in the rights they need. -/
def mklink (lim : Nat) (fs : Fs) (link target : Path) : Option Fs := symlink lim fs target link

/-- `link.rs:6-93`: making a link on Windows. `yes` is what the user answers, `false` also if there is no one to ask. -/
def linkWindows (yes : Bool) (lim : Nat) (fs : Fs) (link target : Path) : Option Fs :=
  match readLink lim fs link with
  | some t =>
    if there lim fs link then
      if t = target then some fs
      else if yes then (remove lim fs link).bind fun fs' => mklink lim fs' link target
      else some fs
    else (remove lim fs link).bind fun fs' => mklink lim fs' link target
  | none => mklink lim fs link target

/-- The system the program runs on, and what the user answers. -/
inductive Host where
  | unix
  | windows (yes : Bool)
  deriving DecidableEq, Repr

/-- `link.rs:15,101`. -/
def createLink : Host → Nat → Fs → Path → Path → Option Fs
  | .unix, lim, fs, l, t => linkUnix lim fs l t
  | .windows yes, lim, fs, l, t => linkWindows yes lim fs l t

/-- An addon: the folder it is in, its name and its prefix, `addons.rs:28-35`. -/
structure Addon where
  location : Name
  name : Name
  pfx : Path
  deriving DecidableEq, Repr

/-- `addons.rs:112-116`. -/
def Addon.folder (a : Addon) : Path := [a.location, a.name]

/-- `str::replace('/', "\\")`. -/
def slashes (n : Name) : Name := n.map fun c => if c = '/' then '\\' else c

/-- `context.rs:90-103`: the folder of a build is emptied, unless `keep`, and made. -/
def openBuild (keep : Bool) (lim : Nat) (fs : Fs) (project : Path) (folder : Name) : Option Fs :=
  (mkdirs lim fs [] (project ++ [".hemttout".toList])).bind fun fs =>
    let build := project ++ [".hemttout".toList, folder]
    (if keep = false ∧ there lim fs build then remove lim fs build else some fs).bind fun fs =>
      mkdirs lim fs [] build

/-- `file_patching.rs:23-34`: the links of some addons, one after another. The code makes them in any order. -/
def linkAddons (h : Host) (lim : Nat) (build project : Path) : Fs → List Addon → Option Fs
  | fs, [] => some fs
  | fs, a :: as =>
    (createLink h lim fs (build ++ ["addons".toList, slashes a.name]) (project ++ a.folder)).bind fun fs =>
      linkAddons h lim build project fs as

/-- `file_patching.rs:17-36`. -/
def filePatching (h : Host) (lim : Nat) (fs : Fs) (build project : Path) (as : List Addon) : Option Fs :=
  (mkdirs lim fs [] (build ++ ["addons".toList])).bind fun fs => linkAddons h lim build project fs as

/-- `launch/mod.rs:302-313`: the folder of the game leads to the build. -/
def launchLink (h : Host) (lim : Nat) (fs : Fs) (game : Path) (mainPrefix pfx : Name) (build : Path) : Option Fs :=
  let folder := game ++ [mainPrefix]
  (if there lim fs folder then some fs else mkdirs lim fs [] folder).bind fun fs =>
    if there lim fs (folder ++ [pfx]) then some fs else createLink h lim fs (folder ++ [pfx]) build

/-- `launch/mod.rs:288-313` with `dev.rs:108-116,155`: what `hemtt launch` and, but for the last step, `hemtt dev` do with links.
`keep` is whether only some addons are built. -/
def launch (h : Host) (keep : Bool) (lim : Nat) (fs : Fs) (project game : Path) (mainPrefix pfx : Name) (as : List Addon) :
    Option Fs :=
  let build := project ++ [".hemttout".toList, "dev".toList]
  (openBuild keep lim fs project "dev".toList).bind fun fs =>
    (filePatching h lim fs build project as).bind fun fs => launchLink h lim fs game mainPrefix pfx build

/-- `binarize/mod.rs:391-396`: each addon is put where its prefix says. -/
def tmpAddons (h : Host) (lim : Nat) (tmp project : Path) : Fs → List Addon → Option Fs
  | fs, [] => some fs
  | fs, a :: as =>
    (mkdirs lim fs [] (tmp ++ a.pfx).dropLast).bind fun fs =>
      (createLink h lim fs (tmp ++ a.pfx) (project ++ a.folder)).bind fun fs => tmpAddons h lim tmp project fs as

/-- `binarize/mod.rs:424-449`: and each folder two levels down in the includes likewise; `incs` are their two names. -/
def tmpIncludes (h : Host) (lim : Nat) (tmp project : Path) : Fs → List (Name × Name) → Option Fs
  | fs, [] => some fs
  | fs, i :: is =>
    (mkdirs lim fs [] (tmp ++ [i.1])).bind fun fs =>
      (createLink h lim fs (tmp ++ [i.1, i.2]) (project ++ ["include".toList, i.1, i.2])).bind fun fs =>
        tmpIncludes h lim tmp project fs is

/-- `binarize/mod.rs:388-450`, without the single files that are copied and without the P drive: the latter only leaves `a3` out
of the includes and adds a link for it. -/
def setupTmp (h : Host) (lim : Nat) (fs : Fs) (tmp project : Path) (as : List Addon) (incs : List (Name × Name)) : Option Fs :=
  (mkdirs lim fs [] tmp).bind fun fs =>
    (mkdirs lim fs [] (tmp ++ ["hemtt_binarize_output".toList])).bind fun fs =>
      (tmpAddons h lim tmp project fs as).bind fun fs => tmpIncludes h lim tmp project fs incs

end Verif.Links
