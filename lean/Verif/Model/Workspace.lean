import Verif.Model.Prefix
/-!
Model of the workspace: scanning addons (`/repo/libs/workspace/src/addons.rs`), discovering prefixes
(`/repo/libs/workspace/src/lib.rs`) and locating paths (`/repo/libs/workspace/src/path.rs`).

* `lower` (`str::to_lowercase`) and `upper` are parameters.
* The file systems (crate `vfs`, `std::fs`) enter as parameters: what a directory lists, which paths exist, how paths
  are joined. A listing is a list in the order the file system gives.
* `HashMap` iteration order is the order of the list `ptrs` of pointers.
-/
namespace Verif.Workspace

/-- What can go wrong; `fs` is any error of the file system or of a file's content. -/
inductive WErr
  | nameDuplicate (s : Text) | duplicate (s : Text) | prefixMissing (s : Text) | duplicatePrefix (s : Text)
  | badPrefix | fs | panic
  deriving DecidableEq, Repr

/-! ### Addons -/

/-- `addons.rs:171-175`. -/
inductive Location
  | addons | optionals
  deriving DecidableEq, Repr

/-- `addons.rs:28-35`, without the `addon.toml` and the build data. -/
structure Addon where
  name : Text
  location : Location
  pfx : List Text
  deriving DecidableEq, Repr

/-- `libs/common/src/prefix.rs:19-24`. -/
def FILES : List Text :=
  ["$pboprefix$".toList, "$pboprefix$.txt".toList, "pboprefix.txt".toList, "$prefix$".toList]

/-- `addons.rs:45-79`, `Addon::new`. `file` is the content of a file of the folder, if there is one of that name. A bad
`addon.toml` is left out. -/
def Addon.new (upper : Text → Text) (file : Text → Option Text) (name : Text) (loc : Location) : Except WErr Addon :=
  match (FILES ++ FILES.map upper).findSome? file with
  | none => .error (.prefixMissing name)
  | some content => match Prefix.new content with
    | .error _ => .error .badPrefix
    | .ok p => .ok ⟨name, loc, p⟩

/-- `addons.rs:182-208`, `Location::scan`, for a location that exists. `dirs` are the folders in it. -/
def Location.scan (upper : Text → Text) (file : Location → Text → Text → Option Text) (loc : Location) :
    List Text → Except WErr (List Addon)
  | [] => .ok []
  | d :: ds => match Addon.new upper (file loc d) d loc with
    | .error e => .error e
    | .ok a => match Location.scan upper file loc ds with
      | .error e => .error e
      | .ok l => .ok (a :: l)

/-- The loop `addons.rs:140-166` over the addons not yet looked at. -/
def checkNames (lower : Text → Text) (all : List Addon) : List Addon → Except WErr Unit
  | [] => .ok ()
  | a :: l =>
    if all.any fun b => lower b.name = lower a.name && b.name ≠ a.name then .error (.nameDuplicate a.name)
    else if all.any fun b => lower b.name = lower a.name && b.location ≠ a.location then .error (.duplicate a.name)
    else checkNames lower all l

/-- `addons.rs:133-168`, `Addon::scan`; `dirs` gives the folders of a location that exists. -/
def scan (lower upper : Text → Text) (dirs : Location → Option (List Text))
    (file : Location → Text → Text → Option Text) : Except WErr (List Addon) :=
  match Location.scan upper file .addons ((dirs .addons).getD []) with
  | .error e => .error e
  | .ok a => match Location.scan upper file .optionals ((dirs .optionals).getD []) with
    | .error e => .error e
    | .ok o => match checkNames lower (a ++ o) (a ++ o) with
      | .error e => .error e
      | .ok () => .ok (a ++ o)

/-! ### Prefixes -/

/-- A file met by the walk. -/
structure Entry where
  path : Text
  filename : Text
  parent : Text
  content : Text
  deriving DecidableEq, Repr

/-- `str::contains`. -/
def contains (s t : Text) : Bool := s.tails.any fun x => t.isPrefixOf x

/-- The key of a prefix, `lib.rs:124-127`. -/
def key (lower : Text → Text) (p : List Text) : Text :=
  '/' :: (lower (Prefix.display p)).map fun c => if c = '\\' then '/' else c

/-- `lib.rs:97-142`, `discover`: the pointers, in the order they are entered. The lists of configs and missions are
left out, and so are entries the walk could not read. -/
def discover (lower : Text → Text) (ptrs : List (Text × Text)) : List Entry → Except WErr (List (Text × Text))
  | [] => .ok ptrs
  | e :: l =>
    if contains e.path ".hemtt".toList then discover lower ptrs l
    else if lower e.filename = "config.cpp".toList ∨ lower e.filename = "mission.sqm".toList then discover lower ptrs l
    else if lower e.filename ∈ FILES then
      match Prefix.new e.content with
      | .error _ => .error .badPrefix
      | .ok p =>
        if ptrs.any fun x => x.1 = key lower p then .error (.duplicatePrefix (Prefix.display p))
        else discover lower (ptrs ++ [(key lower p, e.parent)]) l
    else discover lower ptrs l

/-! ### Locating -/

/-- `char::len_utf8` summed up, `str::len`. -/
def byteLen (s : Text) : Nat := (s.map Char.utf8Size).sum

/-- Cutting a string at a byte; `none` where that is inside a character or beyond the end, which panics. -/
def cut : Text → Nat → Option (Text × Text)
  | s, 0 => some ([], s)
  | [], _ + 1 => none
  | c :: s, n + 1 =>
    if c.utf8Size ≤ n + 1 then (cut s (n + 1 - c.utf8Size)).map fun p => (c :: p.1, p.2) else none
termination_by structural s => s

/-- `char::to_ascii_lowercase`. -/
def asciiLower (c : Char) : Char := if 'A' ≤ c ∧ c ≤ 'Z' then Char.ofNat (c.toNat + 32) else c

/-- `str::eq_ignore_ascii_case`. -/
def eqIgnoreCase (a b : Text) : Bool := a.map asciiLower == b.map asciiLower

/-- `libs/common/src/strip.rs:7-16`, `strip_prefix_insensitive`; the error is a panic. -/
def stripInsensitive (s p : Text) : Except WErr (Option Text) :=
  if byteLen s < byteLen p then .ok none
  else match cut s (byteLen p) with
    | none => .error .panic
    | some (a, b) => .ok (if eqIgnoreCase a p then some b else none)

/-- `str::strip_prefix('/')`. -/
def stripSlash : Text → Option Text
  | '/' :: s => some s
  | _ => none

/-- The file systems. `join` and `exists_` fail with a file system error; `insensitive` is
`exists_case_insensitive` (`path.rs:422-452`); `pdrive` is `PDrive::path_to` if there is a P drive. -/
structure Fs where
  root : Text
  parent : Text → Text
  join : Text → Text → Option Text
  exists_ : Text → Option Bool
  insensitive : Text → Option Text
  pdrive : Option (Text → Option Text)

/-- `path.rs:416-419`. -/
structure Located where
  path : Text
  mismatch : Option Text
  deriving DecidableEq, Repr

/-- `str::replace('\\', "/")`. -/
def slashes (s : Text) : Text := s.map fun c => if c = '\\' then '/' else c

/-- The result with `is_wrong_case`, `path.rs:206-209`, put to use as everywhere in `locate`. -/
def located (lower : Text → Text) (p requested : Text) : Located :=
  ⟨p, if lower (slashes p) = lower requested ∧ slashes p ≠ requested then some p else none⟩

/-- `str::trim_start_matches('/')`. -/
def trimSlashes (s : Text) : Text := s.dropWhile (· == '/')

/-- The pointer `locate` uses, `path.rs:248-253`. -/
def pointer (lower : Text → Text) (ptrs : List (Text × Text)) (path : Text) : Option (Text × Text) :=
  ptrs.find? fun p => (lower p.1 ++ ['/']).isPrefixOf (lower path)

/-- The part of a path below a prefix, `path.rs:256-259`. -/
def below (path base : Text) : Except WErr Text :=
  match stripInsensitive path base with
  | .error e => .error e
  | .ok s => .ok ((stripSlash (s.getD path)).getD path)

/-- The last resort, `path.rs:307-324`: relative to the file it is asked from. -/
def locateRelative (lower : Text → Text) (fs : Fs) (here path : Text) : Except WErr (Option Located) :=
  match fs.join (fs.parent here) path with
  | none => .error .fs
  | some p => match fs.exists_ p with
    | none => .error .fs
    | some true => .ok (some (located lower p path))
    | some false => .ok none

/-- A path found by `exists_case_insensitive`, `path.rs:276-289`, `291-304`. -/
def foundInsensitive (fs : Fs) (s : Text) : Except WErr (Option Located) :=
  match fs.join fs.root s with
  | none => .error .fs
  | some p => .ok (some ⟨p, some s⟩)

/-- The part of `locate` for paths that begin with a slash, `path.rs:231-306`; `ok none` goes on to
`locateRelative`. -/
def locateAbsolute (lower : Text → Text) (fs : Fs) (ptrs : List (Text × Text)) (path : Text) :
    Except WErr (Option Located) :=
  match fs.join fs.root path with
  | none => .error .fs
  | some p => match fs.exists_ p with
    | none => .error .fs
    | some true => .ok (some (located lower p path))
    | some false => match pointer lower ptrs path with
      | some (base, root) => match below path base with
        | .error e => .error e
        | .ok rest => match fs.join root rest with
          | none => .error .fs
          | some p => match fs.exists_ p with
            | none => .error .fs
            | some true => .ok (some (located lower p path))
            | some false => match fs.insensitive (trimSlashes p) with
              | some s => foundInsensitive fs s
              | none => .ok none
      | none => match fs.insensitive path with
        | some s => foundInsensitive fs s
        | none => .ok none

/-- What the P drive has for a path, `path.rs:210-230`. -/
def locatePdrive (lower : Text → Text) (fs : Fs) (path : Text) : Option Located :=
  if "/a3/".toList.isPrefixOf (lower path) then
    match fs.pdrive with
    | some f => (f path).map fun p => located lower p path
    | none => none
  else none

/-- `path.rs:205-325`, `locate`, asked from the file `here`. -/
def locate (lower : Text → Text) (fs : Fs) (ptrs : List (Text × Text)) (here path : Text) :
    Except WErr (Option Located) :=
  let path := slashes path
  match locatePdrive lower fs path with
  | some l => .ok (some l)
  | none =>
    if path.head? = some '/' then
      match locateAbsolute lower fs ptrs path with
      | .error e => .error e
      | .ok (some l) => .ok (some l)
      | .ok none => locateRelative lower fs here path
    else locateRelative lower fs here path

/-- `path.rs:136-148`, `as_virtual_str`; the error is a panic. -/
def virtualStr (lower : Text → Text) (ptrs : List (Text × Text)) (path : Text) : Except WErr Text :=
  let path := slashes path
  match ptrs.find? fun p => (lower p.2 ++ ['/']).isPrefixOf (lower path) with
  | none => .ok path
  | some (base, root) => match cut path (byteLen root) with
    | none => .error .panic
    | some (_, rest) => .ok (base ++ rest)

end Verif.Workspace
