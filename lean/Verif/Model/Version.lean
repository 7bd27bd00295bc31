import Verif.Lib.Text
/-! Model of `/repo/libs/common/src/version.rs`. -/
namespace Verif.Ver

/-- repo: libs/common/src/version.rs:16-22 (`Version`); the `u32` fields are `Nat`, see `Ok32`. -/
structure Version where
  major : Nat
  minor : Nat
  patch : Nat
  build : Option Nat
  hash : Option Text
deriving DecidableEq, Repr

/-- repo: libs/common/src/version.rs:242-270 (`Error`) -/
inductive Error where
  | unknownVersion
  | expectedMajor
  | expectedMinor
  | expectedPatch
  | expectedBuild
  | invalidComponent (s : Text)
deriving DecidableEq, Repr

/-- repo: libs/common/src/version.rs:227-238 (`Display`; 201-215 `Serialize` builds the same text) -/
def display (v : Version) : Text :=
  decimal v.major ++ '.' :: decimal v.minor ++ '.' :: decimal v.patch
    ++ (match v.build with | some b => '.' :: decimal b | none => [])
    ++ (match v.hash with | some h => '-' :: h | none => [])

/-- repo: libs/common/src/version.rs:119-164 (`TryFrom<&str>`).
`version.next()` on the dotted pieces becomes a match on the list of pieces. -/
def parse (s : Text) : Except Error Version :=
  if s = [] then .error .unknownVersion
  else
    let parts := split '-' s
    match parts with
    | [] => .error .unknownVersion   -- `expect`: unreachable, `split` yields at least one piece
    | first :: more =>
      match split '.' first with
      | [] => .error .expectedMajor
      | majorS :: r1 =>
        match parseU32 majorS with
        | none => .error (.invalidComponent majorS)
        | some major =>
          match r1 with
          | [] => .error .expectedMinor
          | minorS :: r2 =>
            match parseU32 minorS with
            | none => .error (.invalidComponent minorS)
            | some minor =>
              match r2 with
              | [] => .error .expectedPatch
              | patchS :: r3 =>
                match parseU32 patchS with
                | none => .error (.invalidComponent patchS)
                | some patch =>
                  match r3 with
                  | [] => .ok ⟨major, minor, patch, none, more.head?⟩
                  | buildS :: _ =>
                    match parseU32 buildS with
                    | none => .error (.invalidComponent buildS)
                    | some build => .ok ⟨major, minor, patch, some build, more.head?⟩

/-- repo: libs/common/src/version.rs:178-198 (`partial_cmp`) -/
def partialCmp (a b : Version) : Option Ordering :=
  if a.major ≠ b.major then some (compare a.major b.major)
  else if a.minor ≠ b.minor then some (compare a.minor b.minor)
  else if a.patch ≠ b.patch then some (compare a.patch b.patch)
  else match a.build, b.build with
    | none, none => some .eq
    | none, some _ => some .lt
    | some _, none => some .gt
    | some x, some y => some (compare x y)

end Verif.Ver
