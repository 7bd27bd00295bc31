import Verif.Model.ProjectFile
import Verif.Model.Reporting
/-!
Model of parts of the language server: `/repo/hls/src/diag_manager.rs`, `/repo/hls/src/workspace.rs:58-77, 127-148` and
`to_lsp` of `/repo/libs/workspace/src/reporting/diagnostic/mod.rs:274-330`. For hovering see `Verif.Model.Hover`.

* Urls and paths are bytes, diagnostics are of any type `D`.
* A `DashMap` or `HashMap` is a list; wherever it is iterated over the list is taken in any order.
* What is published is a list of pairs, in order; the editor replaces what it shows for a file by what is published last.
-/
namespace Verif.Hls

abbrev Url := Bytes
abbrev Scope := Bytes

/-! ### What is shown in the editor -/

/-- The map `current` of `DiagWorker`, repo: hls/src/diag_manager.rs:66-70. -/
abbrev Current (D : Type) := List ((Scope × Url) × List D)

/-- `set_current`, repo: hls/src/diag_manager.rs:80-82 -/
def setCurrent {D : Type} (scope : Scope) (url : Url) (ds : List D) (c : Current D) : Current D :=
  c.filter (fun x => !decide (x.1 = (scope, url))) ++ [((scope, url), ds)]

/-- `clear_current`, repo: hls/src/diag_manager.rs:84-86 -/
def clearCurrent {D : Type} (scope : Scope) (c : Current D) : Current D := c.filter fun x => !decide (x.1.1 = scope)

/-- `entry(url).or_insert_with(Vec::new).extend(diags)` -/
def extend {D : Type} (url : Url) (ds : List D) : List (Url × List D) → List (Url × List D)
  | [] => [(url, ds)]
  | (u, l) :: r => if u = url then (u, l ++ ds) :: r else (u, l) :: extend url ds r

/-- The loop of `sync`, repo: hls/src/diag_manager.rs:95-102; the other half collects `touched`. -/
def byFile {D : Type} (c : Current D) : List (Url × List D) :=
  c.foldl (fun acc x => extend x.1.2 x.2 acc) []

/-- The files with diagnostics. -/
def touched {D : Type} (c : Current D) : List Url := (byFile c).map (·.1)

/-- What is going to be published, in order. -/
abbrev Task (D : Type) := List (Url × List D)

/-- `sync`, repo: hls/src/diag_manager.rs:88-122, for one order of each of the maps and sets: `order` is `current` as it
is iterated over, `clear` the files that were touched the last time, `pub` what is published of `diags_by_file`. -/
structure Sync {D : Type} (c : Current D) (last : List Url) (last' : List Url) (t : Task D) : Prop where
  run : ∃ (order : Current D) (clear : List Url) (pub : Task D), order.Perm c ∧ clear.Perm last ∧ pub.Perm (byFile order) ∧ last' = touched order ∧
    t = clear.map (fun u => (u, [])) ++ pub

/-- The worker, the tasks that were started and are not finished, and what the editor shows. -/
structure State (D : Type) where
  current : Current D
  last : List Url
  tasks : List (Task D)
  shown : Url → List D

/-- `publishDiagnostics` replaces what is shown for the file. -/
def publish {D : Type} (shown : Url → List D) (p : Url × List D) : Url → List D :=
  fun u => if u = p.1 then p.2 else shown u

/-- What can happen. Tasks run at the same time (`tokio::spawn`); each publishes in its order. -/
inductive Step {D : Type} : State D → State D → Prop
  | set {s} (scope url ds) : Step s { s with current := setCurrent scope url ds s.current }
  | clear {s} (scope) : Step s { s with current := clearCurrent scope s.current }
  | sync {s last' t} (h : Sync s.current s.last last' t) : Step s { s with last := last', tasks := s.tasks ++ [t] }
  | publish {s a b p t} (h : s.tasks = a ++ (p :: t) :: b) :
      Step s { s with tasks := a ++ t :: b, shown := Hls.publish s.shown p }
  | done {s a b} (h : s.tasks = a ++ [] :: b) : Step s { s with tasks := a ++ b }

/-- As it begins. -/
def init (D : Type) : State D := ⟨[], [], [], fun _ => []⟩

/-- The end of `check_addon`, repo: hls/src/config/mod.rs:47-52, 110-117: what was found, by file, replaces what was known
in this scope. -/
def check {D : Type} (scope : Scope) (found : List (Url × List D)) (c : Current D) : Current D :=
  found.foldl (fun c x => setCurrent scope x.1 x.2 c) (clearCurrent scope c)

/-! ### Which workspace a file belongs to -/

/-- `zip`, `take_while`, `count`, repo: hls/src/workspace.rs:66-70 -/
def common : Bytes → Bytes → Nat
  | a :: s, b :: t => if a = b then common s t + 1 else 0
  | _, _ => 0

/-- `guess_workspace`, repo: hls/src/workspace.rs:58-77. The workspaces, with the paths of their urls, in the order in which
the map is iterated over. -/
def guess {W : Type} (uri : Bytes) (ws : List (Bytes × W)) : Option (Bytes × W) :=
  (ws.foldl (fun (best : Option (Bytes × W) × Nat) w =>
    let len := common w.1 uri
    if best.2 < len then (some w, len) else best) (none, 0)).1

/-- `join_url`, repo: hls/src/workspace.rs:127-130: the path that is looked for in the workspace. `none` if the program
aborts. -/
def joinUrl (base uri : Bytes) : Option Bytes := if base.isPrefixOf uri then some (uri.drop base.length) else none

/-- A hexadecimal digit as `urlencoding` writes it. -/
def hex (n : Nat) : UInt8 := if n < 10 then (48 + n).toUInt8 else (55 + n).toUInt8

/-- Bytes that `urlencoding::encode` keeps. -/
def unreserved (b : UInt8) : Bool :=
  (48 ≤ b && b ≤ 57) || (65 ≤ b && b ≤ 90) || (97 ≤ b && b ≤ 122) || b = 45 || b = 46 || b = 95 || b = 126

/-- `urlencoding::encode` -/
def encode (p : Bytes) : Bytes :=
  p.flatMap fun b => if unreserved b then [b] else [37, hex (b.toNat / 16), hex (b.toNat % 16)]

/-- `str::replace`, as in `Verif.ProjectFile`, for bytes. -/
def replaceFrom (pat rep : Bytes) : Nat → Bytes → Bytes
  | _, [] => []
  | k + 1, _ :: s => replaceFrom pat rep k s
  | 0, c :: s =>
    if pat.isPrefixOf (c :: s) then rep ++ replaceFrom pat rep (pat.length - 1) s
    else c :: replaceFrom pat rep 0 s

/-- `to_url`, repo: hls/src/workspace.rs:132-143: the path of the url of a file of the workspace. (`set_path` leaves what is
written here as it is. The path of the workspace itself is empty.) -/
def toUrl (base path : Bytes) : Bytes :=
  let path := path.map fun b => if b = 92 then 47 else b
  base ++ replaceFrom [37, 50, 70] [47] 0 (encode path)

/-! ### Positions -/

/-- Line and character, both counted from zero. -/
structure Pos where
  line : Nat
  character : Nat
  deriving DecidableEq, Repr

open Verif.Reporting in
/-- `to_lsp`, one end of a label, repo: libs/workspace/src/reporting/diagnostic/mod.rs:280-300; a file that cannot be read is
left out. `none` where `line_index` aborts. -/
def toPos (text : Text) (offset : Nat) : Option Pos := do
  let s := Reporting.read text
  let i ← lineIndex s offset
  return ⟨i, (columnNumber s i offset).getD 1 - 1⟩

end Verif.Hls
