import Verif.Lib.Bytes
import Verif.Lib.Text
/-!
Model of the messages between the program and the game: `/repo/bin/src/controller/mod.rs:89-143, 180-193`, the other end in
`/repo/arma/src/lib.rs:26-71, 101-108`, and the mission in `/repo/bin/src/controller/profile.rs:29-49`.

* The sockets do not block (`mod.rs:73`, `lib.rs:25`). `read_exact` of the standard library reads until its buffer is full and
  gives up when nothing is there; what it had read until then is lost.
* What has arrived when the reader looks is a parameter: the bytes that arrive before the length is read, and those that arrive
  between the length and the message.
* Messages are bytes here. That they are valid JSON of the right shape is left out: otherwise the program stops.
* The game's end skips a length of four bytes 255 (`lib.rs:30`); messages that long are left out.
-/
namespace Verif.Messages

/-- `send`, repo: bin/src/controller/mod.rs:185-190; the same in arma/src/lib.rs:102-106. -/
def frame (m : Bytes) : Bytes := le32 m.length ++ m

/-- Messages sent one after the other. -/
def frames (ms : List Bytes) : Bytes := ms.flatMap frame

/-- `Read::read_exact` for a socket that does not block: what was read, and what is left in the socket. -/
def readExact (n : Nat) (there : Bytes) : Option Bytes × Bytes :=
  if there.length < n then (none, []) else (some (there.take n), there.drop n)

/-- One pass of the loop, repo: bin/src/controller/mod.rs:102-108 and arma/src/lib.rs:27-36: the message if there is one and what is
left in the socket; nothing if the program stops. -/
def look (before between there : Bytes) : Option (Option Bytes × Bytes) :=
  match readExact 4 (there ++ before) with
  | (none, left) => some (none, left ++ between)
  | (some len, left) => match readExact (leValue len) (left ++ between) with
    | (none, _) => none
    | (some m, left) => some (some m, left)

/-- The loop, repo: bin/src/controller/mod.rs:91-143. -/
def run : List (Bytes × Bytes) → Bytes → Option (List Bytes × Bytes)
  | [], there => some ([], there)
  | (a, b) :: rest, there => match look a b there with
    | none => none
    | some (m, left) => (run rest left).map fun (ms, l) => (m.toList ++ ms, l)

/-- `str::split_once` -/
def splitOnce (p : Text) : Text → Option (Text × Text)
  | [] => if p = [] then some ([], []) else none
  | c :: s =>
    if p.isPrefixOf (c :: s) then some ([], (c :: s).drop p.length)
    else (splitOnce p s).map fun (a, b) => (c :: a, b)

/-- What is looked for in the path of a mission. -/
def autotest : Text := "\\autotest\\".toList

/-- A message of the game. -/
inductive Message
  | mission (path : Text)
  | log (text : Text)
  | other (m : Bytes)
  deriving DecidableEq, Repr

/-- What is done with a message. -/
inductive Routed
  | noted
  | logged
  /-- given to the action with this index -/
  | action (i : Nat) (m : Bytes)
  | dropped
  | stopped
  deriving DecidableEq, Repr

/-- The mission that is noted, repo: bin/src/controller/mod.rs:113-120. -/
def note (path : Text) (current : Option Text) : Option Text :=
  match splitOnce autotest path with
  | some (_, m) => some (m.filter (· ≠ '\\'))
  | none => current

/-- repo: bin/src/controller/mod.rs:111-141; `actions` are the files of the missions of each action. -/
def route (actions : List (List Text)) (current : Option Text) : Message → Routed × Option Text
  | .mission path => (.noted, note path current)
  | .log _ => (.logged, current)
  | .other m => match current with
    | none => (.dropped, current)
    | some c => match actions.findIdx? fun ms => ms.contains c with
      | some i => (.action i m, current)
      | none => (.stopped, current)

/-- The path of a mission as it is written for the game, repo: bin/src/controller/profile.rs:33-43; `profile` is the text of the folder
with backslashes. -/
def missionPath (profile file : Text) : Text := profile ++ autotest ++ file

end Verif.Messages
