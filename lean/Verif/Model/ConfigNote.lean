import Verif.Model.Processed
/-!
Model of the note that is put under the report of a syntax error of a config: the processed line with the error,
`libs/config/src/analyze/chumsky.rs:36-63`.

The span of the error is in characters, since the parser reads the characters of the processed text. The label of the
report and whether there is a report at all is the subject of `Verif.Labels`.
-/
namespace Verif.ConfigNote
open Verif.Processed Verif.Preproc

/-- `u8::is_ascii_whitespace`. -/
def isWs (b : UInt8) : Bool := b == 0x20 || b == 0x09 || b == 0x0A || b == 0x0C || b == 0x0D

/-- The first loop, `chumsky.rs:44-46`: back to a line feed or to the start. -/
def back (b : List UInt8) : Nat → Except PrErr Nat
  | 0 => .ok 0
  | s + 1 => match b[s + 1]? with
    | none => .error .panic
    | some c => if c = 0x0A then .ok (s + 1) else back b s

/-- The second loop, `chumsky.rs:47-51`; the first number is how far the start of the span still is. -/
def forward (b : List UInt8) : Nat → Nat → Except PrErr Nat
  | 0, s => .ok s
  | k + 1, s => match b[s]? with
    | none => .error .panic
    | some c => if isWs c then forward b k (s + 1) else .ok s

/-- The third loop, `chumsky.rs:53-57`; the first number is how far the end of the text still is. -/
def lineEnd (b : List UInt8) : Nat → Nat → Except PrErr Nat
  | 0, e => .ok e
  | k + 1, e => match b[e]? with
    | none => .error .panic
    | some c => if c = 0x0A then .ok e else lineEnd b k (e + 1)

/-- `chumsky.rs:41-59`: what follows the words "The processed output of the line with the error was:". An empty text
is never reported (`chumsky.rs:38`), so that the subtraction in line 43 does not wrap. -/
def note (output : Text) (start stop : Nat) : Except PrErr (List UInt8) :=
  let b := bytesOf output
  match back b (min start (b.length - 1)) with
  | .error e => .error e
  | .ok s => match forward b (start - s) s with
    | .error e => .error e
    | .ok s => match lineEnd b (b.length - stop) stop with
      | .error e => .error e
      | .ok e => extract output s e

end Verif.ConfigNote
