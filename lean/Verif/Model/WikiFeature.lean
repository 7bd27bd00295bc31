import Verif.Model.WikiLinks
import Verif.Model.Prefix
/-!
Model of how the language server writes the feature boxes in the description of a command:
`/repo/hls/src/sqf/hover.rs:136-159` (`markdown_feature`).

* The regular expression is a list of items; `all` gives the ways in which they match, the preferred one first, as the
  crate `regex` prefers them (greedy: longer first; lazy: shorter first).
* `char::to_uppercase` is a parameter.
-/
namespace Verif.WikiFeature
open Verif.ProjectFile (replaceAll)
open Verif.Prefix (isWs)

/-- An item of a regular expression. -/
inductive Item where
  /-- a character of a kind -/
  | one (p : Char → Bool)
  /-- `\s?` -/
  | blank
  /-- `(.+?)` -/
  | lazy
  /-- `(.+)` -/
  | greedy

/-- `.+?` with the rest `f`: the shorter ones first. -/
def lazyFrom (f : Text → List (List Text × Text)) : Text → Text → List (List Text × Text)
  | _, [] => []
  | acc, c :: s => ((f s).map fun r => ((acc ++ [c]) :: r.1, r.2)) ++ lazyFrom f (acc ++ [c]) s

/-- `.+` with the rest `f`: the longer ones first. -/
def greedyFrom (f : Text → List (List Text × Text)) : Text → Text → List (List Text × Text)
  | _, [] => []
  | acc, c :: s => greedyFrom f (acc ++ [c]) s ++ (f s).map fun r => ((acc ++ [c]) :: r.1, r.2)

/-- The matches at the beginning of a text: what the groups stand for, and what is behind the match. -/
def all : List Item → Text → List (List Text × Text)
  | [], s => [([], s)]
  | .one p :: is, s =>
    match s with
    | c :: s => if p c then all is s else []
    | [] => []
  | .blank :: is, s =>
    match s with
    | c :: t => (if isWs c then all is t else []) ++ all is (c :: t)
    | [] => all is []
  | .lazy :: is, s => lazyFrom (all is) [] s
  | .greedy :: is, s => greedyFrom (all is) [] s

/-- A letter in either case (the flag `i`). -/
def letter (c : Char) : Item := .one fun d => d.toLower = c
/-- A character. -/
def char (c : Char) : Item := .one fun d => d = c

/-- `\{\{\s?Feature\s?\|\s?(.+?)\s?\|\s?(.+)\}\}` with the flags `mis`, repo: hls/src/sqf/hover.rs:138 -/
def box : List Item :=
  [char '{', char '{', .blank, letter 'f', letter 'e', letter 'a', letter 't', letter 'u', letter 'r', letter 'e',
    .blank, char '|', .blank, .lazy, .blank, char '|', .blank, .greedy, char '}', char '}']

/-- `regex.captures_iter`, repo: hls/src/sqf/hover.rs:139-142: each match with what its groups stand for. -/
def find : Nat → Text → List (Text × List Text)
  | _, [] => []
  | k + 1, _ :: s => find k s
  | 0, c :: s =>
    match (all box (c :: s)).head? with
    | some (groups, rest) =>
      ((c :: s).take ((c :: s).length - rest.length), groups) :: find ((c :: s).length - rest.length - 1) s
    | none => find 0 s

/-- The kind of the box, with a capital, repo: hls/src/sqf/hover.rs:147-153 -/
def capital (upper : Char → Text) : Text → Text
  | [] => []
  | c :: s => upper c ++ s

/-- What is written for a box, repo: hls/src/sqf/hover.rs:141-155 -/
def put (upper : Char → Text) : List Text → Text
  | [kind, text] => ['#', '#', '#', ' '] ++ capital upper kind ++ ['\n'] ++ text
  | _ => []

/-- `markdown_feature`, repo: hls/src/sqf/hover.rs:136-159 -/
def markdownFeature (upper : Char → Text) (s : Text) : Text :=
  (find 0 s).foldl (fun t m => replaceAll m.1 (put upper m.2) t) s

end Verif.WikiFeature
