import Verif.Model.ProjectFile
/-!
Model of how the language server writes the links and the code in the description of a command:
`/repo/hls/src/sqf/hover.rs:84-134` (`markdown`, `markdown_links`) and 161-192 (`markdown_code`).

* The two regular expressions are of the form `open(.+?)close`. `find` gives what the group stands for in each of the
  matches, from the left, none of them overlapping.
* `markdown_feature` (lines 136-159) is a parameter here, see `Verif.WikiFeature`.
-/
namespace Verif.WikiLinks
open Verif.ProjectFile (replaceAll)

/-- A kind of mark in a wiki text: how it begins and ends, and what is written for one. -/
structure Mark where
  op : Text
  cl : Text
  put : Text → Text
  /-- the flag `s`: what stands in the mark may be several lines -/
  multi : Bool := false

/-- `.*?close` from here on: the characters before the first `close`, none of which may end the line
unless there may be several. -/
def upTo (multi : Bool) (cl : Text) : Text → Option Text
  | [] => if cl.isPrefixOf [] then some [] else none
  | c :: s =>
    if cl.isPrefixOf (c :: s) then some []
    else if c = '\n' ∧ multi = false then none
    else (upTo multi cl s).map (c :: ·)

/-- `.+?close` from here on: at least one character. -/
def group (multi : Bool) (cl : Text) : Text → Option Text
  | [] => none
  | c :: s => if c = '\n' ∧ multi = false then none else (upTo multi cl s).map (c :: ·)

/-- `regex.captures_iter`, repo: hls/src/sqf/hover.rs:93-96, 114-118, 163-167, 172-176, 184-188. The number counts the characters of a match that
are still to be passed over. -/
def find (m : Mark) : Nat → Text → List Text
  | _, [] => []
  | k + 1, _ :: s => find m k s
  | 0, c :: s =>
    if m.op.isPrefixOf (c :: s) then
      match group m.multi m.cl ((c :: s).drop m.op.length) with
      | some x => x :: find m (m.op.length + x.length + m.cl.length - 1) s
      | none => find m 0 s
    else find m 0 s

/-- One of the loops, repo: hls/src/sqf/hover.rs:95-111, 117-132, 166-169, 175-181 and 187-190: for each match in the text as it was, all that
is written like it is replaced in the text as it now is. -/
def pass (m : Mark) (s : Text) : Text :=
  (find m 0 s).foldl (fun t x => replaceAll (m.op ++ x ++ m.cl) (m.put x) t) s

/-- repo: hls/src/sqf/hover.rs:10 -/
def wiki : Text := "https://community.bistudio.com/wiki/".toList

/-- `replace(' ', "_")` -/
def underscored (s : Text) : Text := s.map (fun c => if c = ' ' then '_' else c)

/-- `[text](url)` -/
def mdLink (text url : Text) : Text := ['['] ++ text ++ [']', '('] ++ url ++ [')']

/-- `[[link|text]]` and `[[link]]`, repo: hls/src/sqf/hover.rs:96-110 -/
def square : Mark where
  op := ['[', '[']
  cl := [']', ']']
  put link :=
    match split '|' link with
    | page :: text :: _ => mdLink text (wiki ++ underscored page)
    | _ => mdLink link (wiki ++ link)

/-- `{{Link|link}}`, repo: hls/src/sqf/hover.rs:118-130 -/
def curly (name : Text) : Mark where
  op := ['{', '{', 'L', 'i', 'n', 'k', '|']
  cl := ['}', '}']
  put link :=
    if link.head? = some '#' then
      mdLink (link.dropWhile (· = '#')) (wiki ++ underscored name ++ underscored link)
    else mdLink link (wiki ++ link)

/-- `markdown_links`, repo: hls/src/sqf/hover.rs:90-134 -/
def markdownLinks (name source : Text) : Text := pass (curly name) (pass square source)

/-- `<sqf inline>…</sqf>`, repo: hls/src/sqf/hover.rs:163-168 -/
def inlineCode : Mark where
  op := ['<', 's', 'q', 'f', ' ', 'i', 'n', 'l', 'i', 'n', 'e', '>']
  cl := ['<', '/', 's', 'q', 'f', '>']
  put text := ['`'] ++ text ++ ['`']
  multi := true

/-- `<sqf>…</sqf>`, repo: hls/src/sqf/hover.rs:172-180 -/
def blockCode : Mark where
  op := ['<', 's', 'q', 'f', '>']
  cl := ['<', '/', 's', 'q', 'f', '>']
  put text := ['`', '`', '`', 's', 'q', 'f', '\n'] ++ text ++ ['\n', '`', '`', '`']
  multi := true

/-- `{{hl|…}}`, repo: hls/src/sqf/hover.rs:184-189 -/
def highlight : Mark where
  op := ['{', '{', 'h', 'l', '|']
  cl := ['}', '}']
  put text := ['`'] ++ text ++ ['`']

/-- `markdown_code`, repo: hls/src/sqf/hover.rs:161-192 -/
def markdownCode (source : Text) : Text := pass highlight (pass blockCode (pass inlineCode source))

/-- `markdown`, repo: hls/src/sqf/hover.rs:84-88 -/
def markdown (feature : Text → Text) (name s : Text) : Text := markdownLinks name (feature (markdownCode s))

end Verif.WikiLinks
