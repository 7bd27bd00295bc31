import Mathlib.Data.List.Sort
import Verif.Model.Prefix
import Verif.Model.Stringtable
/-!
Model of reading and writing a stringtable as text, `/repo/libs/stringtable/src/{lib,package,key}.rs`, of the sort
command, `/repo/bin/src/commands/localization/sort.rs`, and of the lint for unsorted stringtables,
`/repo/libs/stringtable/src/analyze/lints/01_sorted.rs`. A line that cannot be read (not UTF-8) is not modelled: text is
a list of characters. The XML reader (`quick_xml::de::from_reader`) is a parameter. The XML writer
(`quick_xml::se::Serializer`) is written out for the elements of a stringtable.
-/
namespace Verif.StringtableXml
open Verif.Prefix (trim lines isWs)
open Verif.Stringtable (Lang)

/-! Pieces of text (named, so that proofs can treat them as a whole). -/
def ampS : Text := "&amp;".toList
def ltS : Text := "&lt;".toList
def gtS : Text := "&gt;".toList
def quotS : Text := "&quot;".toList
def ampAmpS : Text := "&amp;amp;".toList
def openS : Text := "<!--".toList
def closeS : Text := "-->".toList
def keyS : Text := "<Key".toList
def endKeyS : Text := "</Key>".toList
def endS : Text := "</".toList
def packageN : Text := "Package".toList
def containerN : Text := "Container".toList
def keyIdS : Text := "<Key ID=\"".toList
def quoteS : Text := "\">".toList
def nameEqS : Text := " name=\"".toList
def fourS : Text := "    ".toList
def endProjectS : Text := "</Project>".toList
def projectNameS : Text := "<Project name=\"".toList

/-- repo: libs/stringtable/src/key.rs:15-90, texts as characters. -/
structure Key where
  id : Text
  text : Lang → Option Text

/-- repo: libs/stringtable/src/package.rs:6-15 -/
inductive Package where
  | mk (name : Text) (keys : List Key) (containers : List Package)

def Package.name : Package → Text | .mk n _ _ => n

/-- `(String, String, Option<String>)`: a comment, the line after it and the line of the key it is in,
repo: libs/stringtable/src/lib.rs:24. -/
structure Comment where
  before : Text
  after : Text
  key : Option Text
deriving DecidableEq

/-- What `quick_xml` reads: the fields that are not skipped, repo: libs/stringtable/src/lib.rs:16-21. -/
structure Data where
  name : Text
  packages : List Package

/-- repo: libs/stringtable/src/lib.rs:16-25 -/
structure Project where
  data : Data
  comments : List Comment

/-- `Ord for String`. (The order of code points is that of the UTF-8 bytes.) -/
def textLe : Text → Text → Bool
  | [], _ => true
  | _ :: _, [] => false
  | a :: as, b :: bs => decide (a.toNat < b.toNat) || (a == b && textLe as bs)

/-! ### Sorting -/

/-- `sort_by(|a, b| a.id().cmp(b.id()))`, a stable sort, repo: libs/stringtable/src/package.rs:34. -/
def sortKeys (ks : List Key) : List Key := ks.insertionSort (fun a b => textLe a.id b.id = true)

mutual
/-- repo: libs/stringtable/src/package.rs:33-38 (`Package::sort`) -/
def sortPackage : Package → Package
  | .mk n ks cs => .mk n (sortKeys ks) (sortContainers cs)
/-- the loop over the containers, repo: libs/stringtable/src/package.rs:35-37 -/
def sortContainers : List Package → List Package
  | [] => []
  | c :: cs => sortPackage c :: sortContainers cs
end

/-- repo: libs/stringtable/src/lib.rs:38-43 (`Project::sort`) -/
def Data.sort (d : Data) : Data :=
  { d with packages := (d.packages.insertionSort (fun a b => textLe a.name b.name = true)).map sortPackage }

/-! ### Reading -/

/-- The state of the loop over the lines, repo: libs/stringtable/src/lib.rs:50-53. -/
structure Reading where
  buffer : Text
  reading : Bool
  comments : List Comment
  inKey : Option Text

/-- `buffer.push('\n')` when a comment is being read, repo: libs/stringtable/src/lib.rs:62-64. -/
def Reading.newLine (s : Reading) : Reading := if s.reading then { s with buffer := s.buffer ++ ['\n'] } else s

/-- a line that opens a comment, repo: libs/stringtable/src/lib.rs:65-70 -/
def Reading.openComment (s : Reading) (t : Text) : Reading :=
  if openS <+: t then
    { s with reading := true, buffer := if s.buffer = [] then [] else s.buffer ++ ['\n'] }
  else s

/-- the line after comments, repo: libs/stringtable/src/lib.rs:71-78 -/
def Reading.attach (s : Reading) (t : Text) : Reading :=
  if s.reading = false ∧ s.buffer ≠ [] then
    { s with comments := s.comments ++ [⟨trim s.buffer, t, s.inKey⟩], buffer := [] }
  else s

/-- a line of a comment, repo: libs/stringtable/src/lib.rs:79-84 -/
def Reading.collect (s : Reading) (l t : Text) : Reading :=
  if s.reading then
    { s with buffer := s.buffer ++ l, reading := if closeS <:+ t then false else true }
  else s

/-- whether a key is open, repo: libs/stringtable/src/lib.rs:85-91 -/
def Reading.track (s : Reading) (t : Text) : Reading :=
  if s.reading then s
  else if keyS <+: t then { s with inKey := some t }
  else if endKeyS <+: t then { s with inKey := none }
  else s

/-- The body of the loop, repo: libs/stringtable/src/lib.rs:56-92. -/
def Reading.line (s : Reading) (l : Text) : Reading :=
  let t := trim l
  ((((s.newLine).openComment t).attach t).collect l t).track t

/-- `l.replace('&', "&amp;")`, repo: libs/stringtable/src/lib.rs:92 -/
def doubleAmp (l : Text) : Text := l.flatMap fun c => if c = '&' then ampS else [c]

/-- `Ord for (String, String, Option<String>)` -/
def commentLe (a b : Comment) : Bool :=
  if a.before ≠ b.before then textLe a.before b.before
  else if a.after ≠ b.after then textLe a.after b.after
  else match a.key, b.key with
    | none, _ => true
    | some _, none => false
    | some x, some y => textLe x y

/-- `comments.sort(); comments.dedup();`, repo: libs/stringtable/src/lib.rs:100-101 -/
def tidy (cs : List Comment) : List Comment :=
  (cs.insertionSort (fun a b => commentLe a b = true)).destutter (· ≠ ·)

/-- The comments of a text, repo: libs/stringtable/src/lib.rs:50-101. -/
def comments (src : Text) : List Comment :=
  tidy ((lines src).foldl Reading.line ⟨[], false, [], none⟩).comments

/-- repo: libs/stringtable/src/lib.rs:49-106 (`Project::from_reader`) -/
def fromReader (parse : Text → Option Data) (src : Text) : Option Project :=
  (parse (joinWith '\n' ((lines src).map doubleAmp))).map fun d => ⟨d, comments src⟩

/-! ### Writing -/

/-- `quick_xml::escape::minimal_escape`, used by repo: libs/stringtable/src/key.rs:5-13. -/
def minEscape (t : Text) : Text := t.flatMap fun c =>
  if c = '&' then ampS else if c = '<' then ltS else [c]

/-- How the serializer escapes the text of an element (`QuoteLevel::Partial`). -/
def textEscape (t : Text) : Text := t.flatMap fun c =>
  if c = '&' then ampS else if c = '<' then ltS else if c = '>' then gtS else [c]

/-- How the serializer escapes an attribute (`QuoteLevel::Partial`, double quotes). -/
def attrEscape (t : Text) : Text := t.flatMap fun c =>
  if c = '&' then ampS else if c = '<' then ltS else if c = '>' then gtS
  else if c = '"' then quotS else [c]

/-- The element of a language (`rename_all = "PascalCase"`), repo: libs/stringtable/src/key.rs:16. -/
def tag : Lang → Text
  | .original => "Original".toList | .english => "English".toList | .czech => "Czech".toList
  | .french => "French".toList | .spanish => "Spanish".toList | .italian => "Italian".toList
  | .polish => "Polish".toList | .portuguese => "Portuguese".toList | .russian => "Russian".toList
  | .german => "German".toList | .korean => "Korean".toList | .japanese => "Japanese".toList
  | .chinese => "Chinese".toList | .chinesesimp => "Chinesesimp".toList | .turkish => "Turkish".toList
  | .swedish => "Swedish".toList | .slovak => "Slovak".toList | .serbocroatian => "Serbocroatian".toList
  | .norwegian => "Norwegian".toList | .icelandic => "Icelandic".toList | .hungarian => "Hungarian".toList
  | .greek => "Greek".toList | .finnish => "Finnish".toList | .dutch => "Dutch".toList

/-- The order of the fields, repo: libs/stringtable/src/key.rs:20-90. -/
def langs : List Lang :=
  [.original, .english, .czech, .french, .spanish, .italian, .polish, .portuguese, .russian, .german, .korean,
   .japanese, .chinese, .chinesesimp, .turkish, .swedish, .slovak, .serbocroatian, .norwegian, .icelandic,
   .hungarian, .greek, .finnish, .dutch]

/-- `ser.indent(' ', 4)`, repo: libs/stringtable/src/lib.rs:117 -/
def indent (n : Nat) : Text := List.replicate (4 * n) ' '

/-- An element with child elements; without any it takes one line (`expand_empty_elements`),
repo: libs/stringtable/src/lib.rs:118. -/
def element (n : Nat) (start stop : Text) (children : List Text) : List Text :=
  if children = [] then [indent n ++ start ++ stop]
  else (indent n ++ start) :: children ++ [indent n ++ stop]

/-- A text, repo: libs/stringtable/src/key.rs:5-13 and 20-90. -/
def textLine (n : Nat) (l : Lang) (t : Text) : Text :=
  indent n ++ '<' :: tag l ++ '>' :: textEscape (minEscape t) ++ endS ++ tag l ++ ['>']

/-- Texts that are not set are left out (`skip_serializing_if`), repo: libs/stringtable/src/key.rs:17-90. -/
def keyLines (n : Nat) (k : Key) : List Text :=
  element n (keyIdS ++ attrEscape k.id ++ quoteS) endKeyS
    (langs.filterMap fun l => (k.text l).map (textLine (n + 1) l))

mutual
/-- repo: libs/stringtable/src/package.rs:6-15; the element is `Package` in a project and `Container` in a package. -/
def packageLines (elem : Text) (n : Nat) : Package → List Text
  | .mk name ks cs =>
    element n ('<' :: elem ++ nameEqS ++ attrEscape name ++ quoteS) (endS ++ elem ++ ['>'])
      (ks.flatMap (keyLines (n + 1)) ++ containerLines (n + 1) cs)
def containerLines (n : Nat) : List Package → List Text
  | [] => []
  | c :: cs => packageLines containerN n c ++ containerLines n cs
end

/-- `self.serialize(ser)`, repo: libs/stringtable/src/lib.rs:115-119 -/
def serialize (d : Data) : Text :=
  joinWith '\n' (element 0 (projectNameS ++ attrEscape d.name ++ quoteS) endProjectS
    (d.packages.flatMap (packageLines packageN 1)))

/-- The loop of `replace`: `n` characters of a match are still to be skipped. -/
def singleAmpFrom : Nat → Text → Text
  | _, [] => []
  | n + 1, _ :: s => singleAmpFrom n s
  | 0, c :: s => if ampAmpS <+: c :: s then '&' :: singleAmpFrom 8 s else c :: singleAmpFrom 0 s

/-- `line.replace("&amp;amp;", "&")`, repo: libs/stringtable/src/lib.rs:144 -/
def singleAmp (l : Text) : Text := singleAmpFrom 0 l

/-- The comments written before a line, repo: libs/stringtable/src/lib.rs:130-143. -/
def commentsBefore (cs : List Comment) (inKey : Option Text) (l : Text) : Text :=
  cs.flatMap fun c =>
    if c.after <+: trim l ∧ inKey = c.key then
      l.takeWhile isWs ++ (if endS <+: trim l then fourS else []) ++ c.before ++ ['\n']
    else []

/-- The loop over the lines, repo: libs/stringtable/src/lib.rs:122-151. -/
def writeLines (cs : List Comment) : Bool → Option Text → List Text → Text
  | _, _, [] => []
  | clear, inKey, l :: ls =>
    let inKey := if clear then none else inKey
    commentsBefore cs inKey l ++ singleAmp l ++ '\n' ::
      (if keyS <+: trim l then writeLines cs false (some (trim l)) ls
       else if endKeyS <+: trim l then writeLines cs true inKey ls
       else writeLines cs false inKey ls)

/-- repo: libs/stringtable/src/lib.rs:112-113 -/
def header : Text := "<?xml version=\"1.0\" encoding=\"utf-8\"?>".toList

/-- repo: libs/stringtable/src/lib.rs:112-154 (`Project::to_writer`) -/
def toWriter (p : Project) : Text :=
  header ++ '\n' :: writeLines p.comments false none (lines (serialize p.data ++ ['\n']))

/-! ### The command and the lint -/

/-- repo: bin/src/commands/localization/sort.rs:52-54 and libs/stringtable/src/analyze/lints/01_sorted.rs:55-58 -/
def Project.arrange (onlyLang : Bool) (p : Project) : Project :=
  if onlyLang then p else { p with data := p.data.sort }

/-- What the file holds after the command; `none` if it cannot be read as a stringtable,
repo: bin/src/commands/localization/sort.rs:49-75. -/
def sortFile (parse : Text → Option Data) (onlyLang : Bool) (src : Text) : Option Text :=
  (fromReader parse src).map fun p => toWriter (p.arrange onlyLang)

/-- The command over the files (paths and contents) in the order they are found. It ends at the first that cannot be read,
without an error, repo: bin/src/commands/localization/sort.rs:46-79. -/
def sortAll (parse : Text → Option Data) (onlyLang : Bool) : List (Text × Text) → List (Text × Text)
  | [] => []
  | f :: fs =>
    match sortFile parse onlyLang f.2 with
    | none => f :: fs
    | some out => (f.1, out) :: sortAll parse onlyLang fs

/-- Whether a stringtable counts as unsorted, repo: libs/stringtable/src/analyze/lints/01_sorted.rs:54-66. -/
def unsorted (onlyLang : Bool) (p : Project) (existing : Text) : Bool :=
  trim (toWriter (p.arrange onlyLang)) ≠ trim existing

/-- A report: one path, or several counted together, repo: libs/stringtable/src/analyze/lints/01_sorted.rs:84-87. -/
inductive Unsorted where
  | path (p : Text)
  | paths (ps : List Text)
deriving DecidableEq

/-- repo: libs/stringtable/src/analyze/lints/01_sorted.rs:50-80 (`Runner::run`) -/
def lint (onlyLang : Bool) (target : List (Project × Text × Text)) : List Unsorted :=
  let us := (target.filter fun x => unsorted onlyLang x.1 x.2.2).map fun x => x.2.1
  if us.length ≤ 3 then us.map .path else [.paths us]

/-- What the module hands to the lint, and the stringtables it reports as invalid,
repo: bin/src/modules/stringtables/mod.rs:39-66. `files`: the paths and contents of the files named `stringtable.xml`
under `addons` and `optionals`. -/
def readAll (parse : Text → Option Data) (files : List (Text × Text)) : List (Project × Text × Text) × List Text :=
  (files.filterMap fun f => (fromReader parse f.2).map fun p => (p, f.1, f.2),
   (files.filter fun f => (fromReader parse f.2).isNone).map Prod.fst)

end Verif.StringtableXml
