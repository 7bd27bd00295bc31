import Verif.Model.StringtableXml
/-!
What a stringtable file says, written down line by line and without reference to how HEMTT reads or writes one: a
document of packages, containers, keys and texts; its lines; the file that has them with comments and blank lines in
between.
-/
namespace Verif.StringtableXml.Spec
open Verif.Stringtable (Lang)
open Verif.Prefix (trim)

/-! Pieces of text. -/
def ampS : Text := "&amp;".toList
def openS : Text := "<!--".toList
def closeS : Text := "-->".toList
def keyS : Text := "<Key".toList
def endKeyS : Text := "</Key>".toList
def endS : Text := "</".toList
def keyN : Text := "Key".toList
def idN : Text := "ID".toList
def nameN : Text := "name".toList
def packageN : Text := "Package".toList
def containerN : Text := "Container".toList
def projectN : Text := "Project".toList
def xmlS : Text := "<?xml".toList
def quoteS : Text := "\">".toList
def eqS : Text := "=\"".toList

/-- The languages in the order of the table on the wiki, with the names of their elements. -/
def table : List (Lang × String) :=
  [(.original, "Original"), (.english, "English"), (.czech, "Czech"), (.french, "French"), (.spanish, "Spanish"),
   (.italian, "Italian"), (.polish, "Polish"), (.portuguese, "Portuguese"), (.russian, "Russian"),
   (.german, "German"), (.korean, "Korean"), (.japanese, "Japanese"), (.chinese, "Chinese"),
   (.chinesesimp, "Chinesesimp"), (.turkish, "Turkish"), (.swedish, "Swedish"), (.slovak, "Slovak"),
   (.serbocroatian, "Serbocroatian"), (.norwegian, "Norwegian"), (.icelandic, "Icelandic"),
   (.hungarian, "Hungarian"), (.greek, "Greek"), (.finnish, "Finnish"), (.dutch, "Dutch")]

/-- The name of the element of a language. -/
def elem (l : Lang) : Text := ((table.lookup l).getD "").toList

/-- A key: its identifier and its texts as they stand in the file (entities as written), in their order there. -/
structure SKey where
  id : Text
  texts : List (Lang × Text)

inductive SPackage where
  | mk (name : Text) (keys : List SKey) (containers : List SPackage)

def SPackage.name : SPackage → Text | .mk n _ _ => n

structure Doc where
  name : Text
  packages : List SPackage

/-- A line of the document: how deep it is, the line without indentation, and the opening line of the key it is in. -/
structure Line where
  depth : Nat
  text : Text
  key : Option Text
deriving DecidableEq

def startTag (elem attr value : Text) : Text := '<' :: elem ++ ' ' :: attr ++ eqS ++ value ++ quoteS
def endTag (elem : Text) : Text := endS ++ elem ++ ['>']

def SKey.start (k : SKey) : Text := startTag keyN idN k.id

/-- The lines of a key: its opening line is outside, the texts and the closing line are inside. -/
def SKey.lines (n : Nat) (k : SKey) : List Line :=
  ⟨n, k.start, none⟩ ::
    (k.texts.map fun t => ⟨n + 1, '<' :: elem t.1 ++ '>' :: t.2 ++ endTag (elem t.1), some k.start⟩) ++
    [⟨n, endTag keyN, some k.start⟩]

mutual
def SPackage.lines (e : Text) (n : Nat) : SPackage → List Line
  | .mk name ks cs =>
    ⟨n, startTag e nameN name, none⟩ ::
      (ks.flatMap (SKey.lines (n + 1)) ++ linesOf (n + 1) cs) ++ [⟨n, endTag e, none⟩]
def linesOf (n : Nat) : List SPackage → List Line
  | [] => []
  | c :: cs => c.lines containerN n ++ linesOf n cs
end

def Doc.lines (d : Doc) : List Line :=
  ⟨0, startTag projectN nameN d.name, none⟩ ::
    d.packages.flatMap (SPackage.lines packageN 1) ++ [⟨0, endTag projectN, none⟩]

/-! ### What the XML reader makes of it -/

def SKey.value (k : SKey) : Key := ⟨k.id, fun l => k.texts.lookup l⟩

mutual
def SPackage.value : SPackage → Package
  | .mk n ks cs => .mk n (ks.map SKey.value) (valuesOf cs)
def valuesOf : List SPackage → List Package
  | [] => []
  | c :: cs => c.value :: valuesOf cs
end

def Doc.value (d : Doc) : Data := ⟨d.name, d.packages.map SPackage.value⟩

/-! ### The sorted document -/

/-- Texts language by language, in the order of the table. -/
def SKey.sorted (k : SKey) : SKey := ⟨k.id, table.flatMap fun l => k.texts.filter fun t => t.1 = l.1⟩

mutual
/-- `onlyLang`: keys stay where they are. -/
def SPackage.sorted (onlyLang : Bool) : SPackage → SPackage
  | .mk n ks cs =>
    .mk n ((if onlyLang then ks else ks.insertionSort (fun a b => a.id ≤ b.id)).map SKey.sorted)
      (sortedOf onlyLang cs)
def sortedOf (onlyLang : Bool) : List SPackage → List SPackage
  | [] => []
  | c :: cs => c.sorted onlyLang :: sortedOf onlyLang cs
end

def Doc.sorted (onlyLang : Bool) (d : Doc) : Doc :=
  ⟨d.name, (if onlyLang then d.packages else d.packages.insertionSort (fun a b => a.name ≤ b.name)).map
    (SPackage.sorted onlyLang)⟩

/-! ### Documents that are written back line for line -/

/-- An identifier or a name that needs no escaping. -/
def PlainName (t : Text) : Prop := '&' ∉ t ∧ '<' ∉ t ∧ '>' ∉ t ∧ '"' ∉ t ∧ '\n' ∉ t

/-- A text on one line, without elements in it. Entities are allowed. -/
def PlainText (t : Text) : Prop := '<' ∉ t ∧ '>' ∉ t ∧ '\n' ∉ t

/-- A key has texts, at most one for each language. -/
structure SKey.Ok (k : SKey) : Prop where
  id : PlainName k.id
  some : k.texts ≠ []
  once : (k.texts.map Prod.fst).Nodup
  texts : ∀ t ∈ k.texts, PlainText t.2

mutual
/-- A package has keys or containers. -/
def SPackage.Ok : SPackage → Prop
  | .mk n ks cs => PlainName n ∧ (ks ≠ [] ∨ cs ≠ []) ∧ (∀ k ∈ ks, k.Ok) ∧ okAll cs
def okAll : List SPackage → Prop
  | [] => True
  | c :: cs => c.Ok ∧ okAll cs
end

structure Doc.Ok (d : Doc) : Prop where
  name : PlainName d.name
  some : d.packages ≠ []
  packages : ∀ p ∈ d.packages, p.Ok

/-! ### Files -/

/-- A comment over one or more lines of its own: it opens on the first and closes on the last. -/
structure CommentOk (c : List Text) : Prop where
  opens : ∃ l ls, c = l :: ls ∧ openS <+: trim l ∧ ∀ x ∈ ls, ¬ openS <+: trim x
  closes : ∃ ls l, c = ls ++ [l] ∧ closeS <:+ trim l ∧ (∀ x ∈ ls, ¬ closeS <:+ trim x) ∧
    ¬ keyS <+: trim l ∧ ¬ endKeyS <+: trim l

/-- A line of the file with what stands before it: blank lines, then comments. -/
structure Item where
  gap : List Text
  comments : List (List Text)
  raw : Text
  line : Line

/-- A file. -/
structure Source where
  /-- the XML declaration, if any -/
  head : List Text
  items : List Item
  /-- blank lines -/
  tail : List Text

def Item.lines (i : Item) : List Text := i.gap ++ i.comments.flatten ++ [i.raw]

def Source.lines (s : Source) : List Text := s.head ++ s.items.flatMap Item.lines ++ s.tail

/-- The file holds the document `d`, however it is indented; and each comment stands before a line that occurs once (in
its key), that no other line (of that key) begins with, and that has no entity in it. -/
structure Holds (s : Source) (d : Doc) : Prop where
  head : ∀ l ∈ s.head, xmlS <+: trim l
  lines : s.items.map Item.line = d.lines
  raw : ∀ i ∈ s.items, trim i.raw = i.line.text
  gap : ∀ i ∈ s.items, ∀ l ∈ i.gap, trim l = []
  tail : ∀ l ∈ s.tail, trim l = []
  comments : ∀ i ∈ s.items, ∀ c ∈ i.comments, CommentOk c
  entity : ∀ i ∈ s.items, i.comments ≠ [] → '&' ∉ i.line.text
  once : ∀ i ∈ s.items, i.comments ≠ [] →
    s.items.countP (fun j => i.line.text <+: j.line.text ∧ i.line.key = j.line.key) = 1

def spaces (n : Nat) : Text := List.replicate n ' '

/-- The item as it is written back: the comments, from the first character to the last, on the column of the line (one
deeper before a closing line), then the line on the column for its depth. -/
def Item.out (i : Item) : Text :=
  (if i.comments = [] then []
   else spaces (4 * i.line.depth) ++ (if endS <+: i.line.text then spaces 4 else []) ++
     trim (joinWith '\n' i.comments.flatten) ++ ['\n']) ++
  spaces (4 * i.line.depth) ++ i.line.text ++ ['\n']

/-- The text of the file with `&` doubled, as it is given to the XML reader. -/
def Source.xml (s : Source) : Text :=
  joinWith '\n' (s.lines.map fun l => l.flatMap fun c => if c = '&' then ampS else [c])

/-! ### What a text says -/

/-- A piece of a text in an XML file: a character, or an entity `&name;`. -/
inductive Piece where
  | char (c : Char)
  | entity (name : Text)

/-- How it is written. -/
def Piece.show : Piece → Text
  | .char c => [c]
  | .entity n => '&' :: n ++ [';']

/-- What it says; `ent` gives the meaning of an entity. -/
def Piece.meaning (ent : Text → Text) : Piece → Text
  | .char c => [c]
  | .entity n => ent n

def shown (ps : List Piece) : Text := ps.flatMap Piece.show
def meaning (ent : Text → Text) (ps : List Piece) : Text := ps.flatMap (Piece.meaning ent)

/-- `&` and `<` are not characters of a text. -/
def Piece.Ok : Piece → Prop
  | .char c => c ≠ '&' ∧ c ≠ '<'
  | .entity n => '&' ∉ n ∧ '<' ∉ n ∧ '>' ∉ n ∧ ';' ∉ n

mutual
/-- All keys of a package and its containers. -/
def keysOf : Package → List Key
  | .mk _ ks cs => ks ++ keysOfAll cs
def keysOfAll : List Package → List Key
  | [] => []
  | c :: cs => keysOf c ++ keysOfAll cs
end

end Verif.StringtableXml.Spec
