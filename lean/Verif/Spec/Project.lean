import Verif.Model.Project
/-!
Specification for C88: files with the version of a project.
-/
namespace Verif.Project

/-- A line of a file with a version. -/
inductive Line
  /-- Anything. -/
  | other (t : Text)
  /-- `#define MAJOR 03 // comment`; the name can be longer, as in `PATCHLVL`. -/
  | define (lead : Text) (c : Comp) (suffix gap : Text) (zeros n : Nat) (trail : Text) (comment : Option Text)

/-- The text of a comment. -/
def commentText : Option Text → Text
  | some t => '/' :: '/' :: t
  | none => []

/-- The text of a line. -/
def Line.text : Line → Text
  | .other t => t
  | .define lead c suffix gap zeros n trail comment =>
    lead ++ "#define ".toList ++ c.text ++ suffix ++ gap ++ ' ' :: List.replicate zeros '0' ++ decimal n ++ trail ++
      commentText comment

/-- White space within a line. -/
def Blank (t : Text) : Prop := ∀ c ∈ t, Prefix.isWs c = true ∧ c ≠ '\n'

/-- A line that defines a part, or one that does not look like it. -/
def Line.Ok : Line → Prop
  | .other t => '\n' ∉ t ∧ ∀ (c : Comp) (a b : Text), Blank a → t ≠ a ++ "#define ".toList ++ c.text ++ b
  | .define lead _ suffix gap _ n trail comment =>
    Blank lead ∧ (∀ x ∈ suffix, Prefix.isWs x = false ∧ x ≠ '/') ∧ Blank gap ∧ n < 2 ^ 32 ∧ Blank trail ∧
      ∀ t, comment = some t → '\n' ∉ t

/-- What the first line for a part says. -/
inductive Says (c : Comp) : List Line → Nat → Prop
  | here {lead suffix gap : Text} {zeros n : Nat} {trail : Text} {comment : Option Text} {ls : List Line} :
    Says c (.define lead c suffix gap zeros n trail comment :: ls) n
  | other {t : Text} {ls : List Line} {n : Nat} : Says c ls n → Says c (.other t :: ls) n
  | skip {lead : Text} {c' : Comp} {suffix gap : Text} {zeros m n : Nat} {trail : Text} {comment : Option Text}
      {ls : List Line} : c' ≠ c → Says c ls n → Says c (.define lead c' suffix gap zeros m trail comment :: ls) n

/-- No line is for a part. -/
def Silent (c : Comp) (ls : List Line) : Prop :=
  ∀ lead c' suffix gap zeros n trail comment, Line.define lead c' suffix gap zeros n trail comment ∈ ls → c' ≠ c

/-- A text begins with white space and the definition of a part. -/
def Begins (c : Comp) (l : Text) : Prop := ∃ a b, (∀ x ∈ a, Prefix.isWs x = true) ∧ l = a ++ "#define ".toList ++ c.text ++ b

/-- In any file: the first line that begins with the definition of a part has, up to `//` or its end and without white space
behind it, a blank and a number at the end. -/
def Found (s : Text) (c : Comp) (n : Nat) : Prop :=
  ∃ pre l post, split '\n' s = pre ++ l :: post ∧ (∀ x ∈ pre, ¬ Begins c x) ∧ Begins c l ∧
    ∃ a d ws rest, l = a ++ ' ' :: d ++ ws ++ rest ∧ (∀ x ∈ ws, Prefix.isWs x = true) ∧
      (rest = [] ∨ ∃ t, rest = '/' :: '/' :: t) ∧ ¬ (['/', '/'] <:+: a ++ ' ' :: d ++ ws) ∧ ' ' ∉ d ∧ parseU32 d = some n

end Verif.Project
