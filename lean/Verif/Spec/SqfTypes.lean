import Verif.Spec.SqfGame
/-!
Specification of what the wiki says about the types of values and about `call`. Nothing here uses the model of the lints.
-/
namespace Verif.SqfLint
open Verif.Sqf Verif.SqfLex Verif.SqfParse

/-- Commands without arguments whose value always has the same type, and this type. -/
def constantTypes : List (String × String) :=
  [("scriptNull", "SCRIPT"), ("objNull", "OBJECT"), ("grpNull", "GROUP"), ("controlNull", "CONTROL"),
    ("teamMemberNull", "TEAM_MEMBER"), ("displayNull", "DISPLAY"), ("taskNull", "TASK"), ("locationNull", "LOCATION"),
    ("sideUnknown", "SIDE"), ("configFile", "CONFIG"), ("configNull", "CONFIG"), ("missionNamespace", "NAMESPACE"),
    ("profileNamespace", "NAMESPACE"), ("uiNamespace", "NAMESPACE"), ("parsingNamespace", "NAMESPACE"),
    ("diaryRecordNull", "DIARY_RECORD"), ("createHashMap", "HASHMAP")]

/-- What the wiki says about types; the letter case of commands does not matter. -/
structure Game.TypeLaws {S V : Type} (G : Game S V) (typeOf : V → Bytes) : Prop where
  typeName_ : ∀ n v s, asciiLower n = ascii "typename" → G.un (.named n) v s = some (G.str (typeOf v), s)
  str_ : ∀ t, typeOf (G.str t) = ascii "STRING"
  num_ : ∀ x, typeOf (G.num x) = ascii "SCALAR"
  bool_ : ∀ b, typeOf (G.bool b) = ascii "BOOL"
  code_ : ∀ ss, typeOf (G.code ss) = ascii "CODE"
  arr_ : ∀ vs, typeOf (G.arr vs) = ascii "ARRAY"
  constant_ : ∀ c ∈ constantTypes, ∀ n s, asciiLower n = asciiLower (ascii c.1) →
    ∃ v, G.nular n s = some (v, s) ∧ typeOf v = ascii c.2
  /-- `text` makes a structured text of a string, and yields the name of a location -/
  text_ : ∀ n v s, asciiLower n = ascii "text" → typeOf v = ascii "STRING" →
    ∃ w, G.un (.named n) v s = some (w, s) ∧ typeOf w = ascii "TEXT"
  text_location : ∀ n v s, asciiLower n = ascii "text" → typeOf v = ascii "LOCATION" →
    ∃ t, G.un (.named n) v s = some (G.str t, s)
  /-- different texts are different values -/
  str_inj : ∀ t u, G.str t = G.str u → t = u

/-- What the wiki says about `call`: code runs with `_this` being what is before the `call`, or else what it is there.
`run this code` is running code. -/
structure Game.CallLaws {S V : Type} (G : Game S V) (run : Option V → V → S → Option (V × S)) : Prop where
  with_ : ∀ n x c s, asciiLower n = ascii "call" → G.bin (.named n) x c s = run (some x) c s
  plain_ : ∀ n c s, asciiLower n = ascii "call" → G.un (.named n) c s = run (G.read (ascii "_this") s) c s

end Verif.SqfLint
