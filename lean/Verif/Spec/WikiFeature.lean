import Verif.Lib.Text
/-!
Feature boxes of the wiki and how they are to be shown. Nothing here refers to the functions of the model.
-/
namespace Verif.WikiFeatureSpec

/-- How a feature box is written in the wiki. -/
def source (kind text : Text) : Text :=
  ['{', '{', 'F', 'e', 'a', 't', 'u', 'r', 'e', '|'] ++ kind ++ ['|'] ++ text ++ ['}', '}']

/-- How a feature box is to be shown: its kind as a heading, and its text. -/
def heading (upper : Char → Text) (kind text : Text) : Text :=
  ['#', '#', '#', ' '] ++ (kind.take 1).flatMap upper ++ kind.drop 1 ++ ['\n'] ++ text

end Verif.WikiFeatureSpec
