import Verif.Model.Parse
/-
The characters an error shows with `%c`.
-/
namespace Xbnf.Spec

/-- The characters from the text that are in the message. -/
def shown : PErr → List Rune
  | .invalidChar c | .notARule c | .annotation c | .blockEnd c | .specChar c => [c]
  | .blockOpen e => shown e
  | .atLine _ _ e => shown e
  | _ => []

/-- The messages that are there only because a function checks again what its caller has checked. -/
def Unheard : PErr → Prop
  | .charStart | .strStart | .groupStart | .optionStart | .repStart | .blockStart | .specStart | .choiceGroup | .choiceFew | .reference => True
  | .blockOpen e => Unheard e
  | .atLine _ _ e => Unheard e
  | _ => False

end Xbnf.Spec
