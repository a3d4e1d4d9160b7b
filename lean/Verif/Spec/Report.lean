import Verif.Spec.Message
import Verif.Spec.Document
/-
Vocabulary for the errors of whole documents.
-/
namespace Xbnf.Spec

/-- The lists are equally long and their members are related, one by one. -/
inductive Aligned {α β : Type} (R : α → β → Prop) : List α → List β → Prop
  | nil : Aligned R [] []
  | cons {a b as bs} (h : R a b) (hs : Aligned R as bs) : Aligned R (a :: as) (b :: bs)

/-- "a", "a or b", "a, b or c", … -/
def orList : List (List Rune) → List Rune
  | [] => []
  | [a] => a
  | [a, b] => a ++ runes " or " ++ b
  | a :: b :: c :: l => a ++ runes ", " ++ orList (b :: c :: l)

/-- The rule is not just another name for a rule, and not `EOF`: its nodes carry its name. -/
def OwnName : Rule → Prop
  | .ref _ _ => False
  | .eof _ => False
  | _ => True

end Xbnf.Spec
