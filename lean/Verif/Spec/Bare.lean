import Verif.Model.Node
/-
Trees without what white space can have an influence on: the positions, and whether a node is sticky.
-/
namespace Xbnf

mutual
/-- A tree without positions and stickiness. -/
def Node.bare (n : Node) : Node :=
  match n with
  | ⟨rt, nm, ch, cs, _, _, v, nd, tk⟩ => ⟨rt, nm, ch, bareL cs, none, false, v, nd, tk⟩
/-- The same for trees. -/
def bareL : List Node → List Node
  | [] => []
  | n :: ns => n.bare :: bareL ns
end

/-- Does the text end in white space? -/
def Spec.endsBlank (l : List Rune) : Bool := (l.getLast?.map isWhiteSpace).getD false

end Xbnf
