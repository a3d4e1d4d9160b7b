import Verif.Model.Node
/-
Trees without the positions of their nodes.
-/
namespace Xbnf

mutual
/-- A tree without positions. -/
def Node.erase (n : Node) : Node :=
  match n with
  | ⟨rt, nm, ch, cs, _, st, v, nd, tk⟩ => ⟨rt, nm, ch, eraseL cs, none, st, v, nd, tk⟩
/-- Trees without positions. -/
def eraseL : List Node → List Node
  | [] => []
  | n :: ns => n.erase :: eraseL ns
end

end Xbnf
