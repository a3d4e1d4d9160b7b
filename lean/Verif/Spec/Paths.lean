import Verif.Model.Node
/-
Nodes of a tree by the way to them: at every node on the way the number of the child that follows.
-/
namespace Xbnf.Spec

/-- The node reached from `n` on the path. -/
def nodeAt (n : Node) : List Nat → Option Node
  | [] => some n
  | i :: p => match n.children[i]? with
    | none => none
    | some c => nodeAt c p

/-- The node of the forest reached on the path; the path begins with the number of the tree. -/
def treeAt (ns : List Node) : List Nat → Option Node
  | [] => none
  | i :: p => match ns[i]? with
    | none => none
    | some c => nodeAt c p

/-- There are exactly `k` paths with the property. -/
def Exactly (k : Nat) (Q : List Nat → Prop) : Prop :=
  ∃ ps : List (List Nat), ps.Nodup ∧ (∀ p, p ∈ ps ↔ Q p) ∧ ps.length = k

end Xbnf.Spec
