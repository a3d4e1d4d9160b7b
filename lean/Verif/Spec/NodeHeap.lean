import Verif.Model.NodeHeap
/-
When objects in memory are a tree.
-/
namespace Xbnf.Spec

/-- The node as an object with its children at the addresses `ks`. -/
abbrev _root_.Xbnf.Node.obj (t : Node) (ks : List Nat) : NodeObj :=
  { ruleType := t.ruleType, name := t.name, chars := t.chars, kids := ks, pos := t.pos, sticky := t.sticky, virt := t.virt, nonData := t.nonData,
    tokenized := t.tokenized }

mutual
/-- At the address `p` there is the tree `t`; `fp` are the addresses of its nodes, parents before children, from left to right. -/
inductive Shows (m : NodeMem) : Node → Nat → List Nat → Prop
  | node {t p ks fp} (h : m p = t.obj ks) (hc : ShowsL m t.children ks fp) : Shows m t p (p :: fp)
/-- The same for a list of trees. -/
inductive ShowsL (m : NodeMem) : List Node → List Nat → List Nat → Prop
  | nil : ShowsL m [] [] []
  | cons {t p f ts ps fp} (h : Shows m t p f) (hs : ShowsL m ts ps fp) : ShowsL m (t :: ts) (p :: ps) (f ++ fp)
end

/-- In memory `m` there are the trees `ts`, at the addresses `ps`, made of the objects `fp`, each of which is in one place only. -/
def Forest (m : NodeMem) (ts : List Node) (ps fp : List Nat) : Prop := ShowsL m ts ps fp ∧ fp.Nodup

/-- What changing a forest in place should do: the trees are those wanted, they are made of objects they were made of before, in the order they
had, and nothing else has changed. -/
structure InPlace (m : NodeMem) (fp : List Nat) (ts : List Node) (m' : NodeMem) (ps' fp' : List Nat) : Prop where
  shows : ShowsL m' ts ps' fp'
  sub : fp'.Sublist fp
  other : ∀ q, q ∉ fp → m' q = m q

mutual
/-- The number of levels of a tree. -/
def _root_.Xbnf.Node.levels (t : Node) : Nat :=
  match t with
  | ⟨_, _, _, cs, _, _, _, _, _⟩ => levelsL cs + 1
/-- The same for a list of trees. -/
def levelsL : List Node → Nat
  | [] => 0
  | t :: ts => max t.levels (levelsL ts)
end

end Xbnf.Spec
