import Verif.Model.Node
/-
Vocabulary for the simplification of trees.
-/
namespace Xbnf.Spec

/-- A node without its children. -/
def bare (n : Node) : Node := { n with children := [] }

mutual
/-- For every node of the tree, in the order of the tree, the nodes from the top down to it. -/
def chains (n : Node) : List (List Node) :=
  match n with
  | ⟨rt, nm, ch, cs, p, st, v, nd, tk⟩ =>
    [⟨rt, nm, ch, [], p, st, v, nd, tk⟩] ::
      (chainsL cs).map (⟨rt, nm, ch, [], p, st, v, nd, tk⟩ :: ·)
/-- The same for a list of trees. -/
def chainsL : List Node → List (List Node)
  | [] => []
  | n :: ns => chains n ++ chainsL ns
end

mutual
/-- The characters of the leaves, in order.  A node that has characters counts as a leaf; the end of
input contributes none. -/
def yield (n : Node) : List Rune :=
  match n with
  | ⟨_, _, ch, cs, _, _, _, _, _⟩ =>
    if ch = [] then yieldL cs else if ch = [EOFChar] then [] else ch
/-- The same for a list of trees. -/
def yieldL : List Node → List Rune
  | [] => []
  | n :: ns => yield n ++ yieldL ns
end

/-- The characters that are not white space. -/
def solid (l : List Rune) : List Rune := l.filter (fun c => !isWhiteSpace c)

/-- The second list is the first with some spaces put in. -/
inductive Spaced : List Rune → List Rune → Prop
  | nil : Spaced [] []
  | keep {c l m} (h : Spaced l m) : Spaced (c :: l) (c :: m)
  | space {l m} (h : Spaced l m) : Spaced l (32 :: m)

/-- `p` holds of the node and all nodes below it. -/
inductive Everywhere (p : Node → Prop) : Node → Prop
  | mk {n : Node} (h : p n) (hc : ∀ c ∈ n.children, Everywhere p c) : Everywhere p n

/-- No node has both characters of its own and children. -/
def Leafy : Node → Prop := Everywhere fun n => n.chars = [] ∨ n.children = []

/-- Every sticky node has text. -/
def StickyText : Node → Prop := Everywhere fun n => n.sticky = true → n.text ≠ []

/-- What identifies a named node to the user of a tree: type, name, marks and text. -/
structure Label where
  ruleType : RType
  name : Name
  pos : Option Position
  virt : Bool
  nonData : Bool
  tokenized : Bool
  text : List Rune
deriving DecidableEq

mutual
/-- For every named node that has text, in the order of the tree, the named nodes from the top down to
it. -/
def named (n : Node) : List (List Label) :=
  match n with
  | ⟨rt, nm, ch, cs, p, st, v, nd, tk⟩ =>
    if nm ≠ [] ∧ yield ⟨rt, nm, ch, cs, p, st, v, nd, tk⟩ ≠ [] then
      [⟨rt, nm, p, v, nd, tk, yield ⟨rt, nm, ch, cs, p, st, v, nd, tk⟩⟩] ::
        (namedL cs).map (⟨rt, nm, p, v, nd, tk, yield ⟨rt, nm, ch, cs, p, st, v, nd, tk⟩⟩ :: ·)
    else namedL cs
/-- The same for a list of trees. -/
def namedL : List Node → List (List Label)
  | [] => []
  | n :: ns => named n ++ namedL ns
end

/-- Nothing is redundant below the node: nodes without a name are leaves with text, and none of them
is an only child. -/
def Reduced : Node → Prop := Everywhere fun n =>
  ∀ c ∈ n.children, c.name = [] → c.children = [] ∧ c.text ≠ [] ∧ 2 ≤ n.children.length

/-- Sticky nodes do not have the mark, nor do the nodes below them. -/
def StickyWithout (mark : Node → Bool) : Node → Prop :=
  Everywhere fun n => n.sticky = true → Everywhere (fun m => mark m = false) n

mutual
/-- What merging sticky nodes makes of one node: a leaf stays; the children of a block are kept
apart; the children of other nodes are merged in runs. -/
inductive MergedNode : Node → Node → Prop
  | leaf {n} (h : n.children = []) : MergedNode n n
  | block {n cs} (h : n.children ≠ []) (ht : n.ruleType = .block) (hc : MergedEach n.children cs) :
      MergedNode n { n with children := cs, sticky := false }
  | inner {n cs} (h : n.children ≠ []) (ht : n.ruleType ≠ .block) (hc : Merged n.children cs) :
      MergedNode n { n with children := cs }
/-- Each node on its own, and no longer sticky. -/
inductive MergedEach : List Node → List Node → Prop
  | nil : MergedEach [] []
  | cons {n m ns ms} (h : MergedNode n m) (hs : MergedEach ns ms) :
      MergedEach (n :: ns) ({ m with sticky := false } :: ms)
/-- Every maximal run of sticky siblings becomes one leaf with the texts of the run and the marks of
its first node; the nodes that are not sticky stay. -/
inductive Merged : List Node → List Node → Prop
  | nil : Merged [] []
  | plain {n m ns ms} (h : n.sticky = false) (hm : MergedNode n m) (hs : Merged ns ms) :
      Merged (n :: ns) (m :: ms)
  | run {n run ns ms} (h : n.sticky = true) (hr : ∀ x ∈ run, x.sticky = true)
      (hn : ∀ x ∈ ns.head?, x.sticky = false) (hs : Merged ns ms) :
      Merged (n :: run ++ ns)
        ({ n with chars := ((n :: run).map Node.text).flatten, children := [], sticky := false } :: ms)
end

end Xbnf.Spec
