import Verif.Spec.Paths
/-
How a tree is drawn: one node after the other in the order of the paths, each in its lines, with
branches in front of the first line and rails in front of the others.
-/
namespace Xbnf.Spec

/-- The lines of a text. -/
def rows : List Rune → List (List Rune)
  | [] => [[]]
  | c :: s =>
    if c = newline then [] :: rows s
    else match rows s with
      | [] => [[c]]
      | l :: ls => (c :: l) :: ls

/-- What is written in front of a node, and in front of the lines that follow, at one level: for the
last child and for the others. -/
structure Pen where
  fork : Bool → List Rune
  rail : Bool → List Rune

/-- The branches inside a tree. -/
def pen : Pen := ⟨fun last => if last then runes "└──" else runes "├──", fun last => if last then runes "   " else runes "│  "⟩

/-- The branches to the trees of an AST. -/
def rootPen : Pen := ⟨fun last => if last then runes "└───" else runes "├───", fun last => if last then runes "    " else runes "│   "⟩

/-- In front of the further lines of the node at the end of the path: a rail for every level. -/
def further (n : Node) : List Nat → List Rune
  | [] => []
  | i :: p => match n.children[i]? with
    | none => []
    | some c => pen.rail (i + 1 = n.children.length) ++ further c p

/-- In front of the first line: rails down to its parent, then the fork. -/
def leading (n : Node) : List Nat → List Rune
  | [] => []
  | [i] => pen.fork (i + 1 = n.children.length)
  | i :: j :: p => match n.children[i]? with
    | none => []
    | some c => pen.rail (i + 1 = n.children.length) ++ leading c (j :: p)

/-- One text in front of the first line, another in front of the others. -/
def ruled (a b : List Rune) : List (List Rune) → List (List Rune)
  | [] => []
  | l :: ls => (a ++ l) :: ls.map (b ++ ·)

/-- The node at the end of the path in its place: `what` is written about a node. -/
def drawnAt (what : Node → List Rune) (n : Node) (p : List Nat) : List (List Rune) :=
  match nodeAt n p with
  | none => []
  | some m => ruled (leading n p) (further n p) (rows (what m))

/-- Exactly the paths to the nodes of the tree, in the order of the tree: a node before those below
it, and those before the next child of its parent. -/
structure InOrder (n : Node) (ps : List (List Nat)) : Prop where
  all : ∀ p, p ∈ ps ↔ nodeAt n p ≠ none
  sorted : ps.Pairwise (· < ·)

/-- The rules that have parts. -/
def hasParts : RType → Bool
  | .group | .option | .block | .repetition | .choice | .concatenate | .embed => true
  | .eof | .char | .range | .chars | .string | .reference | .text => false

/-- Only nodes of rules with parts have children. -/
inductive Proper : Node → Prop
  | mk {n} (ht : n.children ≠ [] → hasParts n.ruleType = true) (hc : ∀ c ∈ n.children, Proper c) : Proper n

end Xbnf.Spec
