import Verif.Model.NodeEval
import Verif.Spec.NodeHeap
/-
When an evaluation that makes node objects does what one with values does.
-/
namespace Xbnf.Spec

/-- Two calls end in the same way, with related results. -/
inductive AgreeBy {α β : Type} (R : α → β → Prop) : Exec α → Exec β → Prop
  | ok {a b} (h : R a b) : AgreeBy R (.ok a) (.ok b)
  | panic : AgreeBy R .panic .panic
  | oof : AgreeBy R .oof .oof

/-- Between two moments only new nodes have been written to. -/
structure Enlarged (h h' : Heap) : Prop where
  next : h.next ≤ h'.next
  old : ∀ q, q < h.next → h'.mem q = h.mem q

/-- In memory there are these trees, at these addresses, each node in one place only, and all of them taken between `lo` and `hi`; `k` bounds the levels. -/
def HeldAt (m : NodeMem) (lo hi k : Nat) (ts : List Node) (ps : List Nat) : Prop :=
  ∃ fp, Forest m ts ps fp ∧ (∀ q ∈ fp, lo ≤ q ∧ q < hi) ∧ levelsL ts ≤ k

/-- The same result: everything but the node is equal, and the node is in memory, made of new objects. -/
def SameRes (m : NodeMem) (lo hi k : Nat) (r : Res) (r' : PRes) : Prop :=
  r'.bare = { r with node := none } ∧ HeldAt m lo hi k r.node.toList r'.node.toList

/-- The same result of a call that began with the memory `h`. -/
def SameOut (h : Heap) (k : Nat) (x : Res × Stream) (y : PRes × Stream × Heap) : Prop :=
  x.2 = y.2.1 ∧ Enlarged h y.2.2 ∧ SameRes y.2.2.mem h.next y.2.2.next k x.1 y.1

/-- After a call that began with the memory `h` and left `h'`: only new nodes have been written to, and of these the trees are made, each node in one place. -/
def NewTrees (h h' : Heap) (ts : List Node) (ps : List Nat) : Prop :=
  Enlarged h h' ∧ ∃ fp, Forest h'.mem ts ps fp ∧ ∀ q ∈ fp, h.next ≤ q ∧ q < h'.next

/-- The same result of `EvalRule` or `EvalEmbed`. -/
def SameResult (h : Heap) (x : Res) (y : PRes × Heap) : Prop :=
  y.1.bare = { x with node := none } ∧ NewTrees h y.2 x.node.toList y.1.node.toList

/-- The same result of `EvalRaw` or `Eval`: the same error, or the same trees; the stream is left in the same state. -/
def SameDoc (h : Heap) (x : Except Grammar.RawErr (List Node) × Stream) (y : Except Grammar.RawErr (List Nat) × Stream × Heap) : Prop :=
  y.2.1 = x.2 ∧
    match x.1, y.1 with
    | .ok ts, .ok ps => NewTrees h y.2.2 ts ps
    | .error e, .error e' => e' = e ∧ NewTrees h y.2.2 [] []
    | _, _ => False

end Xbnf.Spec
