import Verif.Model.Grammar
/-
The simplifications of node.go and ast.go once more, on nodes that are objects: /repo/node.go, /repo/ast.go.

A node is an object at an address; `ChildNodes` and `AST.Nodes` hold addresses, and the methods write into the objects they find.  Addresses are
numbers, memory tells what is at each; no method here makes a new node.  Slices of addresses are values: every list a method writes is a variable
of its own (`nonVirtual`, `children`, `dataNodes`), and no element of a slice is ever overwritten.  The same is assumed of the characters
(C73 is about them).  No entry of a list is nil.  Recursion follows the pointers, so it is on fuel: a structure with a cycle has no end.
-/
namespace Xbnf

/-- node.go:23-35 `Node`, as an object. -/
structure NodeObj where
  ruleType : RType
  name : Name := []
  chars : List Rune := []
  kids : List Nat := []
  pos : Option Position := none
  sticky : Bool := false
  virt : Bool := false
  nonData : Bool := false
  tokenized : Bool := false
deriving Repr, DecidableEq, Inhabited

/-- What is at each address.  node.go:23-35. -/
abbrev NodeMem := Nat → NodeObj

/-- A write to the object at `p`.  node.go:23-35. -/
def NodeMem.put (m : NodeMem) (p : Nat) (o : NodeObj) : NodeMem := fun q => if q = p then o else m q

namespace Ptr

/-- node.go:326-337, the loop of `Text`. -/
def textLoop (tx : Nat → Exec (List Rune)) (m : NodeMem) (inBlock : Bool) : List Rune → Bool → List Nat → Exec (List Rune)
  | acc, _, [] => .ok acc
  | acc, prevSticky, q :: qs => do
    let t ← tx q
    textLoop tx m inBlock (joinText inBlock acc prevSticky t (m q).sticky) (m q).sticky qs

/-- node.go:315-339 `Node.Text`. -/
def text : Nat → NodeMem → Nat → Exec (List Rune)
  | 0, _, _ => .oof
  | fuel + 1, m, p =>
    if (m p).chars.length > 0 then
      if (m p).chars = [EOFChar] then .ok [] else .ok (m p).chars
    else textLoop (text fuel m) m ((m p).ruleType == .block) [] false (m p).kids

/-- node.go:82-88, node.go:191-197, ast.go:47-53 and ast.go:62-68: the loop that leaves out the marked nodes and goes into the others; `out` is
`nonVirtual` or `dataNodes`. -/
def dropLoop (drop : NodeObj → Bool) (rec : Nat → NodeMem → Exec NodeMem) : List Nat → List Nat → NodeMem → Exec (List Nat × NodeMem)
  | [], out, m => .ok (out, m)
  | q :: qs, out, m =>
    if drop (m q) then dropLoop drop rec qs out m
    else do
      let m ← rec q m
      dropLoop drop rec qs (out ++ [q]) m

/-- node.go:77-90 `Node.RemoveVirtualNodes` and node.go:186-199 `Node.RemoveNonDataNodes`, which differ in the mark only. -/
def dropMarked (drop : NodeObj → Bool) : Nat → Nat → NodeMem → Exec NodeMem
  | 0, _, _ => .oof
  | fuel + 1, p, m =>
    if (m p).kids.length = 0 then .ok m
    else do
      let (kept, m) ← dropLoop drop (dropMarked drop fuel) (m p).kids [] m
      .ok (m.put p { m p with kids := kept })

/-- ast.go:42-55 `AST.RemoveVirtualNodes` and ast.go:57-70 `AST.RemoveNonDataNodes`. -/
def astDrop (drop : NodeObj → Bool) (fuel : Nat) (roots : List Nat) (m : NodeMem) : Exec (List Nat × NodeMem) :=
  if roots.length = 0 then .ok (roots, m) else dropLoop drop (dropMarked drop fuel) roots [] m

/-- node.go:102-105, the children of a block. -/
def blockLoop (rec : Nat → NodeMem → Exec NodeMem) : List Nat → NodeMem → Exec NodeMem
  | [], m => .ok m
  | q :: qs, m => do
    let m ← rec q m
    blockLoop rec qs (m.put q { m q with sticky := false })

/-- node.go:173-175 and node.go:180-182: `prevNode` is made non-sticky. -/
def unstick (prev : Option Nat) (m : NodeMem) : NodeMem :=
  match prev with
  | some p => m.put p { m p with sticky := false }
  | none => m

/-- node.go:154-183, the loop of the function `MergeStickyNodes`; `out` is `children`, `prev` is `prevNode`. -/
def mergeLoop (tx : NodeMem → Nat → Exec (List Rune)) (rec : Nat → NodeMem → Exec NodeMem) :
    List Nat → List Nat → Option Nat → NodeMem → Exec (List Nat × NodeMem)
  | [], out, prev, m => .ok (out, unstick prev m)
  | q :: qs, out, prev, m =>
    if (m q).sticky then do
      let t ← tx m q
      match prev with
      | some p =>
        if (m p).sticky then mergeLoop tx rec qs out (some p) (m.put p { m p with chars := (m p).chars ++ t })
        else mergeLoop tx rec qs (out ++ [q]) (some q) (m.put q { m q with chars := t, kids := [] })
      | none => mergeLoop tx rec qs (out ++ [q]) (some q) (m.put q { m q with chars := t, kids := [] })
    else do
      let m ← rec q (unstick prev m)
      mergeLoop tx rec qs (out ++ [q]) none m

/-- node.go:94-128 `Node.MergeStickyNodes`. -/
def mergeNode : Nat → Nat → NodeMem → Exec NodeMem
  | 0, _, _ => .oof
  | fuel + 1, p, m =>
    if (m p).kids.length = 0 then .ok m
    else if (m p).ruleType = .block then do
      let m ← blockLoop (mergeNode fuel) (m p).kids m
      .ok (m.put p { m p with sticky := false })
    else do
      let (kids, m) ← mergeLoop (text fuel) (mergeNode fuel) (m p).kids [] none m
      .ok (m.put p { m p with kids := kids })

/-- node.go:132-184 `MergeStickyNodes(nodes)` and ast.go:83-91 `AST.MergeStickyNodes`. -/
def mergeNodes (fuel : Nat) (nodes : List Nat) (m : NodeMem) : Exec (List Nat × NodeMem) :=
  if nodes.length = 0 then .ok (nodes, m) else mergeLoop (text fuel) (mergeNode fuel) nodes [] none m

/-- node.go:210-212, every child first. -/
def eachLoop (rec : Nat → NodeMem → Exec NodeMem) : List Nat → NodeMem → Exec NodeMem
  | [], m => .ok m
  | q :: qs, m => do
    let m ← rec q m
    eachLoop rec qs m

/-- node.go:216-226: an only child without a name gives its text or its children to the parent. -/
def promoteOnly (p : Nat) (m : NodeMem) : NodeMem :=
  match (m p).kids with
  | [q] =>
    if (m q).name = [] then
      if (m q).chars.length > 0 then m.put p { m p with chars := (m q).chars, kids := [] }
      else m.put p { m p with kids := (m q).kids }
    else m
  | _ => m

/-- node.go:228-243, the loop that drops empty children without a name and puts the children of others in their place. -/
def spliceLoop (tx : Nat → Exec (List Rune)) (m : NodeMem) : List Nat → List Nat → Exec (List Nat)
  | [], out => .ok out
  | q :: qs, out => do
    let t ← tx q
    if t.length = 0 ∧ (m q).name = [] then spliceLoop tx m qs out
    else if (m q).name = [] ∧ (m q).kids.length > 0 then spliceLoop tx m qs (out ++ (m q).kids)
    else spliceLoop tx m qs (out ++ [q])

/-- node.go:246-249: a single leaf without a name gives its text to the parent. -/
def promoteLeaf (p : Nat) (m : NodeMem) : NodeMem :=
  match (m p).kids with
  | [q] => if (m q).name = [] ∧ (m q).kids.length = 0 then m.put p { m p with chars := (m q).chars, kids := [] } else m
  | _ => m

/-- node.go:204-250 `Node.RemoveRedundantNodes`. -/
def removeRedundant : Nat → Nat → NodeMem → Exec NodeMem
  | 0, _, _ => .oof
  | fuel + 1, p, m =>
    if (m p).kids.length = 0 then .ok m
    else do
      let m ← eachLoop (removeRedundant fuel) (m p).kids m
      let m := promoteOnly p m
      let kids ← spliceLoop (text fuel m) m (m p).kids []
      .ok (promoteLeaf p (m.put p { m p with kids := kids }))

/-- ast.go:72-82 `AST.RemoveRedundantNodes`. -/
def astRedundant (fuel : Nat) : List Nat → NodeMem → Exec NodeMem
  | [], m => .ok m
  | q :: qs, m =>
    if (m q).nonData then astRedundant fuel qs m
    else do
      let m ← removeRedundant fuel q m
      astRedundant fuel qs m

/-- grammar.go:306-321: what `Eval` does to the raw nodes. -/
def simplify (level : Int) (fuel : Nat) (roots : List Nat) (m : NodeMem) : Exec (List Nat × NodeMem) :=
  if level = Grammar.LevelRaw then .ok (roots, m)
  else do
    let (roots, m) ← mergeNodes fuel roots m
    let (roots, m) ←
      if level = Grammar.LevelDataOnly then do
        let (roots, m) ← astDrop NodeObj.virt fuel roots m
        astDrop NodeObj.nonData fuel roots m
      else if level = Grammar.LevelNoVirtual then astDrop NodeObj.virt fuel roots m
      else .ok (roots, m)
    let m ← astRedundant fuel roots m
    .ok (roots, m)

end Ptr
end Xbnf
