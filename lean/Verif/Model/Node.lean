import Verif.Model.Stream
/-
AST nodes and their simplification: /repo/node.go, /repo/ast.go.
`StringTree` and `header` are in Model/Show.lean.  Not modelled: the helper types RuleName/Sticky of
ast.go:15-35, which nothing uses.
-/
namespace Xbnf

/-- rule.go:20-36, the `Type` constants. -/
inductive RType where
  | eof | char | range | chars | string | group | option | block | reference | repetition
  | choice | concatenate | embed | text
deriving Repr, DecidableEq, Inhabited

/-- node.go:23-35 `Node`.  Go nodes are pointers; the parser builds a fresh node for every match
and links it into one parent only, so a tree value is faithful (C83 for the simplification, C84 for the evaluators). -/
structure Node where
  ruleType : RType
  name : Name := []
  chars : List Rune := []
  children : List Node := []
  pos : Option Position := none
  sticky : Bool := false
  virt : Bool := false
  nonData : Bool := false
  tokenized : Bool := false
deriving Repr, Inhabited

/-- node.go:326-337, one step of the loop of `Text`: `acc` is `text` (and `prevText`, which the
code sets to the accumulated text), `prevSticky` is `prevNode.Sticky`. -/
def joinText (inBlock : Bool) (acc : List Rune) (prevSticky : Bool) (nodeText : List Rune)
    (nodeSticky : Bool) : List Rune :=
  match acc.getLast?, nodeText.head? with
  | some a, some b =>
    if !inBlock && !isWhiteSpace a && !isWhiteSpace b && (!prevSticky || !nodeSticky)
    then acc ++ [32] ++ nodeText else acc ++ nodeText
  | _, _ => acc ++ nodeText

mutual
/-- node.go:315-339 `Node.Text`. -/
def Node.text (n : Node) : List Rune :=
  match n with
  | { ruleType := rt, chars := chars, children := cs, .. } =>
    if chars.length > 0 then
      if chars = [EOFChar] then [] else chars
    else textLoop (rt == .block) [] false cs
/-- node.go:326-337, the loop of `Node.Text`. -/
def textLoop (inBlock : Bool) (acc : List Rune) (prevSticky : Bool) : List Node → List Rune
  | [] => acc
  | n :: ns => textLoop inBlock (joinText inBlock acc prevSticky n.text n.sticky) n.sticky ns
end

mutual
/-- node.go:37-46 `CountNodes`. -/
def Node.countNodes (n : Node) : Nat :=
  match n with
  | { children := cs, .. } => 1 + countNodesL cs
/-- node.go:41-44 and ast.go:138-141 `AST.CountNodes`, the summing loop. -/
def countNodesL : List Node → Nat
  | [] => 0
  | n :: ns => n.countNodes + countNodesL ns
end

mutual
/-- node.go:48-60 `CountTokens`. -/
def Node.countTokens (n : Node) : Nat :=
  match n with
  | { children := cs, .. } => if cs.length = 0 then 1 else countTokensL cs
/-- node.go:55-58 and ast.go:149-152 `AST.CountTokens`, the summing loop. -/
def countTokensL : List Node → Nat
  | [] => 0
  | n :: ns => n.countTokens + countTokensL ns
end

mutual
/-- node.go:62-74 `CountStickyNodes`. -/
def Node.countSticky (n : Node) : Nat :=
  match n with
  | { sticky := st, children := cs, .. } => (if st then 1 else 0) + countStickyL cs
/-- node.go:70-72 and ast.go:160-163 `AST.CountStickyNodes`, the summing loop. -/
def countStickyL : List Node → Nat
  | [] => 0
  | n :: ns => n.countSticky + countStickyL ns
end

mutual
/-- node.go:77-90 `Node.RemoveVirtualNodes`. -/
def Node.removeVirtual (n : Node) : Node :=
  match n with
  | ⟨rt, nm, ch, cs, p, st, v, nd, tk⟩ => ⟨rt, nm, ch, removeVirtualL cs, p, st, v, nd, tk⟩
/-- node.go:81-89 and ast.go:42-55 `AST.RemoveVirtualNodes`. -/
def removeVirtualL : List Node → List Node
  | [] => []
  | n :: ns => if n.virt then removeVirtualL ns else n.removeVirtual :: removeVirtualL ns
end

mutual
/-- node.go:186-199 `Node.RemoveNonDataNodes`. -/
def Node.removeNonData (n : Node) : Node :=
  match n with
  | ⟨rt, nm, ch, cs, p, st, v, nd, tk⟩ => ⟨rt, nm, ch, removeNonDataL cs, p, st, v, nd, tk⟩
/-- node.go:190-198 and ast.go:57-70 `AST.RemoveNonDataNodes`. -/
def removeNonDataL : List Node → List Node
  | [] => []
  | n :: ns => if n.nonData then removeNonDataL ns else n.removeNonData :: removeNonDataL ns
end

mutual
/-- node.go:94-128 `Node.MergeStickyNodes`. -/
def Node.mergeSticky (n : Node) : Node :=
  match n with
  | ⟨rt, nm, ch, cs, p, st, v, nd, tk⟩ =>
    if cs.length = 0 then ⟨rt, nm, ch, cs, p, st, v, nd, tk⟩
    else if rt = .block then ⟨rt, nm, ch, mergeBlockL cs, p, false, v, nd, tk⟩
    else ⟨rt, nm, ch, mergeLoop [] none cs, p, st, v, nd, tk⟩
/-- node.go:102-105: the children of a block are merged one by one and made non-sticky. -/
def mergeBlockL : List Node → List Node
  | [] => []
  | n :: ns => { n.mergeSticky with sticky := false } :: mergeBlockL ns
/-- node.go:154-183, the loop of the function `MergeStickyNodes`.  `out` is `children` without
its last element when that element is the current `prevNode`; `prev` is `prevNode` (it is always
sticky when it is not nil: line 158 tests a condition that always holds). -/
def mergeLoop (out : List Node) (prev : Option Node) : List Node → List Node
  | [] =>
    match prev with
    | none => out
    | some p => out ++ [{ p with sticky := false }]
  | n :: ns =>
    if n.sticky then
      match prev with
      | some p => mergeLoop out (some { p with chars := p.chars ++ n.text }) ns
      | none => mergeLoop out (some { n with chars := n.text, children := [] }) ns
    else
      match prev with
      | some p => mergeLoop (out ++ [{ p with sticky := false }, n.mergeSticky]) none ns
      | none => mergeLoop (out ++ [n.mergeSticky]) none ns
end

/-- node.go:132-184 `MergeStickyNodes(nodes)` (also `AST.MergeStickyNodes`, ast.go:83-91). -/
def mergeStickyNodes (nodes : List Node) : List Node :=
  if nodes.length = 0 then nodes else mergeLoop [] none nodes

/-- node.go:216-226: an only child without a name gives its text or its children to the parent. -/
def promoteOnly (n : Node) : Node :=
  match n.children with
  | [only] =>
    if only.name = [] then
      if only.chars.length > 0 then { n with chars := only.chars, children := [] }
      else { n with children := only.children }
    else n
  | _ => n

/-- node.go:231-242: drop empty unnamed children, splice the children of other unnamed ones. -/
def spliceUnnamed : List Node → List Node
  | [] => []
  | c :: cs =>
    if c.text.length = 0 ∧ c.name = [] then spliceUnnamed cs
    else if c.name = [] ∧ c.children.length > 0 then c.children ++ spliceUnnamed cs
    else c :: spliceUnnamed cs

/-- node.go:246-249: a single unnamed leaf left gives its text to the parent. -/
def promoteLeaf (n : Node) : Node :=
  match n.children with
  | [only] =>
    if only.name = [] ∧ only.children.length = 0 then { n with chars := only.chars, children := [] }
    else n
  | _ => n

mutual
/-- node.go:204-250 `Node.RemoveRedundantNodes`. -/
def Node.removeRedundant (n : Node) : Node :=
  match n with
  | ⟨rt, nm, ch, cs, p, st, v, nd, tk⟩ =>
    if cs.length = 0 then ⟨rt, nm, ch, cs, p, st, v, nd, tk⟩
    else
      let n1 := promoteOnly ⟨rt, nm, ch, removeRedundantL cs, p, st, v, nd, tk⟩
      promoteLeaf { n1 with children := spliceUnnamed n1.children }
/-- node.go:210-212: every child first. -/
def removeRedundantL : List Node → List Node
  | [] => []
  | n :: ns => n.removeRedundant :: removeRedundantL ns
end

/-- ast.go:72-82 `AST.RemoveRedundantNodes`: top-level NonData nodes are left as they are. -/
def astRemoveRedundant : List Node → List Node
  | [] => []
  | n :: ns => (if n.nonData then n else n.removeRedundant) :: astRemoveRedundant ns

/-- ast.go:123-132 `AST.Text`: the texts of the nodes, one after the other, with nothing between. -/
def astText : List Node → List Rune
  | [] => []
  | n :: ns => n.text ++ astText ns

end Xbnf
