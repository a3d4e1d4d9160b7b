import Verif.Model.Node
/-
Trees as text: /repo/node.go:8-21 and 252-313, /repo/ast.go:93-121, /repo/charstream.go:20-25.
Strings are lists of runes.  Simplification: Go's `string(text)` writes U+FFFD for runes that are no
Unicode scalar values; here the runes stay as they are.  A nil `*Node` and a nil `*AST` do not occur.
-/
namespace Xbnf

/-- node.go:8-12 `NodeTreeConfig`; `VerboseNodeText` is read nowhere.  The default of the fields is
node.go:14-20 `DefaultNodeTreeConfig`, which is used for a nil config. -/
structure TreeConfig where
  printRuleType : Bool := true
  printNonleafNodeText : Bool := false
deriving Repr, Inhabited

/-- rule.go:20-36, the texts of the `Type` constants. -/
def RType.label : RType → List Rune
  | .eof => runes "EOF"
  | .char => runes "char"
  | .range => runes "range"
  | .chars => runes "chars"
  | .string => runes "string"
  | .group => runes "group"
  | .option => runes "option"
  | .block => runes "block"
  | .reference => runes "reference"
  | .repetition => runes "repetition"
  | .choice => runes "choice"
  | .concatenate => runes "concatenate"
  | .embed => runes "embed"
  | .text => runes "text"

/-- `fmt.Sprintf("%d", i)`.  charstream.go:24, ast.go:103. -/
def percentD (i : Int) : List Rune := runes (toString i)

/-- charstream.go:20-25 `Position.String`. -/
def showPos : Option Position → List Rune
  | none => runes "L0:0"
  | some p => runes "L" ++ percentD p.line ++ runes ":" ++ percentD p.col

/-- node.go:252-272 `Node.header`. -/
def Node.header (cfg : TreeConfig) (n : Node) : List Rune :=
  showPos n.pos ++ runes ":" ++ n.name ++
    (if cfg.printRuleType then runes "/" ++ n.ruleType.label else []) ++
    (if n.tokenized then runes "$" else []) ++ (if n.nonData then runes "#" else []) ++
    (if n.virt then runes "~" else []) ++ (if n.sticky then runes "+" else [])

/-- node.go:278-288: what `StringTree` writes about the node itself. -/
def Node.line (cfg : TreeConfig) (n : Node) : List Rune :=
  if n.children.length = 0 ∨ cfg.printNonleafNodeText = true then n.header cfg ++ runes ": >" ++ n.text ++ runes "<"
  else n.header cfg

/-- `strings.ReplaceAll(s, "\n", "\n" + pre)`.  ast.go:107, node.go:298, rule.go:93. -/
def indent (pre : List Rune) : List Rune → List Rune
  | [] => []
  | c :: s => if c = newline then newline :: pre ++ indent pre s else c :: indent pre s

/-- node.go:292: the types whose children are written. -/
def RType.branches : RType → Bool
  | .group | .option | .block | .repetition | .choice | .concatenate | .embed => true
  | _ => false

mutual
/-- node.go:274-313 `Node.StringTree`. -/
def Node.stringTree (cfg : TreeConfig) (n : Node) : List Rune :=
  match n with
  | ⟨rt, nm, ch, cs, p, st, v, nd, tk⟩ =>
    Node.line cfg ⟨rt, nm, ch, cs, p, st, v, nd, tk⟩ ++ (if rt.branches then childTrees cfg cs else [])
/-- node.go:293-309: the children, the last one with another branch. -/
def childTrees (cfg : TreeConfig) : List Node → List Rune
  | [] => []
  | n :: ns =>
    (if ns.length = 0 then newline :: runes "└──" ++ indent (runes "   ") (n.stringTree cfg)
     else newline :: runes "├──" ++ indent (runes "│  ") (n.stringTree cfg)) ++ childTrees cfg ns
end

/-- ast.go:104-118: the nodes of an AST. -/
def rootTrees (cfg : TreeConfig) : List Node → List Rune
  | [] => []
  | n :: ns =>
    (if ns.length = 0 then newline :: runes "└───" ++ indent (runes "    ") (n.stringTree cfg)
     else newline :: runes "├───" ++ indent (runes "│   ") (n.stringTree cfg)) ++ rootTrees cfg ns

/-- ast.go:93-121 `AST.StringTree`. -/
def astStringTree (cfg : TreeConfig) (filename : List Rune) (ns : List Node) : List Rune :=
  runes "Abstract Syntax Tree" ++ newline :: runes "├─ file:" ++ filename ++
    (if ns.length = 0 then newline :: runes "└─ Nodes: " ++ percentD ns.length
     else newline :: runes "├─ Nodes: " ++ percentD ns.length) ++ rootTrees cfg ns

end Xbnf
