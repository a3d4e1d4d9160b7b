import Verif.Model.Grammar
import Verif.Model.Message
/-
Grammars as text: /repo/grammar.go:62-79 and 145-206, the `StringWithIndent` methods of
/repo/rule_*.go, and the results of evaluations as text: /repo/rule.go:81-98.
Strings are lists of runes.  Go's maps are iterated in any order: the functions that iterate over one
take the order as an argument.
-/
namespace Xbnf

/-- `fmt.Sprintf("%-<w>s", s)`: spaces up to the width.  grammar.go:160, grammar.go:171-173. -/
def padTo (w : Nat) (s : List Rune) : List Rune := s ++ List.replicate (w - s.length) (ch ' ')

/-- `fmt.Sprintf("%04d", n)` of a line number.  grammar.go:164. -/
def fourDigits (n : Nat) : List Rune := List.replicate (4 - (percentD n).length) (ch '0') ++ percentD n

mutual
/-- `IRule.StringWithIndent`: rule_eof.go:30-32, rule_terminal_char.go:91-93, rule_terminal_range.go:100-102,
rule_terminal_chars.go:94-96, rule_terminal_string.go:90-92, rule_group.go:68-74, rule_option.go:69-75,
rule_repetition.go:241-249, rule_choice.go:211-221, rule_concatenate.go:122-133, rule_block.go:52-54,
rule_reference.go:58-60. -/
def Rule.outline (ind : List Rune) (r : Rule) : List Rune :=
  match r with
  | .eof _ => runes "EOF"
  | .char b t u => runes "char:" ++ Rule.print (.char b t u)
  | .range b x xu y yu => runes "range:" ++ Rule.print (.range b x xu y yu)
  | .chars b t => runes "char:" ++ Rule.print (.chars b t)
  | .str b t => runes "token:" ++ Rule.print (.str b t)
  | .group _ r => indent ind (runes "group:" ++ newline :: r.outline ind)
  | .option _ r => indent ind (runes "option:" ++ newline :: r.outline ind)
  | .rep _ r mn mx => indent ind (runes "repetition" ++ printSpec mn mx ++ runes ":" ++ newline :: r.outline ind)
  | .choice _ gs => indent ind (runes "choice:" ++ outlineGroups ind gs)
  | .concat _ rs =>
    if rs.length < 2 then runes "invalid concatenate rule: # of rules less than 2"
    else indent ind (runes "concatenate:" ++ outlines ind rs)
  | .block b o v c e x => ind ++ Rule.print (.block b o v c e x)
  | .ref b n => runes "reference:" ++ Rule.print (.ref b n)
/-- rule_concatenate.go:128-130, rule_choice.go:215-217. -/
def outlines (ind : List Rune) : List Rule → List Rune
  | [] => []
  | r :: rs => newline :: r.outline ind ++ outlines ind rs
/-- rule_choice.go:214-218. -/
def outlineGroups (ind : List Rune) : List (List Rule) → List Rune
  | [] => []
  | g :: gs => outlines ind g ++ outlineGroups ind gs
end

/-- `m[record.line] = record` on a map from line numbers to records (grammar.go:155). -/
def putLine (m : List Record) (r : Record) : List Record :=
  match m with
  | [] => [r]
  | x :: rest => if x.line = r.line then r :: rest else x :: putLine rest r

/-- `sort.Ints`: here sorting by insertion.  grammar.go:159. -/
def insertInt (n : Nat) : List Nat → List Nat
  | [] => [n]
  | m :: ms => if n ≤ m then n :: m :: ms else m :: insertInt n ms

namespace Grammar

/-- grammar.go:166-180: what `Serialize` writes about a rule; `w` is `maxNameLen` after line 158. -/
def entry (g : Grammar) (w : Nat) (detail : Bool) (r : Record) : List Rune :=
  let name := (if r.rule.base.virt then runes "!" else []) ++ r.name
  let mark := if g.terminals.any (fun t => t.name == r.name) then runes "[T]" else []
  runes "L" ++ fourDigits r.line ++ runes ": " ++ padTo w (name ++ mark) ++ runes " = " ++ r.rule.print ++ runes "\n    "
    ++ (if detail then indent (runes "    ") (r.rule.outline (runes "    ")) ++ [newline] else [])

/-- grammar.go:193-204: a round of the loop of `StringRuleRelation`; `acc` are `bufRoot` and `bufUsage`. -/
def relationStep (g : Grammar) (w : Nat) (acc : List Rune × List Rune) (r : Record) : List Rune × List Rune :=
  match g.nonRoots.find? (fun p => p.1 == r.name) with
  | some p => (acc.1, acc.2 ++ runes "    " ++ padTo w r.name ++ runes ": "
      ++ (p.2.map (fun u => u ++ runes ",")).flatten ++ [newline])
  | none => (acc.1 ++ r.name ++ runes ",", acc.2)

/-- grammar.go:188-206 `StringRuleRelation`; `order` is the order in which `ruleRecords` is iterated. -/
def relation (g : Grammar) (w : Nat) (order : List Record) : List Rune :=
  let bufs := order.foldl (g.relationStep w) (runes "Root Rules: ", runes "Rule Reference Map: \n")
  bufs.1 ++ runes "\n" ++ bufs.2

/-- grammar.go:145-186 `Serialize`; `order` and `order'` are the orders in which `ruleRecords` is
iterated there and in `StringRuleRelation`.  `len(record.name)` is a number of bytes; names are ASCII.
`byLine[line]` is found for every line (line 164 would panic otherwise). -/
def serialize (g : Grammar) (detail : Bool) (order order' : List Record) : List Rune :=
  let maxNameLen := order.foldl (fun w r => if r.name.length > w then r.name.length else w) 0
  let byLine := order.foldl putLine []
  let lines := order.map Record.line
  let w := maxNameLen + 4
  let sorted := lines.foldr insertInt []
  let buf := (sorted.map (fun n =>
    match byLine.find? (fun r => r.line == n) with
    | some r => g.entry w detail r
    | none => [])).flatten
  g.relation w order' ++ runes "Rules:\n    " ++ buf

/-- grammar.go:62-79 `desc`; `order` is the order in which `rootRules` is iterated. -/
def desc (order : List Record) : Exec (List Rune) := do
  let ds ← descs (order.map Record.rule)
  .ok (match ds with
    | [] => []
    | d :: ds =>
      match ds.reverse with
      | [] => d
      | last :: before => d ++ (before.reverse.map (fun x => runes ", " ++ x)).flatten ++ runes " or " ++ last)

end Grammar

/-- rule.go:81-98 `EvalResult.StringTree`. -/
def Res.stringTree (cfg : TreeConfig) (res : Res) : Exec (List Rune) := do
  let head := runes "EvalResult" ++ runes "\n├───CharsRead[" ++ percentD res.read.length ++ runes "]  :" ++ res.read.map viaUTF8 ++ runes "*"
    ++ runes "\n├───CharsUnused[" ++ percentD res.unused.length ++ runes "]:" ++ res.unused.map viaUTF8 ++ runes "*"
  match res.node with
  | none =>
    match res.error with
    | none => .ok (head ++ runes "\n└───Node: nil")
    | some e => do
      let m ← e.message
      .ok (head ++ runes "\n└───Node: nil" ++ runes "; " ++ m)
  | some n => .ok (head ++ runes "\n└───Node: " ++ indent (runes "    ") (n.stringTree cfg))

end Xbnf
