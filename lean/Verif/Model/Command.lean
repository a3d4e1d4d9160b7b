import Verif.Model.Bytes
import Verif.Model.Report
import Verif.Model.DefMessage
/-
The command /repo/main/xbnf.go and `NewGrammarFromFile` (/repo/grammar.go:680-692).
Arguments and files are bytes.  What a `fmt.Printf` writes is a list of runes; the command is modelled as the list of the texts
written to standard output, one for each `Printf`.  Not modelled: package `flag` (which turns the arguments into `Args` and ends the
program on an unknown flag) and the help text, which is written to standard error.
-/
namespace Xbnf
open UTF8

/-- xbnf.go:15-24: the values of the flags.  `none` is "no argument at all" (line 26). -/
structure Args where
  /-- `len(os.Args) > 1` -/
  given : Bool := true
  help : Bool := false
  showNodeType : Bool := false
  xbnf : List Nat := []
  rules : List (List Nat) := []
  texts : List (List Nat) := []
  files : List (List Nat) := []
deriving Repr, Inhabited

/-- The orders in which Go visits its maps when a document is evaluated: in `EvalRaw` and in its error messages.
grammar.go:341, grammar.go:358, grammar.go:66, grammar.go:377. -/
structure DocOrder where
  sched : Grammar.Sched
  roots : List Record → List Record
  errors : List Err → List Err

/-- The file system (`ioutil.ReadFile`: the bytes or the text of the error) and the orders of maps.  main/xbnf.go:87, grammar.go:681. -/
structure World where
  read : List Nat → Except (List Rune) (List Nat)
  /-- `Validate` (grammar.go:218), in `NewGrammarFromFile` and in the command -/
  usages : List (Name × List Name) → List (Name × List Name)
  usages' : List (Name × List Name) → List (Name × List Name)
  /-- `Serialize` and `StringRuleRelation` -/
  records : List Record → List Record
  records' : List Record → List Record
  /-- the i-th document -/
  doc : Nat → DocOrder

namespace Command

/-- The text of an error of `NewGrammarFromString`, `AddRule` or `Validate`.  main/xbnf.go:41, main/xbnf.go:55, main/xbnf.go:62. -/
def errText (g : Grammar) (order : List (Name × List Name) → List (Name × List Name)) (e : PErr) : List Rune :=
  e.text ((g.missing (order g.nonRoots)).getD [])

/-- grammar.go:680-692 `NewGrammarFromFile`: the grammar or the text of the error.  (`fileName` is read nowhere.) -/
def fromFile (w : World) (fuel : Nat) (name : List Nat) : Exec (Except (List Rune) Grammar) :=
  match w.read name with
  | .error e => .ok (.error (runes "can't real file: " ++ e))
  | .ok bs =>
    match Grammar.fromBytes fuel bs with
    | .oof => .oof
    | .err e g => .ok (.error (decode name ++ runes ": " ++ errText g w.usages e))
    | .ok g _ => .ok (.ok g)

/-- xbnf.go:49-56: the grammar with the rules added, or the error that ends the program; what is written. -/
def addRules (fuel : Nat) : List (List Nat) → Grammar → Exec (Option Grammar × List (List Rune))
  | [], g => .ok (some g, [])
  | r :: rs, g =>
    match g.addRuleBytes fuel r with
    | .oof => .oof
    | .err e g => .ok (none, [runes "Adding rule: " ++ decode r ++ [newline], runes "ERROR: " ++ errText g id e ++ [newline]])
    | .ok _ g => do
      let (o, out) ← addRules fuel rs g
      .ok (o, (runes "Adding rule: " ++ decode r ++ [newline]) :: out)

/-- xbnf.go:79-82 (`merge := false`) and 98-102 (`merge := true`): what is done to the nodes `Eval` returns. -/
def prune (merge : Bool) (ns : List Node) : List Node :=
  let ns := removeVirtualL ns
  let ns := if merge then mergeStickyNodes ns else ns
  astRemoveRedundant (removeNonDataL ns)

/-- xbnf.go:73-83 and 92-103: the tree of a document as text, or the text of the error. -/
def document (o : DocOrder) (g : Grammar) (fuel : Nat) (cfg : TreeConfig) (merge : Bool) (bs : List Nat) :
    Exec (Except (List Rune) (List Rune)) := do
  let (r, _) ← g.evalReport fuel o.sched (Stream.ofChars (decode bs))
  match r with
  | .error e => do
    let m ← e.text (o.roots g.roots) o.errors
    .ok (.error m)
  | .ok ns => .ok (.ok (astStringTree cfg [] (prune merge (Grammar.simplify Grammar.LevelBasic ns))))

/-- xbnf.go:70-84: the texts; whether the program goes on, and what is written.  `i` is the number of the document. -/
def texts (w : World) (g : Grammar) (fuel : Nat) (cfg : TreeConfig) : Nat → List (List Nat) → Exec (Bool × List (List Rune))
  | _, [] => .ok (true, [])
  | i, t :: ts => do
    let head := runes "\nParsing text: " ++ decode t ++ [newline]
    match ← document (w.doc i) g fuel cfg false t with
    | .error m => .ok (false, [head, runes "ERROR: " ++ m])
    | .ok tree => do
      let (b, out) ← texts w g fuel cfg (i + 1) ts
      .ok (b, head :: (tree ++ [newline]) :: out)

/-- xbnf.go:86-104: the files. -/
def files (w : World) (g : Grammar) (fuel : Nat) (cfg : TreeConfig) : Nat → List (List Nat) → Exec (Bool × List (List Rune))
  | _, [] => .ok (true, [])
  | i, f :: fs => do
    let head := runes "\nParsing file: " ++ decode f ++ [newline]
    match w.read f with
    | .error e => .ok (false, [head, runes "ERROR: " ++ e])
    | .ok bs =>
      match ← document (w.doc i) g fuel cfg true bs with
      | .error m => .ok (false, [head, runes "ERROR: " ++ m])
      | .ok tree => do
        let (b, out) ← files w g fuel cfg (i + 1) fs
        .ok (b, head :: (tree ++ [newline]) :: out)

/-- xbnf.go:70-104. -/
def documents (w : World) (g : Grammar) (fuel : Nat) (a : Args) : Exec (List (List Rune)) := do
  let cfg : TreeConfig := { printRuleType := a.showNodeType }
  let (b, out) ← texts w g fuel cfg 0 a.texts
  if b then do
    let (_, out') ← files w g fuel cfg a.texts.length a.files
    .ok (out ++ out')
  else .ok out

/-- xbnf.go:58-64: `Validate` (an error is written and nothing more), and the grammar as text. -/
def present (w : World) (g : Grammar) : Grammar × List (List Rune) :=
  match g.validate with
  | none => (g, [runes "ERROR: " ++ errText g w.usages' .undefinedRef ++ [newline], shown g])
  | some g => (g, [shown g])
where
  shown (g : Grammar) : List Rune :=
    runes "Grammar:\n    " ++ indent (runes "    ") (g.serialize false (w.records g.records) (w.records' g.records))

/-- xbnf.go:49-104: what is written once the file is read. -/
def work (w : World) (fuel : Nat) (a : Args) (g : Grammar) : Exec (List (List Rune)) :=
  match addRules fuel a.rules g with
  | .oof => .oof
  | .panic => .panic
  | .ok (none, out) => .ok out
  | .ok (some g, out) => do
    let docs ← documents w (present w g).1 fuel a
    .ok (out ++ (present w g).2 ++ docs)

/-- xbnf.go:13-105 `main`. -/
def main (w : World) (fuel : Nat) (a : Args) : Exec (List (List Rune)) :=
  if a.help ∨ a.given = false then .ok []
  else if a.xbnf = [] ∧ a.rules = [] then
    .ok [runes "ERROR: Command line arguments must contains at least one of -xbnf or -rule\n"]
  else
    let head := runes "Adding rule(s) from XBNF file: " ++ decode a.xbnf ++ [newline]
    match fromFile w fuel a.xbnf with
    | .oof => .oof
    | .panic => .panic
    | .ok (.error e) => .ok [head, runes "ERROR: " ++ e]
    | .ok (.ok g) => do
      let out ← work w fuel a g
      .ok (head :: out)

end Command
end Xbnf
