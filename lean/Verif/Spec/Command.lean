import Verif.Model.Command
import Verif.Spec.Bytes
import Verif.Spec.Calls
/-
What the command writes.
-/
namespace Xbnf.Spec.Cli

/-- The orders are orders: nothing is lost and nothing is new. -/
def Orders (w : World) : Prop :=
  (∀ l, (w.usages l).Perm l) ∧ (∀ l, (w.usages' l).Perm l) ∧ (∀ l, (w.records l).Perm l) ∧ (∀ l, (w.records' l).Perm l) ∧
    ∀ i, (w.doc i).sched.Fair ∧ (∀ l, ((w.doc i).roots l).Perm l) ∧ ∀ l, ((w.doc i).errors l).Perm l

/-- A document given to the command. -/
inductive Source where
  | text (bytes : List Nat)
  | file (name : List Nat)

/-- The documents in the order in which they are read: texts first. -/
def docs (a : Args) : List Source := a.texts.map .text ++ a.files.map .file

/-- The line written before a document. -/
inductive Title : Source → List Rune → Prop
  | text {bs t} (h : ReadAs bs t) : Title (.text bs) (runes "\nParsing text: " ++ t ++ runes "\n")
  | file {bs t} (h : ReadAs bs t) : Title (.file bs) (runes "\nParsing file: " ++ t ++ runes "\n")

/-- The characters of a document. -/
inductive Content (w : World) : Source → List Rune → Prop
  | text {bs t} (h : ReadAs bs t) : Content w (.text bs) t
  | file {name bs t} (hr : w.read name = .ok bs) (h : ReadAs bs t) : Content w (.file name) t

/-- The tree of a document, or the reason why there is none: the file cannot be read, or `Eval` returns an error.  The tree is that of
`Eval`, without the virtual and nondata nodes and without what is redundant then. -/
inductive Outcome (w : World) (g : Grammar) (fuel : Nat) (o : DocOrder) (cfg : TreeConfig) : Source → Except (List Rune) (List Rune) → Prop
  | unreadable {name e} (h : w.read name = .error e) : Outcome w g fuel o cfg (.file name) (.error e)
  | rejected {d t r s' m} (hc : Content w d t) (h : g.evalReport fuel o.sched (Stream.ofChars t) = .ok (.error r, s'))
      (hm : r.text (o.roots g.roots) o.errors = .ok m) : Outcome w g fuel o cfg d (.error m)
  | tree {d t ns s'} (hc : Content w d t) (h : g.evalAST fuel o.sched (Stream.ofChars t) Grammar.LevelBasic = .ok (.ok ns, s')) :
      Outcome w g fuel o cfg d (.ok (astStringTree cfg [] (astRemoveRedundant (removeNonDataL (removeVirtualL ns)))))

/-- What is written about documents: their trees, one after the other, up to the first that has none. -/
inductive Session (w : World) (g : Grammar) (fuel : Nat) (cfg : TreeConfig) : Nat → List Source → List (List Rune) → Prop
  | done {i} : Session w g fuel cfg i [] []
  | stop {i d ds t m} (ht : Title d t) (h : Outcome w g fuel (w.doc i) cfg d (.error m)) :
      Session w g fuel cfg i (d :: ds) [t, runes "ERROR: " ++ m]
  | next {i d ds t tree out} (ht : Title d t) (h : Outcome w g fuel (w.doc i) cfg d (.ok tree)) (hs : Session w g fuel cfg (i + 1) ds out) :
      Session w g fuel cfg i (d :: ds) (t :: (tree ++ runes "\n") :: out)

/-- The rules of the command line are added one by one; an error ends the program. -/
inductive Adding : List (List Nat) → Grammar → Option Grammar → List (List Rune) → Prop
  | done {g} : Adding [] g (some g) []
  | stop {r rs t g fuel e g'} (ht : ReadAs r t) (h : g.addRule fuel t = .err e g') :
      Adding (r :: rs) g none [runes "Adding rule: " ++ t ++ runes "\n", runes "ERROR: " ++ e.text [] ++ runes "\n"]
  | next {r rs t g fuel rule g' o out} (ht : ReadAs r t) (h : g.addRule fuel t = .ok rule g') (hs : Adding rs g' o out) :
      Adding (r :: rs) g o ((runes "Adding rule: " ++ t ++ runes "\n") :: out)

/-- What is written about the grammar, and the grammar the documents are read with.  A reference to a rule that does not exist is
reported, and that is all. -/
inductive Presented (w : World) (g : Grammar) : Grammar → List (List Rune) → Prop
  | closed {g'} (hc : Closed g.records) (h : g.validate = some g') :
      Presented w g g' [runes "Grammar:\n    " ++ indent (runes "    ") (g'.serialize false (w.records g'.records) (w.records' g'.records))]
  | undefined {r n} (hr : r ∈ g.records) (hn : n ∈ refs r.rule) (hd : ∀ q ∈ g.records, q.name ≠ n) :
      Presented w g g [runes "ERROR: rule name '" ++ n.map viaUTF8 ++ runes "' referenced but not defined\n",
        runes "Grammar:\n    " ++ indent (runes "    ") (g.serialize false (w.records g.records) (w.records' g.records))]

/-- What the program writes, piece by piece. -/
inductive Run (w : World) (fuel : Nat) (a : Args) : List (List Rune) → Prop
  | help (h : a.help = true ∨ a.given = false) : Run w fuel a []
  | noRules (hx : a.xbnf = []) (hr : a.rules = []) :
      Run w fuel a [runes "ERROR: Command line arguments must contains at least one of -xbnf or -rule\n"]
  | unreadable {name e} (hx : a.xbnf ≠ [] ∨ a.rules ≠ []) (hn : ReadAs a.xbnf name) (h : w.read a.xbnf = .error e) :
      Run w fuel a [runes "Adding rule(s) from XBNF file: " ++ name ++ runes "\n", runes "ERROR: can't real file: " ++ e]
  | badFile {name bs text e g m} (hx : a.xbnf ≠ [] ∨ a.rules ≠ []) (hn : ReadAs a.xbnf name) (h : w.read a.xbnf = .ok bs)
      (ht : ReadAs bs text) (he : Grammar.fromString fuel text = .err e g)
      (hm : e = .undefinedRef → ∃ ls recs, Lines text ls ∧ Denotes 1 ls recs ∧ (∃ r ∈ recs, m ∈ refs r.rule) ∧ ∀ r ∈ recs, r.name ≠ m) :
      Run w fuel a [runes "Adding rule(s) from XBNF file: " ++ name ++ runes "\n",
        runes "ERROR: " ++ name ++ runes ": " ++ e.text m]
  | badRule {name bs text g g' out} (hx : a.xbnf ≠ [] ∨ a.rules ≠ []) (hn : ReadAs a.xbnf name) (h : w.read a.xbnf = .ok bs)
      (ht : ReadAs bs text) (hg : Grammar.fromString fuel text = .ok g g') (ha : Adding a.rules g none out) :
      Run w fuel a ((runes "Adding rule(s) from XBNF file: " ++ name ++ runes "\n") :: out)
  | all {name bs text g g' g1 g2 out shown trees} (hx : a.xbnf ≠ [] ∨ a.rules ≠ []) (hn : ReadAs a.xbnf name) (h : w.read a.xbnf = .ok bs)
      (ht : ReadAs bs text) (hg : Grammar.fromString fuel text = .ok g g') (ha : Adding a.rules g (some g1) out)
      (hp : Presented w g1 g2 shown) (hs : Session w g2 fuel { printRuleType := a.showNodeType } 0 (docs a) trees) :
      Run w fuel a ((runes "Adding rule(s) from XBNF file: " ++ name ++ runes "\n") :: (out ++ shown ++ trees))

end Xbnf.Spec.Cli
