import Verif.Model.Eval
import Verif.Model.Parse
/-
Grammars: /repo/grammar.go.  `desc`, `Serialize` and `StringRuleRelation` are in
Model/Serialize.lean.  Not modelled: NewGrammarFromFile (reads a file, then calls NewGrammarFromString).
-/
namespace Xbnf

/-- grammar.go:32-36 `RuleRecord`. -/
structure Record where
  name : Name
  rule : Rule
  line : Nat
deriving Repr, Inhabited

/-- grammar.go:51-60 `Grammar`.  Go maps are lists with distinct keys here; the order of a list
carries no meaning: where the code iterates over a map and the order can be observed, the model
takes the order as an argument (`Sched`). -/
structure Grammar where
  records : List Record := []
  nonRoots : List (Name × List Name) := []
  terminals : List Record := []
  roots : List Record := []
  maxLine : Nat := 0
deriving Repr, Inhabited

/-- rule.go:245-270 `validateRuleName` (the code looks at the first byte; a byte that is an ASCII
letter is a character of its own). -/
def validName (name : Name) : Bool :=
  match name with
  | [] => false
  | c :: cs => isLetter c && cs.all isNameChar

/-- `strings.TrimSpace`: Go's `unicode.IsSpace` is true of exactly the characters of
`whiteSpaceTable`.  grammar.go:108, grammar.go:140-141, grammar.go:700, grammar.go:709-710. -/
def trimSpace (l : List Rune) : List Rune :=
  ((l.dropWhile isWhiteSpace).reverse.dropWhile isWhiteSpace).reverse

/-- `m[key] = append(m[key], v)` on a map of lists (grammar.go:211). -/
def addUsage (m : List (Name × List Name)) (key user : Name) : List (Name × List Name) :=
  match m with
  | [] => [(key, [user])]
  | (k, us) :: rest => if k = key then (k, us ++ [user]) :: rest else (k, us) :: addUsage rest key user

/-- `m[record.name] = record`.  grammar.go:127, grammar.go:232, grammar.go:237. -/
def putRecord (m : List Record) (r : Record) : List Record :=
  match m with
  | [] => [r]
  | x :: rest => if x.name = r.name then r :: rest else x :: putRecord rest r

namespace Grammar

/-- grammar.go:81-85 `GetRecord`. -/
def getRecord (g : Grammar) (name : Name) : Option Record :=
  g.records.find? (fun r => r.name == name)

/-- The rules as the evaluators see them.  grammar.go:81-85. -/
def env (g : Grammar) : Env := fun name => (g.getRecord name).map (·.rule)

/-- The grammar after the calls of `AddUsage` logged by the parser.  grammar.go:208-212. -/
def withUsages (g : Grammar) (us : List (Name × Name)) : Grammar :=
  { g with nonRoots := us.foldl (fun m u => addUsage m u.1 u.2) g.nonRoots }

/-- grammar.go:98-130 `ParseRule`. -/
def parseRule (fuel : Nat) (name : Name) (ruleStr : List Rune) (g : Grammar) : Out Grammar Rule :=
  if validName name = false then .err (.badName name) g
  else
    match g.getRecord name with
    | some r => .err (.duplicate name r.line) g
    | none =>
      match parse fuel name [EOFChar] { rest := trimSpace ruleStr } with
      | .oof => .oof
      | .err e st => .err e (g.withUsages st.usages)
      | .ok r st =>
        let g := g.withUsages st.usages
        let rule := r.setName name
        .ok rule { g with maxLine := g.maxLine + 1,
                          records := g.records ++ [⟨name, rule, g.maxLine + 1⟩] }

/-- `strings.SplitN(s, "=", 2)`: `none` when there is no '='.  grammar.go:136, grammar.go:705. -/
def splitEq : List Rune → Option (List Rune × List Rune)
  | [] => none
  | c :: cs => if c = ch '=' then some ([], cs) else (splitEq cs).map (fun p => (c :: p.1, p.2))

/-- grammar.go:133-143 `AddRule`. -/
def addRule (fuel : Nat) (defn : List Rune) (g : Grammar) : Out Grammar Rule :=
  match splitEq defn with
  | none => .err (.missingEq defn) g
  | some (n, r) => parseRule fuel (trimSpace n) (trimSpace r) g

/-- grammar.go:214-241 `Validate`.  `none` is the error of line 221 (which name it reports depends
on map order, see `Grammar.missing` in Model/DefMessage.lean); the grammar is unchanged in that case. -/
def validate (g : Grammar) : Option Grammar :=
  if g.nonRoots.any (fun p => (g.getRecord p.1).isNone) then none
  else
    let nonTerminals := (g.nonRoots.map (·.2)).flatten
    let terms := g.records.filter (fun r => !nonTerminals.contains r.name)
    let rts := g.records.filter (fun r => !(g.nonRoots.any (fun p => p.1 == r.name)))
    some { g with terminals := terms.foldl putRecord g.terminals,
                  roots := rts.foldl putRecord g.roots }

/-- `strings.Split(text, "\n")`.  grammar.go:698. -/
def splitLines : List Rune → List (List Rune)
  | [] => [[]]
  | c :: cs =>
    match splitLines cs with
    | [] => [[c]]
    | l :: ls => if c = newline then [] :: l :: ls else (c :: l) :: ls

/-- grammar.go:699-716, the loop of `NewGrammarFromString`; `i` is the index of the line. -/
def linesLoop (fuel : Nat) : Nat → List (List Rune) → Grammar → Out Grammar Unit
  | _, [], g => .ok () g
  | i, l :: ls, g =>
    let line := trimSpace l
    if line.length = 0 ∨ line.take 2 = [ch '/', ch '/'] then
      linesLoop fuel (i + 1) ls { g with maxLine := i + 1 }
    else
      match splitEq line with
      | none => .err (.atLine (i + 1) none (.missingEq line)) g
      | some (n, r) =>
        match parseRule fuel (trimSpace n) (trimSpace r) g with
        | .oof => .oof
        | .err e g => .err (.atLine (i + 1) (some (trimSpace n)) e) g
        | .ok _ g => linesLoop fuel (i + 1) ls { g with maxLine := i + 1 }

/-- grammar.go:696-722 `NewGrammarFromString`. -/
def fromString (fuel : Nat) (text : List Rune) : Out Grammar Grammar :=
  match linesLoop fuel 0 (splitLines text) {} with
  | .oof => .oof
  | .err e g => .err e g
  | .ok _ g =>
    match g.validate with
    | none => .err .undefinedRef g
    | some g => .ok g g

/-- grammar.go:289-299 `EvalRule`. -/
def evalRule (g : Grammar) (fuel : Nat) (name : Name) (sample : List Rune) : Exec Res :=
  match g.getRecord name with
  | none => .ok { error := some (.undefined {} name) }
  | some r => do
    let (res, _) ← eval g.env fuel r.rule SUGGEST_SKIP (Stream.ofChars sample)
    .ok res

/-- The text node of grammar.go:268-271 and 278-281, if there is text. -/
def textNodes (text : List Rune) : List Node :=
  if text.length > 0 then [{ ruleType := .text, name := runes "_", chars := text }] else []

/-- grammar.go:261-285, the loop of `EvalEmbed`, at most the given number of rounds; `kids` is
`node.ChildNodes`. -/
def embedLoop (env : Env) (fuel : Nat) (rule : Rule) :
    Nat → List Node → List Rune → Stream → Exec (List Node)
  | 0, _, _, _ => .oof
  | n + 1, kids, text, cs => do
    let (res, cs) ← eval env fuel rule NOT_SKIP cs
    let cs := cs.pushBack res.unused
    match res.node with
    | none =>
      let r := cs.next
      if r.1 = EOFChar then .ok (kids ++ textNodes text)
      else embedLoop env fuel rule n kids (text ++ [r.1]) r.2
    | some node => embedLoop env fuel rule n (kids ++ textNodes text ++ [node]) [] cs

/-- grammar.go:248-287 `EvalEmbed`. -/
def evalEmbed (g : Grammar) (fuel : Nat) (name : Name) (sample : List Rune) : Exec Res :=
  match g.getRecord name with
  | none => .ok { error := some (.undefined {} name) }
  | some r => do
    let kids ← embedLoop g.env fuel r.rule fuel [] [] (Stream.ofChars sample)
    .ok { node := some { ruleType := .embed, name := name, children := kids } }

/-- The order in which Go visits its maps, for each round of the loop of `EvalRaw`: the root rules
(grammar.go:341) and the matched results (grammar.go:377). -/
structure Sched where
  roots : Nat → List Record → List Record
  matched : Nat → List Res → List Res

/-- A schedule that only permutes.  The loops over maps: grammar.go:341, grammar.go:377. -/
def Sched.Fair (sch : Sched) : Prop :=
  (∀ i l, (sch.roots i l).Perm l) ∧ (∀ i l, (sch.matched i l).Perm l)

/-- The errors of `EvalRaw`.  grammar.go:327, grammar.go:361, grammar.go:380, grammar.go:400. -/
inductive RawErr where
  /-- grammar.go:327 -/
  | empty
  /-- grammar.go:361 -/
  | noMatch
  /-- grammar.go:380 -/
  | ambiguity
  /-- grammar.go:400 -/
  | noNode
deriving Repr, DecidableEq

/-- grammar.go:341-353: all root rules, each on one more prepend layer.  Result: the matches (in
visiting order), the longest `CharsRead`, the stream below the layers. -/
def rootsLoop (env : Env) (fuel : Nat) (flag : Int) :
    List Record → List Rune → Stream → Exec (List Res × List Rune × Stream)
  | [], maxRead, cs => .ok ([], maxRead, cs)
  | r :: rs, maxRead, cs => do
    let (res, cs') ← eval env fuel r.rule flag (cs.pushBack maxRead)
    let maxRead' := if maxRead.length < res.read.length then res.read else maxRead
    let (ms, m, cs') ← rootsLoop env fuel flag rs maxRead' cs'
    .ok (if res.node.isSome then res :: ms else ms, m, cs'.popBack maxRead)

/-- grammar.go:333-398, the loop of `EvalRaw`, at most the given number of rounds.  `nodes` is
`ast.Nodes`. -/
def rawLoop (env : Env) (fuel : Nat) (roots : List Record) (sch : Sched) :
    Nat → Nat → List Node → Int → List Rune → Stream →
      Exec (Except RawErr (List Node) × Stream)
  | 0, _, _, _, _, _ => .oof
  | n + 1, i, nodes, flag, unused, s => do
    let cs := s.pushBack unused
    if cs.peek = EOFChar then
      .ok (if nodes.length = 0 then .error .noNode else .ok nodes, s)
    else do
      let (ms, maxRead, cs) ← rootsLoop env fuel flag (sch.roots i roots) [] cs
      let s := cs.popBack unused
      match pick (sch.matched i ms) with
      | .none => .ok (.error .noMatch, s)
      | .ambiguous _ _ => .ok (.error .ambiguity, s)
      | .found r => do
        let unused ← sliceFrom maxRead r.countUsed
        rawLoop env fuel roots sch n (i + 1) (nodes ++ r.node.toList)
          (if r.sticky then SUGGEST_NOT_SKIP else SUGGEST_SKIP) unused s

/-- grammar.go:325-403 `EvalRaw`. -/
def evalRaw (g : Grammar) (fuel : Nat) (sch : Sched) (s : Stream) :
    Exec (Except RawErr (List Node) × Stream) :=
  if s.peek = EOFChar then .ok (.error .empty, s)
  else rawLoop g.env fuel g.roots sch fuel 0 [] SUGGEST_SKIP [] s

/-- ast.go:9-12: the simplification levels. -/
abbrev LevelRaw : Int := -1
/-- ast.go:10 -/
abbrev LevelBasic : Int := 0
/-- ast.go:11 -/
abbrev LevelNoVirtual : Int := 1
/-- ast.go:12 -/
abbrev LevelDataOnly : Int := 2

/-- grammar.go:306-321: what `Eval` does to the raw nodes. -/
def simplify (level : Int) (nodes : List Node) : List Node :=
  if level = LevelRaw then nodes
  else
    let nodes :=
      if level = LevelDataOnly then removeNonDataL (removeVirtualL (mergeStickyNodes nodes))
      else if level = LevelNoVirtual then removeVirtualL (mergeStickyNodes nodes)
      else mergeStickyNodes nodes
    astRemoveRedundant nodes

/-- grammar.go:301-322 `Eval`. -/
def evalAST (g : Grammar) (fuel : Nat) (sch : Sched) (s : Stream) (level : Int) :
    Exec (Except RawErr (List Node) × Stream) := do
  let (r, s) ← evalRaw g fuel sch s
  .ok (r.map (simplify level), s)

end Grammar
end Xbnf
