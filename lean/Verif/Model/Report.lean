import Verif.Model.Serialize
/-
The errors of `EvalRaw` and `Eval` with the texts the code makes: /repo/grammar.go:325-403.
`rawLoop` of Model/Grammar.lean says which kind of error is returned; here the results that go into its
text are kept as well.  `C61_agrees` shows that both say the same.
-/
namespace Xbnf
namespace Grammar

/-- The errors of `EvalRaw` and what their texts are made from.  grammar.go:327, grammar.go:361, grammar.go:380, grammar.go:400. -/
inductive Report where
  /-- grammar.go:327 -/
  | empty
  /-- grammar.go:361: the values of `resultsError`, in the order in which the roots were tried -/
  | noMatch (errors : List Err)
  /-- grammar.go:380: `result` and `maxResult` -/
  | ambiguity (result maxResult : Res)
  /-- grammar.go:400 -/
  | noNode
deriving Repr, Inhabited

/-- The kind of the error.  grammar.go:327, grammar.go:361, grammar.go:380, grammar.go:400. -/
def Report.kind : Report → RawErr
  | .empty => .empty
  | .noMatch _ => .noMatch
  | .ambiguity _ _ => .ambiguity
  | .noNode => .noNode

/-- grammar.go:341-353 as `rootsLoop`, with the results of all root rules, in visiting order. -/
def rootsTrace (env : Env) (fuel : Nat) (flag : Int) :
    List Record → List Rune → Stream → Exec (List Res × List Rune × Stream)
  | [], maxRead, cs => .ok ([], maxRead, cs)
  | r :: rs, maxRead, cs => do
    let (res, cs') ← eval env fuel r.rule flag (cs.pushBack maxRead)
    let maxRead' := if maxRead.length < res.read.length then res.read else maxRead
    let (all, m, cs') ← rootsTrace env fuel flag rs maxRead' cs'
    .ok (res :: all, m, cs'.popBack maxRead)

/-- grammar.go:348-350: the entries of `resultsMatched` (the names of the roots are different, C31). -/
def matchedOf (all : List Res) : List Res := all.filter (fun r => r.node.isSome)

/-- grammar.go:351-353: the entries of `resultsError`. -/
def errorsOf (all : List Res) : List Err := all.filterMap (fun r => r.error)

/-- grammar.go:333-398 as `rawLoop`. -/
def reportLoop (env : Env) (fuel : Nat) (roots : List Record) (sch : Sched) :
    Nat → Nat → List Node → Int → List Rune → Stream →
      Exec (Except Report (List Node) × Stream)
  | 0, _, _, _, _, _ => .oof
  | n + 1, i, nodes, flag, unused, s => do
    let cs := s.pushBack unused
    if cs.peek = EOFChar then
      .ok (if nodes.length = 0 then .error .noNode else .ok nodes, s)
    else do
      let (all, maxRead, cs) ← rootsTrace env fuel flag (sch.roots i roots) [] cs
      let s := cs.popBack unused
      match pick (sch.matched i (matchedOf all)) with
      | .none => .ok (.error (.noMatch (errorsOf all)), s)
      | .ambiguous x y => .ok (.error (.ambiguity y x), s)
      | .found r => do
        let unused ← sliceFrom maxRead r.countUsed
        reportLoop env fuel roots sch n (i + 1) (nodes ++ r.node.toList)
          (if r.sticky then SUGGEST_NOT_SKIP else SUGGEST_SKIP) unused s

/-- grammar.go:325-403 `EvalRaw`. -/
def evalReport (g : Grammar) (fuel : Nat) (sch : Sched) (s : Stream) :
    Exec (Except Report (List Node) × Stream) :=
  if s.peek = EOFChar then .ok (.error .empty, s)
  else reportLoop g.env fuel g.roots sch fuel 0 [] SUGGEST_SKIP [] s

/-- grammar.go:357-360: the errors one after the other, in some order. -/
def joinErrors : List Err → Exec (List Rune)
  | [] => .ok []
  | e :: es => do
    let m ← e.message
    let ms ← joinErrors es
    .ok (m ++ runes "; " ++ ms)

/-- `nd.RuleName` of the node of a result (grammar.go:381 and 382; it has one). -/
def nodeName (r : Res) : Name := match r.node with
  | some n => n.name
  | none => []

/-- `err.Error()` of the errors of `EvalRaw`: grammar.go:327, 361, 380-382, 400.  `roots` is the order in which `desc`
visits the root rules, `order` the order in which the errors are visited. -/
def Report.text (roots : List Record) (order : List Err → List Err) : Report → Exec (List Rune)
  | .empty => .ok (runes "Empty Stream/EOF encountered")
  | .noMatch es => do
    let ms ← joinErrors (order es)
    let d ← desc roots
    .ok (runes "must be " ++ d ++ runes ": " ++ ms)
  | .ambiguity x y => .ok (runes "ambiguity found: " ++ nodeName x ++ runes "(\"" ++ x.read.map viaUTF8 ++ runes "\") vs "
      ++ nodeName y ++ runes "(\"" ++ y.read.map viaUTF8 ++ runes "\")")
  | .noNode => .ok (runes "no AST node found")

end Grammar
end Xbnf
