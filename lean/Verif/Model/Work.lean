import Verif.Model.Grammar
/-
The work of an evaluation: how many times `IRule.Eval` is called.  Each function counts the calls that
the function of Model/Eval.lean with the same control flow makes; `ev` gives the results the control flow
depends on, `cnt` the calls made inside a call.  Calls made before a panic are counted up to that point.
-/
namespace Xbnf

/-- The number of calls of `Eval` inside a call.  The calls are those of rule.go:121-156 `IRule.Eval`. -/
abbrev Counter := Rule → Int → Stream → Nat

/-- rule_concatenate.go:39-98: the calls of the loop of `ConcatenateRule.Eval` (`concatLoop`). -/
def workConcat (ev : Evaluator) (cnt : Counter) : List Rule → SeqState → Stream → Nat
  | [], _, _ => 0
  | r :: rs, st, s =>
    cnt r st.flag (s.pushBack st.unused) +
      match ev r st.flag (s.pushBack st.unused) with
      | .ok (res, cs) =>
        match account st.read st.unused res, res.node with
        | .ok (read, unused), some n =>
          workConcat ev cnt rs
            { read := read, unused := unused, sticky := st.sticky && res.sticky, pos := firstPos st.pos n.pos,
              flag := nextFlag st.flag n res.sticky, nodes := st.nodes ++ [n] } cs
        | _, _ => 0
      | _ => 0

/-- rule_repetition.go:49-97: the calls of the loop of `RepetitionRule.Eval` (`repLoop`). -/
def workRep (ev : Evaluator) (cnt : Counter) (r : Rule) (max : Nat) : Nat → SeqState → Stream → Nat
  | 0, _, _ => 0
  | fuel + 1, st, s =>
    if (s.pushBack st.unused).peek = EOFChar then 0
    else
      cnt r st.flag (s.pushBack st.unused) +
        match ev r st.flag (s.pushBack st.unused) with
        | .ok (res, cs) =>
          match account st.read st.unused res, res.node with
          | .ok (read, unused), some n =>
            if max > 0 ∧ (st.nodes ++ [n]).length = max then 0
            else workRep ev cnt r max fuel
              { st with read := read, unused := unused, sticky := st.sticky && res.sticky,
                        pos := firstPos st.pos n.pos, nodes := st.nodes ++ [n] } cs
          | _, _ => 0
        | _ => 0

/-- rule_choice.go:55-72 and rule.go:278-288: the calls for all rules of one group (`choiceGroup`), or all
excluded rules of a block (`greedyLoop`); `read` is the longest `CharsRead` so far. -/
def workGroup (ev : Evaluator) (cnt : Counter) (flag : Int) : List Rule → List Rune → Stream → Nat
  | [], _, _ => 0
  | r :: rs, read, s =>
    cnt r flag (s.pushBack read) +
      match ev r flag (s.pushBack read) with
      | .ok (res, cs) =>
        workGroup ev cnt flag rs (if read.length < res.read.length then res.read else read) (cs.popBack read)
      | _ => 0

/-- rule_choice.go:52-122: the calls of `ChoiceRule.Eval` (`choiceLoop`). -/
def workChoice (ev : Evaluator) (cnt : Counter) (flag : Int) : List (List Rule) → ChoiceState → Stream → Nat
  | [], _, _ => 0
  | g :: gs, st, s =>
    workGroup ev cnt flag g st.read s +
      match choiceGroup ev flag g st s with
      | .ok (ms, st, s) =>
        match pick ms with
        | .none => workChoice ev cnt flag gs st s
        | _ => 0
      | _ => 0

/-- rule_block.go:103-132: the result of looking for the escape, as in `blockLoop`. -/
def escapeStep (ev : Evaluator) (escape : Option Rule) (st : BlockState) (s : Stream) :
    Exec (Bool × List Rune × List Rune × List Rune × Stream) :=
  match escape with
  | none => .ok (false, [], st.used, st.unused, s)
  | some e => do
    let (res, s) ← ev e NOT_SKIP s
    if res.node.isSome then do
      let c ← res.charsUsed
      .ok (true, c, st.used ++ c, res.unused, s)
    else .ok (false, [], st.used, res.read, s)

/-- rule_block.go:136-153: the result of looking for the excluded texts, as in `blockLoop`. -/
def excludeStep (ev : Evaluator) (excludes : List Rule) (s : Stream) : Exec (Option Res × Stream) :=
  if excludes.length > 0 then do
    let (res, cs) ← mostGreedy ev NOT_SKIP excludes s
    .ok (some res, cs)
  else .ok (none, s)

/-- rule_block.go:102-187: the calls of the loop of `BlockRule.Eval` (`blockLoop`). -/
def workBlock (ev : Evaluator) (cnt : Counter) (close : Rule) (escape : Option Rule) (excludes : List Rule) :
    Nat → BlockState → Stream → Nat
  | 0, _, _ => 0
  | fuel + 1, st, s =>
    (match escape with
      | none => 0
      | some e => cnt e NOT_SKIP s) +
    match escapeStep ev escape st s with
    | .ok (escaped, escapeChars, used, u1, s) =>
      workGroup ev cnt NOT_SKIP excludes [] (s.pushBack u1) +
      match excludeStep ev excludes (s.pushBack u1) with
      | .ok (rx, cs1) =>
        match rx.bind (fun r => r.node.map (fun _ => r)) with
        | some rx =>
          match rx.charsUsed with
          | .ok c =>
            if escaped then
              workBlock ev cnt close escape excludes fuel
                { used := used ++ c, unused := rx.unused, content := st.content ++ c } cs1
            else 0
          | _ => 0
        | none =>
          let u2 := match rx with
            | some rx => rx.read
            | none => u1
          cnt close NOT_SKIP (cs1.pushBack u2) +
          match ev close NOT_SKIP (cs1.pushBack u2) with
          | .ok (rc, cs2) =>
            match rc.node with
            | some _ =>
              match rc.charsUsed with
              | .ok c =>
                if escaped then
                  workBlock ev cnt close escape excludes fuel
                    { used := used ++ c, unused := rc.unused, content := st.content ++ c } cs2
                else 0
              | _ => 0
            | none =>
              let cs3 := cs2.pushBack rc.unused
              if cs3.peek = EOFChar then 0
              else
                workBlock ev cnt close escape excludes fuel
                  { used := used, unused := [], content := st.content ++ escapeChars ++ escapeChars ++ [cs3.next.1] }
                  cs3.next.2
          | _ => 0
      | _ => 0
    | _ => 0

/-- The number of calls of `IRule.Eval` (rule.go:139-146) that a call makes, itself included: `eval` with
the calls counted. -/
def work (env : Env) : Nat → Rule → Int → Stream → Nat
  | 0, _, _, _ => 0
  | fuel + 1, rule, flag, s =>
    1 + match rule with
      | .group _ r => work env fuel r flag s
      | .option _ r => work env fuel r flag s
      | .rep _ r _ mx => workRep (eval env fuel) (work env fuel) r mx fuel { flag := flag } s
      | .choice _ groups => workChoice (eval env fuel) (work env fuel) flag groups {} s
      | .concat _ rules => workConcat (eval env fuel) (work env fuel) rules { flag := flag } s
      | .block _ opn _ close escape excludes =>
        work env fuel opn flag s +
          match eval env fuel opn flag s with
          | .ok (ro, s) =>
            match ro.node, sliceTo ro.read ro.countUsed with
            | some _, .ok used =>
              workBlock (eval env fuel) (work env fuel) close escape excludes fuel
                { used := used, unused := ro.unused } (s.pushBack ro.unused).position.2
            | _, _ => 0
          | _ => 0
      | .ref _ name =>
        match env name with
        | none => 0
        | some r => work env fuel r flag s
      | _ => 0

/-- grammar.go:289-299 `EvalRule`: the number of calls of `Eval`. -/
def Grammar.workRule (g : Grammar) (fuel : Nat) (name : Name) (sample : List Rune) : Nat :=
  match g.getRecord name with
  | none => 0
  | some rc => work g.env fuel rc.rule SUGGEST_SKIP (Stream.ofChars sample)

/-- grammar.go:341-353: the calls for all root rules (`rootsLoop`). -/
def workRoots (env : Env) (fuel : Nat) (flag : Int) : List Record → List Rune → Stream → Nat
  | [], _, _ => 0
  | r :: rs, maxRead, cs =>
    work env fuel r.rule flag (cs.pushBack maxRead) +
      match eval env fuel r.rule flag (cs.pushBack maxRead) with
      | .ok (res, cs) => workRoots env fuel flag rs (if maxRead.length < res.read.length then res.read else maxRead) cs
      | _ => 0

/-- grammar.go:333-398: the calls of the loop of `EvalRaw` (`rawLoop`). -/
def workRawLoop (env : Env) (fuel : Nat) (roots : List Record) (sch : Grammar.Sched) :
    Nat → Nat → Int → List Rune → Stream → Nat
  | 0, _, _, _, _ => 0
  | n + 1, i, flag, unused, s =>
    if (s.pushBack unused).peek = EOFChar then 0
    else
      workRoots env fuel flag (sch.roots i roots) [] (s.pushBack unused) +
        match Grammar.rootsLoop env fuel flag (sch.roots i roots) [] (s.pushBack unused) with
        | .ok (ms, maxRead, cs) =>
          match pick (sch.matched i ms) with
          | .found r =>
            match sliceFrom maxRead r.countUsed with
            | .ok unused' =>
              workRawLoop env fuel roots sch n (i + 1) (if r.sticky then SUGGEST_NOT_SKIP else SUGGEST_SKIP) unused'
                (cs.popBack unused)
            | _ => 0
          | _ => 0
        | _ => 0

/-- grammar.go:325-403 `EvalRaw`: the number of calls of `IRule.Eval`.  `Grammar.Eval` (grammar.go:301-322)
makes the same calls; the simplification of the tree makes none. -/
def Grammar.workRaw (g : Grammar) (fuel : Nat) (sch : Grammar.Sched) (s : Stream) : Nat :=
  if s.peek = EOFChar then 0 else workRawLoop g.env fuel g.roots sch fuel 0 SUGGEST_SKIP [] s

/-- grammar.go:261-285: the calls of the loop of `EvalEmbed` (`embedLoop`). -/
def workEmbedLoop (env : Env) (fuel : Nat) (rule : Rule) : Nat → Stream → Nat
  | 0, _ => 0
  | n + 1, cs =>
    work env fuel rule NOT_SKIP cs +
      match eval env fuel rule NOT_SKIP cs with
      | .ok (res, cs) =>
        match res.node with
        | none =>
          if (cs.pushBack res.unused).next.1 = EOFChar then 0
          else workEmbedLoop env fuel rule n (cs.pushBack res.unused).next.2
        | some _ => workEmbedLoop env fuel rule n (cs.pushBack res.unused)
      | _ => 0

/-- grammar.go:248-287 `EvalEmbed`: the number of calls of `IRule.Eval`. -/
def Grammar.workEmbed (g : Grammar) (fuel : Nat) (name : Name) (sample : List Rune) : Nat :=
  match g.getRecord name with
  | none => 0
  | some rc => workEmbedLoop g.env fuel rc.rule fuel (Stream.ofChars sample)

end Xbnf
