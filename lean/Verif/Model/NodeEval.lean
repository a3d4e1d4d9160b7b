import Verif.Model.NodeHeap
/-
The evaluators once more, making node objects: the `Eval` methods of /repo/rule_*.go, `mostGreedy` of /repo/rule.go, and /repo/grammar.go.

A result has the address of its node.  `&Node{…}` takes the next address.  The rules that have others inside make their node before they call them, as in the
code; the fields of that node are written in one go when the calls are over, where the code writes some of them in between (nobody else has the address of the
node until the method returns it).  A terminal rule takes an address only if it matches.  The texts and the streams are values, as in Model/Eval.lean.
-/
namespace Xbnf

/-- What is at each address, and the next address to take.  node.go:23-35. -/
structure Heap where
  mem : NodeMem := fun _ => default
  next : Nat := 0

/-- rule.go:47-64 `EvalResult`, with the address of the node. -/
structure PRes where
  node : Option Nat := none
  error : Option Err := none
  errIdx : Int := 0
  read : List Rune := []
  unused : List Rune := []
  sticky : Bool := false
deriving Repr, Inhabited

/-- The result without its node.  rule.go:47-64. -/
def PRes.bare (r : PRes) : Res := { error := r.error, errIdx := r.errIdx, read := r.read, unused := r.unused, sticky := r.sticky }

/-- rule.go:73-75 `countCharsUsed`. -/
def PRes.countUsed (r : PRes) : Int := r.bare.countUsed

/-- rule.go:77-79 `charsUsed`. -/
def PRes.charsUsed (r : PRes) : Exec (List Rune) := r.bare.charsUsed

namespace Ptr

/-- `&Node{…}`: the address, which is the caller's from now on.  For example rule_group.go:21-27. -/
def fresh (h : Heap) : Heap := { h with next := h.next + 1 }

/-- The fields of the node at `p` are written.  For example rule_group.go:33-36. -/
def write (p : Nat) (o : NodeObj) (h : Heap) : Heap := { h with mem := h.mem.put p o }

/-- The result of a terminal rule, its node put into memory: rule_terminal_char.go:29-36, rule_terminal_chars.go:29-36, rule_terminal_string.go:29-36,
rule_terminal_range.go:31-39, rule_eof.go:42-51. -/
def leaf (r : Res) (h : Heap) : PRes × Heap :=
  let out : PRes := { error := r.error, errIdx := r.errIdx, read := r.read, unused := r.unused, sticky := r.sticky }
  match r.node with
  | none => (out, h)
  | some n =>
    ({ out with node := some h.next },
     write h.next { ruleType := n.ruleType, name := n.name, chars := n.chars, kids := [], pos := n.pos, sticky := n.sticky, virt := n.virt,
                    nonData := n.nonData, tokenized := n.tokenized } (fresh h))

/-- The fields of a node with children.  rule_group.go:21-27, rule_option.go:23-29, rule_concatenate.go:31-37, rule_repetition.go:39-45,
rule_choice.go:38-44, rule_block.go:64-71. -/
def branchObj (rt : RType) (b : RuleBase) (sticky : Bool) (kids : List Nat) (pos : Option Position) : NodeObj :=
  { ruleType := rt, name := b.name, kids := kids, pos := pos, sticky := sticky, virt := b.virt, nonData := b.nondata, tokenized := b.tokenized }

/-- rule_group.go:29-37; `p` is the node of the group. -/
def groupRes (p : Nat) (b : RuleBase) (r : PRes) (h : Heap) : PRes × Heap :=
  match r.node with
  | none => ({ r with unused := r.read }, h)
  | some q => ({ r with node := some p }, write p (branchObj .group b r.sticky [q] none) h)

/-- rule_option.go:31-39; `p` is the node of the option. -/
def optionRes (p : Nat) (b : RuleBase) (r : PRes) (h : Heap) : PRes × Heap :=
  match r.node with
  | none => ({ r with node := some p }, write p (branchObj .option b r.sticky [] none) h)
  | some q => ({ r with node := some p }, write p (branchObj .option b r.sticky [q] (h.mem q).pos) h)

/-- rule_reference.go:26-48: the node is changed where it is. -/
def refRes (b : RuleBase) (r : PRes) (h : Heap) : PRes × Heap :=
  match r.node with
  | none => (r, h)
  | some q =>
    let o := h.mem q
    (r, write q { o with
        tokenized := if b.tokenized then !o.tokenized else o.tokenized
        virt := if b.virt then !o.virt else o.virt
        nonData := if b.nondata then !o.nonData else o.nonData } h)

/-- `rule.Eval(grammar, charstream, flag)`.  rule.go:121-156. -/
abbrev PEvaluator := Rule → Int → Stream → Heap → Exec (PRes × Stream × Heap)

/-- The variables of the loops of `ConcatenateRule.Eval` and `RepetitionRule.Eval`.  rule_concatenate.go:28-38, rule_repetition.go:36-48. -/
structure PSeq where
  read : List Rune := []
  unused : List Rune := []
  sticky : Bool := true
  pos : Option Position := none
  flag : Int
  nodes : List Nat := []

/-- rule_concatenate.go:80-90: the flag for the next rule. -/
def nextFlag (flag : Int) (o : NodeObj) (sticky : Bool) : Int :=
  if o.ruleType ≠ .option ∨ (o.kids.length > 0 ∨ o.chars.length > 0) then
    if sticky then SUGGEST_NOT_SKIP else SUGGEST_SKIP
  else flag

/-- rule_concatenate.go:39-98, the loop of `ConcatenateRule.Eval` and what follows it; `self` is the rule, `p` its node. -/
def concatLoop (ev : PEvaluator) (self : Rule) (p : Nat) : List Rule → PSeq → Stream → Heap → Exec (PRes × Stream × Heap)
  | [], st, s, h =>
    .ok ({ node := some p, read := st.read, unused := st.unused, sticky := st.sticky }, s,
      write p (branchObj .concatenate self.base st.sticky st.nodes st.pos) h)
  | r :: rs, st, s, h => do
    let (res, cs, h) ← ev r st.flag (s.pushBack st.unused) h
    let (read, unused) ← account st.read st.unused res.bare
    let sticky := st.sticky && res.sticky
    match res.node with
    | none =>
      .ok ({ error := some (.inConcat self (res.error.getD .nil)), errIdx := res.errIdx, read := read,
             unused := read, sticky := sticky }, cs.popBack st.unused, h)
    | some q => do
      let (out, cs, h) ← concatLoop ev self p rs
        { read := read, unused := unused, sticky := sticky, pos := firstPos st.pos (h.mem q).pos,
          flag := nextFlag st.flag (h.mem q) res.sticky, nodes := st.nodes ++ [q] } cs h
      .ok (out, cs.popBack st.unused, h)

/-- rule_repetition.go:49-97, the loop of `RepetitionRule.Eval`. -/
def repLoop (ev : PEvaluator) (r : Rule) (max : Nat) : Nat → PSeq → Stream → Heap → Exec (PSeq × Option PRes × Stream × Heap)
  | 0, _, _, _ => .oof
  | fuel + 1, st, s, h =>
    let cs := s.pushBack st.unused
    if cs.peek = EOFChar then .ok (st, none, s, h)
    else do
      let (res, cs, h) ← ev r st.flag cs h
      let (read, unused) ← account st.read st.unused res.bare
      let sticky := st.sticky && res.sticky
      match res.node with
      | none => .ok ({ st with read := read, unused := unused, sticky := sticky }, some res, cs.popBack st.unused, h)
      | some q =>
        let st' := { st with read := read, unused := unused, sticky := sticky,
                             pos := firstPos st.pos (h.mem q).pos, nodes := st.nodes ++ [q] }
        if max > 0 ∧ st'.nodes.length = max then .ok (st', none, cs.popBack st.unused, h)
        else do
          let (out, why, cs, h) ← repLoop ev r max fuel st' cs h
          .ok (out, why, cs.popBack st.unused, h)

/-- rule_repetition.go:99-114: the result after the loop; `p` is the node of the repetition. -/
def repFinish (self : Rule) (p : Nat) (min : Nat) (st : PSeq) (why : Option PRes) (s : Stream) (h : Heap) : PRes × Heap :=
  let error := why.bind (·.error)
  let errIdx := if why.isSome then s.cursor else 0
  if st.nodes.length < min then
    ({ error := some (error.getD (.tooFew self st.nodes.length)), errIdx := if error.isSome then errIdx else s.cursor,
       read := st.read, unused := st.read, sticky := st.sticky }, h)
  else
    ({ node := some p, error := error, errIdx := errIdx, read := st.read, unused := st.unused, sticky := st.sticky },
     write p (branchObj .repetition self.base st.sticky st.nodes st.pos) h)

/-- rule_repetition.go:35-115 `RepetitionRule.Eval`. -/
def evalRep (ev : PEvaluator) (fuel : Nat) (b : RuleBase) (r : Rule) (min max : Nat) (flag : Int) (s : Stream) (h : Heap) :
    Exec (PRes × Stream × Heap) := do
  let p := h.next
  let (st, why, s', h) ← repLoop ev r max fuel { flag := flag } s (fresh h)
  let (res, h) := repFinish (.rep b r min max) p min st why s' h
  .ok (res, s', h)

/-- The outcome of choosing.  rule_choice.go:73-108, rule.go:289-319. -/
inductive PPick where
  | found (r : PRes)
  | none
  | ambiguous (x y : PRes)

/-- rule_choice.go:81-106 and rule.go:299-318. -/
def pickLoop : Int → Option PRes → List PRes → PPick
  | _, none, [] => .none
  | _, some r, [] => .found r
  | maxUsed, best, r :: rs =>
    if r.countUsed < maxUsed then pickLoop maxUsed best rs
    else if r.countUsed = maxUsed ∧ best.isSome then .ambiguous (best.getD {}) r
    else pickLoop r.countUsed (some r) rs

/-- rule_choice.go:73-108, rule.go:289-319. -/
def pick : List PRes → PPick
  | [] => .none
  | [r] => .found r
  | rs => pickLoop 0 none rs

/-- rule_choice.go:55-72: all rules of one group. -/
def choiceGroup (ev : PEvaluator) (flag : Int) : List Rule → ChoiceState → Stream → Heap → Exec (List PRes × ChoiceState × Stream × Heap)
  | [], st, s, h => .ok ([], st, s, h)
  | r :: rs, st, s, h => do
    let (res, cs, h) ← ev r flag (s.pushBack st.read) h
    let s := cs.popBack st.read
    let st := { st with sticky := st.sticky && res.sticky,
                        read := if st.read.length < res.read.length then res.read else st.read }
    match res.node with
    | some _ => do
      let (ms, st, s, h) ← choiceGroup ev flag rs st s h
      .ok (res :: ms, st, s, h)
    | none =>
      if res.errIdx > st.maxErrCursor then
        choiceGroup ev flag rs { st with maxErrCursor := res.errIdx, maxErr := res.error } s h
      else choiceGroup ev flag rs st s h

/-- Name and text of a match.  rule_choice.go:99-100, rule.go:310-311. -/
def named (fuel : Nat) (h : Heap) (r : PRes) : Exec (Name × List Rune) :=
  match r.node with
  | some q => do
    let t ← text fuel h.mem q
    .ok ((h.mem q).name, t)
  | none => .ok ([], [])

/-- rule_choice.go:52-122, the loop of `ChoiceRule.Eval` over the groups and what follows it; `p` is the node of the choice. -/
def choiceLoop (ev : PEvaluator) (fuel : Nat) (self : Rule) (p : Nat) (flag : Int) :
    List (List Rule) → ChoiceState → Stream → Heap → Exec (PRes × Stream × Heap)
  | [], st, s, h =>
    .ok ({ error := some (.inChoice self (st.maxErr.getD .nil)), errIdx := st.maxErrCursor,
           read := st.read, unused := st.read, sticky := st.sticky }, s, h)
  | g :: gs, st, s, h => do
    let (ms, st, s, h) ← choiceGroup ev flag g st s h
    match pick ms with
    | .none => choiceLoop ev fuel self p flag gs st s h
    | .ambiguous x y => do
      let a ← named fuel h x
      let b ← named fuel h y
      .ok ({ error := some (.ambiguity self.base.name a b), read := st.read }, s, h)
    | .found r => do
      let unused ← sliceFrom st.read r.countUsed
      match r.node with
      | some q =>
        .ok ({ node := some p, read := st.read, unused := unused, sticky := st.sticky }, s,
          write p (branchObj .choice self.base st.sticky [q] (h.mem q).pos) h)
      | none => .ok ({ read := st.read, unused := unused, sticky := st.sticky }, s, h)

/-- rule.go:278-288: the loop of `mostGreedy` over the rules. -/
def greedyLoop (ev : PEvaluator) (flag : Int) : List Rule → List Rune → Stream → Heap → Exec (List PRes × List Rune × Stream × Heap)
  | [], maxRead, s, h => .ok ([], maxRead, s, h)
  | r :: rs, maxRead, s, h => do
    let (res, cs, h) ← ev r flag (s.pushBack maxRead) h
    let s := cs.popBack maxRead
    let maxRead := if maxRead.length < res.read.length then res.read else maxRead
    let (ms, maxRead, s, h) ← greedyLoop ev flag rs maxRead s h
    .ok (if res.node.isSome then res :: ms else ms, maxRead, s, h)

/-- rule.go:274-325 `mostGreedy`. -/
def mostGreedy (ev : PEvaluator) (fuel : Nat) (flag : Int) (rules : List Rule) (s : Stream) (h : Heap) : Exec (PRes × Stream × Heap) := do
  let (ms, maxRead, s, h) ← greedyLoop ev flag rules [] s h
  match pick ms with
  | .none => .ok ({ read := maxRead, unused := maxRead }, s, h)
  | .ambiguous x y => do
    let a ← named fuel h x
    let b ← named fuel h y
    .ok ({ error := some (.ambiguousExcludes a.2 b.2) }, s, h)
  | .found r => do
    let unused ← sliceFrom maxRead r.countUsed
    .ok ({ node := r.node, read := maxRead, unused := unused, sticky := r.sticky }, s, h)

/-- How the loop of `BlockRule.Eval` ends.  rule_block.go:150, rule_block.go:171, rule_block.go:181. -/
inductive PBlockEnd where
  | excluded (text read : List Rune)
  | closed (used unused : List Rune) (close : PRes) (content : List Rune)
  | eof (used unused : List Rune)

/-- rule_block.go:103-132: looking for the escape. -/
def escapeStep (ev : PEvaluator) (escape : Option Rule) (st : BlockState) (s : Stream) (h : Heap) :
    Exec (Bool × List Rune × List Rune × List Rune × Stream × Heap) :=
  match escape with
  | none => .ok (false, [], st.used, st.unused, s, h)
  | some e => do
    let (res, s, h) ← ev e NOT_SKIP s h
    if res.node.isSome then do
      let c ← res.charsUsed
      .ok (true, c, st.used ++ c, res.unused, s, h)
    else .ok (false, [], st.used, res.read, s, h)

/-- rule_block.go:136-137: looking for the excluded texts. -/
def excludeStep (ev : PEvaluator) (fuel : Nat) (excludes : List Rule) (s : Stream) (h : Heap) : Exec (Option PRes × Stream × Heap) :=
  if excludes.length > 0 then do
    let (res, cs, h) ← mostGreedy ev fuel NOT_SKIP excludes s h
    .ok (some res, cs, h)
  else .ok (none, s, h)

/-- rule_block.go:102-187, the loop of `BlockRule.Eval`, at most the given number of rounds; `depth` is fuel for texts. -/
def blockEnd (ev : PEvaluator) (depth : Nat) (close : Rule) (escape : Option Rule) (excludes : List Rule) :
    Nat → BlockState → Stream → Heap → Exec (PBlockEnd × Stream × Heap)
  | 0, _, _, _ => .oof
  | fuel + 1, st, s, h => do
    let (escaped, escapeChars, used, u1, s, h) ← escapeStep ev escape st s h
    let cs1 := s.pushBack u1
    let (rx, cs1, h) ← excludeStep ev depth excludes cs1 h
    match rx.bind (fun r => r.node.map (fun _ => r)) with
    | some rx => do
      let c ← rx.charsUsed
      if escaped then do
        let (out, cs1, h) ← blockEnd ev depth close escape excludes fuel
          { used := used ++ c, unused := rx.unused, content := st.content ++ c } cs1 h
        .ok (out, cs1.popBack u1, h)
      else .ok (.excluded c (used ++ st.content ++ rx.read), cs1.popBack u1, h)
    | none => do
      let u2 := match rx with
        | some rx => rx.read
        | none => u1
      let (rc, cs2, h) ← ev close NOT_SKIP (cs1.pushBack u2) h
      match rc.node with
      | some _ => do
        let c ← rc.charsUsed
        if escaped then do
          let (out, cs2, h) ← blockEnd ev depth close escape excludes fuel
            { used := used ++ c, unused := rc.unused, content := st.content ++ c } cs2 h
          .ok (out, (cs2.popBack u2).popBack u1, h)
        else
          .ok (.closed (used ++ st.content ++ c) rc.unused rc st.content, (cs2.popBack u2).popBack u1, h)
      | none => do
        let content := st.content ++ escapeChars
        let cs3 := cs2.pushBack rc.unused
        if cs3.peek = EOFChar then
          .ok (.eof (used ++ content) rc.unused, (cs2.popBack u2).popBack u1, h)
        else do
          let r := cs3.next
          let (out, cs3, h) ← blockEnd ev depth close escape excludes fuel
            { used := used, unused := [], content := content ++ escapeChars ++ [r.1] } r.2 h
          .ok (out, ((cs3.popBack rc.unused).popBack u2).popBack u1, h)

/-- rule_block.go:60-201 `BlockRule.Eval`; the content has a node of its own (rule_block.go:93-96). -/
def evalBlock (ev : PEvaluator) (fuel : Nat) (b : RuleBase) (opn : Rule) (virtualClose : Bool) (close : Rule) (escape : Option Rule)
    (excludes : List Rule) (flag : Int) (s : Stream) (h : Heap) : Exec (PRes × Stream × Heap) := do
  let p := h.next
  let (ro, s, h) ← ev opn flag s (fresh h)
  match ro.node with
  | none => .ok ({ error := ro.error, errIdx := s.cursor, read := ro.read, unused := ro.unused }, s, h)
  | some q => do
    let used ← sliceTo ro.read ro.countUsed
    let c := h.next
    let pp := (s.pushBack ro.unused).position
    let (e, cs, h) ← blockEnd ev fuel close escape excludes fuel { used := used, unused := ro.unused } pp.2 (fresh h)
    let s := cs.popBack ro.unused
    match e with
    | .excluded text read =>
      .ok ({ error := some (.excluded text), errIdx := s.cursor, read := read, unused := read }, s, h)
    | .eof used unused =>
      .ok ({ error := some (.missingClose close), errIdx := s.cursor, read := used ++ unused, unused := used ++ unused }, s, h)
    | .closed used unused rc content =>
      let h := write c { ruleType := .chars, chars := content, pos := pp.1, sticky := true } h
      .ok ({ node := some p, read := used ++ unused, unused := if virtualClose then rc.read else unused }, s,
        write p (branchObj .block b false ([q, c] ++ (if virtualClose then [] else rc.node.toList)) (h.mem q).pos) h)

/-- `IRule.Eval` (rule.go:139-146), dispatching on the rule; rule_reference.go:17-50 for `ref`. -/
def eval (env : Env) : Nat → PEvaluator
  | 0, _, _, _, _ => .oof
  | fuel + 1, rule, flag, s, h =>
    match rule with
    | .eof b => let r := evalEOF b flag s; let l := leaf r.1 h; .ok (l.1, r.2, l.2)
    | .char b text _ => let r := evalChar b text flag s; let l := leaf r.1 h; .ok (l.1, r.2, l.2)
    | .range b first _ last _ => let r := evalRange b first last flag s; let l := leaf r.1 h; .ok (l.1, r.2, l.2)
    | .chars b text => let r := evalChars b text flag s; let l := leaf r.1 h; .ok (l.1, r.2, l.2)
    | .str b text => let r := evalString b text flag s; let l := leaf r.1 h; .ok (l.1, r.2, l.2)
    | .group b r => do
      let (res, s, h') ← eval env fuel r flag s (fresh h)
      let o := groupRes h.next b res h'
      .ok (o.1, s, o.2)
    | .option b r => do
      let (res, s, h') ← eval env fuel r flag s (fresh h)
      let o := optionRes h.next b res h'
      .ok (o.1, s, o.2)
    | .rep b r mn mx => evalRep (eval env fuel) fuel b r mn mx flag s h
    | .choice b groups => choiceLoop (eval env fuel) fuel (.choice b groups) h.next flag groups {} s (fresh h)
    | .concat b rules => concatLoop (eval env fuel) (.concat b rules) h.next rules { flag := flag } s (fresh h)
    | .block b opn v close escape excludes => evalBlock (eval env fuel) fuel b opn v close escape excludes flag s h
    | .ref b name =>
      match env name with
      | none => .ok ({ error := some (.undefined b name) }, s, h)
      | some r => do
        let (res, s, h) ← eval env fuel r flag s h
        let o := refRes b res h
        .ok (o.1, s, o.2)

/-- grammar.go:289-299 `EvalRule`. -/
def evalRule (g : Grammar) (fuel : Nat) (name : Name) (sample : List Rune) (h : Heap) : Exec (PRes × Heap) :=
  match g.getRecord name with
  | none => .ok ({ error := some (.undefined {} name) }, h)
  | some r => do
    let (res, _, h) ← eval g.env fuel r.rule SUGGEST_SKIP (Stream.ofChars sample) h
    .ok (res, h)

/-- The text node of grammar.go:268-271 and 278-281, if there is text. -/
def textNodes (text : List Rune) (h : Heap) : List Nat × Heap :=
  if text.length > 0 then ([h.next], write h.next { ruleType := .text, name := runes "_", chars := text } (fresh h)) else ([], h)

/-- grammar.go:261-285, the loop of `EvalEmbed`. -/
def embedLoop (env : Env) (fuel : Nat) (rule : Rule) : Nat → List Nat → List Rune → Stream → Heap → Exec (List Nat × Heap)
  | 0, _, _, _, _ => .oof
  | n + 1, kids, text, cs, h => do
    let (res, cs, h) ← eval env fuel rule NOT_SKIP cs h
    let cs := cs.pushBack res.unused
    match res.node with
    | none =>
      let r := cs.next
      if r.1 = EOFChar then
        let t := textNodes text h
        .ok (kids ++ t.1, t.2)
      else embedLoop env fuel rule n kids (text ++ [r.1]) r.2 h
    | some q =>
      let t := textNodes text h
      embedLoop env fuel rule n (kids ++ t.1 ++ [q]) [] cs t.2

/-- grammar.go:248-287 `EvalEmbed`. -/
def evalEmbed (g : Grammar) (fuel : Nat) (name : Name) (sample : List Rune) (h : Heap) : Exec (PRes × Heap) :=
  match g.getRecord name with
  | none => .ok ({ error := some (.undefined {} name) }, h)
  | some r => do
    let (kids, h') ← embedLoop g.env fuel r.rule fuel [] [] (Stream.ofChars sample) (fresh h)
    .ok ({ node := some h.next }, write h.next { ruleType := .embed, name := name, kids := kids } h')

/-- The elements of a list in the order given by their indices.  grammar.go:377. -/
def inOrder {α : Type} (is : List Nat) (l : List α) : List α := is.filterMap (fun i => l[i]?)

/-- The order in which Go visits its maps, for each round of the loop of `EvalRaw`: the root rules (grammar.go:341), and the matched results (grammar.go:377),
of which there are so many. -/
structure Sched where
  roots : Nat → List Record → List Record
  order : Nat → Nat → List Nat

/-- The same order, for results with nodes that are values.  grammar.go:341, grammar.go:377. -/
def Sched.value (sch : Sched) : Grammar.Sched := { roots := sch.roots, matched := fun i ms => inOrder (sch.order i ms.length) ms }

/-- A schedule that only permutes.  grammar.go:341, grammar.go:377. -/
def Sched.Fair (sch : Sched) : Prop := (∀ i l, (sch.roots i l).Perm l) ∧ ∀ i n, (sch.order i n).Perm (List.range n)

/-- grammar.go:341-353: all root rules. -/
def rootsLoop (env : Env) (fuel : Nat) (flag : Int) : List Record → List Rune → Stream → Heap → Exec (List PRes × List Rune × Stream × Heap)
  | [], maxRead, cs, h => .ok ([], maxRead, cs, h)
  | r :: rs, maxRead, cs, h => do
    let (res, cs', h) ← eval env fuel r.rule flag (cs.pushBack maxRead) h
    let maxRead' := if maxRead.length < res.read.length then res.read else maxRead
    let (ms, m, cs', h) ← rootsLoop env fuel flag rs maxRead' cs' h
    .ok (if res.node.isSome then res :: ms else ms, m, cs'.popBack maxRead, h)

/-- grammar.go:333-398, the loop of `EvalRaw`. -/
def rawLoop (env : Env) (fuel : Nat) (roots : List Record) (sch : Sched) :
    Nat → Nat → List Nat → Int → List Rune → Stream → Heap → Exec (Except Grammar.RawErr (List Nat) × Stream × Heap)
  | 0, _, _, _, _, _, _ => .oof
  | n + 1, i, nodes, flag, unused, s, h => do
    let cs := s.pushBack unused
    if cs.peek = EOFChar then
      .ok (if nodes.length = 0 then .error .noNode else .ok nodes, s, h)
    else do
      let (ms, maxRead, cs, h) ← rootsLoop env fuel flag (sch.roots i roots) [] cs h
      let s := cs.popBack unused
      match pick (inOrder (sch.order i ms.length) ms) with
      | .none => .ok (.error .noMatch, s, h)
      | .ambiguous _ _ => .ok (.error .ambiguity, s, h)
      | .found r => do
        let unused ← sliceFrom maxRead r.countUsed
        rawLoop env fuel roots sch n (i + 1) (nodes ++ r.node.toList)
          (if r.sticky then SUGGEST_NOT_SKIP else SUGGEST_SKIP) unused s h

/-- grammar.go:325-403 `EvalRaw`. -/
def evalRaw (g : Grammar) (fuel : Nat) (sch : Sched) (s : Stream) (h : Heap) : Exec (Except Grammar.RawErr (List Nat) × Stream × Heap) :=
  if s.peek = EOFChar then .ok (.error .empty, s, h)
  else rawLoop g.env fuel g.roots sch fuel 0 [] SUGGEST_SKIP [] s h

/-- grammar.go:301-322 `Eval`. -/
def evalAST (g : Grammar) (fuel : Nat) (sch : Sched) (s : Stream) (level : Int) (h : Heap) :
    Exec (Except Grammar.RawErr (List Nat) × Stream × Heap) := do
  let (r, s, h) ← evalRaw g fuel sch s h
  match r with
  | .error e => .ok (.error e, s, h)
  | .ok roots => do
    let (roots, m) ← simplify level fuel roots h.mem
    .ok (.ok roots, s, { h with mem := m })

end Ptr
end Xbnf
