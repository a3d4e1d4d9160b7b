import Verif.Model.Rule
/-
Evaluation of rules against a stream: the `Eval` methods of /repo/rule_*.go and `mostGreedy` of
/repo/rule.go.

A Go evaluator gets the stream by reference and often wraps it in prepend streams.  Here every
function returns the stream it was given, as the call left it; where the code wraps
(`newCharstreamPrepend`), the model pushes before the call and pops after it.
-/
namespace Xbnf

/-- rule.go:229-239 `leadingWhiteSpace`. -/
def leadingWhiteSpace (text : List Rune) : List Rune := text.takeWhile isWhiteSpace

/-- rule_eof.go:34-59 `EOFRule.Eval`. -/
def evalEOF (b : RuleBase) (flag : Int) (s : Stream) : Res × Stream :=
  let sk := if flag = SUGGEST_SKIP then s.skipSpaces else ([], s)
  let s := sk.2
  if s.peek = EOFChar then
    let p := s.position
    ({ node := some { ruleType := .eof, name := runes "EOF", chars := [EOFChar], pos := p.1,
                      sticky := true, virt := b.virt, nonData := b.nondata,
                      tokenized := b.tokenized },
       read := sk.1, sticky := true }, p.2)
  else
    ({ error := some .missingEOF, errIdx := s.cursor, read := sk.1, unused := sk.1,
       sticky := true }, s)

/-- A node of a terminal rule: rule_terminal_char.go:29-36, rule_terminal_chars.go:29-36,
rule_terminal_string.go:29-36, rule_terminal_range.go:31-39. -/
def leafNode (rt : RType) (b : RuleBase) (sticky : Bool) (chars : List Rune)
    (pos : Option Position) : Node :=
  { ruleType := rt, name := b.name, chars := chars, pos := pos, sticky := sticky,
    virt := b.virt, nonData := b.nondata, tokenized := b.tokenized }

/-- rule_terminal_char.go:20-74 `TerminalCharRule.Eval`.  How the character was written
(`definedAsUnicode`) does not count here, and not in the description an error has. -/
def evalChar (b : RuleBase) (text : Rune) (flag : Int) (s : Stream) : Res × Stream :=
  if s.peek = EOFChar then
    ({ error := some (.missingAtEOF (.char b text false)), errIdx := s.cursor, sticky := true }, s)
  else
    let startPos := s.position.1
    let s := s.position.2
    let sk := if flag = SUGGEST_SKIP then s.skipSpaces else ([], s)
    let skipped := sk.1
    let s := sk.2
    if flag = SUGGEST_SKIP ∧ isWhiteSpace text = true ∧ skipped ≠ [] then
      match skipped.findIdx? (fun c => c == text) with
      | some i =>
        ({ node := some (leafNode .char b true [text]
                    (s.positionLookup (s.cursor - skipped.length + i))),
           read := skipped, unused := skipped.drop (i + 1), sticky := true }, s)
      | none =>
        ({ error := some (.missing (.char b text false) startPos), errIdx := s.cursor, read := skipped, unused := skipped,
           sticky := true }, s)
    else if s.peek ≠ text then
      ({ error := some (.missing (.char b text false) startPos), errIdx := s.cursor, read := skipped, unused := skipped,
         sticky := true }, s)
    else
      let p := s.position
      let r := p.2.next
      ({ node := some (leafNode .char b true [r.1] p.1), read := skipped ++ [r.1],
         sticky := true }, r.2)

/-- rule_terminal_range.go:22-71 `TerminalRangeRule.Eval` (the node type is `TypeChars`, and the
comparison at line 45 is `char >= end`, as in the code). -/
def evalRange (b : RuleBase) (first last : Rune) (flag : Int) (s : Stream) : Res × Stream :=
  if s.peek = EOFChar then
    ({ error := some (.missingAtEOF (.range b first false last false)), errIdx := s.cursor, sticky := true }, s)
  else
    let pos := s.positionLookup (s.cursor - 1)
    let sk := if flag = SUGGEST_SKIP then s.skipSpaces else ([], s)
    let skipped := sk.1
    let s := sk.2
    match skipped.findIdx? (fun c => decide (first ≤ c) && decide (c ≥ last)) with
    | some i =>
      ({ node := some (leafNode .chars b true [skipped.getD i EOFChar] pos),
         read := skipped, unused := skipped.drop (i + 1), sticky := true }, s)
    | none =>
      let startPos := s.position.1
      let s := s.position.2
      if first ≤ s.peek ∧ s.peek ≤ last then
        let r := s.next
        ({ node := some (leafNode .chars b true [r.1] pos), read := skipped ++ [r.1],
           sticky := true }, r.2)
      else
        ({ error := some (.missing (.range b first false last false) startPos), errIdx := s.cursor, read := skipped, unused := skipped,
           sticky := true }, s)

/-- The common middle part of rule_terminal_chars.go:40-77 and rule_terminal_string.go:40-76 (the
same text in both): skip white space if `skip`, check that the text's own leading white space is
the end of what was skipped, then match the rest.  Result: the characters skipped, all characters
read, whether it matched, the stream. -/
def matchText (text : List Rune) (skip : Bool) (s : Stream) :
    List Rune × List Rune × Bool × Stream :=
  if skip then
    let leading := leadingWhiteSpace text
    let sk := s.skipSpaces
    if sk.1.length < leading.length then (sk.1, sk.1, false, sk.2)
    else if sk.1.drop (sk.1.length - leading.length) ≠ leading then (sk.1, sk.1, false, sk.2)
    else
      let m := sk.2.matchRunes (text.drop leading.length)
      (sk.1, sk.1 ++ m.1, m.2.1, m.2.2)
  else
    let m := s.matchRunes text
    ([], m.1, m.2.1, m.2.2)

/-- rule_terminal_chars.go:20-82 `TerminalCharsRule.Eval`. -/
def evalChars (b : RuleBase) (text : List Rune) (flag : Int) (s : Stream) : Res × Stream :=
  if s.peek = EOFChar then
    ({ error := some (.missingAtEOF (.chars b text)), errIdx := s.cursor, sticky := true }, s)
  else
    let startPos := s.position.1
    let s := s.position.2
    let startCursor := s.cursor
    let m := matchText text (decide (flag = SUGGEST_SKIP)) s
    let skipped := m.1
    let read := m.2.1
    let s := m.2.2.2
    if m.2.2.1 then
      ({ node := some (leafNode .chars b true text
                  (s.positionLookup (startCursor + skipped.length))),
         read := read, sticky := true }, s)
    else
      ({ error := some (.missing (.chars b text) startPos), errIdx := s.cursor, read := read, unused := read,
         sticky := true }, s)

/-- rule_terminal_string.go:20-82 `TerminalStringRule.Eval`. -/
def evalString (b : RuleBase) (text : List Rune) (flag : Int) (s : Stream) : Res × Stream :=
  if s.peek = EOFChar then
    ({ error := some (.missingAtEOF (.str b text)), errIdx := s.cursor, sticky := false }, s)
  else
    let startPos := s.position.1
    let s := s.position.2
    let m := matchText text (decide (flag = SUGGEST_SKIP ∨ flag = SUGGEST_NOT_SKIP)) s
    let read := m.2.1
    let s := m.2.2.2
    if m.2.2.1 then
      ({ node := some (leafNode .string b false text
                  (s.positionLookup (s.cursor - text.length))),
         read := read, sticky := false }, s)
    else
      ({ error := some (.missing (.str b text) startPos), errIdx := s.cursor, read := read, unused := read,
         sticky := false }, s)

/-- A non-leaf node as the composite rules build it (name and annotations of the rule).
rule_group.go:21-27, rule_option.go:23-29, rule_concatenate.go:31-37, rule_repetition.go:39-45, rule_choice.go:38-44. -/
def branchNode (rt : RType) (b : RuleBase) (sticky : Bool) (children : List Node)
    (pos : Option Position) : Node :=
  { ruleType := rt, name := b.name, children := children, pos := pos, sticky := sticky,
    virt := b.virt, nonData := b.nondata, tokenized := b.tokenized }

/-- rule_group.go:20-38 `GroupRule.Eval`, after the inner rule returned.  Lines 35-36 assign
`evalResult.Node = node` before reading `evalResult.Node.Position`, so the position of a group
node is always nil. -/
def groupRes (b : RuleBase) (r : Res) : Res :=
  match r.node with
  | none => { r with unused := r.read }
  | some n => { r with node := some (branchNode .group b r.sticky [n] none) }

/-- rule_option.go:22-40 `OptionRule.Eval`, after the inner rule returned. -/
def optionRes (b : RuleBase) (r : Res) : Res :=
  match r.node with
  | none => { r with node := some (branchNode .option b r.sticky [] none) }
  | some n => { r with node := some (branchNode .option b r.sticky [n] n.pos) }

/-- rule_reference.go:26-48: annotations on a reference flip those of the node. -/
def refRes (b : RuleBase) (r : Res) : Res :=
  match r.node with
  | none => r
  | some n =>
    { r with node := some { n with
        tokenized := if b.tokenized then !n.tokenized else n.tokenized
        virt := if b.virt then !n.virt else n.virt
        nonData := if b.nondata then !n.nonData else n.nonData } }

/-- How rules are evaluated by the enclosing rule: `rule.Eval(grammar, charstream, flag)`.  rule.go:121-156. -/
abbrev Evaluator := Rule → Int → Stream → Exec (Res × Stream)

/-- rule_concatenate.go:52-62 and rule_repetition.go:65-75 (the same text): the new `CharsRead`
and `CharsUnused` after one more sub-result. -/
def account (read unused : List Rune) (r : Res) : Exec (List Rune × List Rune) :=
  if r.read.length > unused.length then do
    let extra ← sliceFrom r.read unused.length
    .ok (read ++ extra, r.unused)
  else do
    let used ← r.charsUsed
    let left ← sliceFrom unused used.length
    if left.length < used.length then .ok (read, r.unused) else .ok (read, left)

/-- The variables of the loops of `ConcatenateRule.Eval` and `RepetitionRule.Eval`.  rule_concatenate.go:28-38, rule_repetition.go:36-48. -/
structure SeqState where
  read : List Rune := []
  unused : List Rune := []
  sticky : Bool := true
  pos : Option Position := none
  flag : Int
  nodes : List Node := []
deriving Repr, Inhabited

/-- `if node.Position == nil { node.Position = result.Node.Position }`.  rule_concatenate.go:76-78, rule_repetition.go:88-90. -/
def firstPos (p q : Option Position) : Option Position :=
  match p with
  | none => q
  | some x => some x

/-- rule_concatenate.go:80-90: the flag for the next rule. -/
def nextFlag (flag : Int) (n : Node) (sticky : Bool) : Int :=
  if n.ruleType ≠ .option ∨ (n.children.length > 0 ∨ n.chars.length > 0) then
    if sticky then SUGGEST_NOT_SKIP else SUGGEST_SKIP
  else flag

/-- rule_concatenate.go:39-98, the loop of `ConcatenateRule.Eval` and what follows it; `self` is the
rule. -/
def concatLoop (ev : Evaluator) (self : Rule) :
    List Rule → SeqState → Stream → Exec (Res × Stream)
  | [], st, s =>
    .ok ({ node := some (branchNode .concatenate self.base st.sticky st.nodes st.pos),
           read := st.read, unused := st.unused, sticky := st.sticky }, s)
  | r :: rs, st, s => do
    let (res, cs) ← ev r st.flag (s.pushBack st.unused)
    let (read, unused) ← account st.read st.unused res
    let sticky := st.sticky && res.sticky
    match res.node with
    | none =>
      .ok ({ error := some (.inConcat self (res.error.getD .nil)), errIdx := res.errIdx, read := read,
             unused := read, sticky := sticky }, cs.popBack st.unused)
    | some n => do
      let (out, cs) ← concatLoop ev self rs
        { read := read, unused := unused, sticky := sticky, pos := firstPos st.pos n.pos,
          flag := nextFlag st.flag n res.sticky, nodes := st.nodes ++ [n] } cs
      .ok (out, cs.popBack st.unused)

/-- rule_repetition.go:49-97, the loop of `RepetitionRule.Eval`, at most `fuel` rounds.  Third
component: the sub-result that did not match, if that is why the loop ended (lines 81-86). -/
def repLoop (ev : Evaluator) (r : Rule) (max : Nat) :
    Nat → SeqState → Stream → Exec (SeqState × Option Res × Stream)
  | 0, _, _ => .oof
  | fuel + 1, st, s =>
    let cs := s.pushBack st.unused
    if cs.peek = EOFChar then .ok (st, none, s)
    else do
      let (res, cs) ← ev r st.flag cs
      let (read, unused) ← account st.read st.unused res
      let sticky := st.sticky && res.sticky
      match res.node with
      | none =>
        .ok ({ st with read := read, unused := unused, sticky := sticky }, some res,
             cs.popBack st.unused)
      | some n =>
        let st' := { st with read := read, unused := unused, sticky := sticky,
                             pos := firstPos st.pos n.pos, nodes := st.nodes ++ [n] }
        if max > 0 ∧ st'.nodes.length = max then .ok (st', none, cs.popBack st.unused)
        else do
          let (out, why, cs) ← repLoop ev r max fuel st' cs
          .ok (out, why, cs.popBack st.unused)

/-- rule_repetition.go:81-86 and 99-114: the result after the loop; `self` is the rule, `s` the
caller's stream. -/
def repFinish (self : Rule) (min : Nat) (st : SeqState) (why : Option Res) (s : Stream) : Res :=
  let error := why.bind (·.error)
  let errIdx := if why.isSome then s.cursor else 0
  if st.nodes.length < min then
    { error := some (error.getD (.tooFew self st.nodes.length)), errIdx := if error.isSome then errIdx else s.cursor,
      read := st.read, unused := st.read, sticky := st.sticky }
  else
    { node := some (branchNode .repetition self.base st.sticky st.nodes st.pos), error := error,
      errIdx := errIdx, read := st.read, unused := st.unused, sticky := st.sticky }

/-- rule_repetition.go:35-115 `RepetitionRule.Eval`. -/
def evalRep (ev : Evaluator) (fuel : Nat) (b : RuleBase) (r : Rule) (min max : Nat) (flag : Int)
    (s : Stream) : Exec (Res × Stream) := do
  let (st, why, s') ← repLoop ev r max fuel { flag := flag } s
  .ok (repFinish (.rep b r min max) min st why s', s')

/-- The outcome of choosing the most greedy result; `ambiguous`: the best so far and another as good.  rule_choice.go:73-108, rule.go:289-319. -/
inductive Pick where
  | found (r : Res)
  | none
  | ambiguous (x y : Res)
deriving Repr, Inhabited

/-- rule_choice.go:81-106 and rule.go:299-318: the loop that keeps the result with most used
characters; two results with the greatest count seen so far end it. -/
def pickLoop : Int → Option Res → List Res → Pick
  | _, none, [] => .none
  | _, some r, [] => .found r
  | maxUsed, best, r :: rs =>
    if r.countUsed < maxUsed then pickLoop maxUsed best rs
    else if r.countUsed = maxUsed ∧ best.isSome then .ambiguous (best.getD {}) r
    else pickLoop r.countUsed (some r) rs

/-- rule_choice.go:73-108, rule.go:289-319: no match, one match, or the loop. -/
def pick : List Res → Pick
  | [] => .none
  | [r] => .found r
  | rs => pickLoop 0 none rs

/-- The variables of the loops of `ChoiceRule.Eval`.  rule_choice.go:45-50. -/
structure ChoiceState where
  read : List Rune := []
  sticky : Bool := true
  maxErr : Option Err := none
  maxErrCursor : Int := 0
deriving Repr, Inhabited

/-- rule_choice.go:55-72: all rules of one group, each from the start of the stream.  Result: the
matches, the variables, the stream. -/
def choiceGroup (ev : Evaluator) (flag : Int) :
    List Rule → ChoiceState → Stream → Exec (List Res × ChoiceState × Stream)
  | [], st, s => .ok ([], st, s)
  | r :: rs, st, s => do
    let (res, cs) ← ev r flag (s.pushBack st.read)
    let s := cs.popBack st.read
    let st := { st with sticky := st.sticky && res.sticky,
                        read := if st.read.length < res.read.length then res.read else st.read }
    match res.node with
    | some _ => do
      let (ms, st, s) ← choiceGroup ev flag rs st s
      .ok (res :: ms, st, s)
    | none =>
      if res.errIdx > st.maxErrCursor then
        choiceGroup ev flag rs { st with maxErrCursor := res.errIdx, maxErr := res.error } s
      else choiceGroup ev flag rs st s

/-- Name and text of a match, for the message about an ambiguity: rule_choice.go:99-100. -/
def Res.named (r : Res) : Name × List Rune :=
  match r.node with
  | some n => (n.name, n.text)
  | none => ([], [])

/-- rule_choice.go:52-122, the loop of `ChoiceRule.Eval` over the groups and what follows it; `self`
is the rule. -/
def choiceLoop (ev : Evaluator) (self : Rule) (flag : Int) :
    List (List Rule) → ChoiceState → Stream → Exec (Res × Stream)
  | [], st, s =>
    .ok ({ error := some (.inChoice self (st.maxErr.getD .nil)), errIdx := st.maxErrCursor,
           read := st.read, unused := st.read, sticky := st.sticky }, s)
  | g :: gs, st, s => do
    let (ms, st, s) ← choiceGroup ev flag g st s
    match pick ms with
    | .none => choiceLoop ev self flag gs st s
    | .ambiguous x y => .ok ({ error := some (.ambiguity self.base.name x.named y.named), read := st.read }, s)
    | .found r => do
      let unused ← sliceFrom st.read r.countUsed
      .ok ({ node := r.node.map (fun n => branchNode .choice self.base st.sticky [n] n.pos),
             read := st.read, unused := unused, sticky := st.sticky }, s)

/-- rule.go:278-288: the loop of `mostGreedy` over the rules. -/
def greedyLoop (ev : Evaluator) (flag : Int) :
    List Rule → List Rune → Stream → Exec (List Res × List Rune × Stream)
  | [], maxRead, s => .ok ([], maxRead, s)
  | r :: rs, maxRead, s => do
    let (res, cs) ← ev r flag (s.pushBack maxRead)
    let s := cs.popBack maxRead
    let maxRead := if maxRead.length < res.read.length then res.read else maxRead
    let (ms, maxRead, s) ← greedyLoop ev flag rs maxRead s
    .ok (if res.node.isSome then (res :: ms, maxRead, s) else (ms, maxRead, s))

/-- rule.go:274-325 `mostGreedy`. -/
def mostGreedy (ev : Evaluator) (flag : Int) (rules : List Rule) (s : Stream) :
    Exec (Res × Stream) := do
  let (ms, maxRead, s) ← greedyLoop ev flag rules [] s
  match pick ms with
  | .none => .ok ({ read := maxRead, unused := maxRead }, s)
  | .ambiguous x y => .ok ({ error := some (.ambiguousExcludes x.named.2 y.named.2) }, s)
  | .found r => do
    let unused ← sliceFrom maxRead r.countUsed
    .ok ({ node := r.node, read := maxRead, unused := unused, sticky := r.sticky }, s)

/-- How the loop of `BlockRule.Eval` ends.  rule_block.go:150, rule_block.go:171, rule_block.go:181. -/
inductive BlockEnd where
  /-- lines 145-150: an exclude was found; its text and the characters read -/
  | excluded (text read : List Rune)
  /-- lines 165-171: closed; used characters, leftover, result of the close rule, content -/
  | closed (used unused : List Rune) (close : Res) (content : List Rune)
  /-- lines 177-182: end of input; used characters and leftover -/
  | eof (used unused : List Rune)
deriving Repr, Inhabited

/-- The variables of the loop of `BlockRule.Eval`.  rule_block.go:73-101. -/
structure BlockState where
  used : List Rune
  unused : List Rune
  content : List Rune := []
deriving Repr, Inhabited

/-- rule_block.go:102-187, the loop of `BlockRule.Eval`, at most `fuel` rounds. -/
def blockLoop (ev : Evaluator) (close : Rule) (escape : Option Rule) (excludes : List Rule) :
    Nat → BlockState → Stream → Exec (BlockEnd × Stream)
  | 0, _, _ => .oof
  | fuel + 1, st, s => do
    -- lines 103-132: escape
    let (escaped, escapeChars, used, u1, s) ← (match escape with
      | none => .ok (false, [], st.used, st.unused, s)
      | some e => do
        let (res, s) ← ev e NOT_SKIP s
        if res.node.isSome then do
          let c ← res.charsUsed
          .ok (true, c, st.used ++ c, res.unused, s)
        else .ok (false, [], st.used, res.read, s) : Exec (Bool × List Rune × List Rune × List Rune × Stream))
    let cs1 := s.pushBack u1
    -- lines 136-153: excludes
    let (rx, cs1) ← (if excludes.length > 0 then do
        let (res, cs) ← mostGreedy ev NOT_SKIP excludes cs1
        .ok (some res, cs)
      else .ok (none, cs1) : Exec (Option Res × Stream))
    match rx.bind (fun r => r.node.map (fun _ => r)) with
    | some rx => do
      let c ← rx.charsUsed
      if escaped then do
        let (out, cs1) ← blockLoop ev close escape excludes fuel
          { used := used ++ c, unused := rx.unused, content := st.content ++ c } cs1
        .ok (out, cs1.popBack u1)
      else .ok (.excluded c (used ++ st.content ++ rx.read), cs1.popBack u1)
    | none => do
      let u2 := match rx with
        | some rx => rx.read
        | none => u1
      -- lines 155-174: close
      let (rc, cs2) ← ev close NOT_SKIP (cs1.pushBack u2)
      match rc.node with
      | some _ => do
        let c ← rc.charsUsed
        if escaped then do
          let (out, cs2) ← blockLoop ev close escape excludes fuel
            { used := used ++ c, unused := rc.unused, content := st.content ++ c } cs2
          .ok (out, (cs2.popBack u2).popBack u1)
        else
          .ok (.closed (used ++ st.content ++ c) rc.unused rc st.content,
               (cs2.popBack u2).popBack u1)
      | none => do
        let content := st.content ++ escapeChars
        -- lines 175-186: one more character of content
        let cs3 := cs2.pushBack rc.unused
        if cs3.peek = EOFChar then
          .ok (.eof (used ++ content) rc.unused, (cs2.popBack u2).popBack u1)
        else do
          let r := cs3.next
          let (out, cs3) ← blockLoop ev close escape excludes fuel
            { used := used, unused := [], content := content ++ escapeChars ++ [r.1] } r.2
          .ok (out, ((cs3.popBack rc.unused).popBack u2).popBack u1)

/-- rule_block.go:60-201 `BlockRule.Eval`. -/
def evalBlock (ev : Evaluator) (fuel : Nat) (b : RuleBase) (opn : Rule) (virtualClose : Bool)
    (close : Rule) (escape : Option Rule) (excludes : List Rule) (flag : Int) (s : Stream) :
    Exec (Res × Stream) := do
  let (ro, s) ← ev opn flag s
  match ro.node with
  | none =>
    .ok ({ error := ro.error, errIdx := s.cursor, read := ro.read, unused := ro.unused }, s)
  | some n => do
    let used ← sliceTo ro.read ro.countUsed
    let p := (s.pushBack ro.unused).position
    let (e, cs) ← blockLoop ev close escape excludes fuel
      { used := used, unused := ro.unused } p.2
    let s := cs.popBack ro.unused
    match e with
    | .excluded text read =>
      .ok ({ error := some (.excluded text), errIdx := s.cursor, read := read, unused := read }, s)
    | .eof used unused =>
      .ok ({ error := some (.missingClose close), errIdx := s.cursor, read := used ++ unused,
             unused := used ++ unused }, s)
    | .closed used unused rc content =>
      let contentNode : Node := { ruleType := .chars, chars := content, pos := p.1, sticky := true }
      .ok ({ node := some (branchNode .block b false
                ([n, contentNode] ++ (if virtualClose then [] else rc.node.toList)) n.pos),
             read := used ++ unused, unused := if virtualClose then rc.read else unused }, s)

/-- The rules a grammar defines, as the evaluators see them (`grammar.GetRecord(name).rule`).  grammar.go:81-85, rule_reference.go:18-25. -/
abbrev Env := Name → Option Rule

/-- `IRule.Eval` (rule.go:139-146), dispatching on the rule; rule_reference.go:17-50 for `ref`.
`fuel` bounds the depth of the recursion and, inside one rule, the number of rounds of the loops
of repetition and block. -/
def eval (env : Env) : Nat → Rule → Int → Stream → Exec (Res × Stream)
  | 0, _, _, _ => .oof
  | fuel + 1, rule, flag, s =>
    match rule with
    | .eof b => .ok (evalEOF b flag s)
    | .char b text _ => .ok (evalChar b text flag s)
    | .range b first _ last _ => .ok (evalRange b first last flag s)
    | .chars b text => .ok (evalChars b text flag s)
    | .str b text => .ok (evalString b text flag s)
    | .group b r => do
      let (res, s) ← eval env fuel r flag s
      .ok (groupRes b res, s)
    | .option b r => do
      let (res, s) ← eval env fuel r flag s
      .ok (optionRes b res, s)
    | .rep b r mn mx => evalRep (eval env fuel) fuel b r mn mx flag s
    | .choice b groups => choiceLoop (eval env fuel) (.choice b groups) flag groups {} s
    | .concat b rules => concatLoop (eval env fuel) (.concat b rules) rules { flag := flag } s
    | .block b opn v close escape excludes =>
      evalBlock (eval env fuel) fuel b opn v close escape excludes flag s
    | .ref b name =>
      match env name with
      | none => .ok ({ error := some (.undefined b name) }, s)
      | some r => do
        let (res, s) ← eval env fuel r flag s
        .ok (refRes b res, s)

end Xbnf
