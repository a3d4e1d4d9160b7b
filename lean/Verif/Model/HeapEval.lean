import Verif.Model.Heap
import Verif.Model.Eval
import Verif.Model.Grammar
/-
The `Eval` methods of /repo/rule_*.go and the functions of /repo/grammar.go that call them, on memory
(Model/Heap.lean): results hold slices, streams are references.
-/
namespace Xbnf.Mem
open Xbnf.Grammar

/-- How rules are evaluated by the enclosing rule: rule, flag, stream.  rule.go:121-156. -/
abbrev HEvaluator := Rule → Int → Nat → Heap → Exec (HRes × Heap)

variable (grow : Growth)

/-- rule_eof.go:34-59 `EOFRule.Eval`.  `CharsRead` is what `SkipSpaces` returns, without a copy. -/
def hEOF (b : RuleBase) (flag : Int) (cs : Nat) (h : Heap) : HRes × Heap :=
  let sk := if flag = SUGGEST_SKIP then h.skipSpaces grow cs else ({}, h)
  let h := sk.2
  if h.peek cs = EOFChar then
    let c := h.alloc [EOFChar]
    let p := c.2.position cs
    ({ node := some { ruleType := .eof, name := runes "EOF", chars := c.1, pos := p.1, sticky := true, virt := b.virt, nonData := b.nondata,
                      tokenized := b.tokenized },
       read := sk.1, sticky := true }, p.2)
  else ({ error := some .missingEOF, errIdx := h.cursor cs, read := sk.1, unused := sk.1, sticky := true }, h)

/-- A node of a terminal rule: rule_terminal_char.go:29-36, rule_terminal_chars.go:29-36,
rule_terminal_string.go:29-36, rule_terminal_range.go:31-39. -/
def hLeaf (rt : RType) (b : RuleBase) (sticky : Bool) (chars : Slice) (pos : Option Position) : HNode :=
  { ruleType := rt, name := b.name, chars := chars, pos := pos, sticky := sticky, virt := b.virt, nonData := b.nondata, tokenized := b.tokenized }

/-- The white space skipped and its copy in `CharsRead`, or nothing: rule_terminal_char.go:41-43, rule_terminal_range.go:41-43. -/
def hSkip (flag : Int) (cs : Nat) (h : Heap) : Slice × Slice × Heap :=
  if flag = SUGGEST_SKIP then
    let sk := h.skipSpaces grow cs
    let a := sk.2.append grow {} (sk.2.read sk.1)
    (sk.1, a.1, a.2)
  else ({}, {}, h)

/-- rule_terminal_char.go:20-74 `TerminalCharRule.Eval`. -/
def hChar (b : RuleBase) (text : Rune) (flag : Int) (cs : Nat) (h : Heap) : HRes × Heap :=
  if h.peek cs = EOFChar then
    ({ error := some (.missingAtEOF (.char b text false)), errIdx := h.cursor cs, sticky := true }, h)
  else
    let startPos := (h.position cs).1
    let sk := hSkip grow flag cs (h.position cs).2
    let skipped := sk.1
    let read := sk.2.1
    let h := sk.2.2
    if flag = SUGGEST_SKIP ∧ isWhiteSpace text = true ∧ skipped.len > 0 then
      match (h.read skipped).findIdx? (fun c => c == text) with
      | some i =>
        let n := h.append grow {} [text]
        ({ node := some (hLeaf .char b true n.1 (n.2.positionLookup cs (n.2.cursor cs - skipped.len + i))),
           read := read, unused := skipped.part (i + 1) skipped.len, sticky := true }, n.2)
      | none =>
        ({ error := some (.missing (.char b text false) startPos), errIdx := h.cursor cs, read := read, unused := read, sticky := true }, h)
    else if h.peek cs ≠ text then
      ({ error := some (.missing (.char b text false) startPos), errIdx := h.cursor cs, read := read, unused := read, sticky := true }, h)
    else
      let p := h.position cs
      let c := p.2.next cs
      let r := c.2.append grow read [c.1]
      let n := r.2.append grow {} [c.1]
      ({ node := some (hLeaf .char b true n.1 p.1), read := r.1, sticky := true }, n.2)

/-- rule_terminal_range.go:22-71 `TerminalRangeRule.Eval`. -/
def hRange (b : RuleBase) (first last : Rune) (flag : Int) (cs : Nat) (h : Heap) : HRes × Heap :=
  if h.peek cs = EOFChar then
    ({ error := some (.missingAtEOF (.range b first false last false)), errIdx := h.cursor cs, sticky := true }, h)
  else
    let pos := h.positionLookup cs (h.cursor cs - 1)
    let sk := hSkip grow flag cs h
    let skipped := sk.1
    let read := sk.2.1
    let h := sk.2.2
    match (h.read skipped).findIdx? (fun c => decide (first ≤ c) && decide (c ≥ last)) with
    | some i =>
      let n := h.append grow {} [(h.read skipped).getD i EOFChar]
      ({ node := some (hLeaf .chars b true n.1 pos), read := read, unused := skipped.part (i + 1) skipped.len, sticky := true }, n.2)
    | none =>
      let startPos := (h.position cs).1
      let h := (h.position cs).2
      if first ≤ h.peek cs ∧ h.peek cs ≤ last then
        let c := h.next cs
        let r := c.2.append grow read [c.1]
        let n := r.2.append grow {} [c.1]
        ({ node := some (hLeaf .chars b true n.1 pos), read := r.1, sticky := true }, n.2)
      else
        ({ error := some (.missing (.range b first false last false) startPos), errIdx := h.cursor cs, read := read, unused := read, sticky := true }, h)

/-- rule_terminal_chars.go:40-77 and rule_terminal_string.go:40-76: the characters skipped, `CharsRead`, whether it matched. -/
def hText (text : List Rune) (skip : Bool) (cs : Nat) (h : Heap) : Slice × Slice × Bool × Heap :=
  if skip then
    let leading := leadingWhiteSpace text
    let sk := h.skipSpaces grow cs
    let a := sk.2.append grow {} (sk.2.read sk.1)
    if sk.1.len < leading.length then (sk.1, a.1, false, a.2)
    else if a.2.read (sk.1.part (sk.1.len - leading.length) sk.1.len) ≠ leading then (sk.1, a.1, false, a.2)
    else
      let m := a.2.matchLoop grow (text.drop leading.length) cs {}
      let r := m.2.2.append grow a.1 (m.2.2.read m.1)
      (sk.1, r.1, m.2.1, r.2)
  else
    let m := h.matchLoop grow text cs {}
    let r := m.2.2.append grow {} (m.2.2.read m.1)
    ({}, r.1, m.2.1, r.2)

/-- rule_terminal_chars.go:20-82 `TerminalCharsRule.Eval`. -/
def hChars (b : RuleBase) (text : List Rune) (flag : Int) (cs : Nat) (h : Heap) : HRes × Heap :=
  if h.peek cs = EOFChar then ({ error := some (.missingAtEOF (.chars b text)), errIdx := h.cursor cs, sticky := true }, h)
  else
    let startPos := (h.position cs).1
    let h := (h.position cs).2
    let startCursor := h.cursor cs
    let m := hText grow text (decide (flag = SUGGEST_SKIP)) cs h
    let h := m.2.2.2
    if m.2.2.1 then
      let n := h.append grow {} text
      ({ node := some (hLeaf .chars b true n.1 (h.positionLookup cs (startCursor + m.1.len))), read := m.2.1, sticky := true }, n.2)
    else
      ({ error := some (.missing (.chars b text) startPos), errIdx := h.cursor cs, read := m.2.1, unused := m.2.1, sticky := true }, h)

/-- rule_terminal_string.go:20-82 `TerminalStringRule.Eval`. -/
def hString (b : RuleBase) (text : List Rune) (flag : Int) (cs : Nat) (h : Heap) : HRes × Heap :=
  if h.peek cs = EOFChar then ({ error := some (.missingAtEOF (.str b text)), errIdx := h.cursor cs, sticky := false }, h)
  else
    let startPos := (h.position cs).1
    let h := (h.position cs).2
    let m := hText grow text (decide (flag = SUGGEST_SKIP ∨ flag = SUGGEST_NOT_SKIP)) cs h
    let h := m.2.2.2
    if m.2.2.1 then
      let n := h.append grow {} text
      ({ node := some (hLeaf .string b false n.1 (h.positionLookup cs (h.cursor cs - text.length))), read := m.2.1, sticky := false }, n.2)
    else
      ({ error := some (.missing (.str b text) startPos), errIdx := h.cursor cs, read := m.2.1, unused := m.2.1, sticky := false }, h)

/-- A non-leaf node as the composite rules build it.
rule_group.go:21-27, rule_option.go:23-29, rule_concatenate.go:31-37, rule_repetition.go:39-45, rule_choice.go:38-44. -/
def hBranch (rt : RType) (b : RuleBase) (sticky : Bool) (children : List HNode) (pos : Option Position) : HNode :=
  { ruleType := rt, name := b.name, children := children, pos := pos, sticky := sticky, virt := b.virt, nonData := b.nondata, tokenized := b.tokenized }

/-- rule_group.go:20-38. -/
def hGroup (b : RuleBase) (r : HRes) : HRes :=
  match r.node with
  | none => { r with unused := r.read }
  | some n => { r with node := some (hBranch .group b r.sticky [n] none) }

/-- rule_option.go:22-40. -/
def hOption (b : RuleBase) (r : HRes) : HRes :=
  match r.node with
  | none => { r with node := some (hBranch .option b r.sticky [] none) }
  | some n => { r with node := some (hBranch .option b r.sticky [n] n.pos) }

/-- rule_reference.go:26-48. -/
def hRef (b : RuleBase) (r : HRes) : HRes :=
  match r.node with
  | none => r
  | some n =>
    { r with node := some { n with
        tokenized := if b.tokenized then !n.tokenized else n.tokenized
        virt := if b.virt then !n.virt else n.virt
        nonData := if b.nondata then !n.nonData else n.nonData } }

/-- rule_concatenate.go:52-62 and rule_repetition.go:65-75: the new `CharsRead` and `CharsUnused`. -/
def hAccount (read unused : Slice) (r : HRes) (h : Heap) : Exec (Slice × Slice × Heap) :=
  if r.read.len > unused.len then do
    let extra ← r.read.fromIdx unused.len
    let a := h.append grow read (h.read extra)
    .ok (a.1, r.unused, a.2)
  else do
    let used ← r.charsUsed
    let left ← unused.fromIdx used.len
    if left.len < used.len then .ok (read, r.unused, h) else .ok (read, left, h)

/-- The variables of the loops of `ConcatenateRule.Eval` and `RepetitionRule.Eval`.  rule_concatenate.go:28-38, rule_repetition.go:36-48. -/
structure HSeq where
  read : Slice := {}
  unused : Slice := {}
  sticky : Bool := true
  pos : Option Position := none
  flag : Int
  nodes : List HNode := []
deriving Repr, Inhabited

/-- rule_concatenate.go:80-90: the flag for the next rule. -/
def hNextFlag (flag : Int) (n : HNode) (sticky : Bool) : Int :=
  if n.ruleType ≠ .option ∨ (n.children.length > 0 ∨ n.chars.len > 0) then
    if sticky then SUGGEST_NOT_SKIP else SUGGEST_SKIP
  else flag

/-- rule_concatenate.go:39-98, the loop of `ConcatenateRule.Eval` and what follows it. -/
def hConcat (ev : HEvaluator) (self : Rule) : List Rule → HSeq → Nat → Heap → Exec (HRes × Heap)
  | [], st, _, h =>
    .ok ({ node := some (hBranch .concatenate self.base st.sticky st.nodes st.pos), read := st.read, unused := st.unused, sticky := st.sticky }, h)
  | r :: rs, st, cs, h => do
    let c := h.newPre cs st.unused
    let (res, h) ← ev r st.flag c.1 c.2
    let (read, unused, h) ← hAccount grow st.read st.unused res h
    let sticky := st.sticky && res.sticky
    match res.node with
    | none =>
      .ok ({ error := some (.inConcat self (res.error.getD .nil)), errIdx := res.errIdx, read := read, unused := read, sticky := sticky }, h)
    | some n =>
      hConcat ev self rs
        { read := read, unused := unused, sticky := sticky, pos := firstPos st.pos n.pos, flag := hNextFlag st.flag n res.sticky,
          nodes := st.nodes ++ [n] } c.1 h

/-- rule_repetition.go:49-97, the loop of `RepetitionRule.Eval`; third component: the sub-result that did not match. -/
def hRepLoop (ev : HEvaluator) (r : Rule) (max : Nat) : Nat → HSeq → Nat → Heap → Exec (HSeq × Option HRes × Heap)
  | 0, _, _, _ => .oof
  | fuel + 1, st, cs, h =>
    let c := h.newPre cs st.unused
    if c.2.peek c.1 = EOFChar then .ok (st, none, c.2)
    else do
      let (res, h) ← ev r st.flag c.1 c.2
      let (read, unused, h) ← hAccount grow st.read st.unused res h
      let sticky := st.sticky && res.sticky
      match res.node with
      | none => .ok ({ st with read := read, unused := unused, sticky := sticky }, some res, h)
      | some n =>
        let st' := { st with read := read, unused := unused, sticky := sticky, pos := firstPos st.pos n.pos, nodes := st.nodes ++ [n] }
        if max > 0 ∧ st'.nodes.length = max then .ok (st', none, h) else hRepLoop ev r max fuel st' c.1 h

/-- rule_repetition.go:35-115 `RepetitionRule.Eval`; lines 81-86 and 99-114 after the loop. -/
def hRep (ev : HEvaluator) (fuel : Nat) (b : RuleBase) (r : Rule) (min max : Nat) (flag : Int) (cs : Nat) (h : Heap) : Exec (HRes × Heap) := do
  let (st, why, h) ← hRepLoop grow ev r max fuel { flag := flag } cs h
  let error := why.bind (·.error)
  let errIdx := if why.isSome then h.cursor cs else 0
  if st.nodes.length < min then
    .ok ({ error := some (error.getD (.tooFew (.rep b r min max) st.nodes.length)), errIdx := if error.isSome then errIdx else h.cursor cs,
           read := st.read, unused := st.read, sticky := st.sticky }, h)
  else
    .ok ({ node := some (hBranch .repetition b st.sticky st.nodes st.pos), error := error, errIdx := errIdx, read := st.read,
           unused := st.unused, sticky := st.sticky }, h)

/-- The outcome of choosing the most greedy result.  rule_choice.go:73-108, rule.go:289-319. -/
inductive HPick where
  | found (r : HRes)
  | none
  | ambiguous (x y : HRes)
deriving Repr, Inhabited

/-- rule_choice.go:81-106 and rule.go:299-318. -/
def hPickLoop : Int → Option HRes → List HRes → HPick
  | _, none, [] => .none
  | _, some r, [] => .found r
  | maxUsed, best, r :: rs =>
    if r.countUsed < maxUsed then hPickLoop maxUsed best rs
    else if r.countUsed = maxUsed ∧ best.isSome then .ambiguous (best.getD {}) r
    else hPickLoop r.countUsed (some r) rs

/-- rule_choice.go:73-108, rule.go:289-319. -/
def hPick : List HRes → HPick
  | [] => .none
  | [r] => .found r
  | rs => hPickLoop 0 none rs

/-- The variables of the loops of `ChoiceRule.Eval`.  rule_choice.go:45-50. -/
structure HChoice where
  read : Slice := {}
  sticky : Bool := true
  maxErr : Option Err := none
  maxErrCursor : Int := 0
deriving Repr, Inhabited

/-- rule_choice.go:55-72: all rules of one group; every one gets its own layer on the stream of the choice. -/
def hGroupLoop (ev : HEvaluator) (flag : Int) (cs : Nat) : List Rule → HChoice → Heap → Exec (List HRes × HChoice × Heap)
  | [], st, h => .ok ([], st, h)
  | r :: rs, st, h => do
    let c := h.newPre cs st.read
    let (res, h) ← ev r flag c.1 c.2
    let st := { st with sticky := st.sticky && res.sticky, read := if st.read.len < res.read.len then res.read else st.read }
    match res.node with
    | some _ => do
      let (ms, st, h) ← hGroupLoop ev flag cs rs st h
      .ok (res :: ms, st, h)
    | none =>
      if res.errIdx > st.maxErrCursor then hGroupLoop ev flag cs rs { st with maxErrCursor := res.errIdx, maxErr := res.error } h
      else hGroupLoop ev flag cs rs st h

/-- rule_choice.go:52-122, the loop of `ChoiceRule.Eval` over the groups and what follows it.  (The texts in the message are made with
`Node.Text`, which copies or returns a slice that is copied into the string.) -/
def hChoiceLoop (ev : HEvaluator) (self : Rule) (flag : Int) (cs : Nat) : List (List Rule) → HChoice → Heap → Exec (HRes × Heap)
  | [], st, h =>
    .ok ({ error := some (.inChoice self (st.maxErr.getD .nil)), errIdx := st.maxErrCursor, read := st.read, unused := st.read, sticky := st.sticky }, h)
  | g :: gs, st, h => do
    let (ms, st, h) ← hGroupLoop ev flag cs g st h
    match hPick ms with
    | .none => hChoiceLoop ev self flag cs gs st h
    | .ambiguous x y => .ok ({ error := some (.ambiguity self.base.name (x.view h).named (y.view h).named), read := st.read }, h)
    | .found r => do
      let unused ← st.read.fromIdx r.countUsed
      .ok ({ node := r.node.map (fun n => hBranch .choice self.base st.sticky [n] n.pos), read := st.read, unused := unused, sticky := st.sticky }, h)

/-- rule.go:278-288: the loop of `mostGreedy`. -/
def hGreedyLoop (ev : HEvaluator) (flag : Int) (cs : Nat) : List Rule → Slice → Heap → Exec (List HRes × Slice × Heap)
  | [], maxRead, h => .ok ([], maxRead, h)
  | r :: rs, maxRead, h => do
    let c := h.newPre cs maxRead
    let (res, h) ← ev r flag c.1 c.2
    let maxRead := if maxRead.len < res.read.len then res.read else maxRead
    let (ms, maxRead, h) ← hGreedyLoop ev flag cs rs maxRead h
    .ok (if res.node.isSome then (res :: ms, maxRead, h) else (ms, maxRead, h))

/-- rule.go:274-325 `mostGreedy`. -/
def hMostGreedy (ev : HEvaluator) (flag : Int) (rules : List Rule) (cs : Nat) (h : Heap) : Exec (HRes × Heap) := do
  let (ms, maxRead, h) ← hGreedyLoop ev flag cs rules {} h
  match hPick ms with
  | .none => .ok ({ read := maxRead, unused := maxRead }, h)
  | .ambiguous x y => .ok ({ error := some (.ambiguousExcludes (x.view h).named.2 (y.view h).named.2) }, h)
  | .found r => do
    let unused ← maxRead.fromIdx r.countUsed
    .ok ({ node := r.node, read := maxRead, unused := unused, sticky := r.sticky }, h)

/-- How the loop of `BlockRule.Eval` ends.  rule_block.go:150, rule_block.go:171, rule_block.go:181. -/
inductive HBlockEnd where
  | excluded (text : List Rune) (read : Slice)
  | closed (used unused : Slice) (close : HRes) (content : Slice)
  | eof (used unused : Slice)
deriving Repr, Inhabited

/-- The variables of the loop of `BlockRule.Eval`.  rule_block.go:73-101. -/
structure HBlock where
  used : Slice
  unused : Slice
  content : Slice := {}
deriving Repr, Inhabited

/-- rule_block.go:103-132: the escape. -/
def hEscape (ev : HEvaluator) (escape : Option Rule) (st : HBlock) (cs : Nat) (h : Heap) : Exec (Bool × Slice × Slice × Slice × Heap) :=
  match escape with
  | none => .ok (false, {}, st.used, st.unused, h)
  | some e => do
    let (res, h) ← ev e NOT_SKIP cs h
    if res.node.isSome then do
      let c ← res.charsUsed
      let a := h.append grow st.used (h.read c)
      .ok (true, c, a.1, res.unused, a.2)
    else .ok (false, {}, st.used, res.read, h)

/-- rule_block.go:136-153: the excluded texts. -/
def hExclude (ev : HEvaluator) (excludes : List Rule) (cs : Nat) (h : Heap) : Exec (Option HRes × Heap) :=
  if excludes.length > 0 then do
    let (res, h) ← hMostGreedy ev NOT_SKIP excludes cs h
    .ok (some res, h)
  else .ok (none, h)

/-- rule_block.go:102-187, the loop of `BlockRule.Eval`. -/
def hBlockLoop (ev : HEvaluator) (close : Rule) (escape : Option Rule) (excludes : List Rule) :
    Nat → HBlock → Nat → Heap → Exec (HBlockEnd × Heap)
  | 0, _, _, _ => .oof
  | fuel + 1, st, cs, h => do
    let (escaped, escapeChars, used, u1, h) ← hEscape grow ev escape st cs h
    let c1 := h.newPre cs u1
    let (rx, h) ← hExclude ev excludes c1.1 c1.2
    match rx.bind (fun r => r.node.map (fun _ => r)) with
    | some rx => do
      let c ← rx.charsUsed
      if escaped then
        let a := h.append grow used (h.read c)
        let b := a.2.append grow st.content (a.2.read c)
        hBlockLoop ev close escape excludes fuel { used := a.1, unused := rx.unused, content := b.1 } c1.1 b.2
      else
        let a := h.append grow used (h.read st.content)
        let b := a.2.append grow a.1 (a.2.read rx.read)
        .ok (.excluded (h.read c) b.1, b.2)
    | none => do
      let u2 := match rx with
        | some rx => rx.read
        | none => u1
      let c2 := h.newPre c1.1 u2
      let (rc, h) ← ev close NOT_SKIP c2.1 c2.2
      match rc.node with
      | some _ => do
        let c ← rc.charsUsed
        if escaped then
          let a := h.append grow used (h.read c)
          let b := a.2.append grow st.content (a.2.read c)
          hBlockLoop ev close escape excludes fuel { used := a.1, unused := rc.unused, content := b.1 } c2.1 b.2
        else
          let a := h.append grow used (h.read st.content)
          let b := a.2.append grow a.1 (a.2.read c)
          .ok (.closed b.1 rc.unused rc st.content, b.2)
      | none =>
        let a := h.append grow st.content (h.read escapeChars)
        let c3 := a.2.newPre c2.1 rc.unused
        if c3.2.peek c3.1 = EOFChar then
          let b := c3.2.append grow used (c3.2.read a.1)
          .ok (.eof b.1 rc.unused, b.2)
        else
          let r := c3.2.next c3.1
          let a := r.2.append grow a.1 (r.2.read escapeChars)
          let b := a.2.append grow a.1 [r.1]
          hBlockLoop ev close escape excludes fuel { used := used, unused := {}, content := b.1 } c3.1 b.2

/-- rule_block.go:60-201 `BlockRule.Eval`. -/
def hBlock (ev : HEvaluator) (fuel : Nat) (b : RuleBase) (opn : Rule) (virtualClose : Bool) (close : Rule) (escape : Option Rule)
    (excludes : List Rule) (flag : Int) (cs : Nat) (h : Heap) : Exec (HRes × Heap) := do
  let (ro, h) ← ev opn flag cs h
  match ro.node with
  | none => .ok ({ error := ro.error, errIdx := h.cursor cs, read := ro.read, unused := ro.unused }, h)
  | some n => do
    let c ← ro.charsUsed
    let a := h.append grow {} (h.read c)
    let p := a.2.newPre cs ro.unused
    let q := p.2.position p.1
    let (e, h) ← hBlockLoop grow ev close escape excludes fuel { used := a.1, unused := ro.unused } p.1 q.2
    match e with
    | .excluded text read => .ok ({ error := some (.excluded text), errIdx := h.cursor cs, read := read, unused := read }, h)
    | .eof used unused =>
      let a := h.append grow used (h.read unused)
      .ok ({ error := some (.missingClose close), errIdx := h.cursor cs, read := a.1, unused := a.1 }, a.2)
    | .closed used unused rc content =>
      let a := h.append grow used (h.read unused)
      let contentNode : HNode := { ruleType := .chars, chars := content, pos := q.1, sticky := true }
      .ok ({ node := some (hBranch .block b false ([n, contentNode] ++ (if virtualClose then [] else rc.node.toList)) n.pos),
             read := a.1, unused := if virtualClose then rc.read else unused }, a.2)

/-- `IRule.Eval` (rule.go:139-146), dispatching on the rule; rule_reference.go:17-50 for `ref`. -/
def hEval (env : Env) : Nat → HEvaluator
  | 0, _, _, _, _ => .oof
  | fuel + 1, rule, flag, cs, h =>
    match rule with
    | .eof b => .ok (hEOF grow b flag cs h)
    | .char b text _ => .ok (hChar grow b text flag cs h)
    | .range b first _ last _ => .ok (hRange grow b first last flag cs h)
    | .chars b text => .ok (hChars grow b text flag cs h)
    | .str b text => .ok (hString grow b text flag cs h)
    | .group b r => do
      let (res, h) ← hEval env fuel r flag cs h
      .ok (hGroup b res, h)
    | .option b r => do
      let (res, h) ← hEval env fuel r flag cs h
      .ok (hOption b res, h)
    | .rep b r mn mx => hRep grow (hEval env fuel) fuel b r mn mx flag cs h
    | .choice b groups => hChoiceLoop (hEval env fuel) (.choice b groups) flag cs groups {} h
    | .concat b rules => hConcat grow (hEval env fuel) (.concat b rules) rules { flag := flag } cs h
    | .block b opn v close escape excludes => hBlock grow (hEval env fuel) fuel b opn v close escape excludes flag cs h
    | .ref b name =>
      match env name with
      | none => .ok ({ error := some (.undefined b name) }, h)
      | some r => do
        let (res, h) ← hEval env fuel r flag cs h
        .ok (hRef b res, h)

/-! ### The functions of the grammar -/

/-- grammar.go:289-299 `EvalRule`. -/
def hEvalRule (g : Grammar) (fuel : Nat) (name : Name) (sample : List Rune) (h : Heap) : Exec (HRes × Heap) :=
  match g.getRecord name with
  | none => .ok ({ error := some (.undefined {} name) }, h)
  | some r =>
    let c := h.newStream grow sample
    hEval grow g.env fuel r.rule SUGGEST_SKIP c.1 c.2

/-- The text node of grammar.go:268-271 and 278-281, if there is text.  The node gets the slice itself. -/
def hTextNodes (text : Slice) : List HNode :=
  if text.len > 0 then [{ ruleType := .text, name := runes "_", chars := text }] else []

/-- grammar.go:261-285, the loop of `EvalEmbed`. -/
def hEmbedLoop (env : Env) (fuel : Nat) (rule : Rule) : Nat → List HNode → Slice → Nat → Heap → Exec (List HNode × Heap)
  | 0, _, _, _, _ => .oof
  | n + 1, kids, text, cs, h => do
    let (res, h) ← hEval grow env fuel rule NOT_SKIP cs h
    let c := h.newPre cs res.unused
    match res.node with
    | none =>
      let r := c.2.next c.1
      if r.1 = EOFChar then .ok (kids ++ hTextNodes text, r.2)
      else
        let a := r.2.append grow text [r.1]
        hEmbedLoop env fuel rule n kids a.1 c.1 a.2
    | some node => hEmbedLoop env fuel rule n (kids ++ hTextNodes text ++ [node]) {} c.1 c.2

/-- grammar.go:248-287 `EvalEmbed`. -/
def hEvalEmbed (g : Grammar) (fuel : Nat) (name : Name) (sample : List Rune) (h : Heap) : Exec (HRes × Heap) :=
  match g.getRecord name with
  | none => .ok ({ error := some (.undefined {} name) }, h)
  | some r => do
    let c := h.newStream grow sample
    let (kids, h) ← hEmbedLoop grow g.env fuel r.rule fuel [] {} c.1 c.2
    .ok ({ node := some { ruleType := .embed, name := name, children := kids } }, h)

/-- The elements at the given places, in that order.  For the loops over maps, grammar.go:341, grammar.go:377. -/
def select {α : Type} (is : List Nat) (l : List α) : List α := is.filterMap (fun i => l[i]?)

/-- The order in which Go visits its maps, for each round of the loop of `EvalRaw`: the root rules, and the places of the matched
results (given how many there are).  grammar.go:341, grammar.go:377. -/
structure Order where
  roots : Nat → List Record → List Record
  matched : Nat → Nat → List Nat

/-- The same order, for results that are values.  grammar.go:341, grammar.go:377. -/
def Order.sched (o : Order) : Sched := { roots := o.roots, matched := fun i l => select (o.matched i l.length) l }

/-- grammar.go:341-353: all root rules, each on one more prepend layer. -/
def hRootsLoop (env : Env) (fuel : Nat) (flag : Int) : List Record → Slice → Nat → Heap → Exec (List HRes × Slice × Heap)
  | [], maxRead, _, h => .ok ([], maxRead, h)
  | r :: rs, maxRead, cs, h => do
    let c := h.newPre cs maxRead
    let (res, h) ← hEval grow env fuel r.rule flag c.1 c.2
    let (ms, m, h) ← hRootsLoop env fuel flag rs (if maxRead.len < res.read.len then res.read else maxRead) c.1 h
    .ok (if res.node.isSome then res :: ms else ms, m, h)

/-- grammar.go:333-398, the loop of `EvalRaw`; `cs` is `charstream`. -/
def hRawLoop (env : Env) (fuel : Nat) (roots : List Record) (o : Order) :
    Nat → Nat → List HNode → Int → Slice → Nat → Heap → Exec (Except RawErr (List HNode) × Heap)
  | 0, _, _, _, _, _, _ => .oof
  | n + 1, i, nodes, flag, unused, cs, h => do
    let c := h.newPre cs unused
    if c.2.peek c.1 = EOFChar then .ok (if nodes.length = 0 then .error .noNode else .ok nodes, c.2)
    else do
      let (ms, maxRead, h) ← hRootsLoop grow env fuel flag (o.roots i roots) {} c.1 c.2
      match hPick (select (o.matched i ms.length) ms) with
      | .none => .ok (.error .noMatch, h)
      | .ambiguous _ _ => .ok (.error .ambiguity, h)
      | .found r => do
        let unused ← maxRead.fromIdx r.countUsed
        hRawLoop env fuel roots o n (i + 1) (nodes ++ r.node.toList) (if r.sticky then SUGGEST_NOT_SKIP else SUGGEST_SKIP) unused cs h

/-- grammar.go:325-403 `EvalRaw`. -/
def hEvalRaw (g : Grammar) (fuel : Nat) (o : Order) (cs : Nat) (h : Heap) : Exec (Except RawErr (List HNode) × Heap) :=
  if h.peek cs = EOFChar then .ok (.error .empty, h)
  else hRawLoop grow g.env fuel g.roots o fuel 0 [] SUGGEST_SKIP {} cs h

/-! ### Trees -/

/-- node.go:328-335: one more child in `Node.Text`; `acc` is `text`, `t` is `nodeText`. -/
def hJoin (inBlock : Bool) (acc : Slice) (prevSticky : Bool) (t : Slice) (nodeSticky : Bool) (h : Heap) : Slice × Heap :=
  match (h.read acc).getLast?, (h.read t).head? with
  | some a, some b =>
    if !inBlock && !isWhiteSpace a && !isWhiteSpace b && (!prevSticky || !nodeSticky) then
      let x := h.append grow acc [32]
      x.2.append grow x.1 (x.2.read t)
    else h.append grow acc (h.read t)
  | _, _ => h.append grow acc (h.read t)

mutual
/-- node.go:315-339 `Node.Text`: the slice of the node itself, if it has text. -/
def HNode.text (n : HNode) (h : Heap) : Slice × Heap :=
  match n with
  | { ruleType := rt, chars := chars, children := cs, .. } =>
    if chars.len > 0 then
      if h.read chars = [EOFChar] then ({}, h) else (chars, h)
    else hTextLoop (rt == .block) {} false cs h
/-- node.go:326-337, the loop of `Node.Text`. -/
def hTextLoop (inBlock : Bool) (acc : Slice) (prevSticky : Bool) : List HNode → Heap → Slice × Heap
  | [], h => (acc, h)
  | n :: ns, h =>
    let t := n.text h
    let a := hJoin grow inBlock acc prevSticky t.1 n.sticky t.2
    hTextLoop inBlock a.1 n.sticky ns a.2
end

/-- ast.go:123-132 `AST.Text`; `acc` is `text`. -/
def hAstText (acc : Slice) : List HNode → Heap → Slice × Heap
  | [], h => (acc, h)
  | n :: ns, h =>
    let t := n.text grow h
    let a := t.2.append grow acc (t.2.read t.1)
    hAstText a.1 ns a.2

mutual
/-- node.go:94-128 `Node.MergeStickyNodes`. -/
def HNode.mergeSticky (n : HNode) (h : Heap) : HNode × Heap :=
  match n with
  | ⟨rt, nm, ch, cs, p, st, v, nd, tk⟩ =>
    if cs.length = 0 then (⟨rt, nm, ch, cs, p, st, v, nd, tk⟩, h)
    else if rt = .block then
      let m := hMergeBlockL cs h
      (⟨rt, nm, ch, m.1, p, false, v, nd, tk⟩, m.2)
    else
      let m := hMergeLoop [] none cs h
      (⟨rt, nm, ch, m.1, p, st, v, nd, tk⟩, m.2)
/-- node.go:102-105. -/
def hMergeBlockL : List HNode → Heap → List HNode × Heap
  | [], h => ([], h)
  | n :: ns, h =>
    let a := n.mergeSticky h
    let b := hMergeBlockL ns a.2
    ({ a.1 with sticky := false } :: b.1, b.2)
/-- node.go:154-183, the loop of the function `MergeStickyNodes`; line 160 appends to the slice of the node before. -/
def hMergeLoop (out : List HNode) (prev : Option HNode) : List HNode → Heap → List HNode × Heap
  | [], h =>
    match prev with
    | none => (out, h)
    | some p => (out ++ [{ p with sticky := false }], h)
  | n :: ns, h =>
    if n.sticky then
      let t := n.text grow h
      match prev with
      | some p =>
        let a := t.2.append grow p.chars (t.2.read t.1)
        hMergeLoop out (some { p with chars := a.1 }) ns a.2
      | none => hMergeLoop out (some { n with chars := t.1, children := [] }) ns t.2
    else
      let m := n.mergeSticky h
      match prev with
      | some p => hMergeLoop (out ++ [{ p with sticky := false }, m.1]) none ns m.2
      | none => hMergeLoop (out ++ [m.1]) none ns m.2
end

/-- node.go:132-184 `MergeStickyNodes(nodes)`, ast.go:83-91. -/
def hMergeStickyNodes (nodes : List HNode) (h : Heap) : List HNode × Heap :=
  if nodes.length = 0 then (nodes, h) else hMergeLoop grow [] none nodes h

mutual
/-- node.go:77-90 `Node.RemoveVirtualNodes`. -/
def HNode.removeVirtual (n : HNode) : HNode :=
  match n with
  | ⟨rt, nm, ch, cs, p, st, v, nd, tk⟩ => ⟨rt, nm, ch, hRemoveVirtualL cs, p, st, v, nd, tk⟩
/-- node.go:81-89 and ast.go:42-55. -/
def hRemoveVirtualL : List HNode → List HNode
  | [] => []
  | n :: ns => if n.virt then hRemoveVirtualL ns else n.removeVirtual :: hRemoveVirtualL ns
end

mutual
/-- node.go:186-199 `Node.RemoveNonDataNodes`. -/
def HNode.removeNonData (n : HNode) : HNode :=
  match n with
  | ⟨rt, nm, ch, cs, p, st, v, nd, tk⟩ => ⟨rt, nm, ch, hRemoveNonDataL cs, p, st, v, nd, tk⟩
/-- node.go:190-198 and ast.go:57-70. -/
def hRemoveNonDataL : List HNode → List HNode
  | [] => []
  | n :: ns => if n.nonData then hRemoveNonDataL ns else n.removeNonData :: hRemoveNonDataL ns
end

/-- node.go:216-226. -/
def hPromoteOnly (n : HNode) : HNode :=
  match n.children with
  | [only] =>
    if only.name = [] then
      if only.chars.len > 0 then { n with chars := only.chars, children := [] } else { n with children := only.children }
    else n
  | _ => n

/-- node.go:231-242; `child.Text()` may allocate. -/
def hSpliceUnnamed : List HNode → Heap → List HNode × Heap
  | [], h => ([], h)
  | c :: cs, h =>
    let t := c.text grow h
    let r := hSpliceUnnamed cs t.2
    if t.1.len = 0 ∧ c.name = [] then r
    else if c.name = [] ∧ c.children.length > 0 then (c.children ++ r.1, r.2)
    else (c :: r.1, r.2)

/-- node.go:246-249. -/
def hPromoteLeaf (n : HNode) : HNode :=
  match n.children with
  | [only] => if only.name = [] ∧ only.children.length = 0 then { n with chars := only.chars, children := [] } else n
  | _ => n

mutual
/-- node.go:204-250 `Node.RemoveRedundantNodes`. -/
def HNode.removeRedundant (n : HNode) (h : Heap) : HNode × Heap :=
  match n with
  | ⟨rt, nm, ch, cs, p, st, v, nd, tk⟩ =>
    if cs.length = 0 then (⟨rt, nm, ch, cs, p, st, v, nd, tk⟩, h)
    else
      let k := hRemoveRedundantL cs h
      let n1 := hPromoteOnly ⟨rt, nm, ch, k.1, p, st, v, nd, tk⟩
      let m := hSpliceUnnamed grow n1.children k.2
      (hPromoteLeaf { n1 with children := m.1 }, m.2)
/-- node.go:210-212. -/
def hRemoveRedundantL : List HNode → Heap → List HNode × Heap
  | [], h => ([], h)
  | n :: ns, h =>
    let a := n.removeRedundant h
    let b := hRemoveRedundantL ns a.2
    (a.1 :: b.1, b.2)
end

/-- ast.go:72-82 `AST.RemoveRedundantNodes`. -/
def hAstRemoveRedundant : List HNode → Heap → List HNode × Heap
  | [], h => ([], h)
  | n :: ns, h =>
    let a := if n.nonData then (n, h) else n.removeRedundant grow h
    let b := hAstRemoveRedundant ns a.2
    (a.1 :: b.1, b.2)

/-- grammar.go:306-321: what `Eval` does to the raw nodes. -/
def hSimplify (level : Int) (nodes : List HNode) (h : Heap) : List HNode × Heap :=
  if level = LevelRaw then (nodes, h)
  else
    let m := hMergeStickyNodes grow nodes h
    hAstRemoveRedundant grow
      (if level = LevelDataOnly then hRemoveNonDataL (hRemoveVirtualL m.1) else if level = LevelNoVirtual then hRemoveVirtualL m.1 else m.1) m.2

/-- grammar.go:301-322 `Eval`. -/
def hEvalAST (g : Grammar) (fuel : Nat) (o : Order) (cs : Nat) (level : Int) (h : Heap) : Exec (Except RawErr (List HNode) × Heap) := do
  let (r, h) ← hEvalRaw grow g fuel o cs h
  match r with
  | .error e => .ok (.error e, h)
  | .ok nodes =>
    let m := hSimplify grow level nodes h
    .ok (.ok m.1, m.2)

end Xbnf.Mem
