import Verif.Model.Grammar
/-
`Eval` and `EvalRaw` of a grammar, and `Eval` of a rule, take an `ICharstream` (charstream.go:34-56),
an exported interface: a caller may pass a type of their own.  This file is the evaluation of rules
and texts again, over an arbitrary implementation of the interface.

An implementation is its state and seven functions on it; every method may change the state, also
`Peek`, `Position`, `PositionLookup` and `Cursor` (a stream that reads a file piece by piece does).
The functions are total: a method that panics, does not return, or is used by someone else between two
calls is outside the model.  The evaluators below make the calls of the Go code, in its order.

One bound is new.  `CharstreamPrepend.SkipSpaces` (charstream.go:470-486) calls `Peek` and `Next` of
the stream below until a character is not white space, and an implementation may never give one.  `w`
bounds the rounds of that loop, on top of the characters pushed back; when it is too small the outcome
is `oof`, as with the other bounds.
-/
namespace Xbnf

/-- An implementation of `ICharstream`.  charstream.go:34-56. -/
structure Impl (σ : Type) where
  /-- charstream.go:36 -/
  next : σ → Rune × σ
  /-- charstream.go:39 -/
  peek : σ → Rune × σ
  /-- charstream.go:43 -/
  matchRunes : List Rune → σ → (List Rune × Bool) × σ
  /-- charstream.go:45 -/
  skipSpaces : σ → List Rune × σ
  /-- charstream.go:49 -/
  position : σ → Option Position × σ
  /-- charstream.go:53 -/
  positionLookup : Int → σ → Option Position × σ
  /-- charstream.go:55 -/
  cursor : σ → Int × σ

/-- The caller's stream, or a `CharstreamPrepend` (charstream.go:432-437) over another stream. -/
inductive GStream (σ : Type) where
  | base (b : σ)
  | pre (prepend : List Rune) (cursor : Nat) (under : GStream σ)

namespace GStream

/-- charstream.go:417-429 `newCharstreamPrepend`. -/
def pushBack {σ : Type} (s : GStream σ) (prepend : List Rune) : GStream σ :=
  if prepend = [] then s else .pre prepend 0 s

/-- The stream a `CharstreamPrepend` reads from.  charstream.go:432-437. -/
def under {σ : Type} : GStream σ → GStream σ
  | .base b => .base b
  | .pre _ _ u => u

/-- What the caller's own reference `s` points to after work was done on
`newCharstreamPrepend(s, prepend)` and left it as `s'`.  The callers: rule_concatenate.go:40,
rule_repetition.go:50. -/
def popBack {σ : Type} (s' : GStream σ) (prepend : List Rune) : GStream σ :=
  if prepend = [] then s' else s'.under

variable {σ : Type} (I : Impl σ)

/-- charstream.go:454-468 `Peek`/`peek`. -/
def peek : GStream σ → Rune × GStream σ
  | .base b => ((I.peek b).1, .base (I.peek b).2)
  | .pre p c u =>
    if c < p.length then (p.getD c EOFChar, .pre p c u)
    else (u.peek.1, .pre p c u.peek.2)

/-- charstream.go:439-452 `Next`/`next`. -/
def next : GStream σ → Rune × GStream σ
  | .base b => ((I.next b).1, .base (I.next b).2)
  | .pre p c u =>
    if c < p.length then (p.getD c EOFChar, .pre p (c + 1) u)
    else (u.next.1, .pre p c u.next.2)

/-- Number of characters pushed back and not read again.  charstream.go:432-437. -/
def left : GStream σ → Nat
  | .base _ => 0
  | .pre p c u => (p.length - c) + u.left

/-- charstream.go:474-485, the loop of `CharstreamPrepend.SkipSpaces`, at most the given number of
rounds. -/
def skipLoop : Nat → GStream σ → Exec (List Rune × GStream σ)
  | 0, _ => .oof
  | n + 1, s =>
    let q := s.peek I
    if q.1 = EOFChar then .ok ([], q.2)
    else if !isWhiteSpace q.1 then .ok ([], q.2)
    else do
      let r := q.2.next I
      let (l, s) ← skipLoop n r.2
      .ok (r.1 :: l, s)

/-- charstream.go:470-486 `SkipSpaces`. -/
def skipSpaces (w : Nat) : GStream σ → Exec (List Rune × GStream σ)
  | .base b => .ok ((I.skipSpaces b).1, .base (I.skipSpaces b).2)
  | .pre p c u => skipLoop I (left (.pre p c u) + w + 1) (.pre p c u)

/-- charstream.go:494-505, the loop of `CharstreamPrepend.Match`. -/
def matchLoop : List Rune → GStream σ → List Rune × Bool × GStream σ
  | [], s => ([], true, s)
  | want :: rest, s =>
    let r := s.next I
    if r.1 = EOFChar then ([], false, r.2)
    else if r.1 ≠ want then ([r.1], false, r.2)
    else
      let r' := matchLoop rest r.2
      (r.1 :: r'.1, r'.2.1, r'.2.2)

/-- charstream.go:488-506 `Match`. -/
def matchRunes (t : List Rune) : GStream σ → List Rune × Bool × GStream σ
  | .base b =>
    let r := I.matchRunes t b
    (r.1.1, r.1.2, .base r.2)
  | .pre p c u => matchLoop I t (.pre p c u)

/-- charstream.go:521-526 `Cursor`. -/
def cursor : GStream σ → Int × GStream σ
  | .base b => ((I.cursor b).1, .base (I.cursor b).2)
  | .pre p c u => (u.cursor.1 - p.length + c, .pre p c u.cursor.2)

/-- charstream.go:517-519 `PositionLookup`. -/
def positionLookup (idx : Int) : GStream σ → Option Position × GStream σ
  | .base b => ((I.positionLookup idx b).1, .base (I.positionLookup idx b).2)
  | .pre p c u => ((u.positionLookup idx).1, .pre p c (u.positionLookup idx).2)

/-- charstream.go:508-514 `Position`. -/
def position : GStream σ → Option Position × GStream σ
  | .base b => ((I.position b).1, .base (I.position b).2)
  | .pre p c u =>
    if c ≥ p.length then (u.position.1, .pre p c u.position.2)
    else
      let k := u.cursor I
      let q := k.2.positionLookup I (k.1 - p.length + c)
      (q.1, .pre p c q.2)

end GStream

namespace G

variable {σ : Type} (I : Impl σ) (w : Nat)

/-- `if flagLeadingSpaces == SUGGEST_SKIP { … charstream.SkipSpaces() }`: rule_eof.go:38-40,
rule_terminal_char.go:40-41, rule_terminal_range.go:41-42. -/
def skip (flag : Int) (s : GStream σ) : Exec (List Rune × GStream σ) :=
  if flag = SUGGEST_SKIP then s.skipSpaces I w else .ok ([], s)

/-- An error: `evalResult.ErrIdx = charstream.Cursor()` is the last call before the return.
rule_eof.go:54-55, rule_terminal_char.go:25-27, rule_terminal_char.go:64-66. -/
def failed (e : Err) (read unused : List Rune) (sticky : Bool) (s : GStream σ) :
    Exec (Res × GStream σ) :=
  let k := s.cursor I
  .ok ({ error := some e, errIdx := k.1, read := read, unused := unused, sticky := sticky }, k.2)

/-- rule_eof.go:34-59 `EOFRule.Eval`. -/
def evalEOF (b : RuleBase) (flag : Int) (s : GStream σ) : Exec (Res × GStream σ) := do
  let (skipped, s) ← skip I w flag s
  let q := s.peek I
  if q.1 = EOFChar then
    let p := q.2.position I
    .ok ({ node := some { ruleType := .eof, name := runes "EOF", chars := [EOFChar], pos := p.1,
                          sticky := true, virt := b.virt, nonData := b.nondata,
                          tokenized := b.tokenized },
           read := skipped, sticky := true }, p.2)
  else failed I .missingEOF skipped skipped true q.2

/-- rule_terminal_char.go:20-74 `TerminalCharRule.Eval`. -/
def evalChar (b : RuleBase) (text : Rune) (flag : Int) (s : GStream σ) : Exec (Res × GStream σ) :=
  let q := s.peek I
  if q.1 = EOFChar then failed I (.missingAtEOF (.char b text false)) [] [] true q.2
  else do
    let start := q.2.position I
    let (skipped, s) ← skip I w flag start.2
    if flag = SUGGEST_SKIP ∧ isWhiteSpace text = true ∧ skipped ≠ [] then
      match skipped.findIdx? (fun c => c == text) with
      | some i =>
        let k := s.cursor I
        let p := k.2.positionLookup I (k.1 - skipped.length + i)
        .ok ({ node := some (leafNode .char b true [text] p.1),
               read := skipped, unused := skipped.drop (i + 1), sticky := true }, p.2)
      | none => failed I (.missing (.char b text false) start.1) skipped skipped true s
    else
      let q := s.peek I
      if q.1 ≠ text then failed I (.missing (.char b text false) start.1) skipped skipped true q.2
      else
        let p := q.2.position I
        let r := p.2.next I
        .ok ({ node := some (leafNode .char b true [r.1] p.1), read := skipped ++ [r.1],
               sticky := true }, r.2)

/-- rule_terminal_range.go:22-71 `TerminalRangeRule.Eval`. -/
def evalRange (b : RuleBase) (first last : Rune) (flag : Int) (s : GStream σ) :
    Exec (Res × GStream σ) :=
  let q := s.peek I
  if q.1 = EOFChar then failed I (.missingAtEOF (.range b first false last false)) [] [] true q.2
  else do
    let k := q.2.cursor I
    let pos := k.2.positionLookup I (k.1 - 1)
    let (skipped, s) ← skip I w flag pos.2
    match skipped.findIdx? (fun c => decide (first ≤ c) && decide (c ≥ last)) with
    | some i =>
      .ok ({ node := some (leafNode .chars b true [skipped.getD i EOFChar] pos.1),
             read := skipped, unused := skipped.drop (i + 1), sticky := true }, s)
    | none =>
      let start := s.position I
      let q := start.2.peek I
      if first ≤ q.1 ∧ q.1 ≤ last then
        let r := q.2.next I
        .ok ({ node := some (leafNode .chars b true [r.1] pos.1), read := skipped ++ [r.1],
               sticky := true }, r.2)
      else
        failed I (.missing (.range b first false last false) start.1) skipped skipped true q.2

/-- rule_terminal_chars.go:40-77 and rule_terminal_string.go:40-76.  Result: the characters skipped,
all characters read, whether it matched, the stream. -/
def matchText (text : List Rune) (skip : Bool) (s : GStream σ) :
    Exec (List Rune × List Rune × Bool × GStream σ) :=
  if skip then do
    let leading := leadingWhiteSpace text
    let (skipped, s) ← s.skipSpaces I w
    if skipped.length < leading.length then .ok (skipped, skipped, false, s)
    else if skipped.drop (skipped.length - leading.length) ≠ leading then
      .ok (skipped, skipped, false, s)
    else
      let m := s.matchRunes I (text.drop leading.length)
      .ok (skipped, skipped ++ m.1, m.2.1, m.2.2)
  else
    let m := s.matchRunes I text
    .ok ([], m.1, m.2.1, m.2.2)

/-- rule_terminal_chars.go:20-82 `TerminalCharsRule.Eval`. -/
def evalChars (b : RuleBase) (text : List Rune) (flag : Int) (s : GStream σ) :
    Exec (Res × GStream σ) :=
  let q := s.peek I
  if q.1 = EOFChar then failed I (.missingAtEOF (.chars b text)) [] [] true q.2
  else do
    let start := q.2.position I
    let startCursor := start.2.cursor I
    let (skipped, read, found, s) ← matchText I w text (decide (flag = SUGGEST_SKIP)) startCursor.2
    if found then
      let p := s.positionLookup I (startCursor.1 + skipped.length)
      .ok ({ node := some (leafNode .chars b true text p.1), read := read, sticky := true }, p.2)
    else failed I (.missing (.chars b text) start.1) read read true s

/-- rule_terminal_string.go:20-82 `TerminalStringRule.Eval`. -/
def evalString (b : RuleBase) (text : List Rune) (flag : Int) (s : GStream σ) :
    Exec (Res × GStream σ) :=
  let q := s.peek I
  if q.1 = EOFChar then failed I (.missingAtEOF (.str b text)) [] [] false q.2
  else do
    let start := q.2.position I
    let (_, read, found, s) ←
      matchText I w text (decide (flag = SUGGEST_SKIP ∨ flag = SUGGEST_NOT_SKIP)) start.2
    if found then
      let k := s.cursor I
      let p := k.2.positionLookup I (k.1 - text.length)
      .ok ({ node := some (leafNode .string b false text p.1), read := read, sticky := false }, p.2)
    else failed I (.missing (.str b text) start.1) read read false s

/-- How rules are evaluated by the enclosing rule: `rule.Eval(grammar, charstream, flag)`.
rule.go:121-156. -/
abbrev Evaluator (σ : Type) := Rule → Int → GStream σ → Exec (Res × GStream σ)

/-- rule_concatenate.go:39-98, the loop of `ConcatenateRule.Eval` and what follows it; `self` is the
rule. -/
def concatLoop (ev : Evaluator σ) (self : Rule) :
    List Rule → SeqState → GStream σ → Exec (Res × GStream σ)
  | [], st, s =>
    .ok ({ node := some (branchNode .concatenate self.base st.sticky st.nodes st.pos),
           read := st.read, unused := st.unused, sticky := st.sticky }, s)
  | r :: rs, st, s => do
    let (res, cs) ← ev r st.flag (s.pushBack st.unused)
    let (read, unused) ← account st.read st.unused res
    let sticky := st.sticky && res.sticky
    match res.node with
    | none =>
      .ok ({ error := some (.inConcat self (res.error.getD .nil)), errIdx := res.errIdx, read := read,
             unused := read, sticky := sticky }, cs.popBack st.unused)
    | some n => do
      let (out, cs) ← concatLoop ev self rs
        { read := read, unused := unused, sticky := sticky, pos := firstPos st.pos n.pos,
          flag := nextFlag st.flag n res.sticky, nodes := st.nodes ++ [n] } cs
      .ok (out, cs.popBack st.unused)

/-- rule_repetition.go:49-97, the loop of `RepetitionRule.Eval`, at most `fuel` rounds.  A sub-result
that did not match (lines 81-86) is the second component; the cursor is asked for after the loop, the
code asks for it at line 84 and leaves the loop. -/
def repLoop (ev : Evaluator σ) (r : Rule) (max : Nat) :
    Nat → SeqState → GStream σ → Exec (SeqState × Option Res × GStream σ)
  | 0, _, _ => .oof
  | fuel + 1, st, s =>
    let q := (s.pushBack st.unused).peek I
    if q.1 = EOFChar then .ok (st, none, q.2.popBack st.unused)
    else do
      let (res, cs) ← ev r st.flag q.2
      let (read, unused) ← account st.read st.unused res
      let sticky := st.sticky && res.sticky
      match res.node with
      | none =>
        .ok ({ st with read := read, unused := unused, sticky := sticky }, some res,
             cs.popBack st.unused)
      | some n =>
        let st' := { st with read := read, unused := unused, sticky := sticky,
                             pos := firstPos st.pos n.pos, nodes := st.nodes ++ [n] }
        if max > 0 ∧ st'.nodes.length = max then .ok (st', none, cs.popBack st.unused)
        else do
          let (out, why, cs) ← repLoop ev r max fuel st' cs
          .ok (out, why, cs.popBack st.unused)

/-- rule_repetition.go:81-86 and 99-114: the result after the loop; `self` is the rule, `s` the
caller's stream. -/
def repFinish (self : Rule) (min : Nat) (st : SeqState) (why : Option Res) (s : GStream σ) :
    Res × GStream σ :=
  let error := why.bind (·.error)
  let k := if why.isSome then s.cursor I else (0, s)
  if st.nodes.length < min then
    let k' := if error.isSome then k else k.2.cursor I
    ({ error := some (error.getD (.tooFew self st.nodes.length)), errIdx := k'.1,
       read := st.read, unused := st.read, sticky := st.sticky }, k'.2)
  else
    ({ node := some (branchNode .repetition self.base st.sticky st.nodes st.pos), error := error,
       errIdx := k.1, read := st.read, unused := st.unused, sticky := st.sticky }, k.2)

/-- rule_repetition.go:35-115 `RepetitionRule.Eval`. -/
def evalRep (ev : Evaluator σ) (fuel : Nat) (b : RuleBase) (r : Rule) (min max : Nat) (flag : Int)
    (s : GStream σ) : Exec (Res × GStream σ) := do
  let (st, why, s') ← repLoop I ev r max fuel { flag := flag } s
  .ok (repFinish I (.rep b r min max) min st why s')

/-- rule_choice.go:55-72: all rules of one group, each from the start of the stream. -/
def choiceGroup (ev : Evaluator σ) (flag : Int) :
    List Rule → ChoiceState → GStream σ → Exec (List Res × ChoiceState × GStream σ)
  | [], st, s => .ok ([], st, s)
  | r :: rs, st, s => do
    let (res, cs) ← ev r flag (s.pushBack st.read)
    let s := cs.popBack st.read
    let st := { st with sticky := st.sticky && res.sticky,
                        read := if st.read.length < res.read.length then res.read else st.read }
    match res.node with
    | some _ => do
      let (ms, st, s) ← choiceGroup ev flag rs st s
      .ok (res :: ms, st, s)
    | none =>
      if res.errIdx > st.maxErrCursor then
        choiceGroup ev flag rs { st with maxErrCursor := res.errIdx, maxErr := res.error } s
      else choiceGroup ev flag rs st s

/-- rule_choice.go:52-122, the loop of `ChoiceRule.Eval` over the groups and what follows it; `self`
is the rule. -/
def choiceLoop (ev : Evaluator σ) (self : Rule) (flag : Int) :
    List (List Rule) → ChoiceState → GStream σ → Exec (Res × GStream σ)
  | [], st, s =>
    .ok ({ error := some (.inChoice self (st.maxErr.getD .nil)), errIdx := st.maxErrCursor,
           read := st.read, unused := st.read, sticky := st.sticky }, s)
  | g :: gs, st, s => do
    let (ms, st, s) ← choiceGroup ev flag g st s
    match pick ms with
    | .none => choiceLoop ev self flag gs st s
    | .ambiguous x y => .ok ({ error := some (.ambiguity self.base.name x.named y.named), read := st.read }, s)
    | .found r => do
      let unused ← sliceFrom st.read r.countUsed
      .ok ({ node := r.node.map (fun n => branchNode .choice self.base st.sticky [n] n.pos),
             read := st.read, unused := unused, sticky := st.sticky }, s)

/-- rule.go:278-288: the loop of `mostGreedy` over the rules. -/
def greedyLoop (ev : Evaluator σ) (flag : Int) :
    List Rule → List Rune → GStream σ → Exec (List Res × List Rune × GStream σ)
  | [], maxRead, s => .ok ([], maxRead, s)
  | r :: rs, maxRead, s => do
    let (res, cs) ← ev r flag (s.pushBack maxRead)
    let s := cs.popBack maxRead
    let maxRead := if maxRead.length < res.read.length then res.read else maxRead
    let (ms, maxRead, s) ← greedyLoop ev flag rs maxRead s
    .ok (if res.node.isSome then (res :: ms, maxRead, s) else (ms, maxRead, s))

/-- rule.go:274-325 `mostGreedy`. -/
def mostGreedy (ev : Evaluator σ) (flag : Int) (rules : List Rule) (s : GStream σ) :
    Exec (Res × GStream σ) := do
  let (ms, maxRead, s) ← greedyLoop ev flag rules [] s
  match pick ms with
  | .none => .ok ({ read := maxRead, unused := maxRead }, s)
  | .ambiguous x y => .ok ({ error := some (.ambiguousExcludes x.named.2 y.named.2) }, s)
  | .found r => do
    let unused ← sliceFrom maxRead r.countUsed
    .ok ({ node := r.node, read := maxRead, unused := unused, sticky := r.sticky }, s)

/-- rule_block.go:102-187, the loop of `BlockRule.Eval`, at most `fuel` rounds. -/
def blockLoop (ev : Evaluator σ) (close : Rule) (escape : Option Rule) (excludes : List Rule) :
    Nat → BlockState → GStream σ → Exec (BlockEnd × GStream σ)
  | 0, _, _ => .oof
  | fuel + 1, st, s => do
    -- lines 103-132: escape
    let (escaped, escapeChars, used, u1, s) ← (match escape with
      | none => .ok (false, [], st.used, st.unused, s)
      | some e => do
        let (res, s) ← ev e NOT_SKIP s
        if res.node.isSome then do
          let c ← res.charsUsed
          .ok (true, c, st.used ++ c, res.unused, s)
        else .ok (false, [], st.used, res.read, s) : Exec (Bool × List Rune × List Rune × List Rune × GStream σ))
    let cs1 := s.pushBack u1
    -- lines 136-153: excludes
    let (rx, cs1) ← (if excludes.length > 0 then do
        let (res, cs) ← mostGreedy ev NOT_SKIP excludes cs1
        .ok (some res, cs)
      else .ok (none, cs1) : Exec (Option Res × GStream σ))
    match rx.bind (fun r => r.node.map (fun _ => r)) with
    | some rx => do
      let c ← rx.charsUsed
      if escaped then do
        let (out, cs1) ← blockLoop ev close escape excludes fuel
          { used := used ++ c, unused := rx.unused, content := st.content ++ c } cs1
        .ok (out, cs1.popBack u1)
      else .ok (.excluded c (used ++ st.content ++ rx.read), cs1.popBack u1)
    | none => do
      let u2 := match rx with
        | some rx => rx.read
        | none => u1
      -- lines 155-174: close
      let (rc, cs2) ← ev close NOT_SKIP (cs1.pushBack u2)
      match rc.node with
      | some _ => do
        let c ← rc.charsUsed
        if escaped then do
          let (out, cs2) ← blockLoop ev close escape excludes fuel
            { used := used ++ c, unused := rc.unused, content := st.content ++ c } cs2
          .ok (out, (cs2.popBack u2).popBack u1)
        else
          .ok (.closed (used ++ st.content ++ c) rc.unused rc st.content,
               (cs2.popBack u2).popBack u1)
      | none => do
        let content := st.content ++ escapeChars
        -- lines 175-186: one more character of content
        let q := (cs2.pushBack rc.unused).peek I
        if q.1 = EOFChar then
          .ok (.eof (used ++ content) rc.unused, ((q.2.popBack rc.unused).popBack u2).popBack u1)
        else do
          let r := q.2.next I
          let (out, cs3) ← blockLoop ev close escape excludes fuel
            { used := used, unused := [], content := content ++ escapeChars ++ [r.1] } r.2
          .ok (out, ((cs3.popBack rc.unused).popBack u2).popBack u1)

/-- rule_block.go:60-201 `BlockRule.Eval`. -/
def evalBlock (ev : Evaluator σ) (fuel : Nat) (b : RuleBase) (opn : Rule) (virtualClose : Bool)
    (close : Rule) (escape : Option Rule) (excludes : List Rule) (flag : Int) (s : GStream σ) :
    Exec (Res × GStream σ) := do
  let (ro, s) ← ev opn flag s
  match ro.node with
  | none =>
    let k := s.cursor I
    .ok ({ error := ro.error, errIdx := k.1, read := ro.read, unused := ro.unused }, k.2)
  | some n => do
    let used ← sliceTo ro.read ro.countUsed
    let p := (s.pushBack ro.unused).position I
    let (e, cs) ← blockLoop I ev close escape excludes fuel
      { used := used, unused := ro.unused } p.2
    let s := cs.popBack ro.unused
    match e with
    | .excluded text read => failed I (.excluded text) read read false s
    | .eof used unused =>
      failed I (.missingClose close) (used ++ unused) (used ++ unused) false s
    | .closed used unused rc content =>
      let contentNode : Node := { ruleType := .chars, chars := content, pos := p.1, sticky := true }
      .ok ({ node := some (branchNode .block b false
                ([n, contentNode] ++ (if virtualClose then [] else rc.node.toList)) n.pos),
             read := used ++ unused, unused := if virtualClose then rc.read else unused }, s)

/-- `IRule.Eval` (rule.go:139-146) on a stream of the caller's own type; rule_reference.go:17-50 for
`ref`. -/
def eval (env : Env) : Nat → Rule → Int → GStream σ → Exec (Res × GStream σ)
  | 0, _, _, _ => .oof
  | fuel + 1, rule, flag, s =>
    match rule with
    | .eof b => evalEOF I w b flag s
    | .char b text _ => evalChar I w b text flag s
    | .range b first _ last _ => evalRange I w b first last flag s
    | .chars b text => evalChars I w b text flag s
    | .str b text => evalString I w b text flag s
    | .group b r => do
      let (res, s) ← eval env fuel r flag s
      .ok (groupRes b res, s)
    | .option b r => do
      let (res, s) ← eval env fuel r flag s
      .ok (optionRes b res, s)
    | .rep b r mn mx => evalRep I (eval env fuel) fuel b r mn mx flag s
    | .choice b groups => choiceLoop (eval env fuel) (.choice b groups) flag groups {} s
    | .concat b rules => concatLoop (eval env fuel) (.concat b rules) rules { flag := flag } s
    | .block b opn v close escape excludes =>
      evalBlock I (eval env fuel) fuel b opn v close escape excludes flag s
    | .ref b name =>
      match env name with
      | none => .ok ({ error := some (.undefined b name) }, s)
      | some r => do
        let (res, s) ← eval env fuel r flag s
        .ok (refRes b res, s)

open Grammar (Sched RawErr simplify)

/-- grammar.go:341-353: all root rules, each on one more prepend layer. -/
def rootsLoop (env : Env) (fuel : Nat) (flag : Int) :
    List Record → List Rune → GStream σ → Exec (List Res × List Rune × GStream σ)
  | [], maxRead, cs => .ok ([], maxRead, cs)
  | r :: rs, maxRead, cs => do
    let (res, cs') ← eval I w env fuel r.rule flag (cs.pushBack maxRead)
    let maxRead' := if maxRead.length < res.read.length then res.read else maxRead
    let (ms, m, cs') ← rootsLoop env fuel flag rs maxRead' cs'
    .ok (if res.node.isSome then res :: ms else ms, m, cs'.popBack maxRead)

/-- grammar.go:333-398, the loop of `EvalRaw`, at most the given number of rounds. -/
def rawLoop (env : Env) (fuel : Nat) (roots : List Record) (sch : Sched) :
    Nat → Nat → List Node → Int → List Rune → GStream σ →
      Exec (Except RawErr (List Node) × GStream σ)
  | 0, _, _, _, _, _ => .oof
  | n + 1, i, nodes, flag, unused, s => do
    let q := (s.pushBack unused).peek I
    if q.1 = EOFChar then
      .ok (if nodes.length = 0 then .error .noNode else .ok nodes, q.2.popBack unused)
    else do
      let (ms, maxRead, cs) ← rootsLoop I w env fuel flag (sch.roots i roots) [] q.2
      let s := cs.popBack unused
      match pick (sch.matched i ms) with
      | .none => .ok (.error .noMatch, s)
      | .ambiguous _ _ => .ok (.error .ambiguity, s)
      | .found r => do
        let unused ← sliceFrom maxRead r.countUsed
        rawLoop env fuel roots sch n (i + 1) (nodes ++ r.node.toList)
          (if r.sticky then SUGGEST_NOT_SKIP else SUGGEST_SKIP) unused s

/-- grammar.go:325-403 `EvalRaw`. -/
def evalRaw (g : Grammar) (fuel : Nat) (sch : Sched) (s : GStream σ) :
    Exec (Except RawErr (List Node) × GStream σ) :=
  let q := s.peek I
  if q.1 = EOFChar then .ok (.error .empty, q.2)
  else rawLoop I w g.env fuel g.roots sch fuel 0 [] SUGGEST_SKIP [] q.2

/-- grammar.go:301-322 `Eval`. -/
def evalAST (g : Grammar) (fuel : Nat) (sch : Sched) (s : GStream σ) (level : Int) :
    Exec (Except RawErr (List Node) × GStream σ) := do
  let (r, s) ← evalRaw I w g fuel sch s
  .ok (r.map (simplify level), s)

end G
end Xbnf
