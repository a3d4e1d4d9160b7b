import Verif.Model.HeapEval
/-
Evaluation as a sequence of single accesses to memory, so that several goroutines can be put side by side
(Model/Parallel.lean).  The programs are those of Model/HeapEval.lean, access by access; `Lemmas/Access.lean` shows that
they do the same when nobody interferes.
-/
namespace Xbnf.Par
open Xbnf.Mem Xbnf.Grammar

/-- A program: what it does next, and how it goes on with what it gets.
The accesses are those of the functions cited below, from charstream.go:273 to grammar.go:322. -/
inductive Prog (α : Type) where
  | ret (a : α)
  | panic
  | oof
  | read (s : Slice) (k : List Rune → Prog α)
  | append (s : Slice) (xs : List Rune) (k : Slice → Prog α)
  | alloc (xs : List Rune) (k : Slice → Prog α)
  | load (cs : Nat) (k : Option StreamObj → Prog α)
  | store (cs : Nat) (o : StreamObj) (k : Prog α)
  | new (o : StreamObj) (k : Nat → Prog α)

namespace Prog

/-- One after the other. -/
protected def bind {α β : Type} : Prog α → (α → Prog β) → Prog β
  | .ret a, f => f a
  | .panic, _ => .panic
  | .oof, _ => .oof
  | .read s k, f => .read s fun x => (k x).bind f
  | .append s xs k, f => .append s xs fun x => (k x).bind f
  | .alloc xs k, f => .alloc xs fun x => (k x).bind f
  | .load cs k, f => .load cs fun x => (k x).bind f
  | .store cs o k, f => .store cs o (k.bind f)
  | .new o k, f => .new o fun x => (k x).bind f

instance : Monad Prog where
  pure := Prog.ret
  bind := Prog.bind

/-- What needs no memory.  Such as rule.go:73-75, which only computes with lengths. -/
def lift {α : Type} : Exec α → Prog α
  | .ok a => .ret a
  | .panic => .panic
  | .oof => .oof

variable (grow : Growth)

/-- One access.  What one access does is what the statement does for which it stands, such as charstream.go:347-352. -/
def step {α : Type} : Prog α → Heap → Option (Prog α × Heap)
  | .ret _, _ | .panic, _ | .oof, _ => none
  | .read s k, h => some (k (h.read s), h)
  | .append s xs k, h => some (k (h.append grow s xs).1, (h.append grow s xs).2)
  | .alloc xs k, h => some (k (h.alloc xs).1, (h.alloc xs).2)
  | .load cs k, h => some (k h.streams[cs]?, h)
  | .store cs o k, h => some (k, h.put cs o)
  | .new o k, h => some (k h.streams.length, { h with streams := h.streams ++ [o] })

/-- The whole program, undisturbed.  The order is that of the statements of the functions cited below, such as rule_choice.go:34-123. -/
def run {α : Type} : Prog α → Heap → Exec (α × Heap)
  | .ret a, h => .ok (a, h)
  | .panic, _ => .panic
  | .oof, _ => .oof
  | .read s k, h => (k (h.read s)).run h
  | .append s xs k, h => (k (h.append grow s xs).1).run (h.append grow s xs).2
  | .alloc xs k, h => (k (h.alloc xs).1).run (h.alloc xs).2
  | .load cs k, h => (k h.streams[cs]?).run h
  | .store cs o k, h => k.run (h.put cs o)
  | .new o k, h => (k h.streams.length).run { h with streams := h.streams ++ [o] }

end Prog

/-! ### Accesses -/

/-- Read a slice.  As `inst.CharsRead[...]` is read, rule.go:77-79. -/
def rd (s : Slice) : Prog (List Rune) := .read s .ret
/-- Go `append(s, xs...)`.  As in charstream.go:407. -/
def app (s : Slice) (xs : List Rune) : Prog Slice := .append s xs .ret
/-- Go `append(s, t...)`.  As in rule_repetition.go:67. -/
def appS (s t : Slice) : Prog Slice := .read t fun xs => .append s xs .ret
/-- A new array.  As the slice made by `[]rune(input)`, charstream.go:276. -/
def mk (xs : List Rune) : Prog Slice := .alloc xs .ret

/-! ### Streams -/

/-- charstream.go:273-279 `NewCharstreamFromString`. -/
def newStream (text : List Rune) : Prog Nat := .append {} text fun s => .new (.base s 0 [-1]) .ret

/-- charstream.go:417-429 `newCharstreamPrepend`. -/
def newPre (cs : Nat) (prepend : Slice) : Prog Nat := if prepend.len = 0 then .ret cs else .new (.pre prepend 0 cs) .ret

/-- charstream.go:355-366 and 454-468 `Peek`/`peek`. -/
def peek (cs : Nat) : Prog Rune :=
  .load cs fun o =>
    match o with
    | some (.base chars cursor _) => .read chars fun l => .ret (l.getD cursor EOFChar)
    | some (.pre p c u) => if c < p.len then .read p fun l => .ret (l.getD c EOFChar) else if u < cs then peek u else .ret EOFChar
    | none => .ret EOFChar
termination_by cs

/-- charstream.go:331-353 and 439-452 `Next`/`next`. -/
def next (cs : Nat) : Prog Rune :=
  .load cs fun o =>
    match o with
    | some (.base chars cursor lines) =>
      if cursor ≥ chars.len then .ret EOFChar
      else .read chars fun l =>
        .store cs (.base chars (cursor + 1) (posUpdate lines cursor [l.getD cursor EOFChar])) (.ret (l.getD cursor EOFChar))
    | some (.pre p c u) =>
      if c < p.len then .read p fun l => .store cs (.pre p (c + 1) u) (.ret (l.getD c EOFChar)) else if u < cs then next u else .ret EOFChar
    | none => .ret EOFChar
termination_by cs

/-- Characters left, the bound for the loop of `SkipSpaces`.  charstream.go:470-486. -/
def size (cs : Nat) : Prog Nat :=
  .load cs fun o =>
    match o with
    | some (.base chars cursor _) => .ret (chars.len - cursor)
    | some (.pre p c u) => if u < cs then (size u).bind fun n => .ret ((p.len - c) + n) else .ret ((p.len - c) + 0)
    | none => .ret 0
termination_by cs

/-- charstream.go:474-485, the loop of `CharstreamPrepend.SkipSpaces`. -/
def skipLoop : Nat → Nat → Slice → Prog Slice
  | 0, _, out => pure out
  | n + 1, cs, out => do
    let c ← peek cs
    if c = EOFChar then pure out
    else if !isWhiteSpace c then pure out
    else
      let c ← next cs
      let a ← app out [c]
      skipLoop n cs a

/-- charstream.go:370-390 and 470-486 `SkipSpaces`. -/
def skipSpaces (cs : Nat) : Prog Slice :=
  .load cs fun o =>
    match o with
    | some (.base chars cursor lines) => .read chars fun l =>
      let spaces := (l.drop cursor).takeWhile isWhiteSpace
      if spaces = [] then .ret {}
      else .store cs (.base chars (cursor + spaces.length) (posUpdate lines cursor spaces)) (.ret (chars.part cursor (cursor + spaces.length)))
    | some (.pre _ _ _) => (size cs).bind fun n => skipLoop n cs {}
    | none => .ret {}

/-- charstream.go:394-414 and 488-506 `Match`. -/
def matchLoop : List Rune → Nat → Slice → Prog (Slice × Bool)
  | [], _, out => pure (out, true)
  | want :: rest, cs, out => do
    let c ← next cs
    if c = EOFChar then pure (out, false)
    else
      let a ← app out [c]
      if c ≠ want then pure (a, false) else matchLoop rest cs a

/-- charstream.go:324-329 and 521-526 `Cursor`. -/
def cursor (cs : Nat) : Prog Int :=
  .load cs fun o =>
    match o with
    | some (.base _ cursor _) => .ret cursor
    | some (.pre p c u) => if u < cs then (cursor u).bind fun n => .ret (n - p.len + c) else .ret (0 - p.len + c)
    | none => .ret 0
termination_by cs

/-- charstream.go:309-322 and 517-519 `PositionLookup`. -/
def positionLookup (cs : Nat) (idx : Int) : Prog (Option Position) :=
  .load cs fun o =>
    match o with
    | some (.base chars cursor lines) =>
      .ret (if idx = 0 then some ⟨1, 1⟩ else if idx ≥ cursor ∨ idx ≥ chars.len then none else posLookup lines idx)
    | some (.pre _ _ u) => if u < cs then positionLookup u idx else .ret none
    | none => .ret none
termination_by cs

/-- charstream.go:289-306 and 508-514 `Position`. -/
def position (cs : Nat) : Prog (Option Position) :=
  .load cs fun o =>
    match o with
    | some (.base chars cursor lines) =>
      if cursor ≥ chars.len then .ret none
      else if cursor = 0 then .ret (some ⟨1, 1⟩)
      else .read chars fun l =>
        let lines := posUpdate lines cursor [l.getD cursor EOFChar]
        .store cs (.base chars cursor lines) (.ret (posLookup lines cursor))
    | some (.pre p c u) =>
      if u < cs then
        if c ≥ p.len then position u else (cursor u).bind fun n => positionLookup u (n - p.len + c)
      else .ret none
    | none => .ret none
termination_by cs

/-! ### Rules -/

/-- How rules are evaluated by the enclosing rule.  rule.go:121-156 `IRule.Eval`. -/
abbrev PEvaluator := Rule → Int → Nat → Prog HRes

/-- rule_eof.go:34-59 `EOFRule.Eval`. -/
def pEOF (b : RuleBase) (flag : Int) (cs : Nat) : Prog HRes := do
  let sk ← if flag = SUGGEST_SKIP then skipSpaces cs else pure {}
  let pk ← peek cs
  if pk = EOFChar then
    let c ← mk [EOFChar]
    let p ← position cs
    pure { node := some { ruleType := .eof, name := runes "EOF", chars := c, pos := p, sticky := true, virt := b.virt, nonData := b.nondata,
                          tokenized := b.tokenized },
           read := sk, sticky := true }
  else
    let i ← cursor cs
    pure { error := some .missingEOF, errIdx := i, read := sk, unused := sk, sticky := true }

/-- rule_terminal_char.go:41-43, rule_terminal_range.go:41-43. -/
def pSkip (flag : Int) (cs : Nat) : Prog (Slice × Slice) :=
  if flag = SUGGEST_SKIP then do
    let sk ← skipSpaces cs
    let a ← appS {} sk
    pure (sk, a)
  else pure ({}, {})

/-- rule_terminal_char.go:20-74 `TerminalCharRule.Eval`. -/
def pChar (b : RuleBase) (text : Rune) (flag : Int) (cs : Nat) : Prog HRes := do
  let pk ← peek cs
  if pk = EOFChar then
    let i ← cursor cs
    pure { error := some (.missingAtEOF (.char b text false)), errIdx := i, sticky := true }
  else
    let startPos ← position cs
    let sk ← pSkip flag cs
    if flag = SUGGEST_SKIP ∧ isWhiteSpace text = true ∧ sk.1.len > 0 then
      let l ← rd sk.1
      match l.findIdx? (fun c => c == text) with
      | some i =>
        let n ← app {} [text]
        let k ← cursor cs
        let p ← positionLookup cs (k - sk.1.len + i)
        pure { node := some (hLeaf .char b true n p), read := sk.2, unused := sk.1.part (i + 1) sk.1.len, sticky := true }
      | none =>
        let i ← cursor cs
        pure { error := some (.missing (.char b text false) startPos), errIdx := i, read := sk.2, unused := sk.2, sticky := true }
    else
      let pk ← peek cs
      if pk ≠ text then
        let i ← cursor cs
        pure { error := some (.missing (.char b text false) startPos), errIdx := i, read := sk.2, unused := sk.2, sticky := true }
      else
        let p ← position cs
        let c ← next cs
        let r ← app sk.2 [c]
        let n ← app {} [c]
        pure { node := some (hLeaf .char b true n p), read := r, sticky := true }

/-- rule_terminal_range.go:22-71 `TerminalRangeRule.Eval`. -/
def pRange (b : RuleBase) (first last : Rune) (flag : Int) (cs : Nat) : Prog HRes := do
  let pk ← peek cs
  if pk = EOFChar then
    let i ← cursor cs
    pure { error := some (.missingAtEOF (.range b first false last false)), errIdx := i, sticky := true }
  else
    let k ← cursor cs
    let pos ← positionLookup cs (k - 1)
    let sk ← pSkip flag cs
    let l ← rd sk.1
    match l.findIdx? (fun c => decide (first ≤ c) && decide (c ≥ last)) with
    | some i =>
      let n ← app {} [l.getD i EOFChar]
      pure { node := some (hLeaf .chars b true n pos), read := sk.2, unused := sk.1.part (i + 1) sk.1.len, sticky := true }
    | none =>
      let startPos ← position cs
      let pk ← peek cs
      if first ≤ pk ∧ pk ≤ last then
        let c ← next cs
        let r ← app sk.2 [c]
        let n ← app {} [c]
        pure { node := some (hLeaf .chars b true n pos), read := r, sticky := true }
      else
        let i ← cursor cs
        pure { error := some (.missing (.range b first false last false) startPos), errIdx := i, read := sk.2, unused := sk.2, sticky := true }

/-- rule_terminal_chars.go:40-77 and rule_terminal_string.go:40-76. -/
def pText (text : List Rune) (skip : Bool) (cs : Nat) : Prog (Slice × Slice × Bool) :=
  if skip then do
    let sk ← skipSpaces cs
    let a ← appS {} sk
    if sk.len < (leadingWhiteSpace text).length then pure (sk, a, false)
    else
      let l ← rd (sk.part (sk.len - (leadingWhiteSpace text).length) sk.len)
      if l ≠ leadingWhiteSpace text then pure (sk, a, false)
      else
        let m ← matchLoop (text.drop (leadingWhiteSpace text).length) cs {}
        let r ← appS a m.1
        pure (sk, r, m.2)
  else do
    let m ← matchLoop text cs {}
    let r ← appS {} m.1
    pure ({}, r, m.2)

/-- rule_terminal_chars.go:20-82 `TerminalCharsRule.Eval`. -/
def pChars (b : RuleBase) (text : List Rune) (flag : Int) (cs : Nat) : Prog HRes := do
  let pk ← peek cs
  if pk = EOFChar then
    let i ← cursor cs
    pure { error := some (.missingAtEOF (.chars b text)), errIdx := i, sticky := true }
  else
    let startPos ← position cs
    let startCursor ← cursor cs
    let m ← pText text (decide (flag = SUGGEST_SKIP)) cs
    if m.2.2 then
      let p ← positionLookup cs (startCursor + m.1.len)
      let n ← app {} text
      pure { node := some (hLeaf .chars b true n p), read := m.2.1, sticky := true }
    else
      let i ← cursor cs
      pure { error := some (.missing (.chars b text) startPos), errIdx := i, read := m.2.1, unused := m.2.1, sticky := true }

/-- rule_terminal_string.go:20-82 `TerminalStringRule.Eval`. -/
def pString (b : RuleBase) (text : List Rune) (flag : Int) (cs : Nat) : Prog HRes := do
  let pk ← peek cs
  if pk = EOFChar then
    let i ← cursor cs
    pure { error := some (.missingAtEOF (.str b text)), errIdx := i, sticky := false }
  else
    let startPos ← position cs
    let m ← pText text (decide (flag = SUGGEST_SKIP ∨ flag = SUGGEST_NOT_SKIP)) cs
    if m.2.2 then
      let k ← cursor cs
      let p ← positionLookup cs (k - text.length)
      let n ← app {} text
      pure { node := some (hLeaf .string b false n p), read := m.2.1, sticky := false }
    else
      let i ← cursor cs
      pure { error := some (.missing (.str b text) startPos), errIdx := i, read := m.2.1, unused := m.2.1, sticky := false }

/-- rule_concatenate.go:52-62 and rule_repetition.go:65-75. -/
def pAccount (read unused : Slice) (r : HRes) : Prog (Slice × Slice) :=
  if r.read.len > unused.len then do
    let extra ← .lift (r.read.fromIdx unused.len)
    let a ← appS read extra
    pure (a, r.unused)
  else do
    let used ← .lift r.charsUsed
    let left ← .lift (unused.fromIdx used.len)
    if left.len < used.len then pure (read, r.unused) else pure (read, left)

/-- rule_concatenate.go:39-98, the loop of `ConcatenateRule.Eval` and what follows it. -/
def pConcat (ev : PEvaluator) (self : Rule) : List Rule → HSeq → Nat → Prog HRes
  | [], st, _ =>
    pure { node := some (hBranch .concatenate self.base st.sticky st.nodes st.pos), read := st.read, unused := st.unused, sticky := st.sticky }
  | r :: rs, st, cs => do
    let c ← newPre cs st.unused
    let res ← ev r st.flag c
    let x ← pAccount st.read st.unused res
    match res.node with
    | none =>
      pure { error := some (.inConcat self (res.error.getD .nil)), errIdx := res.errIdx, read := x.1, unused := x.1, sticky := st.sticky && res.sticky }
    | some n =>
      pConcat ev self rs
        { read := x.1, unused := x.2, sticky := st.sticky && res.sticky, pos := firstPos st.pos n.pos, flag := hNextFlag st.flag n res.sticky,
          nodes := st.nodes ++ [n] } c

/-- rule_repetition.go:49-97, the loop of `RepetitionRule.Eval`. -/
def pRepLoop (ev : PEvaluator) (r : Rule) (max : Nat) : Nat → HSeq → Nat → Prog (HSeq × Option HRes)
  | 0, _, _ => .oof
  | fuel + 1, st, cs => do
    let c ← newPre cs st.unused
    let pk ← peek c
    if pk = EOFChar then pure (st, none)
    else
      let res ← ev r st.flag c
      let x ← pAccount st.read st.unused res
      match res.node with
      | none => pure ({ st with read := x.1, unused := x.2, sticky := st.sticky && res.sticky }, some res)
      | some n =>
        if max > 0 ∧ (st.nodes ++ [n]).length = max then
          pure ({ st with read := x.1, unused := x.2, sticky := st.sticky && res.sticky, pos := firstPos st.pos n.pos, nodes := st.nodes ++ [n] }, none)
        else
          pRepLoop ev r max fuel
            { st with read := x.1, unused := x.2, sticky := st.sticky && res.sticky, pos := firstPos st.pos n.pos, nodes := st.nodes ++ [n] } c

/-- rule_repetition.go:35-115 `RepetitionRule.Eval`. -/
def pRep (ev : PEvaluator) (fuel : Nat) (b : RuleBase) (r : Rule) (min max : Nat) (flag : Int) (cs : Nat) : Prog HRes := do
  let x ← pRepLoop ev r max fuel { flag := flag } cs
  let i ← cursor cs
  let error := x.2.bind (·.error)
  let errIdx := if x.2.isSome then i else 0
  if x.1.nodes.length < min then
    pure { error := some (error.getD (.tooFew (.rep b r min max) x.1.nodes.length)), errIdx := if error.isSome then errIdx else i,
           read := x.1.read, unused := x.1.read, sticky := x.1.sticky }
  else
    pure { node := some (hBranch .repetition b x.1.sticky x.1.nodes x.1.pos), error := error, errIdx := errIdx, read := x.1.read,
           unused := x.1.unused, sticky := x.1.sticky }

/-- rule_choice.go:55-72: all rules of one group. -/
def pGroupLoop (ev : PEvaluator) (flag : Int) (cs : Nat) : List Rule → HChoice → Prog (List HRes × HChoice)
  | [], st => pure ([], st)
  | r :: rs, st => do
    let c ← newPre cs st.read
    let res ← ev r flag c
    let st := { st with sticky := st.sticky && res.sticky, read := if st.read.len < res.read.len then res.read else st.read }
    match res.node with
    | some _ => do
      let x ← pGroupLoop ev flag cs rs st
      pure (res :: x.1, x.2)
    | none =>
      if res.errIdx > st.maxErrCursor then pGroupLoop ev flag cs rs { st with maxErrCursor := res.errIdx, maxErr := res.error }
      else pGroupLoop ev flag cs rs st

mutual
/-- The texts of a tree, for a message.  rule_choice.go:99-100. -/
def pView (n : HNode) : Prog Node :=
  match n with
  | ⟨rt, nm, ch, cs, p, st, v, nd, tk⟩ => do
    let l ← rd ch
    let ks ← pViewL cs
    pure ⟨rt, nm, l, ks, p, st, v, nd, tk⟩
/-- The texts of trees, for a message.  rule_choice.go:99-100. -/
def pViewL : List HNode → Prog (List Node)
  | [] => pure []
  | n :: ns => do
    let x ← pView n
    let xs ← pViewL ns
    pure (x :: xs)
end

/-- The texts of a result, for a message.  grammar.go:380-382. -/
def pShow (r : HRes) : Prog Res := do
  let nd ← match r.node with
    | none => pure none
    | some n => do
      let x ← pView n
      pure (some x)
  let l ← rd r.read
  let u ← rd r.unused
  pure { node := nd, error := r.error, errIdx := r.errIdx, read := l, unused := u, sticky := r.sticky }

/-- rule_choice.go:52-122, the loop of `ChoiceRule.Eval` over the groups and what follows it. -/
def pChoiceLoop (ev : PEvaluator) (self : Rule) (flag : Int) (cs : Nat) : List (List Rule) → HChoice → Prog HRes
  | [], st =>
    pure { error := some (.inChoice self (st.maxErr.getD .nil)), errIdx := st.maxErrCursor, read := st.read, unused := st.read, sticky := st.sticky }
  | g :: gs, st => do
    let x ← pGroupLoop ev flag cs g st
    match hPick x.1 with
    | .none => pChoiceLoop ev self flag cs gs x.2
    | .ambiguous y z => do
      let y ← pShow y
      let z ← pShow z
      pure { error := some (.ambiguity self.base.name y.named z.named), read := x.2.read }
    | .found r => do
      let unused ← .lift (x.2.read.fromIdx r.countUsed)
      pure { node := r.node.map (fun n => hBranch .choice self.base x.2.sticky [n] n.pos), read := x.2.read, unused := unused, sticky := x.2.sticky }

/-- rule.go:278-288: the loop of `mostGreedy`. -/
def pGreedyLoop (ev : PEvaluator) (flag : Int) (cs : Nat) : List Rule → Slice → Prog (List HRes × Slice)
  | [], maxRead => pure ([], maxRead)
  | r :: rs, maxRead => do
    let c ← newPre cs maxRead
    let res ← ev r flag c
    let x ← pGreedyLoop ev flag cs rs (if maxRead.len < res.read.len then res.read else maxRead)
    pure (if res.node.isSome then (res :: x.1, x.2) else (x.1, x.2))

/-- rule.go:274-325 `mostGreedy`. -/
def pMostGreedy (ev : PEvaluator) (flag : Int) (rules : List Rule) (cs : Nat) : Prog HRes := do
  let x ← pGreedyLoop ev flag cs rules {}
  match hPick x.1 with
  | .none => pure { read := x.2, unused := x.2 }
  | .ambiguous y z => do
    let y ← pShow y
    let z ← pShow z
    pure { error := some (.ambiguousExcludes y.named.2 z.named.2) }
  | .found r => do
    let unused ← .lift (x.2.fromIdx r.countUsed)
    pure { node := r.node, read := x.2, unused := unused, sticky := r.sticky }

/-- rule_block.go:103-132: the escape. -/
def pEscape (ev : PEvaluator) (escape : Option Rule) (st : HBlock) (cs : Nat) : Prog (Bool × Slice × Slice × Slice) :=
  match escape with
  | none => pure (false, {}, st.used, st.unused)
  | some e => do
    let res ← ev e NOT_SKIP cs
    if res.node.isSome then
      let c ← .lift res.charsUsed
      let a ← appS st.used c
      pure (true, c, a, res.unused)
    else pure (false, {}, st.used, res.read)

/-- rule_block.go:136-153: the excluded texts. -/
def pExclude (ev : PEvaluator) (excludes : List Rule) (cs : Nat) : Prog (Option HRes) :=
  if excludes.length > 0 then do
    let res ← pMostGreedy ev NOT_SKIP excludes cs
    pure (some res)
  else pure none

/-- rule_block.go:102-187, the loop of `BlockRule.Eval`. -/
def pBlockLoop (ev : PEvaluator) (close : Rule) (escape : Option Rule) (excludes : List Rule) : Nat → HBlock → Nat → Prog HBlockEnd
  | 0, _, _ => .oof
  | fuel + 1, st, cs => do
    let e ← pEscape ev escape st cs
    let c1 ← newPre cs e.2.2.2
    let rx ← pExclude ev excludes c1
    match rx.bind (fun r => r.node.map (fun _ => r)) with
    | some rx => do
      let c ← .lift rx.charsUsed
      if e.1 then
        let a ← appS e.2.2.1 c
        let b ← appS st.content c
        pBlockLoop ev close escape excludes fuel { used := a, unused := rx.unused, content := b } c1
      else
        let t ← rd c
        let a ← appS e.2.2.1 st.content
        let b ← appS a rx.read
        pure (.excluded t b)
    | none => do
      let u2 := match rx with
        | some rx => rx.read
        | none => e.2.2.2
      let c2 ← newPre c1 u2
      let rc ← ev close NOT_SKIP c2
      match rc.node with
      | some _ => do
        let c ← .lift rc.charsUsed
        if e.1 then
          let a ← appS e.2.2.1 c
          let b ← appS st.content c
          pBlockLoop ev close escape excludes fuel { used := a, unused := rc.unused, content := b } c2
        else
          let a ← appS e.2.2.1 st.content
          let b ← appS a c
          pure (.closed b rc.unused rc st.content)
      | none =>
        let a ← appS st.content e.2.1
        let c3 ← newPre c2 rc.unused
        let pk ← peek c3
        if pk = EOFChar then
          let b ← appS e.2.2.1 a
          pure (.eof b rc.unused)
        else
          let r ← next c3
          let a ← appS a e.2.1
          let b ← app a [r]
          pBlockLoop ev close escape excludes fuel { used := e.2.2.1, unused := {}, content := b } c3

/-- rule_block.go:60-201 `BlockRule.Eval`. -/
def pBlock (ev : PEvaluator) (fuel : Nat) (b : RuleBase) (opn : Rule) (virtualClose : Bool) (close : Rule) (escape : Option Rule)
    (excludes : List Rule) (flag : Int) (cs : Nat) : Prog HRes := do
  let ro ← ev opn flag cs
  match ro.node with
  | none =>
    let i ← cursor cs
    pure { error := ro.error, errIdx := i, read := ro.read, unused := ro.unused }
  | some n => do
    let c ← .lift ro.charsUsed
    let a ← appS {} c
    let p ← newPre cs ro.unused
    let q ← position p
    let e ← pBlockLoop ev close escape excludes fuel { used := a, unused := ro.unused } p
    match e with
    | .excluded text read =>
      let i ← cursor cs
      pure { error := some (.excluded text), errIdx := i, read := read, unused := read }
    | .eof used unused =>
      let i ← cursor cs
      let a ← appS used unused
      pure { error := some (.missingClose close), errIdx := i, read := a, unused := a }
    | .closed used unused rc content =>
      let a ← appS used unused
      pure { node := some (hBranch .block b false
               ([n, { ruleType := .chars, chars := content, pos := q, sticky := true }] ++ (if virtualClose then [] else rc.node.toList)) n.pos),
             read := a, unused := if virtualClose then rc.read else unused }

/-- `IRule.Eval` (rule.go:139-146), dispatching on the rule; rule_reference.go:17-50 for `ref`. -/
def pEval (env : Env) : Nat → PEvaluator
  | 0, _, _, _ => .oof
  | fuel + 1, rule, flag, cs =>
    match rule with
    | .eof b => pEOF b flag cs
    | .char b text _ => pChar b text flag cs
    | .range b first _ last _ => pRange b first last flag cs
    | .chars b text => pChars b text flag cs
    | .str b text => pString b text flag cs
    | .group b r => do
      let res ← pEval env fuel r flag cs
      pure (hGroup b res)
    | .option b r => do
      let res ← pEval env fuel r flag cs
      pure (hOption b res)
    | .rep b r mn mx => pRep (pEval env fuel) fuel b r mn mx flag cs
    | .choice b groups => pChoiceLoop (pEval env fuel) (.choice b groups) flag cs groups {}
    | .concat b rules => pConcat (pEval env fuel) (.concat b rules) rules { flag := flag } cs
    | .block b opn v close escape excludes => pBlock (pEval env fuel) fuel b opn v close escape excludes flag cs
    | .ref b name =>
      match env name with
      | none => pure { error := some (.undefined b name) }
      | some r => do
        let res ← pEval env fuel r flag cs
        pure (hRef b res)

/-! ### The functions of the grammar -/

/-- grammar.go:289-299 `EvalRule`. -/
def pEvalRule (g : Grammar) (fuel : Nat) (name : Name) (sample : List Rune) : Prog HRes :=
  match g.getRecord name with
  | none => pure { error := some (.undefined {} name) }
  | some r => do
    let c ← newStream sample
    pEval g.env fuel r.rule SUGGEST_SKIP c

/-- grammar.go:261-285, the loop of `EvalEmbed`. -/
def pEmbedLoop (env : Env) (fuel : Nat) (rule : Rule) : Nat → List HNode → Slice → Nat → Prog (List HNode)
  | 0, _, _, _ => .oof
  | n + 1, kids, text, cs => do
    let res ← pEval env fuel rule NOT_SKIP cs
    let c ← newPre cs res.unused
    match res.node with
    | none =>
      let r ← next c
      if r = EOFChar then pure (kids ++ hTextNodes text)
      else
        let a ← app text [r]
        pEmbedLoop env fuel rule n kids a c
    | some node => pEmbedLoop env fuel rule n (kids ++ hTextNodes text ++ [node]) {} c

/-- grammar.go:248-287 `EvalEmbed`. -/
def pEvalEmbed (g : Grammar) (fuel : Nat) (name : Name) (sample : List Rune) : Prog HRes :=
  match g.getRecord name with
  | none => pure { error := some (.undefined {} name) }
  | some r => do
    let c ← newStream sample
    let kids ← pEmbedLoop g.env fuel r.rule fuel [] {} c
    pure { node := some { ruleType := .embed, name := name, children := kids } }

/-- grammar.go:341-353: all root rules. -/
def pRootsLoop (env : Env) (fuel : Nat) (flag : Int) : List Record → Slice → Nat → Prog (List HRes × Slice)
  | [], maxRead, _ => pure ([], maxRead)
  | r :: rs, maxRead, cs => do
    let c ← newPre cs maxRead
    let res ← pEval env fuel r.rule flag c
    let x ← pRootsLoop env fuel flag rs (if maxRead.len < res.read.len then res.read else maxRead) c
    pure (if res.node.isSome then res :: x.1 else x.1, x.2)

/-- grammar.go:333-398, the loop of `EvalRaw`. -/
def pRawLoop (env : Env) (fuel : Nat) (roots : List Record) (o : Order) :
    Nat → Nat → List HNode → Int → Slice → Nat → Prog (Except RawErr (List HNode))
  | 0, _, _, _, _, _ => .oof
  | n + 1, i, nodes, flag, unused, cs => do
    let c ← newPre cs unused
    let pk ← peek c
    if pk = EOFChar then pure (if nodes.length = 0 then .error .noNode else .ok nodes)
    else
      let x ← pRootsLoop env fuel flag (o.roots i roots) {} c
      match hPick (select (o.matched i x.1.length) x.1) with
      | .none => pure (.error .noMatch)
      | .ambiguous _ _ => pure (.error .ambiguity)
      | .found r => do
        let unused ← .lift (x.2.fromIdx r.countUsed)
        pRawLoop env fuel roots o n (i + 1) (nodes ++ r.node.toList) (if r.sticky then SUGGEST_NOT_SKIP else SUGGEST_SKIP) unused cs

/-- grammar.go:325-403 `EvalRaw`. -/
def pEvalRaw (g : Grammar) (fuel : Nat) (o : Order) (cs : Nat) : Prog (Except RawErr (List HNode)) := do
  let pk ← peek cs
  if pk = EOFChar then pure (.error .empty)
  else pRawLoop g.env fuel g.roots o fuel 0 [] SUGGEST_SKIP {} cs

/-! ### Trees -/

/-- node.go:328-335: one more child in `Node.Text`. -/
def pJoin (inBlock : Bool) (acc : Slice) (prevSticky : Bool) (t : Slice) (nodeSticky : Bool) : Prog Slice := do
  let x ← rd acc
  let y ← rd t
  match x.getLast?, y.head? with
  | some a, some b =>
    if !inBlock && !isWhiteSpace a && !isWhiteSpace b && (!prevSticky || !nodeSticky) then
      let x ← app acc [32]
      appS x t
    else app acc y
  | _, _ => app acc y

mutual
/-- node.go:315-339 `Node.Text`. -/
def pNodeText (n : HNode) : Prog Slice :=
  match n with
  | { ruleType := rt, chars := chars, children := cs, .. } =>
    if chars.len > 0 then do
      let l ← rd chars
      if l = [EOFChar] then pure {} else pure chars
    else pTextLoop (rt == .block) {} false cs
/-- node.go:326-337, the loop of `Node.Text`. -/
def pTextLoop (inBlock : Bool) (acc : Slice) (prevSticky : Bool) : List HNode → Prog Slice
  | [] => pure acc
  | n :: ns => do
    let t ← pNodeText n
    let a ← pJoin inBlock acc prevSticky t n.sticky
    pTextLoop inBlock a n.sticky ns
end

/-- ast.go:123-132 `AST.Text`. -/
def pAstText (acc : Slice) : List HNode → Prog Slice
  | [] => pure acc
  | n :: ns => do
    let t ← pNodeText n
    let a ← appS acc t
    pAstText a ns

mutual
/-- node.go:94-128 `Node.MergeStickyNodes`. -/
def pMergeSticky (n : HNode) : Prog HNode :=
  match n with
  | ⟨rt, nm, ch, cs, p, st, v, nd, tk⟩ =>
    if cs.length = 0 then pure ⟨rt, nm, ch, cs, p, st, v, nd, tk⟩
    else if rt = .block then do
      let m ← pMergeBlockL cs
      pure ⟨rt, nm, ch, m, p, false, v, nd, tk⟩
    else do
      let m ← pMergeLoop [] none cs
      pure ⟨rt, nm, ch, m, p, st, v, nd, tk⟩
/-- node.go:102-105. -/
def pMergeBlockL : List HNode → Prog (List HNode)
  | [] => pure []
  | n :: ns => do
    let a ← pMergeSticky n
    let b ← pMergeBlockL ns
    pure ({ a with sticky := false } :: b)
/-- node.go:154-183, the loop of the function `MergeStickyNodes`. -/
def pMergeLoop (out : List HNode) (prev : Option HNode) : List HNode → Prog (List HNode)
  | [] =>
    match prev with
    | none => pure out
    | some p => pure (out ++ [{ p with sticky := false }])
  | n :: ns =>
    if n.sticky then do
      let t ← pNodeText n
      match prev with
      | some p =>
        let a ← appS p.chars t
        pMergeLoop out (some { p with chars := a }) ns
      | none => pMergeLoop out (some { n with chars := t, children := [] }) ns
    else do
      let m ← pMergeSticky n
      match prev with
      | some p => pMergeLoop (out ++ [{ p with sticky := false }, m]) none ns
      | none => pMergeLoop (out ++ [m]) none ns
end

/-- node.go:132-184 `MergeStickyNodes(nodes)`, ast.go:83-91. -/
def pMergeStickyNodes (nodes : List HNode) : Prog (List HNode) :=
  if nodes.length = 0 then pure nodes else pMergeLoop [] none nodes

/-- node.go:231-242. -/
def pSpliceUnnamed : List HNode → Prog (List HNode)
  | [] => pure []
  | c :: cs => do
    let t ← pNodeText c
    let r ← pSpliceUnnamed cs
    pure (if t.len = 0 ∧ c.name = [] then r else if c.name = [] ∧ c.children.length > 0 then c.children ++ r else c :: r)

mutual
/-- node.go:204-250 `Node.RemoveRedundantNodes`. -/
def pRemoveRedundant (n : HNode) : Prog HNode :=
  match n with
  | ⟨rt, nm, ch, cs, p, st, v, nd, tk⟩ =>
    if cs.length = 0 then pure ⟨rt, nm, ch, cs, p, st, v, nd, tk⟩
    else do
      let k ← pRemoveRedundantL cs
      let m ← pSpliceUnnamed (hPromoteOnly ⟨rt, nm, ch, k, p, st, v, nd, tk⟩).children
      pure (hPromoteLeaf { hPromoteOnly ⟨rt, nm, ch, k, p, st, v, nd, tk⟩ with children := m })
/-- node.go:210-212. -/
def pRemoveRedundantL : List HNode → Prog (List HNode)
  | [] => pure []
  | n :: ns => do
    let a ← pRemoveRedundant n
    let b ← pRemoveRedundantL ns
    pure (a :: b)
end

/-- ast.go:72-82 `AST.RemoveRedundantNodes`. -/
def pAstRemoveRedundant : List HNode → Prog (List HNode)
  | [] => pure []
  | n :: ns => do
    let a ← if n.nonData then pure n else pRemoveRedundant n
    let b ← pAstRemoveRedundant ns
    pure (a :: b)

/-- grammar.go:306-321: what `Eval` does to the raw nodes. -/
def pSimplify (level : Int) (nodes : List HNode) : Prog (List HNode) :=
  if level = LevelRaw then pure nodes
  else do
    let m ← pMergeStickyNodes nodes
    pAstRemoveRedundant
      (if level = LevelDataOnly then hRemoveNonDataL (hRemoveVirtualL m) else if level = LevelNoVirtual then hRemoveVirtualL m else m)

/-- grammar.go:301-322 `Eval`. -/
def pEvalAST (g : Grammar) (fuel : Nat) (o : Order) (cs : Nat) (level : Int) : Prog (Except RawErr (List HNode)) := do
  let r ← pEvalRaw g fuel o cs
  match r with
  | .error e => pure (.error e)
  | .ok nodes => do
    let m ← pSimplify level nodes
    pure (.ok m)

end Xbnf.Par
