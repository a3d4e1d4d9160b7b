import Verif.Model.Stream
import Verif.Spec.Text
/-
Goroutines that share one `CharstreamString`: /repo/charstream.go:281-414 with its lock.

A method is a program of single reads and writes of the two fields that change, `cursor` and
`positionMap.lines`; the steps of different goroutines interleave in every possible way
(sequentially consistent memory).  `chars` never changes and is read for free.  Between taking and
releasing the lock a goroutine makes one read or write at a time.  The lock is Go's `sync.RWMutex`:
one writer, or any number of readers; who holds it is recorded by name (the real one counts), and a
waiting writer does not hold up readers here, which allows more schedules than Go does.
Goroutines are numbered, and there may be any number of them.

Calls and answers are those of `Spec/Text.lean`.
-/
namespace Xbnf.Conc
open Spec

/-- charstream.go:282-287: the fields that change. -/
structure Mem where
  cursor : Nat
  lines : List Int
deriving Repr, DecidableEq

/-- The body of a method between taking and releasing the lock, as single accesses.  Such as charstream.go:339-353. -/
inductive Prog where
  | ret (a : Answer)
  | loadCursor (k : Nat → Prog)
  | storeCursor (n : Nat) (k : Prog)
  | loadLines (k : List Int → Prog)
  | storeLine (i : Nat) (v : Int) (k : Prog)
  | storeLines (l : List Int) (k : Prog)

/-- charstream.go:68-79, the loop of `positionMap.update`; then `k`. -/
def updateLoop (idx : Int) : List Rune → Prog → Prog
  | [], k => k
  | c :: cs, k =>
    .loadLines fun l =>
      if idx > lastLine l then
        if c = newline then
          .loadLines fun l1 => .storeLine (l1.length - 1) idx
            (.loadLines fun l2 => .storeLines (l2 ++ [idx]) (updateLoop (idx + 1) cs k))
        else .loadLines fun l1 => .storeLine (l1.length - 1) idx (updateLoop (idx + 1) cs k)
      else updateLoop (idx + 1) cs k

/-- charstream.go:64-80 `positionMap.update`. -/
def update (idx : Int) (cs : List Rune) (k : Prog) : Prog :=
  .loadLines fun l => if l = [] then .storeLines [-1] (updateLoop idx cs k) else updateLoop idx cs k

/-- charstream.go:339-353 `next`; the character goes to `k`. -/
def next (chars : List Rune) (k : Rune → Prog) : Prog :=
  .loadCursor fun c =>
    if c ≥ chars.length then k EOFChar
    else .loadCursor fun idx => .loadCursor fun c1 => .storeCursor (c1 + 1)
      (update idx [chars.getD idx EOFChar] (k (chars.getD idx EOFChar)))

/-- charstream.go:355-366 `Peek`. -/
def peek (chars : List Rune) : Prog :=
  .loadCursor fun c =>
    if c ≥ chars.length then .ret (.rune EOFChar)
    else .loadCursor fun idx => .ret (.rune (chars.getD idx EOFChar))

/-- charstream.go:375-381, the loop of `SkipSpaces`; the number of rounds is bounded by the number of
characters, one of which is passed in every round. -/
def skipLoop (chars : List Rune) : Nat → Prog → Prog
  | 0, k => k
  | n + 1, k =>
    .loadCursor fun c =>
      if c < chars.length then
        .loadCursor fun idx =>
          if isWhiteSpace (chars.getD idx EOFChar) then .loadCursor fun c1 => .storeCursor (c1 + 1) (skipLoop chars n k)
          else k
      else k

/-- charstream.go:370-390 `SkipSpaces`. -/
def skipSpaces (chars : List Rune) : Prog :=
  .loadCursor fun b => skipLoop chars chars.length
    (.loadCursor fun c =>
      if c > b then .loadCursor fun e =>
        update b ((chars.take e).drop b) (.ret (.chars ((chars.take e).drop b)))
      else .ret (.chars []))

/-- charstream.go:402-413, the loop of `Match`. -/
def matchLoop (chars : List Rune) : List Rune → List Rune → Prog
  | [], result => .ret (.matched result true)
  | want :: rest, result =>
    next chars fun c =>
      if c = EOFChar then .ret (.matched result false)
      else if c ≠ want then .ret (.matched (result ++ [c]) false)
      else matchLoop chars rest (result ++ [c])

/-- charstream.go:289-306 `Position`; `lookup` reads the table once. -/
def position (chars : List Rune) : Prog :=
  .loadCursor fun c =>
    if c ≥ chars.length then .ret (.pos none)
    else .loadCursor fun c0 =>
      if c0 = 0 then .ret (.pos (some ⟨1, 1⟩))
      else .loadCursor fun c1 => .loadCursor fun c2 =>
        update c1 [chars.getD c2 EOFChar]
          (.loadCursor fun c3 => .loadLines fun l => .ret (.pos (posLookup l c3)))

/-- charstream.go:309-322 `PositionLookup`; `lookup` reads the table once. -/
def lookup (chars : List Rune) (idx : Int) : Prog :=
  if idx = 0 then .ret (.pos (some ⟨1, 1⟩))
  else .loadCursor fun c =>
    if idx ≥ c ∨ idx ≥ chars.length then .ret (.pos none)
    else .loadLines fun l => .ret (.pos (posLookup l idx))

/-- The bodies of the methods.  charstream.go:289-414. -/
def body (chars : List Rune) : Call → Prog
  | .next => next chars fun c => .ret (.rune c)
  | .peek => peek chars
  | .skipSpaces => skipSpaces chars
  | .matchText t => matchLoop chars t []
  | .cursor => .loadCursor fun c => .ret (.number c)
  | .position => position chars
  | .lookup i => lookup chars i

/-- Which methods call `Lock`; the others call `RLock`.
charstream.go:290, charstream.go:310, charstream.go:325, charstream.go:332, charstream.go:356, charstream.go:371, charstream.go:395. -/
def exclusive : Call → Bool
  | .next | .skipSpaces | .matchText _ => true
  | _ => false

/-- One access.  Such as charstream.go:347-348. -/
def Prog.step : Prog → Mem → Option (Prog × Mem)
  | .ret _, _ => none
  | .loadCursor k, m => some (k m.cursor, m)
  | .storeCursor n k, m => some (k, { m with cursor := n })
  | .loadLines k, m => some (k m.lines, m)
  | .storeLine i v k, m => some (k, { m with lines := m.lines.set i v })
  | .storeLines l k, m => some (k, { m with lines := l })

/-- A goroutine: the calls still to make, and the call it is in.  The callers of charstream.go:289-414. -/
structure Thread where
  todo : List Call
  now : Option (Call × Prog)

/-- All goroutines, the stream with its lock, and the calls that returned so far: by whom, which, and
what they returned.  The stream: charstream.go:282-287. -/
structure Config where
  mem : Mem
  writer : Option Nat
  readers : List Nat
  threads : Nat → Thread
  hist : List (Nat × Call × Answer)

/-- Goroutine `i` becomes `t`.  No code of its own; the goroutines are the callers of charstream.go:289-414. -/
def Config.set (σ : Config) (i : Nat) (t : Thread) : Nat → Thread := fun j => if j = i then t else σ.threads j

/-- The next step of goroutine `i`, if it can make one: take the lock and begin a call, make an
access, or release the lock and return.  The lock: charstream.go:286. -/
def stepOf (chars : List Rune) (i : Nat) (σ : Config) : Option Config :=
  match (σ.threads i).now with
  | none =>
    match (σ.threads i).todo with
    | [] => none
    | c :: cs =>
      if exclusive c then
        if σ.writer = none ∧ σ.readers = [] then
          some { σ with writer := some i, threads := σ.set i ⟨cs, some (c, body chars c)⟩ }
        else none
      else if σ.writer = none then
        some { σ with readers := i :: σ.readers, threads := σ.set i ⟨cs, some (c, body chars c)⟩ }
      else none
  | some (c, .ret a) =>
    if exclusive c then
      some { σ with writer := none, threads := σ.set i ⟨(σ.threads i).todo, none⟩, hist := σ.hist ++ [(i, c, a)] }
    else
      some { σ with readers := σ.readers.erase i, threads := σ.set i ⟨(σ.threads i).todo, none⟩,
                    hist := σ.hist ++ [(i, c, a)] }
  | some (c, p) =>
    match p.step σ.mem with
    | none => none
    | some (p', m) => some { σ with mem := m, threads := σ.set i ⟨(σ.threads i).todo, some (c, p')⟩ }

/-- What can happen, whoever is scheduled.  Any goroutines that call charstream.go:289-414. -/
inductive Reaches (chars : List Rune) : Config → Config → Prop
  | refl (σ) : Reaches chars σ σ
  | step {σ σ' σ''} (i : Nat) (h : Reaches chars σ σ') (hs : stepOf chars i σ' = some σ'') : Reaches chars σ σ''

/-- charstream.go:273-279 `NewCharstreamFromString`: a fresh stream, and goroutine `i` about to make
the calls `prog i`. -/
def start (prog : Nat → List Call) : Config :=
  { mem := ⟨0, [-1]⟩, writer := none, readers := [], threads := fun i => ⟨prog i, none⟩, hist := [] }

end Xbnf.Conc
