import Verif.Model.Rule
/-
Memory: slices of runes and stream objects as Go has them.  The rest of the model takes slices for values and
threads streams through the calls; here a slice is a window of an array that others can see, `append`
writes into the array if there is room, and a stream is an object that everyone who holds it shares.  The
theorems of Props/Heap.lean say that the two readings agree.
-/
namespace Xbnf.Mem

/-- A Go slice of runes: an array, the first index, the length, and the room from the first index on.  Such as rule.go:55 `CharsRead []rune`. -/
structure Slice where
  arr : Nat := 0
  off : Nat := 0
  len : Nat := 0
  cap : Nat := 0
deriving Repr, DecidableEq, Inhabited

/-- charstream.go:282-287 `CharstreamString` and 432-437 `CharstreamPrepend` (without their locks). -/
inductive StreamObj where
  | base (chars : Slice) (cursor : Nat) (lines : List Int)
  | pre (prepend : Slice) (cursor : Nat) (under : Nat)
deriving Repr, DecidableEq, Inhabited

/-- The arrays allocated so far, and the numbers of those that `append` has written into; the latter is there only to speak about it.
Such as the array behind charstream.go:276. -/
structure Arrays where
  data : List (List Rune) := []
  written : List Nat := []
deriving Repr, DecidableEq, Inhabited

namespace Arrays
/-- How many arrays there are.  Used for a new array, charstream.go:276. -/
def length (a : Arrays) : Nat := a.data.length
/-- An array.  What charstream.go:348 reads from. -/
def getD (a : Arrays) (i : Nat) (d : List Rune) : List Rune := a.data.getD i d
/-- One array more.  charstream.go:276. -/
def push (a : Arrays) (xs : List Rune) : Arrays := { a with data := a.data ++ [xs] }
/-- An array changed.  What `append` does, rule_repetition.go:67. -/
def modify (a : Arrays) (i : Nat) (f : List Rune → List Rune) : Arrays := { data := a.data.modify i f, written := a.written ++ [i] }
end Arrays

/-- The arrays and the stream objects allocated so far.  (Nodes, results and rules are values still: a node is
changed only by the call that made it, before it returns it or, for a reference, right after.)
The stream objects: charstream.go:282-287, charstream.go:432-437. -/
structure Heap where
  arrays : Arrays := {}
  streams : List StreamObj := []
deriving Repr, DecidableEq, Inhabited

/-- How much more than needed `append` allocates, from the room there was and the length needed.  Go leaves this open.
The appends are those of rule_repetition.go:67, rule_block.go:81 and the like. -/
abbrev Growth := Nat → Nat → Nat

namespace Slice

/-- Go `s[i:]`.  rule_repetition.go:66, rule_repetition.go:71. -/
def fromIdx (s : Slice) (i : Int) : Exec Slice :=
  if 0 ≤ i ∧ i ≤ s.len then .ok { s with off := s.off + i.toNat, len := s.len - i.toNat, cap := s.cap - i.toNat } else .panic

/-- Go `s[:j]`: up to the capacity.  rule.go:78. -/
def upto (s : Slice) (j : Int) : Exec Slice :=
  if 0 ≤ j ∧ j ≤ s.cap then .ok { s with len := j.toNat } else .panic

/-- Go `s[i:j]`, for `i ≤ j ≤ len(s)`.  charstream.go:384. -/
def part (s : Slice) (i j : Nat) : Slice := { s with off := s.off + i, len := j - i, cap := s.cap - i }

end Slice

namespace Heap

/-- What a slice shows.  Such as rule_choice.go:99. -/
def read (h : Heap) (s : Slice) : List Rune := ((h.arrays.getD s.arr []).drop s.off).take s.len

/-- Write into an array.  What `append` does, rule_repetition.go:67. -/
def write (h : Heap) (arr pos : Nat) (xs : List Rune) : Heap :=
  if xs = [] then h else { h with arrays := h.arrays.modify arr (fun a => a.take pos ++ xs ++ a.drop (pos + xs.length)) }

/-- A new array with just these runes, such as `[]rune{c}`.  charstream.go:276. -/
def alloc (h : Heap) (xs : List Rune) : Slice × Heap :=
  ({ arr := h.arrays.length, off := 0, len := xs.length, cap := xs.length }, { h with arrays := h.arrays.push xs })

/-- Go `append(s, xs...)`: in place if there is room, else in a new array.  rule_repetition.go:67, rule_block.go:81. -/
def append (grow : Growth) (h : Heap) (s : Slice) (xs : List Rune) : Slice × Heap :=
  if s.len + xs.length ≤ s.cap then ({ s with len := s.len + xs.length }, h.write s.arr (s.off + s.len) xs)
  else
    let extra := grow s.cap (s.len + xs.length)
    ({ arr := h.arrays.length, off := 0, len := s.len + xs.length, cap := s.len + xs.length + extra },
     { h with arrays := h.arrays.push (h.read s ++ xs ++ List.replicate extra 0) })

/-- Replace a stream object.  A method changes its object, charstream.go:349, charstream.go:448. -/
def put (h : Heap) (cs : Nat) (o : StreamObj) : Heap := { h with streams := h.streams.set cs o }

/-- charstream.go:273-279 `NewCharstreamFromString`, applied to the decoded code points. -/
def newStream (grow : Growth) (h : Heap) (text : List Rune) : Nat × Heap :=
  let a := h.append grow {} text
  (h.streams.length, { a.2 with streams := h.streams ++ [.base a.1 0 [-1]] })

/-- charstream.go:417-429 `newCharstreamPrepend`. -/
def newPre (h : Heap) (cs : Nat) (prepend : Slice) : Nat × Heap :=
  if prepend.len = 0 then (cs, h) else (h.streams.length, { h with streams := h.streams ++ [.pre prepend 0 cs] })

/-- charstream.go:355-366 and 454-468 `Peek`/`peek`.  (An object refers to an older one; the guard makes that plain.) -/
def peek (h : Heap) (cs : Nat) : Rune :=
  match h.streams[cs]? with
  | some (.base chars cursor _) => (h.read chars).getD cursor EOFChar
  | some (.pre p c u) => if c < p.len then (h.read p).getD c EOFChar else if u < cs then h.peek u else EOFChar
  | none => EOFChar
termination_by cs

/-- charstream.go:331-353 and 439-452 `Next`/`next`. -/
def next (h : Heap) (cs : Nat) : Rune × Heap :=
  match h.streams[cs]? with
  | some (.base chars cursor lines) =>
    if cursor ≥ chars.len then (EOFChar, h)
    else
      let c := (h.read chars).getD cursor EOFChar
      (c, h.put cs (.base chars (cursor + 1) (posUpdate lines cursor [c])))
  | some (.pre p c u) =>
    if c < p.len then ((h.read p).getD c EOFChar, h.put cs (.pre p (c + 1) u)) else if u < cs then h.next u else (EOFChar, h)
  | none => (EOFChar, h)
termination_by cs

/-- Characters left, the bound for the loop of `SkipSpaces`.  charstream.go:470-486. -/
def size (h : Heap) (cs : Nat) : Nat :=
  match h.streams[cs]? with
  | some (.base chars cursor _) => chars.len - cursor
  | some (.pre p c u) => (p.len - c) + (if u < cs then h.size u else 0)
  | none => 0
termination_by cs

/-- charstream.go:474-485, the loop of `CharstreamPrepend.SkipSpaces`; `out` is `charsRead`. -/
def skipLoop (grow : Growth) : Nat → Heap → Nat → Slice → Slice × Heap
  | 0, h, _, out => (out, h)
  | n + 1, h, cs, out =>
    if h.peek cs = EOFChar then (out, h)
    else if !isWhiteSpace (h.peek cs) then (out, h)
    else
      let r := h.next cs
      let a := r.2.append grow out [r.1]
      skipLoop grow n a.2 cs a.1

/-- charstream.go:370-390 and 470-486 `SkipSpaces`.  The result of the first is a part of the text itself. -/
def skipSpaces (grow : Growth) (h : Heap) (cs : Nat) : Slice × Heap :=
  match h.streams[cs]? with
  | some (.base chars cursor lines) =>
    let spaces := ((h.read chars).drop cursor).takeWhile isWhiteSpace
    if spaces = [] then ({}, h)
    else (chars.part cursor (cursor + spaces.length), h.put cs (.base chars (cursor + spaces.length) (posUpdate lines cursor spaces)))
  | some (.pre _ _ _) => skipLoop grow (h.size cs) h cs {}
  | none => ({}, h)

/-- charstream.go:394-414 and 488-506 `Match`: characters read (`out` so far), whether it succeeded. -/
def matchLoop (grow : Growth) : List Rune → Heap → Nat → Slice → Slice × Bool × Heap
  | [], h, _, out => (out, true, h)
  | want :: rest, h, cs, out =>
    let r := h.next cs
    if r.1 = EOFChar then (out, false, r.2)
    else
      let a := r.2.append grow out [r.1]
      if r.1 ≠ want then (a.1, false, a.2) else matchLoop grow rest a.2 cs a.1

/-- charstream.go:324-329 and 521-526 `Cursor`. -/
def cursor (h : Heap) (cs : Nat) : Int :=
  match h.streams[cs]? with
  | some (.base _ cursor _) => cursor
  | some (.pre p c u) => (if u < cs then h.cursor u else 0) - p.len + c
  | none => 0
termination_by cs

/-- charstream.go:309-322 and 517-519 `PositionLookup`. -/
def positionLookup (h : Heap) (cs : Nat) (idx : Int) : Option Position :=
  match h.streams[cs]? with
  | some (.base chars cursor lines) =>
    if idx = 0 then some ⟨1, 1⟩ else if idx ≥ cursor ∨ idx ≥ chars.len then none else posLookup lines idx
  | some (.pre _ _ u) => if u < cs then h.positionLookup u idx else none
  | none => none
termination_by cs

/-- charstream.go:289-306 and 508-514 `Position`. -/
def position (h : Heap) (cs : Nat) : Option Position × Heap :=
  match h.streams[cs]? with
  | some (.base chars cursor lines) =>
    if cursor ≥ chars.len then (none, h)
    else if cursor = 0 then (some ⟨1, 1⟩, h)
    else
      let lines := posUpdate lines cursor [(h.read chars).getD cursor EOFChar]
      (posLookup lines cursor, h.put cs (.base chars cursor lines))
  | some (.pre p c u) =>
    if u < cs then
      if c ≥ p.len then h.position u else (h.positionLookup u (h.cursor u - p.len + c), h)
    else (none, h)
  | none => (none, h)
termination_by cs

end Heap

/-- node.go:23-35 `Node`, its text a slice. -/
structure HNode where
  ruleType : RType
  name : Name := []
  chars : Slice := {}
  children : List HNode := []
  pos : Option Position := none
  sticky : Bool := false
  virt : Bool := false
  nonData : Bool := false
  tokenized : Bool := false
deriving Repr, Inhabited

/-- rule.go:47-64 `EvalResult`. -/
structure HRes where
  node : Option HNode := none
  error : Option Err := none
  errIdx : Int := 0
  read : Slice := {}
  unused : Slice := {}
  sticky : Bool := false
deriving Repr, Inhabited

mutual
/-- The tree that can be seen.  node.go:23-35. -/
def HNode.view (h : Heap) (n : HNode) : Node :=
  match n with
  | ⟨rt, nm, ch, cs, p, st, v, nd, tk⟩ => ⟨rt, nm, h.read ch, viewL h cs, p, st, v, nd, tk⟩
/-- The trees that can be seen.  node.go:28. -/
def viewL (h : Heap) : List HNode → List Node
  | [] => []
  | n :: ns => n.view h :: viewL h ns
end

/-- The result that can be seen.  rule.go:47-64. -/
def HRes.view (h : Heap) (r : HRes) : Res :=
  { node := r.node.map (·.view h), error := r.error, errIdx := r.errIdx, read := h.read r.read, unused := h.read r.unused, sticky := r.sticky }

/-- The stream that can be seen through a reference.  charstream.go:282-287, charstream.go:432-437. -/
def Heap.stream (h : Heap) (cs : Nat) : Stream :=
  match h.streams[cs]? with
  | some (.base chars cursor lines) => .base ⟨h.read chars, cursor, lines⟩
  | some (.pre p c u) => if u < cs then .pre (h.read p) c (h.stream u) else .base ⟨[], 0, []⟩
  | none => .base ⟨[], 0, []⟩
termination_by cs

/-- rule.go:73-75 `countCharsUsed`. -/
def HRes.countUsed (r : HRes) : Int := (r.read.len : Int) - r.unused.len

/-- rule.go:77-79 `charsUsed`: a part of `CharsRead`. -/
def HRes.charsUsed (r : HRes) : Exec Slice := r.read.upto r.countUsed

end Xbnf.Mem
