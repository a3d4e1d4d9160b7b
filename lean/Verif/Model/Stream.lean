import Verif.Model.Basic
/-
Character streams: /repo/charstream.go (the live code: lines 1-138 and 270-526; lines 140-269
are a comment in the source and are not modelled).

The mutexes are not part of this file: every exported method holds the lock for its whole body,
so one method call is one step here.  What happens when the lock does not protect a step is
modelled in `Verif/Model/Conc.lean`.
-/
namespace Xbnf

/-- charstream.go:15-18 `Position`. -/
structure Position where
  line : Int
  col : Int
deriving Repr, DecidableEq

/-- Overwrite the last element (Go `lines[len(lines)-1] = v`).  charstream.go:72, charstream.go:75. -/
def setLast : List Int → Int → List Int
  | [], _ => []
  | [_], v => [v]
  | x :: y :: ys, v => x :: setLast (y :: ys) v

/-- `lines[len(lines)-1]`; the list is never empty where this is used (see `posUpdate`).  charstream.go:69, charstream.go:95. -/
def lastLine (lines : List Int) : Int := lines.getLastD (-1)

/-- charstream.go:68-79, the loop of `positionMap.update`. -/
def posUpdateLoop : List Int → Int → List Rune → List Int
  | lines, _, [] => lines
  | lines, idx, c :: cs =>
    let lines' :=
      if idx > lastLine lines then
        if c = newline then setLast lines idx ++ [idx] else setLast lines idx
      else lines
    posUpdateLoop lines' (idx + 1) cs

/-- charstream.go:64-80 `positionMap.update`. -/
def posUpdate (lines : List Int) (idx : Int) (chars : List Rune) : List Int :=
  posUpdateLoop (if lines = [] then [-1] else lines) idx chars

/-- charstream.go:108-116, the reverse linear search: the greatest `i` from the start index down
to 0 with `idx >= lines[i]`; `lineIdx` stays 0 if there is none. -/
def searchLine (lines : List Int) (idx : Int) : Nat → Nat
  | 0 => 0
  | i + 1 => if idx ≥ lines.getD (i + 1) 0 then i + 1 else searchLine lines idx i

/-- charstream.go:82-138 `positionMap.lookup`.  `getD … 0` stands for in-bounds indexing: every
index used is at most `len(lines) - 1`. -/
def posLookup (lines : List Int) (idx : Int) : Option Position :=
  if idx < 0 then none
  else if lines = [] then some ⟨1, 1⟩
  else
    let maxLineIdx := lines.length - 1
    if idx > lines.getD maxLineIdx 0 then none
    else if maxLineIdx = 0 then some ⟨1, idx + 1⟩
    else
      let maxLineIdx :=
        if lines.getD maxLineIdx 0 = lines.getD (maxLineIdx - 1) 0 then maxLineIdx - 1
        else maxLineIdx
      let lineIdx := searchLine lines idx maxLineIdx
      if idx = lines.getD lineIdx 0 then
        if lineIdx > 0 then
          some ⟨(lineIdx : Int) + 1, idx - lines.getD (lineIdx - 1) 0⟩
        else
          some ⟨(lineIdx : Int) + 1, idx + 1⟩
      else
        some ⟨((lineIdx + 1 : Nat) : Int) + 1, idx - lines.getD lineIdx 0⟩

/-- charstream.go:282-287 `CharstreamString` (without its lock). -/
structure Base where
  chars : List Rune
  cursor : Nat
  lines : List Int
deriving Repr, DecidableEq

namespace Base

/-- charstream.go:273-279 `NewCharstreamFromString`, applied to the decoded code points. -/
def ofChars (chars : List Rune) : Base := { chars := chars, cursor := 0, lines := [-1] }

/-- charstream.go:355-366 `Peek`: EOFChar past the end. -/
def peek (b : Base) : Rune := b.chars.getD b.cursor EOFChar

/-- charstream.go:339-353 `next`. -/
def next (b : Base) : Rune × Base :=
  if b.cursor ≥ b.chars.length then (EOFChar, b)
  else
    let c := b.chars.getD b.cursor EOFChar
    (c, { b with cursor := b.cursor + 1, lines := posUpdate b.lines b.cursor [c] })

/-- charstream.go:370-390 `SkipSpaces`. -/
def skipSpaces (b : Base) : List Rune × Base :=
  let spaces := (b.chars.drop b.cursor).takeWhile isWhiteSpace
  if spaces = [] then ([], b)
  else (spaces, { b with cursor := b.cursor + spaces.length,
                         lines := posUpdate b.lines b.cursor spaces })

/-- charstream.go:289-306 `Position`: note that it updates the position map. -/
def position (b : Base) : Option Position × Base :=
  if b.cursor ≥ b.chars.length then (none, b)
  else if b.cursor = 0 then (some ⟨1, 1⟩, b)
  else
    let lines := posUpdate b.lines b.cursor [b.chars.getD b.cursor EOFChar]
    (posLookup lines b.cursor, { b with lines := lines })

/-- charstream.go:309-322 `PositionLookup`. -/
def positionLookup (b : Base) (idx : Int) : Option Position :=
  if idx = 0 then some ⟨1, 1⟩
  else if idx ≥ b.cursor ∨ idx ≥ b.chars.length then none
  else posLookup b.lines idx

end Base

/-- The two implementations of `ICharstream`: a `CharstreamString`, or a `CharstreamPrepend`
(charstream.go:432-437) over another stream.  Go holds the underlying stream by reference; here
the value is threaded, and `Stream.popBack` gives the underlying stream back to the caller that
still holds the reference. -/
inductive Stream where
  | base (b : Base)
  | pre (prepend : List Rune) (cursor : Nat) (under : Stream)
deriving Repr, DecidableEq

namespace Stream

/-- charstream.go:273 `NewCharstreamFromString`. -/
def ofChars (chars : List Rune) : Stream := .base (Base.ofChars chars)

/-- charstream.go:417-429 `newCharstreamPrepend` (the nil base case does not occur: every caller
passes a stream). -/
def pushBack (s : Stream) (prepend : List Rune) : Stream :=
  if prepend = [] then s else .pre prepend 0 s

/-- The stream a `CharstreamPrepend` reads from.  charstream.go:432-437. -/
def under : Stream → Stream
  | .base b => .base b
  | .pre _ _ u => u

/-- What the caller's own reference `s` points to after work was done on
`newCharstreamPrepend(s, prepend)` and left it as `s'`.  The callers: rule_concatenate.go:40, rule_repetition.go:50. -/
def popBack (s' : Stream) (prepend : List Rune) : Stream :=
  if prepend = [] then s' else s'.under

/-- charstream.go:355-366 and 454-468 `Peek`/`peek`. -/
def peek : Stream → Rune
  | .base b => b.peek
  | .pre p c u => if c < p.length then p.getD c EOFChar else u.peek

/-- charstream.go:331-353 and 439-452 `Next`/`next`. -/
def next : Stream → Rune × Stream
  | .base b => (b.next.1, .base b.next.2)
  | .pre p c u =>
    if c < p.length then (p.getD c EOFChar, .pre p (c + 1) u)
    else (u.next.1, .pre p c u.next.2)

/-- Number of characters left, the bound for the loop of `skipSpacesPre`.  charstream.go:470-486. -/
def size : Stream → Nat
  | .base b => b.chars.length - b.cursor
  | .pre p c u => (p.length - c) + u.size

/-- charstream.go:474-485, the loop of `CharstreamPrepend.SkipSpaces`.  The loop is bounded by the
number of characters left, since a read past the end gives EOFChar, which is not white space
(`skipLoop_spec` shows the bound is never the reason to stop). -/
def skipLoop : Nat → Stream → List Rune × Stream
  | 0, s => ([], s)
  | n + 1, s =>
    if s.peek = EOFChar then ([], s)
    else if !isWhiteSpace s.peek then ([], s)
    else
      let r := s.next
      let r' := skipLoop n r.2
      (r.1 :: r'.1, r'.2)

/-- charstream.go:370-390 and 470-486 `SkipSpaces`. -/
def skipSpaces : Stream → List Rune × Stream
  | .base b => (b.skipSpaces.1, .base b.skipSpaces.2)
  | .pre p c u => skipLoop (size (.pre p c u)) (.pre p c u)

/-- charstream.go:394-414 and 488-506 `Match`: (chars read, succeeded, stream).  The two
implementations have the same text. -/
def matchRunes : List Rune → Stream → List Rune × Bool × Stream
  | [], s => ([], true, s)
  | want :: rest, s =>
    let r := s.next
    if r.1 = EOFChar then ([], false, r.2)
    else if r.1 ≠ want then ([r.1], false, r.2)
    else
      let r' := matchRunes rest r.2
      (r.1 :: r'.1, r'.2.1, r'.2.2)

/-- charstream.go:324-329 and 521-526 `Cursor`. -/
def cursor : Stream → Int
  | .base b => b.cursor
  | .pre p c u => u.cursor - p.length + c

/-- charstream.go:309-322 and 517-519 `PositionLookup`. -/
def positionLookup : Stream → Int → Option Position
  | .base b, idx => b.positionLookup idx
  | .pre _ _ u, idx => u.positionLookup idx

/-- charstream.go:289-306 and 508-514 `Position`. -/
def position : Stream → Option Position × Stream
  | .base b => (b.position.1, .base b.position.2)
  | .pre p c u =>
    if c ≥ p.length then (u.position.1, .pre p c u.position.2)
    else (u.positionLookup (u.cursor - p.length + c), .pre p c u)

end Stream
end Xbnf
