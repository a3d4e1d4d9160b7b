"""Writes /tmp/conf/S.lean: the tests of /repo/charstream_test.go against the model (run it with `lake env lean` in /verif/lean)."""
import os
os.makedirs("/tmp/conf", exist_ok=True)
open("/tmp/conf/S.lean", "w").write(r'''import Verif
/-
The tests of /repo/charstream_test.go against the model: written by conformance/streams.py.
These are tests of the model's fidelity, not proofs.
-/
open Xbnf

def lines : List String := ["\n", "ThisIsJustALineExample\n", "\n", "\n", "\n", "LinesAfter3BlankLines\n", "\n",
  "FirstLineInAThreeLineSequence\n", "2ndLine\n", "3rdLine\n", "\n", "FinalLineFollowingANewLine\n", "\n"]
def charMap : List (List Rune) := lines.map runes
def text : List Rune := charMap.flatten
def at? (p : Position) : Option Rune := (charMap[(p.line - 1).toNat]?).bind (·[(p.col - 1).toNat]?)

def report (id : String) (b : Bool) : IO Unit := IO.println s!"{if b then "PASS" else "FAIL"} {id}"

/-- the `i` first characters read -/
def readN : Nat → Stream → Stream
  | 0, s => s
  | n + 1, s => readN n s.next.2
def prepended : Stream := (readN (text.length / 2) (Stream.ofChars text)).pushBack (text.take (text.length / 2))

def collect : Nat → Stream → List Rune
  | 0, _ => []
  | n + 1, s => if s.next.1 = EOFChar then [] else s.next.1 :: collect n s.next.2
#eval report "TestCharstreamNextString" (collect 1000 (Stream.ofChars text) == text)
#eval report "TestCharstreamNextPrepend" (collect 1000 prepended == text)

def skipTest (s : String) (n : Nat) (c : Char) : Bool :=
  let r := (Stream.ofChars (runes s)).skipSpaces
  r.1.length == n && r.2.peek == c.toNat
#eval report "TestCharstreamSkipSpaces" (skipTest " is my name 'Kevin Xie'" 1 'i' && skipTest "\t \n name" 4 'n' &&
  skipTest "    This is my name 'Kevin Xie'" 4 'T')

def positions : Nat → Option Position → Stream → Bool
  | 0, _, _ => false
  | n + 1, p, s =>
    let r := s.next
    if r.1 = EOFChar then true
    else match p with
      | none => false
      | some p => at? p == some r.1 && (let q := r.2.position; positions n q.1 q.2)
def positionTest (s : Stream) : Bool := let q := s.position; q.1.isSome && positions 1000 q.1 q.2
#eval report "TestCharstreamPositionString" (positionTest (Stream.ofChars text))
#eval report "TestCharstreamPositionPrepend" (positionTest prepended)

def lookupTest (s : Stream) (i : Int) : Bool :=
  let s := readN 1000 s
  match s.positionLookup i with
  | none => i < 0 || i ≥ text.length
  | some p => 0 ≤ i && i < text.length && at? p == text[i.toNat]?
def idxs : List Int := [-10, 0, 1, 2, 10, 50, text.length - 1, text.length, text.length + 1, 1000]
#eval report "TestCharstreamLookupString" (idxs.all (lookupTest (Stream.ofChars text)))
#eval report "TestCharstreamLookupPrepend" (idxs.all (lookupTest prepended))
''')
