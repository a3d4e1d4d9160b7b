import Verif.Model.Stream
/-
What streams are specified with: lines and columns of a text, and reading from a list of
characters.  Only the types `Rune` and `Position`, the newline character and the white space
predicate are taken from the model.
-/
namespace Xbnf.Spec

/-- The line of the character at index `i`: one more than the newlines before it. -/
def lineOf (text : List Rune) (i : Nat) : Int := 1 + (text.take i).count newline

/-- The column of the character at index `i`: one more than the characters between the last newline
before it (or the start of the text) and it. -/
def colOf (text : List Rune) (i : Nat) : Int :=
  1 + ((text.take i).reverse.takeWhile (fun c => c ≠ newline)).length

/-- Line and column of the character at index `i`. -/
def posOf (text : List Rune) (i : Nat) : Position := ⟨lineOf text i, colOf text i⟩

/-- The longest common prefix. -/
def commonPrefix : List Rune → List Rune → List Rune
  | a :: as, b :: bs => if a = b then a :: commonPrefix as bs else []
  | _, _ => []

/-- The calls a reader can make on a stream. -/
inductive Call where
  | next
  | peek
  | skipSpaces
  | matchText (t : List Rune)
  | cursor
  | position
  | lookup (i : Int)
deriving Repr, DecidableEq

/-- What a call returns. -/
inductive Answer where
  | rune (c : Rune)
  | chars (l : List Rune)
  | matched (read : List Rune) (ok : Bool)
  | number (i : Int)
  | pos (p : Option Position)
deriving Repr, DecidableEq

/-- The reading calls on the list of characters left: the answer and what is left then.  The
observing calls leave everything (their answers are specified elsewhere, so `none`). -/
def readList (c : Call) (left : List Rune) : Option Answer × List Rune :=
  match c with
  | .next => (some (.rune (left.headD EOFChar)), left.tail)
  | .peek => (some (.rune (left.headD EOFChar)), left)
  | .skipSpaces => (some (.chars (left.takeWhile isWhiteSpace)), left.dropWhile isWhiteSpace)
  | .matchText t =>
    if t.isPrefixOf left then (some (.matched t true), left.drop t.length)
    else
      let n := (commonPrefix t left).length + 1
      (some (.matched (left.take n) false), left.drop n)
  | .cursor => (none, left)
  | .position => (none, left)
  | .lookup _ => (none, left)

end Xbnf.Spec
