import Verif.Model.AnyStream
/-
What the comments of `ICharstream` (charstream.go:34-56) ask of an implementation, as far as the
characters go: an implementation spells a text.  Nothing is asked of the numbers `Cursor` gives and of
the positions.
-/
namespace Xbnf.Spec

/-- What `Match` reads of the text `l` to find `t`, and whether it finds it: the characters up to and
including the first that is not as wanted, or up to the end of the text. -/
def tryMatch : List Rune → List Rune → List Rune × Bool
  | [], _ => ([], true)
  | _ :: _, [] => ([], false)
  | want :: t, c :: l =>
    if c = want then (c :: (tryMatch t l).1, (tryMatch t l).2) else ([c], false)

/-- In every state that `ok` allows, the implementation answers as a stream does that has the
characters `rest` left, and goes to such a state. -/
structure Spells {σ : Type} (I : Impl σ) (ok : σ → Prop) (rest : σ → List Rune) : Prop where
  /-- a character is not the end marker -/
  chars : ∀ b, ok b → ∀ c ∈ rest b, c ≠ EOFChar
  /-- `Next` gives the first character left, or the end marker, and moves past it -/
  next : ∀ b, ok b → (I.next b).1 = (rest b).headD EOFChar ∧ ok (I.next b).2 ∧
    rest (I.next b).2 = (rest b).tail
  /-- `Peek` gives the same and does not move -/
  peek : ∀ b, ok b → (I.peek b).1 = (rest b).headD EOFChar ∧ ok (I.peek b).2 ∧
    rest (I.peek b).2 = rest b
  /-- `Match` reads until it knows -/
  matchRunes : ∀ b t, ok b → (I.matchRunes t b).1 = tryMatch t (rest b) ∧ ok (I.matchRunes t b).2 ∧
    rest (I.matchRunes t b).2 = (rest b).drop (tryMatch t (rest b)).1.length
  /-- `SkipSpaces` reads the white space at the front -/
  skipSpaces : ∀ b, ok b → (I.skipSpaces b).1 = (rest b).takeWhile isWhiteSpace ∧
    ok (I.skipSpaces b).2 ∧ rest (I.skipSpaces b).2 = (rest b).dropWhile isWhiteSpace
  /-- asking for a position does not move -/
  position : ∀ b, ok b → ok (I.position b).2 ∧ rest (I.position b).2 = rest b
  /-- nor does translating an index -/
  positionLookup : ∀ b idx, ok b → ok (I.positionLookup idx b).2 ∧
    rest (I.positionLookup idx b).2 = rest b
  /-- nor does asking for the cursor -/
  cursor : ∀ b, ok b → ok (I.cursor b).2 ∧ rest (I.cursor b).2 = rest b

/-- The implementation gives all the answers the library's own stream gives (charstream.go:273-414), cursors and positions included: `R` relates its
states to the states of that stream. -/
structure Answers {σ : Type} (I : Impl σ) (R : σ → Base → Prop) : Prop where
  next : ∀ b c, R b c → (I.next b).1 = c.next.1 ∧ R (I.next b).2 c.next.2
  peek : ∀ b c, R b c → (I.peek b).1 = c.peek ∧ R (I.peek b).2 c
  matchRunes : ∀ b c t, R b c → ∃ c', (Stream.base c).matchRunes t = ((I.matchRunes t b).1.1, (I.matchRunes t b).1.2, .base c') ∧
    R (I.matchRunes t b).2 c'
  skipSpaces : ∀ b c, R b c → (I.skipSpaces b).1 = c.skipSpaces.1 ∧ R (I.skipSpaces b).2 c.skipSpaces.2
  position : ∀ b c, R b c → (I.position b).1 = c.position.1 ∧ R (I.position b).2 c.position.2
  positionLookup : ∀ b c idx, R b c → (I.positionLookup idx b).1 = c.positionLookup idx ∧ R (I.positionLookup idx b).2 c
  cursor : ∀ b c, R b c → (I.cursor b).1 = c.cursor ∧ R (I.cursor b).2 c

end Xbnf.Spec
