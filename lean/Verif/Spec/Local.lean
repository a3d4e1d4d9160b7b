import Verif.Model.Stream
/-
Streams that cannot be told apart up to an index of their texts.
-/
namespace Xbnf

/-- The cursor of the stream at the bottom: how many characters of the text are consumed. -/
def Stream.low : Stream → Nat
  | .base b => b.cursor
  | .pre _ _ u => u.low

namespace Spec

/-- The same stream, but for the characters of the text from index `n` on (and its length, if that
is beyond `n`). -/
def SameTo (n : Nat) : Stream → Stream → Prop
  | .base b, .base b' => b'.cursor = b.cursor ∧ b'.lines = b.lines ∧ b'.chars.take n = b.chars.take n
  | .pre p c u, .pre p' c' u' => p' = p ∧ c' = c ∧ SameTo n u u'
  | _, _ => False

end Spec
end Xbnf
