/-
Basic vocabulary of the model: runes, white space, outcomes of a Go computation, slices.
Source: /repo/space.go, /repo/charstream.go, /repo/rule.go.
-/
namespace Xbnf

/-- A Go `rune` (int32).  Modelled as an unbounded integer: no arithmetic is done on runes in
the code, only comparisons, so 32-bit wrap-around cannot occur.  charstream.go:36 `Next() rune`. -/
abbrev Rune := Int

/-- charstream.go:10 `EOFChar = -1`. -/
abbrev EOFChar : Rune := -1

/-- `'\n'`, the only line separator known to charstream.go:71. -/
abbrev newline : Rune := 10

/-- space.go:5-31 `whiteSpaceMap`: the keys of the map (its values are never used). -/
def whiteSpaceTable : List Rune :=
  [0x0009, 0x000A, 0x000B, 0x000C, 0x000D, 0x0020, 0x0085, 0x00A0, 0x1680,
   0x2000, 0x2001, 0x2002, 0x2003, 0x2004, 0x2005, 0x2006, 0x2007, 0x2008, 0x2009, 0x200A,
   0x2028, 0x2029, 0x202F, 0x205F, 0x3000]

/-- space.go:41-44 `IsWhiteSpace`. -/
def isWhiteSpace (c : Rune) : Bool := whiteSpaceTable.contains c

/-- rule.go:40 `SUGGEST_NOT_SKIP`. -/
abbrev SUGGEST_NOT_SKIP : Int := 0
/-- rule.go:41 `SUGGEST_SKIP`. -/
abbrev SUGGEST_SKIP : Int := 1
/-- rule.go:42 `NOT_SKIP`. -/
abbrev NOT_SKIP : Int := 3

/-- A rule name: the code points of the Go string.  grammar.go:33. -/
abbrev Name := List Rune

/-- Code points of a Lean string literal.  Such as those of grammar.go:268. -/
def runes (s : String) : List Rune := s.toList.map (fun c => (c.toNat : Int))

/-- The outcome of running a Go function on the model: it returns, it panics (slice bounds), or
the fuel given to the model ran out.  A Go call that does not return is one for which every
amount of fuel gives `oof`.
Slices that can panic: rule_repetition.go:66, rule_choice.go:116; loops without a bound: grammar.go:261, rule_block.go:102. -/
inductive Exec (α : Type) where
  | ok (a : α)
  | panic
  | oof
deriving Repr, DecidableEq

namespace Exec

/-- Sequencing. -/
protected def bind {α β : Type} : Exec α → (α → Exec β) → Exec β
  | .ok a, f => f a
  | .panic, _ => .panic
  | .oof, _ => .oof

instance : Monad Exec where
  pure := Exec.ok
  bind := Exec.bind

/-- Apply a pure function to the returned value.  As grammar.go:301-305 passes on what `EvalRaw` returns. -/
def map' {α β : Type} (f : α → β) : Exec α → Exec β
  | .ok a => .ok (f a)
  | .panic => .panic
  | .oof => .oof

end Exec

/-- Go `l[n:]`: panics when `n < 0` or `n > len(l)`.  rule_repetition.go:66, rule_repetition.go:71, rule_choice.go:116. -/
def sliceFrom {α : Type} (l : List α) (n : Int) : Exec (List α) :=
  if 0 ≤ n ∧ n ≤ l.length then .ok (l.drop n.toNat) else .panic

/-- Go `l[:n]`: panics when `n < 0`.  For `n > len(l)` Go panics only beyond the capacity; the
model panics as soon as `n > len(l)`, so "the model never panics" is the stronger claim.  rule.go:78, rule_block.go:81. -/
def sliceTo {α : Type} (l : List α) (n : Int) : Exec (List α) :=
  if 0 ≤ n ∧ n ≤ l.length then .ok (l.take n.toNat) else .panic

end Xbnf
