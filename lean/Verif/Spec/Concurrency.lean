import Verif.Spec.Text
/-
What is said about goroutines that share a stream: a history is the list of the calls in the order
they returned, each with the goroutine that made it and the answer it got.
-/
namespace Xbnf.Spec

/-- The calls that returned: by which goroutine, which call, with what answer. -/
abbrev History := List (Nat × Call × Answer)

/-- The calls of a history. -/
def calls (h : History) : List Call := h.map fun e => e.2.1

/-- The answers of a history. -/
def answers (h : History) : List Answer := h.map fun e => e.2.2

/-- The calls of goroutine `i` that have returned. -/
def returned (i : Nat) (h : History) : List Call := (h.filter fun e => e.1 == i).map fun e => e.2.1

/-- The calls whose answer is a line and a column. -/
def looks : Call → Bool
  | .position | .lookup _ => true
  | _ => false

/-- The answer of a call other than those. -/
def masked (c : Call) (a : Answer) : Option Answer := if looks c then none else some a

/-- Either nobody asks for the position at the cursor, or one goroutine alone asks for positions. -/
def Tame (prog : Nat → List Call) : Prop :=
  (∀ i, Call.position ∉ prog i) ∨ ∃ o, ∀ i, i ≠ o → ∀ c ∈ prog i, looks c = false

end Xbnf.Spec
