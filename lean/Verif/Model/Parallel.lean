import Verif.Model.Access
/-
Several goroutines that use one grammar at the same time.  Each has a job and memory of its own; there are also arrays that
all of them see, such as a text that several streams read, or a tree that several goroutines print.  In each step some
goroutine makes one access (Model/Access.lean).

Addresses are opaque in Go, and goroutines that do not talk to each other can hold only addresses of what was there at the
start and of what they allocated themselves.  So arrays are numbered by goroutine: first the shared ones, then its own.
-/
namespace Xbnf.Par
open Xbnf.Mem Xbnf.Grammar

/-- A goroutine: what is left to do, its own arrays and streams, and the numbers of the arrays it has written into.
No code of its own: the calls are those of grammar.go:248-403 and node.go:77-339. -/
structure Worker (α : Type) where
  prog : Prog α
  data : List (List Rune) := []
  streams : List StreamObj := []
  written : List Nat := []

/-- All goroutines, and the arrays they share.  No code of its own: the calls are those of grammar.go:248-403 and node.go:77-339. -/
structure World (α : Type) where
  shared : List (List Rune)
  workers : List (Worker α)

namespace Worker
variable {α : Type}

/-- The memory as the goroutine sees it.  No code of its own: the calls are those of grammar.go:248-403 and node.go:77-339. -/
def heap (shared : List (List Rune)) (w : Worker α) : Heap := { arrays := { data := shared ++ w.data, written := w.written }, streams := w.streams }

/-- One access of the goroutine: what is shared afterwards, and the goroutine afterwards.
No code of its own: the calls are those of grammar.go:248-403 and node.go:77-339. -/
def step (grow : Growth) (shared : List (List Rune)) (w : Worker α) : Option (List (List Rune) × Worker α) :=
  (w.prog.step grow (w.heap shared)).map fun x =>
    (x.2.arrays.data.take shared.length,
     { prog := x.1, data := x.2.arrays.data.drop shared.length, streams := x.2.streams, written := x.2.arrays.written })

/-- What the goroutine returned, if it did.  No code of its own: the calls are those of grammar.go:248-403 and node.go:77-339. -/
def result (w : Worker α) : Option α :=
  match w.prog with
  | .ret a => some a
  | _ => none

end Worker

namespace World
variable {α : Type}

/-- One access of the goroutine with this number. -/
def step (grow : Growth) (w : World α) (i : Nat) : Option (World α) :=
  match w.workers[i]? with
  | none => none
  | some x => (x.step grow w.shared).map fun y => { shared := y.1, workers := w.workers.set i y.2 }

/-- A schedule: the goroutines that make the next accesses, in turn.
No code of its own: the calls are those of grammar.go:248-403 and node.go:77-339. -/
def run (grow : Growth) : List Nat → World α → Option (World α)
  | [], w => some w
  | i :: is, w =>
    match w.step grow i with
    | none => none
    | some w => run grow is w

end World

/-! ### Jobs -/

/-- What a goroutine does with the grammar, or with trees.  grammar.go:248-403, node.go:37-339. -/
inductive Job where
  /-- grammar.go:289-299 `EvalRule`. -/
  | rule (name : Name) (sample : List Rune)
  /-- grammar.go:248-287 `EvalEmbed`. -/
  | embed (name : Name) (sample : List Rune)
  /-- grammar.go:301-322 `Eval` of the stream with this number; `EvalRaw` is the level 0. -/
  | document (o : Order) (cs : Nat) (level : Int)
  /-- ast.go:123-132 `AST.Text`. -/
  | text (nodes : List HNode)

/-- What a job returns.  grammar.go:248-403, node.go:37-339. -/
inductive Returned where
  | res (r : HRes)
  | trees (r : Except RawErr (List HNode))
  | text (s : Slice)

/-- The program of a job.  grammar.go:248-403, node.go:37-339. -/
def Job.prog (g : Grammar) (fuel : Nat) : Job → Prog Returned
  | .rule name sample => do
    let r ← pEvalRule g fuel name sample
    pure (.res r)
  | .embed name sample => do
    let r ← pEvalEmbed g fuel name sample
    pure (.res r)
  | .document o cs level => do
    let r ← pEvalAST g fuel o cs level
    pure (.trees r)
  | .text nodes => do
    let s ← pAstText {} nodes
    pure (.text s)

end Xbnf.Par
