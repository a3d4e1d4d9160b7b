# Formal model of cnsgfk/xbnf

xbnf is a Go library: a grammar is written as text (`name = definition` lines), parsed into rules,
and a document is then parsed with these rules into a tree.  This directory holds a Lean 4 model
of the library, the properties of `properties.jsonl` stated over it, and their proofs.

## Layout

* `lean/Verif/Model/` - the code, function by function; every definition cites file and lines.
* `lean/Verif/Spec/` - the specifications the properties are stated with; they import the data
  types of the model (rules, nodes) but none of its functions that they specify.
* `lean/Verif/Lemmas/` - helper lemmas.
* `lean/Verif/Props/` - the property theorems, each with a concrete case beside it, and the
  counterexamples for properties the code violates.
* `conformance/gen.py` - turns the test tables of /repo/xbnf_test.go into checks of the model
  (166 pass), `conformance/streams.py` those of /repo/charstream_test.go (7 pass; the eighth test checks
  nothing).  These are tests of the model's fidelity, not proofs.
* `seeded/LOG.jsonl` - wrong programs tried against the theorems.
* `MANIFEST.json` - which theorem settles which property.

## Trusted base

* Lean's kernel, and the axioms `propext`, `Classical.choice`, `Quot.sound`. No other axiom, no
  `sorry`, no `native_decide`, no `bv_decide`.
* The reading of the Go code into the model.  Everything in charstream.go (live code), space.go,
  node.go, ast.go, rule.go, rule_*.go, grammar.go and main/xbnf.go is modelled except:
  * the texts of errors are made where the error occurs; the model keeps what goes into it and makes the text from that
    (`Model/DefMessage.lean`, `Model/Message.lean`, `Model/Report.lean`);
  * the file system is a function from names to contents or error texts, and the command main/xbnf.go is the list of what it
    writes to standard output (`Model/Command.lean`); package `flag`, the help text and exit codes are not modelled;
  * the commented-out code charstream.go:140-269;
  * machine integers: line numbers, cursors and counters are unbounded.
* Texts are lists of code points in the model; Go strings are bytes.  `Model/Bytes.lean` has the functions that work on
  bytes (`[]rune(s)`, `string(r)`, the functions of packages `strings` and `utf8` the code calls, modelled after Go's
  source), and C62 shows that nothing changes.
* Slices of runes are values and streams are threaded through the calls, except in `Model/Heap.lean`, `Model/HeapEval.lean` and `Model/Access.lean`: there
  slices are windows of arrays, `append` writes in place where there is room (how much there is, is an argument), streams are
  objects that refer to each other, and C73 proves that the results are the same and that nothing is overwritten.  What
  remains an assumption: nodes, results, lists of nodes (`ChildNodes`) and rules are values in both.  A node is changed only by
  the call that made it, by the reference that renames it right after, and by the simplification, which returns it; every node is linked into one parent.
  For the simplification that is no assumption: `Model/NodeHeap.lean` has it on node objects, and C83 proves that it does to trees without shared nodes what
  it does to values, and changes no other node.  For the evaluators it is no assumption either: `Model/NodeEval.lean` has them on node objects, and C84 proves
  that they make the same trees, of new nodes, each in one place.  There a node with children is written once, when its children are known (the code writes
  some fields earlier; nobody else has the address then), and a terminal rule takes an address only if it matches.
* Loops and recursion take fuel.  `Exec.oof`/`Out.oof` means "did not return within the fuel"; all
  theorems about results hold for every fuel, and termination theorems say how much is enough.
* Panics are explicit (`Exec.panic`, slice bounds).  The nil-pointer cases cannot occur by typing.

## How a stream is modelled

A Go stream is a mutable object that composite rules wrap in prepend streams, which share the
object below.  The model threads the stream value: `pushBack` wraps, `popBack` is the caller's own
reference after the call.  `Adv k s s'` says that `s'` is `s` with `k` characters consumed, in
whatever layers they were.  Every evaluator is shown to only do this, so a stream can be abstracted to the
list of characters left (`rem`), and evaluation to a function on lists.  `Model/HeapEval.lean` has the evaluators once more, with
stream objects; `hEval_sim` (`Lemmas/HeapBlock.lean`) relates the two, call by call.  `Model/AnyStream.lean` has
them over an arbitrary implementation of `ICharstream`: a state and seven total functions on it.

## Properties

| | what is modelled, how it is proved |
|---|---|
| C01-C05, C08 | `Model/Stream.lean`; refinement to the list of remaining characters, for every nesting; histories by induction over a list of calls |
| C06, C07 | invariant on the line table ("every newline read is in it, the last entry is the frontier"); C07 is false (counterexample), proved for the indexes where it holds |
| C09 | `Model/Conc.lean`: any number of goroutines, each method a program of single reads and writes under the lock; invariants over all interleavings; sequentially consistent memory; one `CharstreamString` (prepend streams are made inside one evaluation and not shared); Position race as counterexample |
| C10 | inductive relation `Conforms` between rules and trees in `Spec/`, induction on fuel and rule |
| C11-C18, C40 | each evaluator against a statement on the list of characters left; induction over loops |
| C19 | invariant "unused no longer than read", proved for all evaluators; hence no `panic` |
| C20, C21 | false in general (counterexamples); proved where look-ahead is not cut short |
| C22 | false in general (counterexamples); fuel monotonicity, divergence theorems, termination for a static class |
| C23-C25 | loops of `EvalEmbed`/`EvalRaw` with map order as an explicit schedule; C24, C25 false in general, partial results |
| C26-C30, C44 | mutual induction over trees; path-based specification of what is kept |
| C31, C34, C35, C37-C39 | parser monad over the characters left; invariants over the parser and over call histories |
| C32, C33, C43 | `Spec/Calls.lean` reads a text line by line (`Denotes`), independently of the loop; `Props/Grammars.lean` proves that the loop and `Validate` accept exactly those texts |
| C47 | induction over the evaluators: a result without a node has an error, errors name only undefined rules |
| C48 | `Spec/Syntax.lean` gives the notation as inductive relations on texts; `Lemmas/Syntax.lean` shows that what the parser reads is derivable, `Lemmas/Notation.lean` that what is derivable is read |
| C49 | `Spec/Calls.lean` `Fault` says what is wrong with a line (and, for a text that is no definition, `Spec/Cause.lean` where and why); the loop over the lines of `Model/Grammar.lean` stops at the first such line |
| C50 | `Spec/Places.lean` `Laid` lays a list of trees along the text; induction over the evaluators with streams that stand at an index of the text (`Here`); `Tiled` for the children of `EvalEmbed` |
| C51 | `Spec/Error.lean` `Furthest` and `StuckAt`; `Lemmas/Twin.lean` shows that streams with the same characters left and the same cursor give the same errors, so an alternative tried on a push-back stream fails as it would on its own; `Props/Kinds.lean` says which error every kind of rule reports |
| C52-C54 | paths from the root (`Spec/Paths.lean`) name the nodes of a tree; `Spec/Drawing.lean` says what stands in front of the lines of the node at a path |
| C55 | `Spec/Local.lean` `SameTo` relates streams that differ only beyond an index; every evaluator is carried over to another text (`Stream.retext`) as long as the texts agree one character past the cursor it ends with |
| C56 | `Spec/Rename.lean` puts other names into rules, trees and results; every evaluator and every simplification commutes with that; schedules are carried over as in C43 |
| C57 | `Spec/Message.lean` says which errors a rule can give; induction over the evaluators; descriptions exist for the rules grammars hold (C38); `Spec/ShownParts.lean`, `Props/Descriptions.lean`: what a description contains; `Holds` says what an error claims about the text, proved by induction along the reference semantics |
| C58 | `Spec/Predictive.lean` computes for each rule and flag a shape (first characters, can it match nothing, bounds on the look-ahead); a certificate gives the shapes of named rules, the nullable names and an order without left recursion, and `Certificate.ok` checks it. Every answer of the reference semantics fits the shape, so it is never risky or ambiguous; with C22 it ends. This discharges `Regular`, `Clean` and `Orderly` |
| C59 | `Spec/Language.lean` gives the language of a grammar as an inductive relation in which every alternative, every omission and every number of rounds is allowed; `Sets` (nullable, first, more) and `Sets.ok` are the check. Soundness by induction on the fuel of the reference semantics; completeness by induction on the reading: either the parser finds it, or the text goes on with a character with which the rule could have gone on. Counterexample without the check: `{ 'x' } 'x'` |
| C60 | `Model/Serialize.lean`, the orders of both map iterations as arguments; `Spec/Serialize.lean` says what a row of the listing is; line numbers increase along the records (`Props/Reachable.lean`, induction over the calls), so sorting by line gives the records back |
| C61 | `Model/Report.lean` is `EvalRaw` with the contents of its errors (`C61_agrees`: the same outcome as the model of C24); induction over the rounds; `placeAt` says where an orderly document stops, and two orders of the maps are compared there by evaluation on streams with the same characters left |
| C62 | `Spec/Bytes.lean` is UTF-8 as the standard has it (which bytes stand for which character); `Model/Bytes.lean` follows Go's decoder and the byte functions; ASCII bytes are parts of no other character, so splitting and trimming commute with decoding; the last character of a text is found backwards as it is found forwards |
| C63 | `Spec/Cause.lean` says for each error what it claims about the text read and the text to come; `Lemmas/Blame.lean` and `Lemmas/Truth.lean` run the parser with "an error is true" as postcondition; `Model/DefMessage.lean` has the texts, which are told apart by how they begin |
| C64 | `Spec/Command.lean` is a relation between arguments, files and the pieces written (`Run`, `Session`); the model is followed branch by branch; trees by C30 and C44, bytes by C62, messages by C61 and C63 |
| C65 | `Spec/Needed.lean` says which names a rule needs; every evaluator asks for the evaluation of the parts of a rule only (`Lemmas/Needed.lean`), so two grammars that agree on the names needed evaluate alike |
| C66 | `Spec/Written.lean` lists texts as strings with '|' between them; the notation (C48) turns the list into a choice, and among strings that come next no two have the same length, because one would be the other with white space before it |
| C67 | `Spec/Parens.lean` says what it means to put parts of a grammar in parentheses and when trees differ by the nodes of parentheses; the reference semantics of both grammars goes in step (with twice the fuel for the second) |
| C68 | `Spec/Factor.lean` says when rules differ only in that parts of one are references to them in the other; the two evaluations give alike results on every stream, by induction on the fuel of the first (twice as much for the second), without assuming the evaluation regular |
| C69 | `Spec/Build.lean` has the caller who adds the definitions one by one; the loop over the lines and the calls go in step, on grammars that are the same but for line numbers |
| C70, C71 | `Spec/Marks.lean` drops a choice of annotations from rules, trees and results; evaluation commutes with dropping, so grammars that are the same without the annotations give results that are the same without the marks |
| C72 | `Spec/Spacing.lean` squeezes every run of white space to one space; the reference semantics of C14 are related on two texts that are the same when squeezed, and carried over to the code for regular evaluations, orderly documents and predictive grammars |
| C73 | `Model/Heap.lean`, `Model/HeapEval.lean`: arrays, slices with capacity, stream objects; `Spec/Memory.lean` says when slices lie apart and which objects a stream is made of; simulation by induction on fuel: the slices a call appends to are its own, the text is only read; for trees the invariant "slices pairwise in different arrays" through merging and removal |
| C74 | `Model/Access.lean` has the evaluators a third time, as programs that make one access to memory at a time; `Lemmas/Access.lean` shows that undisturbed they are those of `Model/HeapEval.lean`. `Model/Parallel.lean` puts any number of them side by side: shared arrays, own arrays and streams, one access of some goroutine per step. The log of written arrays (ghost state of `Model/Heap.lean`) only grows, so what C73 says of the whole run holds of every step: no write into a shared array, hence nobody notices the others. Addresses are numbered by goroutine (Go addresses are opaque, and goroutines that do not talk hold only what was there and what they allocated). Sequentially consistent memory, which Go guarantees for programs without data races |
| C75 | `Model/Work.lean` counts the calls of `IRule.Eval`, function by function with the control flow of `Model/Eval.lean`; `Spec/Work.lean` does the same for the reference semantics, `Lemmas/Work.lean` shows that the two counts agree. `Lemmas/Still.lean`: a rule that cannot begin at a place tries only the rules it can reach without reading, a number that is fixed (no left recursion). `Lemmas/Linear.lean`: an attempt that reads is paid for by the characters it reads, a constant each. `Lemmas/WorkBound.lean`: without left recursion a rule costs at most `D ^ height * K ^ length`, since the rules called at the same place are lower and those called later have a shorter text |
| C76 | The same count for the loops of `EvalRaw` and `EvalEmbed`. `Lemmas/DocWork.lean`: the counts are those of `docTries` and `embedTries` in `Spec/Work.lean`, in every order of the roots. `Lemmas/DocLinear.lean`: a root that read beyond its match can do so once only, since after that no root can begin. `Props/WorkBoundText.lean`: at most exponential without left recursion, every root being tried at most once at each place. |
| C77 | Nodes against characters. `Lemmas/TreeSize.lean`: an accounting by which every character pays for the nodes above it; a rule that stands for nothing is not met again at the same place with the same flag on the way down, since a smaller amount of fuel would have given the same answer (`Lemmas/RunFuel.lean`: more fuel does not change an answer). `Lemmas/DocSize.lean`: the loop of `EvalRaw`, the passes of the simplification. `Props/TreeGrowth.lean`: the counterexample, for all lengths |
| C78 | Pairs of readings of texts with the same characters apart from white space. `Spec/Bare.lean`: trees without positions and stickiness. `Lemmas/Unspaced.lean`: two derivations of the same rule (Spec/Language.lean), by induction on the first and inversion of the second; the readings agree unless one of them could go on. What a text begins with depends on its solid characters only, which is why a character that decides in one decides in the other. `Lemmas/Alike.lean`: the same with stickiness, for texts that both end in white space or both do not; derivations there also record what was tried and did not match (`Traced`), because a failed rule contributes its stickiness |
| C79 | `Model/AnyStream.lean`: the evaluators once more, over an arbitrary implementation of `ICharstream`; every method may change its state. `Spec/AnyStream.lean`: what it means that an implementation spells a text. `Lemmas/AnyStream.lean`, `AnySim.lean`: the prepend streams over such an implementation are lists of characters, and evaluation is the function on lists of `Lemmas/ListEval.lean`, to which the library's own stream is related as well; errors and positions are not compared, and the alternatives of a choice are chosen without looking at them. `Lemmas/AnyDocument.lean`: documents; the roots are visited in an order that may depend on the trees, which is why the order over the other stream is another one. `Lemmas/AnyExact.lean`: an implementation that also gives the cursors and positions of the library's stream, in lockstep with it; with the library's stream itself for the implementation, this says that the two models of the evaluators agree. |
| C80 | `Lemmas/AnySafe.lean`: the only invariant is that what is left over is no longer than what was read; it holds whatever the stream answers. |
| C81 | `Props/EntryPoints.lean`: one round of the loop of `EvalRaw` with one root is one call of `rule.Eval`; the loop only appends to the trees it has. For the whole text, C21 (regular rules) says that the characters given back and the rest of the stream are the end of the text. |
| C82 | `Lemmas/Grow.lean`: a match of `Spec.run` that cannot go on stays a match, with the same tree, when the text goes on and the flag skips at least as much (one induction, with the companion that a rule that cannot begin does not become sticky). `Lemmas/Joined.lean`: two readings of the same solid characters agree. C59 connects both with the code. |
| C83 | `Model/NodeHeap.lean`: the simplifications over a memory of node objects. `Spec/NodeHeap.lean`: when memory shows a tree at an address and with which nodes (`Shows`), a forest without a node in two places, and what it is to change one in place. `Lemmas/NodeHeap.lean`: one triple for each loop and method, on fuel at least the levels of the trees. |
| C84 | `Model/NodeEval.lean`: the evaluators and the entry points over a memory of node objects. `Spec/NodeEval.lean`: two runs that end alike, memory that only got larger, new trees. `Lemmas/NodeEval.lean`: one simulation per kind of rule. `Props/Objects.lean`: the entry points, two documents one after the other, simplifying one of them. |
| C85 | `Spec/Shuffle.lean`: grammars that differ in the order of alternatives and excluded texts. `Lemmas/Shuffle.lean`: the reference semantics gives the same answer for both, unless one of the answers is `risky`. `Props/Shuffle.lean`: `EvalRule`, predictive grammars, `EvalEmbed`, documents; the counterexample. |
| C86 | `Spec/Added.lean`: a choice with further alternatives; a grammar with further alternatives and excluded texts at any depth, rules and roots. `Lemmas/Added.lean`, `Lemmas/Grown.lean`: the reference semantics gives the same answers but for how far it looks, unless one of them is `risky`. `Props/Added.lean`: one choice, `EvalRule`, documents, conditions on the text; groups of lower priority (on the model itself, no condition); the counterexample. |
| C87 | `Props/Bounds.lean`: induction over the loop of `RepetitionRule.Eval` with two bounds side by side; no hypotheses about the text. `Props/BoundsCases.lean`: the counterexample and cases. |
| C36 | printer model; false in general (counterexamples); for the rules of `Spec/Printing.lean` the printed text is derived in the notation of C48 |
| C41, C42 | simulation of the evaluators on lists |
| C45 | false in general (counterexample); proved for trees without marks on sticky nodes |
| C46 | yield of a tree (characters of its leaves) against the characters used, by induction over the reference semantics |

Every property can be expressed; the status of each is in `MANIFEST.json`.

## What the code does wrong

These are the places where a property fails; each is a theorem (`*_counterexample`, `*_diverges`).

* C07: once a newline was read, characters of the first line have no position.
* C09: `Position` writes the table of lines while it holds the lock for reading only; two goroutines that
  ask at the same time make the stream count a line twice.  (`CharstreamPrepend.Position` and
  `PositionLookup` take no lock at all; this is not modelled.)
* C10, C17: a range compares the white space it should skip with its first end.
* C12, C14, C22, C24, C46: when a rule looks less far than the rule before it did, the rest of the
  look-ahead is lost, or is read twice; repetitions can then fail, repeat characters or never end.
* C13, C25: a tie is reported or not depending on the order in which alternatives or map entries
  are visited.
* C18, C21: an escape inside a block is reported twice.
* C81: a document that is one sticky tree becomes a leaf in `Eval`, while `EvalRule` followed by
  `MergeStickyNodes` and `RemoveRedundantNodes` keeps the node with one child, which carries the name of
  the first of the merged rules.  After a block with an escape the result of `EvalRule` counts more
  characters as used than the text has, so it does not tell whether the text was used entirely.
* C18, C22: a block whose escape is not a single character in single quotes, and that has no excluded
  texts, never ends unless its content begins like the escape or the close. Characters are lost when
  excluded texts begin alike, or are longer than the close. The block with an escape shown in
  README.md is not accepted.
* C20: an ambiguous choice keeps what it read.
* C23: `EvalEmbed` drops the characters an ambiguous rule read, and never ends for a rule that matches
  the empty text.
* C24: white space at the end of a document is an error.
* C32: `Validate` never takes a root back, so a grammar validated twice can have a root that another
  rule refers to.
* C36: eleven kinds of rules are not printed so that they parse back to themselves: backslashes and
  quotes in strings, ranges with a backslash, a quote or a mark, `{ … }<n,n>`, choices with a mark, and
  choices or concatenations nested in a choice or in a block (`unfaithful` in `Props/Printing.lean`
  lists a text for each).
* C37: a rejected definition leaves the references it had got to in the grammar, so `Validate` can
  fail because of it.
* C39: an escape of a surrogate inside a string becomes U+FFFD.
* C45: a merged token takes the marks of its first node.
* C48: `EOF()` marks its rule nondata and virtual (rule_eof.go:9-14), but the parser sets the annotations written before it afterwards (grammar.go:567, grammar.go:672), so EOF in a definition has only the marks that are written (`C48_eof_marks`).
* C50: a range carries the position of the character before the place where it was tried, or none at the
  beginning of the text; a group has no position; a character sequence that begins with white space
  carries a later position.
* C51: a choice at the beginning of a text whose alternatives all fail at index 0 reports an error without a
  cause (`maxErr` stays nil).
* C55: a block whose excludes match the same text twice loses those characters; `CharsRead` is then shorter
  than what was read.
* C58, C59: with three or more root rules, whether a document is accepted depends on the order in which Go visits their map even if the first character tells the
  roots apart: `a = "ax"`, `b = 'b'`, `c = "cd"` on `cd` (`a` has read the `c` when it fails, `b` only peeks at it, and `c` is given it twice).
* C85: the order of the alternatives of one group matters if two of them match equally long and a third longer: the code compares each match with the longest before it and reports an ambiguity although a longer one follows (rule_choice.go:36-122). `'a' | 'a' | 'ab'` rejects `ab`, `'ab' | 'a' | 'a'` accepts it (`C85_counterexample`).
* C86: an alternative that does not match changes what is accepted: the stickiness of a choice is the conjunction over all alternatives tried, also those that failed (rule_choice.go:36-122), and a string in double quotes reports not sticky when it fails. With `a = 'x' | 'y'` the rule `r = a 'z'` rejects `x z`; with `a = 'x' | 'y' | "w"` it accepts it; and `r = a ' '-'~' 'z'` accepts `x z` before and rejects it after (`C86_counterexample`).
* C87: an upper bound that is just reached changes what is accepted: without the bound the loop looks once more, and what fails then reports that white space may follow (rule_repetition.go:49-97). With `i = 'x' > "w"` the rule `r = {i}<0,1> 'z'` rejects `x z`, and `r = {i} 'z'` accepts it (`C87_counterexample`). Also `"a" ['b'] 'c'` accepts `a c` and `"a" {'b'}<0,1> 'c'` does not: only an option that finds nothing leaves the flag for white space as it was (rule_concatenate.go:80-90, `C87_option_counterexample`).
* C60: a newline in a literal is printed as it is, so `Serialize` then breaks the row of its rule; a rejected
  definition appears as a user in the reference map.
* C61: an ambiguity between root rules that are other names for a rule (`a = c`, `b = c`) is reported with the name of
  that rule twice.
* C63: a rule name that starts with a character outside ASCII is reported with the wrong character (`é` as `Ã`, the first
  byte); where a number or a block is cut off by the end of the text, the message shows the character U+FFFD.  Ten of the
  messages can never be seen.
* C64: the command needs a file: with `-rule` only, it ends with an error about the file name "".  A root rule of the file stays a
  root rule though a rule of the command line refers to it.  It goes on with a grammar that `Validate` rejects.  It removes virtual
  nodes after `Eval` has joined them with others, so that their text can remain (`LevelDataOnly` does it in the right order).
* C67: parentheses can change what is matched: `"a" ['b'] 'c'` accepts `a c`, `"a" (['b']) 'c'` does not, since the white space is only
  carried over an option, not over a group of an option that was left out; `"x" "a" 'b' 'c'` and `"x" ("a" 'b') 'c'` differ on `x ab c`.
* C71: the annotation `$` has no effect on the trees: the code that looked at it when merging is commented out (node.go:110-127), and a
  sticky token is merged with its neighbours like any other node.
* C72: characters read by parts that match nothing count as used when alternatives are compared, so the number of spaces before a text can decide
  which alternative is taken; white space that a range skipped is taken for its match if it is not below the end of the range.
* C53: `AST.Text` joins the texts of its trees without a space, unlike `Node.Text`.
* C75: the rule `a = ('x' a 'y') | ('x' a 'z') | 'x'` makes at least `2^n` calls on `n` times `x`; nothing is
  remembered between alternatives.
* C76: `EvalEmbed` tries its rule again from the next character on, whatever the attempt before has read: looking for `{'x'} 'y'`
  in `n` times `x` takes `n * n / 2` calls.
* C77: after a choice that read further than it used, `{ }` hands the characters that were given back to the next round and leaves them in
  the stream as well (rule_repetition.go:50-75). `{ ('x' {'b'} 'c') | 'x' | 'b' }` on an `x` and `n` times `b` returns a tree for
  `1 + n(n+1)/2` characters with `n² + n + 3` nodes; the text has `n + 1` characters (`C77_counterexample`).
* C78: `a = 'x' {"y"} EOF` on `x` is one leaf after simplification, on `x` and a space it is a node with two children: at the very end of the
  text an empty repetition is sticky, before white space it is not (`C78_counterexample`; nothing but white space at the end makes such a difference, `C78_levels`). `Text` of the tree of `abx` for `'a' ('b' "x")` is
  `a b x`, which the rule does not match (`C78_text_counterexample`).
* C82: after a sticky tree `EvalRaw` reads on without skipping white space. With the roots `a = 'x'` and `b = {'y'} ';'` the texts `x` and
  `y y;` are documents and `xy y;` is none; `x` on two lines is none either, though `xx` is one.

Oddities of the notation, which C48 takes as they are: `//` ends the whole definition, not the line; a
trailing `~` is ignored; an annotation inside a choice applies to the whole choice; in a block `'a'|'b'>`
the `>` is read as the operator of the choice.

The `Regular` evaluations (one rule) and `Orderly` documents are those on which the reference
semantics of `Spec/Peg.lean` and `Spec/Document.lean` answers: it follows the plain reading of the
grammar and answers `risky` exactly where a hand-over of look-ahead could go wrong.
