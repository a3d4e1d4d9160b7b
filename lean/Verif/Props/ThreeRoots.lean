import Verif.Props.Joined
/-
Why the documents of C58, C59, C72, C76, C78 and C82 are those of at most two root rules.
-/
namespace Xbnf.Props
open Spec Grammar

/-- `a = "ax"`, `b = 'b'`, `c = "cd"`. -/
def threeStarts : Grammar :=
  match Grammar.fromString 1000 (runes "a = \"ax\"\nb = 'b'\nc = \"cd\"") with
  | .ok g _ => g
  | _ => {}

/-- The root rules always in the order given by their places in the grammar. -/
def fixed (is : List Nat) : Grammar.Sched := ⟨fun _ l => is.filterMap (fun i => l[i]?), fun _ l => l⟩

/-- **C58** and **C59** with three roots: every check passes but for the number, any two of the roots pass on their own, the document "cd" is one root match and
nothing else; but whether it is accepted depends on the order in which Go visits the map of root rules.  `a` has read the "c" when it fails, `b` only looks at
it and leaves it on the stream, and then `c` is given another "c" before it: "ccd". -/
theorem C58_three_roots_counterexample :
    (certify threeStarts 4).ok threeStarts = true ∧
    (∀ i ∈ [(0, 1), (0, 2), (1, 2)], (certify threeStarts 4).rootsOk (((threeStarts.roots.drop i.1).take 1 ++ (threeStarts.roots.drop i.2).take 1).map (·.rule)) = true) ∧
    ((Sets.infer threeStarts 4).ok threeStarts = true ∧ (Sets.infer threeStarts 4).rootsOk (threeStarts.roots.map (·.rule)) = true) ∧
    forward.Fair ∧ backward.Fair ∧
    rawTexts (threeStarts.evalRaw 20 forward (Stream.ofChars (runes "cd"))) = some (.inl .noMatch) ∧
    rawTexts (threeStarts.evalRaw 20 backward (Stream.ofChars (runes "cd"))) = some (.inr [runes "cd"]) := by
  refine ⟨?_, ?_, ?_, forward_fair, backward_fair, ?_, ?_⟩ <;> decide +kernel

/-- … and a longer document of the three is accepted in four of the six orders. -/
example : [[0, 1, 2], [0, 2, 1], [1, 0, 2], [1, 2, 0], [2, 0, 1], [2, 1, 0]].map
      (fun is => rawTexts (threeStarts.evalRaw 20 (fixed is) (Stream.ofChars (runes "ax b cd")))) =
    let yes := some (.inr [runes "ax", runes "b", runes "cd"])
    [some (.inl .noMatch), yes, yes, yes, yes, some (.inl .noMatch)] := by decide +kernel

end Xbnf.Props
