import Verif.Spec.Calls
/-
Which rules of a grammar a rule needs.
-/
namespace Xbnf.Spec

/-- The rule `n` needs the rule `m`: it is that rule, or it refers to a rule that needs it. -/
inductive Needs (recs : List Record) : Name → Name → Prop
  | self {n} : Needs recs n n
  | via {n m k : Name} {r : Record} (hr : r ∈ recs) (hn : r.name = n) (hm : m ∈ refs r.rule) (h : Needs recs m k) : Needs recs n k

/-- Both have the same rule under the name, or none. -/
def SameUnder (recs recs' : List Record) (n : Name) : Prop :=
  ∀ rule, (∃ r ∈ recs', r.name = n ∧ r.rule = rule) ↔ ∃ r ∈ recs, r.name = n ∧ r.rule = rule

/-- `recs'` holds exactly the rules of `recs` that root rules need, on any lines. -/
def OnlyNeeded (recs recs' : List Record) : Prop :=
  ∀ n rule, (∃ r ∈ recs', r.name = n ∧ r.rule = rule) ↔
    (∃ r ∈ recs, r.name = n ∧ r.rule = rule) ∧ ∃ root, IsRoot recs root ∧ Needs recs root.name n

end Xbnf.Spec
