import Verif.Model.Node
namespace Xbnf.Props

/-- Induction over trees. -/
theorem node_ind {P : Node → Prop}
    (h : ∀ rt nm ch cs p st v nd tk, (∀ c ∈ cs, P c) → P ⟨rt, nm, ch, cs, p, st, v, nd, tk⟩)
    (n : Node) : P n := by
  match n with
  | ⟨rt, nm, ch, cs, p, st, v, nd, tk⟩ =>
    exact h rt nm ch cs p st v nd tk fun c hc => node_ind h c
termination_by sizeOf n
decreasing_by
  simp_wf
  have := List.sizeOf_lt_of_mem ‹c ∈ cs›
  omega

end Xbnf.Props
