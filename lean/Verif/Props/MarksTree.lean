import Verif.Lemmas.Marks
import Verif.Lemmas.NodeInd
/-
C70, C71: marks and the simplification of trees.
-/
namespace Xbnf.Props
open Xbnf Spec Grammar

variable {k : Marks}

theorem node_text_strip (n : Node) : (n.strip k).text = n.text := by
  induction n using node_ind with
  | h rt nm ch cs p st v nd tk ih =>
    simp only [Node.strip, Node.text]
    have key : ∀ (cs : List Node) (_ : ∀ c ∈ cs, (c.strip k).text = c.text) (b : Bool) (acc : List Rune) (pr : Bool),
        textLoop b acc pr (stripNodes k cs) = textLoop b acc pr cs := by
      intro cs
      induction cs with
      | nil => intros; rfl
      | cons c cs ihc =>
        intro h b acc pr
        simp only [stripNodes, textLoop]
        rw [h c List.mem_cons_self, strip_sticky, ihc (fun x hx => h x (List.mem_cons_of_mem _ hx))]
    rw [key cs ih]

theorem node_counts_strip (n : Node) : (n.strip k).countNodes = n.countNodes ∧ (n.strip k).countTokens = n.countTokens ∧
    (n.strip k).countSticky = n.countSticky := by
  induction n using node_ind with
  | h rt nm ch cs p st v nd tk ih =>
    have key : ∀ (cs : List Node) (_ : ∀ c ∈ cs, (c.strip k).countNodes = c.countNodes ∧ (c.strip k).countTokens = c.countTokens ∧
        (c.strip k).countSticky = c.countSticky), countNodesL (stripNodes k cs) = countNodesL cs ∧
        countTokensL (stripNodes k cs) = countTokensL cs ∧ countStickyL (stripNodes k cs) = countStickyL cs := by
      intro cs
      induction cs with
      | nil => intro _; exact ⟨rfl, rfl, rfl⟩
      | cons c cs ihc =>
        intro h
        obtain ⟨a1, a2, a3⟩ := h c List.mem_cons_self
        obtain ⟨b1, b2, b3⟩ := ihc (fun x hx => h x (List.mem_cons_of_mem _ hx))
        simp only [stripNodes, countNodesL, countTokensL, countStickyL, a1, a2, a3, b1, b2, b3, and_self]
    obtain ⟨k1, k2, k3⟩ := key cs ih
    have hl : (stripNodes k cs).length = cs.length := by rw [stripNodes_eq, List.length_map]
    simp only [Node.strip, Node.countNodes, Node.countTokens, Node.countSticky, k1, k2, k3, hl, and_self]

/-- Text and numbers of nodes do not depend on marks. -/
theorem C70_tree (n : Node) : (n.strip k).text = n.text ∧ (n.strip k).countNodes = n.countNodes ∧
    (n.strip k).countTokens = n.countTokens ∧ (n.strip k).countSticky = n.countSticky :=
  ⟨node_text_strip n, node_counts_strip n⟩

theorem removeVirtual_strip (hk : k.virt = false) (n : Node) : (n.strip k).removeVirtual = n.removeVirtual.strip k := by
  induction n using node_ind with
  | h rt nm ch cs p st v nd tk ih =>
    simp only [Node.strip, Node.removeVirtual]
    congr 1
    induction cs with
    | nil => rfl
    | cons c cs ihc =>
      simp only [stripNodes, removeVirtualL, strip_virt, hk, Bool.not_false, Bool.and_true]
      rw [ihc (fun x hx => ih x (List.mem_cons_of_mem _ hx)), ih c List.mem_cons_self]
      split <;> rfl

theorem removeVirtualL_strip (hk : k.virt = false) (ns : List Node) : removeVirtualL (stripNodes k ns) = stripNodes k (removeVirtualL ns) := by
  induction ns with
  | nil => rfl
  | cons c cs ih =>
    simp only [stripNodes, removeVirtualL, strip_virt, hk, Bool.not_false, Bool.and_true]
    rw [ih, removeVirtual_strip hk]
    split <;> rfl

theorem removeNonData_strip (hk : k.nondata = false) (n : Node) : (n.strip k).removeNonData = n.removeNonData.strip k := by
  induction n using node_ind with
  | h rt nm ch cs p st v nd tk ih =>
    simp only [Node.strip, Node.removeNonData]
    congr 1
    induction cs with
    | nil => rfl
    | cons c cs ihc =>
      simp only [stripNodes, removeNonDataL, strip_nonData, hk, Bool.not_false, Bool.and_true]
      rw [ihc (fun x hx => ih x (List.mem_cons_of_mem _ hx)), ih c List.mem_cons_self]
      split <;> rfl

theorem removeNonDataL_strip (hk : k.nondata = false) (ns : List Node) : removeNonDataL (stripNodes k ns) = stripNodes k (removeNonDataL ns) := by
  induction ns with
  | nil => rfl
  | cons c cs ih =>
    simp only [stripNodes, removeNonDataL, strip_nonData, hk, Bool.not_false, Bool.and_true]
    rw [ih, removeNonData_strip hk]
    split <;> rfl

theorem stripNodes_append (a b : List Node) : stripNodes k (a ++ b) = stripNodes k a ++ stripNodes k b := by
  simp only [stripNodes_eq, List.map_append]

theorem mergeLoop_strip (ns : List Node) (ih : ∀ c ∈ ns, (c.strip k).mergeSticky = c.mergeSticky.strip k) :
    ∀ (out : List Node) (prev : Option Node),
      mergeLoop (stripNodes k out) (prev.map (Node.strip k)) (stripNodes k ns) = stripNodes k (mergeLoop out prev ns) := by
  induction ns with
  | nil =>
    intro out prev
    cases prev with
    | none => rfl
    | some p => cases p; simp only [stripNodes, mergeLoop, Option.map_some, stripNodes_append, Node.strip]
  | cons c cs ihc =>
    intro out prev
    have ih' := ihc (fun x hx => ih x (List.mem_cons_of_mem _ hx))
    simp only [stripNodes, mergeLoop, strip_sticky]
    split
    · cases prev with
      | none =>
        simp only [Option.map_none]
        rw [← ih']
        cases c
        simp only [node_text_strip, Option.map_some]
        rfl
      | some p =>
        simp only [Option.map_some]
        rw [← ih']
        cases p
        simp only [node_text_strip, Option.map_some]
        rfl
    · cases prev with
      | none =>
        simp only [Option.map_none]
        rw [← ih', stripNodes_append, ih c List.mem_cons_self]
        rfl
      | some p =>
        simp only [Option.map_some]
        rw [← ih', stripNodes_append, ih c List.mem_cons_self]
        cases p
        rfl

theorem mergeSticky_strip (n : Node) : (n.strip k).mergeSticky = n.mergeSticky.strip k := by
  induction n using node_ind with
  | h rt nm ch cs p st v nd tk ih =>
    have hl : (stripNodes k cs).length = cs.length := by rw [stripNodes_eq, List.length_map]
    simp only [Node.strip, Node.mergeSticky, hl]
    split
    · rfl
    · split
      · simp only [Node.strip]
        congr 1
        clear hl
        rename_i h1 h2
        clear h1 h2
        induction cs with
        | nil => rfl
        | cons c cs ihc =>
          simp only [stripNodes, mergeBlockL]
          rw [ihc (fun x hx => ih x (List.mem_cons_of_mem _ hx)), ih c List.mem_cons_self]
          cases c.mergeSticky
          rfl
      · simp only [Node.strip]
        congr 1
        exact mergeLoop_strip cs ih [] none

theorem mergeStickyNodes_strip (ns : List Node) : mergeStickyNodes (stripNodes k ns) = stripNodes k (mergeStickyNodes ns) := by
  have hl : (stripNodes k ns).length = ns.length := by rw [stripNodes_eq, List.length_map]
  unfold mergeStickyNodes
  rw [hl]
  split
  · rfl
  · exact mergeLoop_strip ns (fun c _ => mergeSticky_strip c) [] none

theorem promoteOnly_strip (n : Node) : promoteOnly (n.strip k) = (promoteOnly n).strip k := by
  obtain ⟨rt, nm, ch, cs, p, st, v, nd, tk⟩ := n
  unfold promoteOnly
  match cs with
  | [] => rfl
  | [c] =>
    simp only [Node.strip, stripNodes, strip_name, strip_chars]
    split
    · split
      · rfl
      · simp only [strip_children, Node.strip, stripNodes_eq]
    · rfl
  | c :: d :: cs => rfl

theorem promoteLeaf_strip (n : Node) : promoteLeaf (n.strip k) = (promoteLeaf n).strip k := by
  obtain ⟨rt, nm, ch, cs, p, st, v, nd, tk⟩ := n
  unfold promoteLeaf
  match cs with
  | [] => rfl
  | [c] =>
    simp only [Node.strip, stripNodes, strip_name, strip_chars, strip_children, List.length_map]
    split <;> rfl
  | c :: d :: cs => rfl

theorem spliceUnnamed_strip (ns : List Node) : spliceUnnamed (stripNodes k ns) = stripNodes k (spliceUnnamed ns) := by
  induction ns with
  | nil => rfl
  | cons c cs ih =>
    simp only [stripNodes, spliceUnnamed, node_text_strip, strip_name, strip_children, List.length_map]
    split
    · exact ih
    · split
      · rw [stripNodes_append, ih, stripNodes_eq (ns := c.children)]
      · rw [ih]; rfl

theorem removeRedundant_strip (n : Node) : (n.strip k).removeRedundant = n.removeRedundant.strip k := by
  induction n using node_ind with
  | h rt nm ch cs p st v nd tk ih =>
    have hl : (stripNodes k cs).length = cs.length := by rw [stripNodes_eq, List.length_map]
    have hcs : removeRedundantL (stripNodes k cs) = stripNodes k (removeRedundantL cs) := by
      clear hl
      induction cs with
      | nil => rfl
      | cons c cs ihc =>
        simp only [stripNodes, removeRedundantL]
        rw [ihc (fun x hx => ih x (List.mem_cons_of_mem _ hx)), ih c List.mem_cons_self]
    simp only [Node.strip, Node.removeRedundant, hl]
    split
    · rfl
    · rw [hcs]
      have h1 := promoteOnly_strip (k := k) ⟨rt, nm, ch, removeRedundantL cs, p, st, v, nd, tk⟩
      simp only [Node.strip] at h1
      rw [h1, ← promoteLeaf_strip]
      congr 1
      generalize promoteOnly ⟨rt, nm, ch, removeRedundantL cs, p, st, v, nd, tk⟩ = m
      cases m
      simp only [Node.strip, spliceUnnamed_strip]

theorem astRemoveRedundant_strip (hk : k.nondata = false) (ns : List Node) : astRemoveRedundant (stripNodes k ns) = stripNodes k (astRemoveRedundant ns) := by
  induction ns with
  | nil => rfl
  | cons c cs ih =>
    simp only [stripNodes, astRemoveRedundant, strip_nonData, hk, Bool.not_false, Bool.and_true]
    rw [ih, removeRedundant_strip]
    split <;> rfl

/-- Simplification does not depend on the marks its level says nothing about. -/
theorem C70_simplify {level : Int} (hk : Silent k level) (ns : List Node) :
    simplify level (ns.map (Node.strip k)) = (simplify level ns).map (Node.strip k) := by
  rw [← stripNodes_eq, ← stripNodes_eq]
  unfold simplify
  simp only
  by_cases h0 : level = LevelRaw
  · rw [if_pos h0, if_pos h0]
  · rw [if_neg h0, if_neg h0]
    obtain ⟨hd, hv⟩ := hk h0
    rw [← astRemoveRedundant_strip hd]
    congr 1
    by_cases h2 : level = LevelDataOnly
    · rw [if_pos h2, if_pos h2, mergeStickyNodes_strip, removeVirtualL_strip (hv (.inr h2)), removeNonDataL_strip hd]
    · rw [if_neg h2, if_neg h2]
      by_cases h1 : level = LevelNoVirtual
      · rw [if_pos h1, if_pos h1, mergeStickyNodes_strip, removeVirtualL_strip (hv (.inl h1))]
      · rw [if_neg h1, if_neg h1, mergeStickyNodes_strip]

/-- **C71**, what holds: a node that is not sticky, token or not, is not merged with its neighbours. -/
theorem C71_token_partial {ns : List Node} {n : Node} (hn : n ∈ ns) (hs : n.sticky = false) : n.mergeSticky ∈ mergeStickyNodes ns := by
  have key : ∀ (ns out : List Node) (prev : Option Node), (∀ x, x ∈ out → x ∈ mergeLoop out prev ns) ∧ (n ∈ ns → n.mergeSticky ∈ mergeLoop out prev ns) := by
    intro ns
    induction ns with
    | nil =>
      intro out prev
      refine ⟨fun x hx => ?_, fun h => by cases h⟩
      cases prev with
      | none => exact hx
      | some p => exact List.mem_append_left _ hx
    | cons c cs ih =>
      intro out prev
      simp only [mergeLoop]
      split
      · rename_i hc
        cases prev with
        | none =>
          refine ⟨(ih _ _).1, fun h => ?_⟩
          rcases List.mem_cons.1 h with rfl | h
          · rw [hs] at hc; cases hc
          · exact (ih _ _).2 h
        | some p =>
          refine ⟨(ih _ _).1, fun h => ?_⟩
          rcases List.mem_cons.1 h with rfl | h
          · rw [hs] at hc; cases hc
          · exact (ih _ _).2 h
      · cases prev with
        | none =>
          refine ⟨fun x hx => (ih _ _).1 x (List.mem_append_left _ hx), fun h => ?_⟩
          rcases List.mem_cons.1 h with rfl | h
          · exact (ih _ _).1 _ (by simp)
          · exact (ih _ _).2 h
        | some p =>
          refine ⟨fun x hx => (ih _ _).1 x (List.mem_append_left _ hx), fun h => ?_⟩
          rcases List.mem_cons.1 h with rfl | h
          · exact (ih _ _).1 _ (by simp)
          · exact (ih _ _).2 h
  unfold mergeStickyNodes
  split
  · rename_i h
    rw [List.length_eq_zero_iff.1 h] at hn
    cases hn
  · exact (key ns [] none).2 hn

end Xbnf.Props
