import Verif.Lemmas.Twin
import Verif.Lemmas.NodeInd
/-
The simplification of trees does not look at positions.
-/
namespace Xbnf.Props
open Xbnf Spec Grammar

theorem erased_virt (n : Node) : n.erase.virt = n.virt := by cases n; rfl
theorem erased_nonData (n : Node) : n.erase.nonData = n.nonData := by cases n; rfl
theorem erased_sticky (n : Node) : n.erase.sticky = n.sticky := by cases n; rfl
theorem erased_name (n : Node) : n.erase.name = n.name := by cases n; rfl
theorem erased_chars (n : Node) : n.erase.chars = n.chars := by cases n; rfl
theorem erased_children (n : Node) : n.erase.children = n.children.map Node.erase := by
  cases n; simp [Node.erase, eraseL_eq_map]

theorem removeVirtual_erase (n : Node) : n.erase.removeVirtual = n.removeVirtual.erase := by
  induction n using node_ind with
  | h rt nm ch cs p st v nd tk ih =>
    simp only [Node.erase, Node.removeVirtual]
    congr 1
    induction cs with
    | nil => rfl
    | cons c cs ihc =>
      simp only [eraseL, removeVirtualL, erased_virt]
      rw [ihc (fun x hx => ih x (List.mem_cons_of_mem _ hx)), ih c List.mem_cons_self]
      split <;> rfl

theorem removeVirtualL_erase (ns : List Node) : removeVirtualL (eraseL ns) = eraseL (removeVirtualL ns) := by
  induction ns with
  | nil => rfl
  | cons c cs ih =>
    simp only [eraseL, removeVirtualL, erased_virt]
    rw [ih, removeVirtual_erase]
    split <;> rfl

theorem removeNonData_erase (n : Node) : n.erase.removeNonData = n.removeNonData.erase := by
  induction n using node_ind with
  | h rt nm ch cs p st v nd tk ih =>
    simp only [Node.erase, Node.removeNonData]
    congr 1
    induction cs with
    | nil => rfl
    | cons c cs ihc =>
      simp only [eraseL, removeNonDataL, erased_nonData]
      rw [ihc (fun x hx => ih x (List.mem_cons_of_mem _ hx)), ih c List.mem_cons_self]
      split <;> rfl

theorem removeNonDataL_erase (ns : List Node) : removeNonDataL (eraseL ns) = eraseL (removeNonDataL ns) := by
  induction ns with
  | nil => rfl
  | cons c cs ih =>
    simp only [eraseL, removeNonDataL, erased_nonData]
    rw [ih, removeNonData_erase]
    split <;> rfl

theorem mergeLoop_erase (ns : List Node) (ih : ∀ c ∈ ns, c.erase.mergeSticky = c.mergeSticky.erase) :
    ∀ (out : List Node) (prev : Option Node),
      mergeLoop (eraseL out) (prev.map Node.erase) (eraseL ns) = eraseL (mergeLoop out prev ns) := by
  induction ns with
  | nil =>
    intro out prev
    cases prev with
    | none => rfl
    | some p => cases p; simp only [eraseL, mergeLoop, Option.map_some, eraseL_append, Node.erase]
  | cons c cs ihc =>
    intro out prev
    have ih' := ihc (fun x hx => ih x (List.mem_cons_of_mem _ hx))
    simp only [eraseL, mergeLoop, erased_sticky]
    split
    · cases prev with
      | none =>
        simp only [Option.map_none]
        rw [← ih']
        cases c
        simp only [text_erase, Option.map_some]
        rfl
      | some p =>
        simp only [Option.map_some]
        rw [← ih']
        cases p
        simp only [text_erase, Option.map_some]
        rfl
    · cases prev with
      | none =>
        simp only [Option.map_none]
        rw [← ih', eraseL_append, ih c List.mem_cons_self]
        rfl
      | some p =>
        simp only [Option.map_some]
        rw [← ih', eraseL_append, ih c List.mem_cons_self]
        cases p
        rfl

theorem mergeSticky_erase (n : Node) : n.erase.mergeSticky = n.mergeSticky.erase := by
  induction n using node_ind with
  | h rt nm ch cs p st v nd tk ih =>
    have hl : (eraseL cs).length = cs.length := by rw [eraseL_eq_map, List.length_map]
    simp only [Node.erase, Node.mergeSticky, hl]
    split
    · rfl
    · split
      · simp only [Node.erase]
        congr 1
        clear hl
        rename_i h1 h2
        clear h1 h2
        induction cs with
        | nil => rfl
        | cons c cs ihc =>
          simp only [eraseL, mergeBlockL]
          rw [ihc (fun x hx => ih x (List.mem_cons_of_mem _ hx)), ih c List.mem_cons_self]
          cases c.mergeSticky
          rfl
      · simp only [Node.erase]
        congr 1
        exact mergeLoop_erase cs ih [] none

theorem mergeStickyNodes_erase (ns : List Node) : mergeStickyNodes (eraseL ns) = eraseL (mergeStickyNodes ns) := by
  have hl : (eraseL ns).length = ns.length := by rw [eraseL_eq_map, List.length_map]
  unfold mergeStickyNodes
  rw [hl]
  split
  · rfl
  · exact mergeLoop_erase ns (fun c _ => mergeSticky_erase c) [] none

theorem promoteOnly_erase (n : Node) : promoteOnly n.erase = (promoteOnly n).erase := by
  obtain ⟨rt, nm, ch, cs, p, st, v, nd, tk⟩ := n
  unfold promoteOnly
  match cs with
  | [] => rfl
  | [c] =>
    simp only [Node.erase, eraseL, erased_name, erased_chars]
    split
    · split
      · rfl
      · simp only [erased_children, Node.erase, eraseL_eq_map]
    · rfl
  | c :: d :: cs => rfl

theorem promoteLeaf_erase (n : Node) : promoteLeaf n.erase = (promoteLeaf n).erase := by
  obtain ⟨rt, nm, ch, cs, p, st, v, nd, tk⟩ := n
  unfold promoteLeaf
  match cs with
  | [] => rfl
  | [c] =>
    simp only [Node.erase, eraseL, erased_name, erased_chars, erased_children, List.length_map]
    split <;> rfl
  | c :: d :: cs => rfl

theorem spliceUnnamed_erase (ns : List Node) : spliceUnnamed (eraseL ns) = eraseL (spliceUnnamed ns) := by
  induction ns with
  | nil => rfl
  | cons c cs ih =>
    simp only [eraseL, spliceUnnamed, text_erase, erased_name, erased_children, List.length_map]
    split
    · exact ih
    · split
      · rw [eraseL_append, ih, eraseL_eq_map (ns := c.children)]
      · rw [ih]; rfl

theorem removeRedundant_erase (n : Node) : n.erase.removeRedundant = n.removeRedundant.erase := by
  induction n using node_ind with
  | h rt nm ch cs p st v nd tk ih =>
    have hl : (eraseL cs).length = cs.length := by rw [eraseL_eq_map, List.length_map]
    have hcs : removeRedundantL (eraseL cs) = eraseL (removeRedundantL cs) := by
      clear hl
      induction cs with
      | nil => rfl
      | cons c cs ihc =>
        simp only [eraseL, removeRedundantL]
        rw [ihc (fun x hx => ih x (List.mem_cons_of_mem _ hx)), ih c List.mem_cons_self]
    simp only [Node.erase, Node.removeRedundant, hl]
    split
    · rfl
    · rw [hcs]
      have h1 := promoteOnly_erase ⟨rt, nm, ch, removeRedundantL cs, p, st, v, nd, tk⟩
      simp only [Node.erase] at h1
      rw [h1, ← promoteLeaf_erase]
      congr 1
      generalize promoteOnly ⟨rt, nm, ch, removeRedundantL cs, p, st, v, nd, tk⟩ = m
      cases m
      simp only [Node.erase, spliceUnnamed_erase]

theorem astRemoveRedundant_erase (ns : List Node) : astRemoveRedundant (eraseL ns) = eraseL (astRemoveRedundant ns) := by
  induction ns with
  | nil => rfl
  | cons c cs ih =>
    simp only [eraseL, astRemoveRedundant, erased_nonData]
    rw [ih, removeRedundant_erase]
    split <;> rfl

/-- Simplification does not look at positions. -/
theorem simplify_erase (level : Int) (ns : List Node) : simplify level (ns.map Node.erase) = (simplify level ns).map Node.erase := by
  rw [← eraseL_eq_map, ← eraseL_eq_map]
  unfold simplify
  simp only
  split
  · rfl
  · rw [← astRemoveRedundant_erase]
    congr 1
    split
    · rw [mergeStickyNodes_erase, removeVirtualL_erase, removeNonDataL_erase]
    · split
      · rw [mergeStickyNodes_erase, removeVirtualL_erase]
      · rw [mergeStickyNodes_erase]

end Xbnf.Props
