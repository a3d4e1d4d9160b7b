import Verif.Spec.Ast
import Verif.Lemmas.NodeInd
import Verif.Props.Eval
/-
Properties of the simplification of trees: C26, C27, C28, C29, C30, C44.
-/
namespace Xbnf.Props
open Spec

/-! ## C26 and C27 -/

/-- No node of the chain is virtual. -/
def noVirtual (c : List Node) : Bool := c.all fun n => !n.virt

/-- No node of the chain is nondata. -/
def noNonData (c : List Node) : Bool := c.all fun n => !n.nonData

theorem filter_map_cons (f : List Node → Bool) (x : Node) (hx : ∀ c, f (x :: c) = f c)
    (l : List (List Node)) : (l.map (x :: ·)).filter f = (l.filter f).map (x :: ·) := by
  rw [List.filter_map]
  congr 1
  exact List.filter_congr fun c _ => hx c

theorem filter_map_none (f : List Node → Bool) (x : Node) (hx : ∀ c, f (x :: c) = false)
    (l : List (List Node)) : (l.map (x :: ·)).filter f = [] := by
  rw [List.filter_eq_nil_iff]
  intro c hc
  obtain ⟨d, _, rfl⟩ := List.mem_map.1 hc
  rw [hx]; simp

theorem map_cons_inj {x : Node} {l m : List (List Node)} (h : l.map (x :: ·) = m.map (x :: ·)) :
    l = m := by
  induction l generalizing m with
  | nil => cases m with
    | nil => rfl
    | cons a m => cases h
  | cons a l ih => cases m with
    | nil => cases h
    | cons b m =>
      simp only [List.map_cons, List.cons.injEq, true_and] at h
      rw [h.1, ih h.2]

theorem removeVirtual_chains (n : Node) :
    chains n.removeVirtual = [bare n] :: ((chainsL n.children).filter noVirtual).map (bare n :: ·) := by
  induction n using node_ind with
  | h rt nm ch cs p st v nd tk ih =>
    have hl : chainsL (removeVirtualL cs) = (chainsL cs).filter noVirtual := by
      induction cs with
      | nil => rfl
      | cons c cs ihc =>
        have ih1 := ih c List.mem_cons_self
        have ih2 := ihc fun x hx => ih x (List.mem_cons_of_mem _ hx)
        obtain ⟨rt', nm', ch', cs', p', st', v', nd', tk'⟩ := c
        simp only [bare] at ih1
        rw [removeVirtualL]
        cases v' with
        | true =>
          simp only [if_true]
          rw [ih2]
          simp only [chainsL, chains, List.filter_append, List.filter_cons]
          rw [filter_map_none _ _ (by simp [noVirtual]), if_neg (by simp [noVirtual])]
          rfl
        | false =>
          simp only [Bool.false_eq_true, if_false]
          rw [chainsL, ih1, ih2]
          simp only [chainsL, chains, List.filter_append, List.filter_cons]
          rw [filter_map_cons _ _ (by simp [noVirtual]), if_pos (by simp [noVirtual])]
    simp only [Node.removeVirtual, chains, hl, bare]

/-- `RemoveVirtualNodes` on an AST keeps exactly the nodes with no virtual node on the path from the
top to them (themselves included), each unchanged apart from its children and below the same nodes,
in the same order. -/
theorem C26_removeVirtual (ns : List Node) :
    chainsL (removeVirtualL ns) = (chainsL ns).filter noVirtual := by
  have := removeVirtual_chains ⟨.group, [], [], ns, none, false, false, false, false⟩
  simp only [Node.removeVirtual, chains, bare, List.cons.injEq, true_and] at this
  exact map_cons_inj this

/-- On a node: the node itself stays, whatever its marks. -/
theorem C26_removeVirtual_node (n : Node) :
    bare n.removeVirtual = bare n ∧
      chainsL n.removeVirtual.children = (chainsL n.children).filter noVirtual := by
  obtain ⟨rt, nm, ch, cs, p, st, v, nd, tk⟩ := n
  exact ⟨rfl, C26_removeVirtual cs⟩

/-- Afterwards no node is virtual. -/
theorem C26_none_left (ns : List Node) : ∀ c ∈ chainsL (removeVirtualL ns), noVirtual c = true := by
  intro c hc
  rw [C26_removeVirtual] at hc
  exact (List.mem_filter.1 hc).2

theorem removeNonData_chains (n : Node) :
    chains n.removeNonData = [bare n] :: ((chainsL n.children).filter noNonData).map (bare n :: ·) := by
  induction n using node_ind with
  | h rt nm ch cs p st v nd tk ih =>
    have hl : chainsL (removeNonDataL cs) = (chainsL cs).filter noNonData := by
      induction cs with
      | nil => rfl
      | cons c cs ihc =>
        have ih1 := ih c List.mem_cons_self
        have ih2 := ihc fun x hx => ih x (List.mem_cons_of_mem _ hx)
        obtain ⟨rt', nm', ch', cs', p', st', v', nd', tk'⟩ := c
        simp only [bare] at ih1
        rw [removeNonDataL]
        cases nd' with
        | true =>
          simp only [if_true]
          rw [ih2]
          simp only [chainsL, chains, List.filter_append, List.filter_cons]
          rw [filter_map_none _ _ (by simp [noNonData]), if_neg (by simp [noNonData])]
          rfl
        | false =>
          simp only [Bool.false_eq_true, if_false]
          rw [chainsL, ih1, ih2]
          simp only [chainsL, chains, List.filter_append, List.filter_cons]
          rw [filter_map_cons _ _ (by simp [noNonData]), if_pos (by simp [noNonData])]
    simp only [Node.removeNonData, chains, hl, bare]

/-- `RemoveNonDataNodes` on an AST keeps exactly the nodes with no nondata node on the path from the
top to them, each unchanged apart from its children and below the same nodes, in the same order. -/
theorem C27_removeNonData (ns : List Node) :
    chainsL (removeNonDataL ns) = (chainsL ns).filter noNonData := by
  have := removeNonData_chains ⟨.group, [], [], ns, none, false, false, false, false⟩
  simp only [Node.removeNonData, chains, bare, List.cons.injEq, true_and] at this
  exact map_cons_inj this

/-- On a node: the node itself stays, whatever its marks. -/
theorem C27_removeNonData_node (n : Node) :
    bare n.removeNonData = bare n ∧
      chainsL n.removeNonData.children = (chainsL n.children).filter noNonData := by
  obtain ⟨rt, nm, ch, cs, p, st, v, nd, tk⟩ := n
  exact ⟨rfl, C27_removeNonData cs⟩

/-- Afterwards no node is nondata. -/
theorem C27_none_left (ns : List Node) : ∀ c ∈ chainsL (removeNonDataL ns), noNonData c = true := by
  intro c hc
  rw [C27_removeNonData] at hc
  exact (List.mem_filter.1 hc).2

/-- Chains of one node only. -/
def single (c : List Node) : Bool := c.length == 1

theorem chainsL_ne {ns : List Node} : ∀ c ∈ chainsL ns, c ≠ [] := by
  induction ns with
  | nil => intro c hc; cases hc
  | cons n ns ih =>
    intro c hc
    rw [chainsL, List.mem_append] at hc
    rcases hc with hc | hc
    · obtain ⟨rt, nm, ch, cs, p, st, v, nd, tk⟩ := n
      simp only [chains, List.mem_cons, List.mem_map] at hc
      rcases hc with rfl | ⟨d, _, rfl⟩ <;> simp
    · exact ih c hc

theorem chainsL_head {ns : List Node} : ∀ c ∈ (chainsL ns).head?, single c = true := by
  cases ns with
  | nil => intro c hc; cases hc
  | cons n ns =>
    obtain ⟨rt, nm, ch, cs, p, st, v, nd, tk⟩ := n
    intro c hc
    simp only [chainsL, chains, List.cons_append, List.head?_cons, Option.mem_some_iff] at hc
    rw [← hc]; rfl

theorem split_chains {x y : Node} {a b c d : List (List Node)} (ha : ∀ e ∈ a, e ≠ [])
    (hc : ∀ e ∈ c, e ≠ []) (hb : ∀ e ∈ b.head?, single e = true) (hd : ∀ e ∈ d.head?, single e = true)
    (h : a.map (x :: ·) ++ b = c.map (y :: ·) ++ d) :
    a.map (x :: ·) = c.map (y :: ·) ∧ b = d := by
  induction a generalizing c with
  | nil =>
    cases c with
    | nil => exact ⟨rfl, h⟩
    | cons e c =>
      simp only [List.map_nil, List.nil_append, List.map_cons, List.cons_append] at h
      rw [h] at hb
      have := hb _ rfl
      cases e with
      | nil => exact absurd rfl (hc [] List.mem_cons_self)
      | cons => simp [single] at this
  | cons e a ih =>
    cases c with
    | nil =>
      simp only [List.map_nil, List.nil_append, List.map_cons, List.cons_append] at h
      rw [← h] at hd
      have := hd _ rfl
      cases e with
      | nil => exact absurd rfl (ha [] List.mem_cons_self)
      | cons => simp [single] at this
    | cons f c =>
      simp only [List.map_cons, List.cons_append, List.cons.injEq] at h
      obtain ⟨h1, h2⟩ := ih (fun e he => ha e (List.mem_cons_of_mem _ he))
        (fun e he => hc e (List.mem_cons_of_mem _ he)) h.2
      exact ⟨by rw [List.map_cons, List.map_cons, h1, h.1.1, h.1.2], h2⟩

/-- The chains of trees say what the trees are: two lists of trees with the same chains are equal. -/
theorem chains_determine {ns ms : List Node} (h : chainsL ns = chainsL ms) : ns = ms := by
  generalize hk : (chainsL ns).length = k
  induction k using Nat.strongRecOn generalizing ns ms with
  | ind k ih =>
    cases ns with
    | nil =>
      cases ms with
      | nil => rfl
      | cons m ms =>
        obtain ⟨rt, nm, ch, cs, p, st, v, nd, tk⟩ := m
        simp [chainsL, chains] at h
    | cons n ns =>
      cases ms with
      | nil =>
        obtain ⟨rt, nm, ch, cs, p, st, v, nd, tk⟩ := n
        simp [chainsL, chains] at h
      | cons m ms =>
        obtain ⟨rt, nm, ch, cs, p, st, v, nd, tk⟩ := n
        obtain ⟨rt', nm', ch', cs', p', st', v', nd', tk'⟩ := m
        simp only [chainsL, chains, List.cons_append, List.cons.injEq, and_true] at h hk
        obtain ⟨h1, h2⟩ := h
        obtain ⟨h3, h4⟩ := split_chains chainsL_ne chainsL_ne chainsL_head chainsL_head h2
        simp only [List.length_cons, List.length_append, List.length_map] at hk
        rw [h1] at h3
        have e1 := ih (chainsL cs).length (by omega) (map_cons_inj h3) rfl
        have e2 := ih (chainsL ns).length (by omega) h4 rfl
        simp only [Node.mk.injEq] at h1
        obtain ⟨rfl, rfl, rfl, -, rfl, rfl, rfl, rfl, rfl⟩ := h1
        rw [e1, e2]

/-- Removing virtual and nondata nodes commute. -/
theorem C27_commute (ns : List Node) :
    removeVirtualL (removeNonDataL ns) = removeNonDataL (removeVirtualL ns) := by
  apply chains_determine
  simp only [C26_removeVirtual, C27_removeNonData, List.filter_filter]
  exact List.filter_congr fun c _ => Bool.and_comm _ _

/-- Removing virtual nodes twice changes nothing more. -/
theorem C44_removeVirtual_idempotent (ns : List Node) :
    removeVirtualL (removeVirtualL ns) = removeVirtualL ns := by
  apply chains_determine
  simp only [C26_removeVirtual, List.filter_filter, Bool.and_self]

/-- Removing nondata nodes twice changes nothing more. -/
theorem C44_removeNonData_idempotent (ns : List Node) :
    removeNonDataL (removeNonDataL ns) = removeNonDataL ns := by
  apply chains_determine
  simp only [C27_removeNonData, List.filter_filter, Bool.and_self]

/-- A tree for examples: `a ~b ( ~c d% ( e ) )`. -/
def sampleTree : List Node :=
  [{ ruleType := .char, name := runes "a", chars := [97], sticky := true },
   { ruleType := .char, name := runes "b", chars := [98], virt := true, sticky := true },
   { ruleType := .group, children :=
      [{ ruleType := .char, name := runes "c", chars := [99], virt := true },
       { ruleType := .char, name := runes "d", chars := [100], nonData := true, sticky := true },
       { ruleType := .group, children :=
         [{ ruleType := .string, name := runes "e", chars := [101] }] }] }]

/-- Non-vacuity. -/
example : (chainsL (removeVirtualL sampleTree)).map (fun c => c.map (·.name)) =
    [[runes "a"], [[]], [[], runes "d"], [[], []], [[], [], runes "e"]] := by decide +kernel
example : (chainsL (removeNonDataL (removeVirtualL sampleTree))).map (fun c => c.map (·.name)) =
    [[runes "a"], [[]], [[], []], [[], [], runes "e"]] := by decide +kernel

end Xbnf.Props
