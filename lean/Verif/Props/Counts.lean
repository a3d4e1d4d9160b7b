import Verif.Spec.Paths
import Verif.Props.Ast
/-
C52: the counters of a tree count what they say: all nodes, the leaves, the sticky nodes.
-/
namespace Xbnf.Props
open Spec

mutual
/-- The paths from the node to the nodes with `P`. -/
def paths (P : Node → Bool) (n : Node) : List (List Nat) :=
  match n with
  | ⟨rt, nm, ch, cs, p, st, v, nd, tk⟩ =>
    (if P ⟨rt, nm, ch, cs, p, st, v, nd, tk⟩ then [[]] else []) ++ pathsL P 0 cs
/-- The same for a list of trees, numbered from `i` on. -/
def pathsL (P : Node → Bool) (i : Nat) : List Node → List (List Nat)
  | [] => []
  | n :: ns => (paths P n).map (i :: ·) ++ pathsL P (i + 1) ns
end

theorem paths_eq (P : Node → Bool) (n : Node) : paths P n = (if P n then [[]] else []) ++ pathsL P 0 n.children := by
  cases n; rw [paths]

theorem mem_pathsL {P : Node → Bool} (ns : List Node) : ∀ (i : Nat) (p : List Nat),
    p ∈ pathsL P i ns ↔ ∃ j q m, p = (i + j) :: q ∧ ns[j]? = some m ∧ q ∈ paths P m := by
  induction ns with
  | nil => intro i p; simp [pathsL]
  | cons n ns ih =>
    intro i p
    rw [pathsL, List.mem_append, ih, List.mem_map]
    constructor
    · rintro (⟨q, hq, rfl⟩ | ⟨j, q, m, rfl, h1, h2⟩)
      · exact ⟨0, q, n, rfl, rfl, hq⟩
      · exact ⟨j + 1, q, m, by congr 1; omega, by simpa using h1, h2⟩
    · rintro ⟨j, q, m, rfl, h1, h2⟩
      cases j with
      | zero => simp only [List.getElem?_cons_zero, Option.some.injEq] at h1; subst h1; exact .inl ⟨q, h2, rfl⟩
      | succ j => exact .inr ⟨j, q, m, by congr 1; omega, by simpa using h1, h2⟩

theorem mem_paths {P : Node → Bool} (n : Node) : ∀ p, p ∈ paths P n ↔ ∃ m, nodeAt n p = some m ∧ P m = true := by
  induction n using node_ind with
  | h rt nm ch cs p st v nd tk ih =>
    intro p
    rw [paths, List.mem_append, mem_pathsL]
    cases p with
    | nil =>
      simp only [nodeAt, Option.some.injEq]
      constructor
      · rintro (h | ⟨j, q, m, h, _⟩)
        · split at h
          · rename_i hp; exact ⟨_, rfl, hp⟩
          · cases h
        · cases h
      · rintro ⟨m, rfl, hp⟩
        left; rw [if_pos hp]; exact List.mem_singleton.2 rfl
    | cons i p =>
      simp only [nodeAt]
      constructor
      · rintro (h | ⟨j, q, m, h, h1, h2⟩)
        · split at h
          · cases List.mem_singleton.1 h
          · cases h
        · simp only [Nat.zero_add, List.cons.injEq] at h
          obtain ⟨rfl, rfl⟩ := h
          rw [h1]
          exact (ih m (List.mem_of_getElem? h1) p).1 h2
      · rintro ⟨m, hm, hp⟩
        right
        cases hc : cs[i]? with
        | none => rw [hc] at hm; cases hm
        | some c =>
          rw [hc] at hm
          exact ⟨i, p, c, by rw [Nat.zero_add], hc, (ih c (List.mem_of_getElem? hc) p).2 ⟨m, hm, hp⟩⟩

theorem nodup_map_cons {i : Nat} {l : List (List Nat)} (h : l.Nodup) : (l.map (i :: ·)).Nodup := by
  induction h with
  | nil => exact List.nodup_nil
  | cons ha _ ih =>
    rw [List.map_cons, List.nodup_cons]
    refine ⟨fun hm => ?_, ih⟩
    obtain ⟨b, hb, he⟩ := List.mem_map.1 hm
    simp only [List.cons.injEq, true_and] at he
    exact ha b hb he.symm

theorem pathsL_nodup {P : Node → Bool} (ns : List Node) (h : ∀ n ∈ ns, (paths P n).Nodup) : ∀ i, (pathsL P i ns).Nodup := by
  induction ns with
  | nil => intro i; exact List.nodup_nil
  | cons n ns ih =>
    intro i
    rw [pathsL, List.nodup_append]
    refine ⟨nodup_map_cons (h n List.mem_cons_self), ih (fun m hm => h m (List.mem_cons_of_mem _ hm)) _, ?_⟩
    intro a ha b hb
    obtain ⟨q, _, rfl⟩ := List.mem_map.1 ha
    obtain ⟨j, q', m, rfl, _⟩ := (mem_pathsL ns _ _).1 hb
    simp only [ne_eq, List.cons.injEq, not_and]
    omega

theorem paths_nodup {P : Node → Bool} (n : Node) : (paths P n).Nodup := by
  induction n using node_ind with
  | h rt nm ch cs p st v nd tk ih =>
    rw [paths, List.nodup_append]
    refine ⟨by split <;> simp, pathsL_nodup cs ih 0, ?_⟩
    intro a ha b hb
    obtain ⟨j, q, m, rfl, _⟩ := (mem_pathsL cs _ _).1 hb
    split at ha
    · rw [List.mem_singleton.1 ha]; simp
    · cases ha

theorem exactly_paths (P : Node → Bool) (n : Node) : Exactly (paths P n).length (fun p => ∃ m, nodeAt n p = some m ∧ P m = true) :=
  ⟨paths P n, paths_nodup n, mem_paths n, rfl⟩

theorem exactly_pathsL (P : Node → Bool) (ns : List Node) :
    Exactly (pathsL P 0 ns).length (fun p => ∃ m, treeAt ns p = some m ∧ P m = true) := by
  refine ⟨pathsL P 0 ns, pathsL_nodup ns (fun n _ => paths_nodup n) 0, fun p => ?_, rfl⟩
  rw [mem_pathsL]
  constructor
  · rintro ⟨j, q, m, rfl, h1, h2⟩
    simp only [Nat.zero_add, treeAt, h1]
    exact (mem_paths m q).1 h2
  · rintro ⟨m, h1, h2⟩
    cases p with
    | nil => cases h1
    | cons i p =>
      simp only [treeAt] at h1
      cases hc : ns[i]? with
      | none => rw [hc] at h1; cases h1
      | some c =>
        rw [hc] at h1
        exact ⟨i, p, c, by rw [Nat.zero_add], hc, (mem_paths c p).2 ⟨m, h1, h2⟩⟩

/-! ### The lengths -/

theorem length_pathsL {P : Node → Bool} {f : Node → Nat} {g : List Node → Nat} (h0 : g [] = 0) (h1 : ∀ n ns, g (n :: ns) = f n + g ns)
    (ns : List Node) (h : ∀ n ∈ ns, (paths P n).length = f n) : ∀ i, (pathsL P i ns).length = g ns := by
  induction ns with
  | nil => intro i; rw [h0]; rfl
  | cons n ns ih =>
    intro i
    rw [pathsL, List.length_append, List.length_map, h n List.mem_cons_self, ih (fun m hm => h m (List.mem_cons_of_mem _ hm)), h1]

theorem length_nodes (n : Node) : (paths (fun _ => true) n).length = n.countNodes := by
  induction n using node_ind with
  | h rt nm ch cs p st v nd tk ih =>
    rw [paths, List.length_append, length_pathsL (g := countNodesL) rfl (fun _ _ => rfl) cs ih]
    rfl

theorem length_sticky (n : Node) : (paths Node.sticky n).length = n.countSticky := by
  induction n using node_ind with
  | h rt nm ch cs p st v nd tk ih =>
    rw [paths, List.length_append, length_pathsL (g := countStickyL) rfl (fun _ _ => rfl) cs ih]
    simp only [Node.countSticky]
    cases st <;> rfl

theorem length_tokens (n : Node) : (paths (fun m => m.children.isEmpty) n).length = n.countTokens := by
  induction n using node_ind with
  | h rt nm ch cs p st v nd tk ih =>
    rw [paths, List.length_append, length_pathsL (g := countTokensL) rfl (fun _ _ => rfl) cs ih]
    cases cs with
    | nil => rfl
    | cons c cs => simp [Node.countTokens]

/-! ### C52 -/

/-- `CountNodes` is the number of nodes, the node itself and all below it. -/
theorem C52_nodes (n : Node) : Exactly n.countNodes (fun p => nodeAt n p ≠ none) := by
  obtain ⟨ps, h1, h2, h3⟩ := exactly_paths (fun _ => true) n
  refine ⟨ps, h1, fun p => ?_, by rw [h3, length_nodes]⟩
  rw [h2]
  cases h : nodeAt n p <;> simp [h]

/-- `CountTokens` is the number of leaves. -/
theorem C52_tokens (n : Node) : Exactly n.countTokens (fun p => ∃ m, nodeAt n p = some m ∧ m.children = []) := by
  obtain ⟨ps, h1, h2, h3⟩ := exactly_paths (fun m => m.children.isEmpty) n
  exact ⟨ps, h1, fun p => by rw [h2]; simp, by rw [h3, length_tokens]⟩

/-- `CountStickyNodes` is the number of sticky nodes. -/
theorem C52_sticky (n : Node) : Exactly n.countSticky (fun p => ∃ m, nodeAt n p = some m ∧ m.sticky = true) := by
  obtain ⟨ps, h1, h2, h3⟩ := exactly_paths Node.sticky n
  exact ⟨ps, h1, h2, by rw [h3, length_sticky]⟩

/-- The counters of an AST. -/
theorem C52_ast (ns : List Node) : Exactly (countNodesL ns) (fun p => treeAt ns p ≠ none) ∧
    Exactly (countTokensL ns) (fun p => ∃ m, treeAt ns p = some m ∧ m.children = []) ∧
    Exactly (countStickyL ns) (fun p => ∃ m, treeAt ns p = some m ∧ m.sticky = true) := by
  refine ⟨?_, ?_, ?_⟩
  · obtain ⟨ps, h1, h2, h3⟩ := exactly_pathsL (fun _ => true) ns
    refine ⟨ps, h1, fun p => ?_, by rw [h3, length_pathsL (g := countNodesL) rfl (fun _ _ => rfl) ns (fun n _ => length_nodes n)]⟩
    rw [h2]
    cases h : treeAt ns p <;> simp [h]
  · obtain ⟨ps, h1, h2, h3⟩ := exactly_pathsL (fun m => m.children.isEmpty) ns
    exact ⟨ps, h1, fun p => by rw [h2]; simp,
      by rw [h3, length_pathsL (g := countTokensL) rfl (fun _ _ => rfl) ns (fun n _ => length_tokens n)]⟩
  · obtain ⟨ps, h1, h2, h3⟩ := exactly_pathsL Node.sticky ns
    exact ⟨ps, h1, h2, by rw [h3, length_pathsL (g := countStickyL) rfl (fun _ _ => rfl) ns (fun n _ => length_sticky n)]⟩

/-- The number of paths with a property is determined: the counters can be no other numbers. -/
theorem C52_unique {k k' : Nat} {Q : List Nat → Prop} (h : Exactly k Q) (h' : Exactly k' Q) : k = k' := by
  obtain ⟨ps, h1, h2, rfl⟩ := h
  obtain ⟨qs, g1, g2, rfl⟩ := h'
  have sub : ∀ {as bs : List (List Nat)}, as.Nodup → (∀ p ∈ as, p ∈ bs) → as.length ≤ bs.length := by
    intro as
    induction as with
    | nil => intro bs _ _; exact Nat.zero_le _
    | cons a as ih =>
      intro bs hn hs
      rw [List.nodup_cons] at hn
      have hmem := hs a List.mem_cons_self
      have := ih (bs := bs.erase a) hn.2 (fun p hp => by
        refine (List.mem_erase_of_ne ?_).2 (hs p (List.mem_cons_of_mem _ hp))
        intro he; subst he; exact hn.1 hp)
      rw [List.length_erase_of_mem hmem] at this
      have : 0 < bs.length := List.length_pos_of_mem hmem
      simp only [List.length_cons]
      omega
  exact Nat.le_antisymm (sub h1 (fun p hp => (g2 p).2 ((h2 p).1 hp))) (sub g1 (fun p hp => (h2 p).2 ((g2 p).1 hp)))

/-- Non-vacuity: five nodes, three leaves, two of them sticky. -/
def countSample : Node :=
  branchNode .concatenate {} false
    [leafNode .chars {} true (runes "a") none, branchNode .option {} false [leafNode .string {} false (runes "b") none] none,
     leafNode .chars {} true (runes "c") none] none
example : (countSample.countNodes, countSample.countTokens, countSample.countSticky) = (5, 3, 2) := by decide +kernel
example : (nodeAt countSample [1, 0]).map Node.chars = some (runes "b") ∧ (nodeAt countSample [1, 1]).isNone = true := by decide +kernel

end Xbnf.Props
