import Verif.Lemmas.TreeSize
import Verif.Lemmas.DocLinear
import Verif.Lemmas.NodeInd
import Verif.Lemmas.Document
/-
The number of nodes of a document, and what simplification does to it.
-/
namespace Xbnf.Spec
namespace Size

/-! ### Documents -/

/-- What a round finds does not depend on how far was looked before. -/
theorem round_pending {run : Runner} {roots : List Rule} {flag : Int} {p p' : Nat} {l : List Rune} {nd u left st nd' u' left' st'}
    (h : roundAt run roots flag p l = .step nd u left st) (h' : roundAt run roots flag p' l = .step nd' u' left' st') :
    u' = u ∧ st' = st := by
  unfold roundAt at h h'
  simp only at h h'
  generalize hf : List.filter _ (List.filterMap hitOf (List.map (fun r => run r flag l) roots)) = f at h h'
  repeat' split at h
  all_goals first
    | (cases h; done)
    | skip
  rename_i h1 h2 h3 _ y h4 h5
  simp only [Round.step.injEq] at h
  rw [if_neg h1, if_neg h2, if_neg h3] at h'
  simp only at h'
  repeat' split at h'
  all_goals first
    | (cases h'; done)
    | skip
  simp only [Round.step.injEq] at h'
  exact ⟨by rw [← h.2.1, ← h'.2.1], by rw [← h.2.2.2, ← h'.2.2.2]⟩

/-- Rounds that use nothing and keep to a set of flags in which all do so never end. -/
theorem doc_stays {run : Runner} {roots : List Rule} {l : List Rune} (hne : l ≠ []) {S : Int → Prop}
    (hS : ∀ flag, S flag → ∀ p nd u left st, roundAt run roots flag p l = .step nd u left st → u = 0 ∧ S (flagNext st)) (n : Nat) :
    ∀ {flag p nodes ns}, S flag → docAt run roots n flag p l nodes ≠ .nodes ns := by
  induction n with
  | zero => intro _ _ _ _ _ h; cases h
  | succ n ih =>
    intro flag p nodes ns hf h
    simp only [docAt, if_neg hne] at h
    cases hr : roundAt run roots flag p l with
    | step nd u left st =>
      rw [hr] at h
      obtain ⟨hu, hn⟩ := hS flag hf _ _ _ _ _ hr
      subst hu
      simp only [List.drop_zero] at h
      exact ih hn h
    | _ => rw [hr] at h; cases h

theorem flagNext_cases (st : Bool) : flagNext st = SUGGEST_SKIP ∨ flagNext st = SUGGEST_NOT_SKIP := by
  cases st <;> simp [flagNext]

theorem flagNext_mem (st : Bool) : flagNext st ∈ flags := by cases st <;> simp [flagNext, flags]

theorem doc_le {run : Runner} {roots : List Rule} {W B : Nat}
    (hr : ∀ r ∈ roots, ∀ flag ∈ flags, ∀ l nd u n st, run r flag l = .hit nd u n st →
      (u = 0 → nd.countNodes ≤ W) ∧ (1 ≤ u → nd.countNodes ≤ B * u))
    (hu : ∀ r ∈ roots, ∀ flag l nd u n st, Valid l → run r flag l = .hit nd u n st → u ≤ l.length) (n : Nat) :
    ∀ {flag p l nodes ns}, Valid l → (flag = SUGGEST_SKIP ∨ flag = SUGGEST_NOT_SKIP) → docAt run roots n flag p l nodes = .nodes ns →
      countNodesL ns ≤ countNodesL nodes + (W + B) * l.length := by
  induction n using Nat.strongRecOn with
  | ind n ih =>
    intro flag p l nodes ns hv hf h
    have hfl : ∀ {flag}, (flag = SUGGEST_SKIP ∨ flag = SUGGEST_NOT_SKIP) → flag ∈ flags := by
      intro flag h
      rcases h with rfl | rfl <;> simp [flags]
    have step : ∀ {m flag p nodes nd u left st}, m < n → (flag = SUGGEST_SKIP ∨ flag = SUGGEST_NOT_SKIP) →
        roundAt run roots flag p l = .step nd u left st → 1 ≤ u →
        docAt run roots m (flagNext st) left (l.drop u) (nodes ++ [nd]) = .nodes ns →
        countNodesL ns + W ≤ countNodesL nodes + (W + B) * l.length := by
      intro m flag p nodes nd u left st hm hf hround hu1 hd
      obtain ⟨r, hrm, k, hrun⟩ := Shape.step_root hround
      have h1 := ih m hm (hv.drop u) (flagNext_cases st) hd
      have h2 := (hr r hrm flag (hfl hf) l _ _ _ _ hrun).2 hu1
      have h3 := hu r hrm flag l _ _ _ _ hv hrun
      rw [Size.countL_append, Size.countL_one, List.length_drop] at h1
      have h4 : (W + B) * l.length = (W + B) * (l.length - u) + (W + B) * u := by
        rw [← Nat.mul_add]; congr 1; omega
      have h5 : (W + B) * u = W * u + B * u := Nat.add_mul W B u
      have h6 := Nat.le_mul_of_pos_right W hu1
      omega
    cases n with
    | zero => cases h
    | succ n =>
      simp only [docAt] at h
      split at h
      · simp only [Doc.nodes.injEq] at h; subst h; omega
      rename_i hne
      cases hround : roundAt run roots flag p l with
      | step nd u left st =>
        rw [hround] at h
        simp only at h
        rcases Nat.eq_zero_or_pos u with rfl | hu1
        · rw [List.drop_zero] at h
          by_cases hfe : flagNext st = flag
          · refine absurd h (doc_stays hne (S := (· = flag)) (fun f hf p' nd' u' left' st' h' => ?_) n hfe)
            subst hf
            obtain ⟨e1, e2⟩ := round_pending hround h'
            exact ⟨e1, by rw [e2]; exact hfe⟩
          · cases n with
            | zero => cases h
            | succ n =>
              obtain ⟨r, hrm, k, hrun⟩ := Shape.step_root hround
              have hW := (hr r hrm flag (hfl hf) l _ _ _ _ hrun).1 rfl
              have h0 := h
              simp only [docAt, if_neg hne] at h
              cases hround2 : roundAt run roots (flagNext st) left l with
              | step nd2 u2 left2 st2 =>
                rw [hround2] at h
                simp only at h
                rcases Nat.eq_zero_or_pos u2 with rfl | hu2
                · refine absurd h0 (doc_stays hne (S := fun f => f = SUGGEST_SKIP ∨ f = SUGGEST_NOT_SKIP)
                    (fun f hf' p' nd' u' left' st' h' => ⟨?_, flagNext_cases st'⟩) _ (flagNext_cases st))
                  have : f = flag ∨ f = flagNext st := by
                    rcases hf' with rfl | rfl <;> rcases hf with rfl | rfl <;> rcases flagNext_cases st with h | h <;> rw [h] at hfe ⊢ <;>
                      simp_all
                  rcases this with rfl | rfl
                  · exact (round_pending hround h').1
                  · exact (round_pending hround2 h').1
                · have := step (by omega) (flagNext_cases st) hround2 hu2 h
                  rw [Size.countL_append, Size.countL_one] at this
                  omega
              | _ => rw [hround2] at h; cases h
        · have := step (Nat.lt_succ_self n) hf hround hu1 h
          omega
      | _ => rw [hround] at h; cases h

/-! ### Positions and simplification -/

theorem count_erase (n : Node) : n.erase.countNodes = n.countNodes := by
  induction n using Props.node_ind with
  | h rt nm ch cs p st v nd tk ih =>
    have : countNodesL (eraseL cs) = countNodesL cs := by
      induction cs with
      | nil => rfl
      | cons c cs ih' =>
        rw [eraseL, countNodesL, countNodesL, ih c List.mem_cons_self, ih' fun c hc => ih c (List.mem_cons_of_mem _ hc)]
    rw [Node.erase, Node.countNodes, Node.countNodes, this]

theorem countL_erase (ns : List Node) : countNodesL (ns.map Node.erase) = countNodesL ns := by
  induction ns with
  | nil => rfl
  | cons n ns ih => rw [List.map_cons, countNodesL, countNodesL, count_erase, ih]

theorem removeVirtualL_le {cs : List Node} (h : ∀ c ∈ cs, c.removeVirtual.countNodes ≤ c.countNodes) :
    countNodesL (removeVirtualL cs) ≤ countNodesL cs := by
  induction cs with
  | nil => exact Nat.le_refl _
  | cons c cs ih =>
    have h1 := h c List.mem_cons_self
    have h2 := ih fun c hc => h c (List.mem_cons_of_mem _ hc)
    rw [removeVirtualL]
    split <;> simp only [countNodesL] <;> omega

theorem removeVirtual_le (n : Node) : n.removeVirtual.countNodes ≤ n.countNodes := by
  induction n using Props.node_ind with
  | h rt nm ch cs p st v nd tk ih =>
    have := removeVirtualL_le ih
    rw [Node.removeVirtual, Node.countNodes, Node.countNodes]
    omega

theorem removeNonDataL_le {cs : List Node} (h : ∀ c ∈ cs, c.removeNonData.countNodes ≤ c.countNodes) :
    countNodesL (removeNonDataL cs) ≤ countNodesL cs := by
  induction cs with
  | nil => exact Nat.le_refl _
  | cons c cs ih =>
    have h1 := h c List.mem_cons_self
    have h2 := ih fun c hc => h c (List.mem_cons_of_mem _ hc)
    rw [removeNonDataL]
    split <;> simp only [countNodesL] <;> omega

theorem removeNonData_le (n : Node) : n.removeNonData.countNodes ≤ n.countNodes := by
  induction n using Props.node_ind with
  | h rt nm ch cs p st v nd tk ih =>
    have := removeNonDataL_le ih
    rw [Node.removeNonData, Node.countNodes, Node.countNodes]
    omega

/-- The nodes of the node waiting to be merged with. -/
def waiting : Option Node → Nat
  | none => 0
  | some p => p.countNodes

theorem count_pos (n : Node) : 1 ≤ n.countNodes := by rw [count_eq]; omega

theorem mergeLoop_le {cs : List Node} (h : ∀ c ∈ cs, c.mergeSticky.countNodes ≤ c.countNodes) : ∀ out prev,
    countNodesL (mergeLoop out prev cs) ≤ countNodesL out + waiting prev + countNodesL cs := by
  induction cs with
  | nil =>
    intro out prev
    cases prev with
    | none => simp only [mergeLoop, waiting, countNodesL]; omega
    | some p =>
      simp only [mergeLoop, waiting, countL_append, countL_one]
      rw [count_eq, count_eq p]
      simp only [countNodesL]
      omega
  | cons c cs ih =>
    intro out prev
    have h1 := h c List.mem_cons_self
    have ih := ih fun c hc => h c (List.mem_cons_of_mem _ hc)
    have h2 := count_pos c
    rw [mergeLoop.eq_def]
    simp only
    split
    · cases prev with
      | some p =>
        have := ih out (some { p with chars := p.chars ++ c.text })
        have e : waiting (some { p with chars := p.chars ++ c.text }) = p.countNodes := by
          rw [waiting, count_eq, count_eq p]
        rw [e] at this
        simp only [countNodesL, waiting]
        omega
      | none =>
        have := ih out (some { c with chars := c.text, children := [] })
        have e : waiting (some { c with chars := c.text, children := [] }) = 1 := by
          rw [waiting, count_eq]; rfl
        rw [e] at this
        simp only [countNodesL, waiting]
        omega
    · cases prev with
      | some p =>
        have := ih (out ++ [{ p with sticky := false }, c.mergeSticky]) none
        have e : ({ p with sticky := false } : Node).countNodes = p.countNodes := by rw [count_eq, count_eq p]
        simp only [countL_append, countNodesL, waiting, e] at this ⊢
        omega
      | none =>
        have := ih (out ++ [c.mergeSticky]) none
        simp only [countL_append, countNodesL, waiting] at this ⊢
        omega

theorem mergeBlockL_le {cs : List Node} (h : ∀ c ∈ cs, c.mergeSticky.countNodes ≤ c.countNodes) :
    countNodesL (mergeBlockL cs) ≤ countNodesL cs := by
  induction cs with
  | nil => exact Nat.le_refl _
  | cons c cs ih =>
    have h1 := h c List.mem_cons_self
    have h2 := ih fun c hc => h c (List.mem_cons_of_mem _ hc)
    have e : ({ c.mergeSticky with sticky := false } : Node).countNodes = c.mergeSticky.countNodes := by rw [count_eq, count_eq c.mergeSticky]
    rw [mergeBlockL]
    simp only [countNodesL, e]
    omega

theorem mergeSticky_le (n : Node) : n.mergeSticky.countNodes ≤ n.countNodes := by
  induction n using Props.node_ind with
  | h rt nm ch cs p st v nd tk ih =>
    have h1 := mergeBlockL_le ih
    have h2 := mergeLoop_le ih [] none
    rw [Node.mergeSticky]
    split
    · exact Nat.le_refl _
    · split
      · rw [Node.countNodes, Node.countNodes]; omega
      · rw [Node.countNodes, Node.countNodes]; simp only [countNodesL, waiting] at h2; omega

theorem mergeStickyNodes_le (ns : List Node) : countNodesL (mergeStickyNodes ns) ≤ countNodesL ns := by
  unfold mergeStickyNodes
  split
  · exact Nat.le_refl _
  · have := mergeLoop_le (fun c (_ : c ∈ ns) => mergeSticky_le c) [] none
    simp only [countNodesL, waiting] at this
    omega

theorem splice_le (cs : List Node) : countNodesL (spliceUnnamed cs) ≤ countNodesL cs := by
  induction cs with
  | nil => exact Nat.le_refl _
  | cons c cs ih =>
    rw [spliceUnnamed]
    have := count_eq c
    split
    · simp only [countNodesL]; omega
    · split
      · simp only [countL_append, countNodesL]; omega
      · simp only [countNodesL]; omega

theorem promoteOnly_le (n : Node) : (promoteOnly n).countNodes ≤ n.countNodes := by
  unfold promoteOnly
  split
  · rename_i only hc
    split
    · split
      · rw [count_eq, count_eq n]; simp only [countNodesL]; omega
      · rw [count_eq, count_eq n, hc, countL_one, count_eq only]; simp only; omega
    · exact Nat.le_refl _
  · exact Nat.le_refl _

theorem promoteLeaf_le (n : Node) : (promoteLeaf n).countNodes ≤ n.countNodes := by
  unfold promoteLeaf
  split
  · split
    · rw [count_eq, count_eq n]; simp only [countNodesL]; omega
    · exact Nat.le_refl _
  · exact Nat.le_refl _

theorem removeRedundantL_le {cs : List Node} (h : ∀ c ∈ cs, c.removeRedundant.countNodes ≤ c.countNodes) :
    countNodesL (removeRedundantL cs) ≤ countNodesL cs := by
  induction cs with
  | nil => exact Nat.le_refl _
  | cons c cs ih =>
    have h1 := h c List.mem_cons_self
    have h2 := ih fun c hc => h c (List.mem_cons_of_mem _ hc)
    rw [removeRedundantL]
    simp only [countNodesL]
    omega

theorem removeRedundant_le (n : Node) : n.removeRedundant.countNodes ≤ n.countNodes := by
  induction n using Props.node_ind with
  | h rt nm ch cs p st v nd tk ih =>
    rw [Node.removeRedundant]
    split
    · exact Nat.le_refl _
    · have h1 := removeRedundantL_le ih
      have h2 := promoteOnly_le ⟨rt, nm, ch, removeRedundantL cs, p, st, v, nd, tk⟩
      generalize promoteOnly ⟨rt, nm, ch, removeRedundantL cs, p, st, v, nd, tk⟩ = n1 at h2
      have h3 := promoteLeaf_le { n1 with children := spliceUnnamed n1.children }
      have h4 := splice_le n1.children
      have h5 : ({ n1 with children := spliceUnnamed n1.children } : Node).countNodes = 1 + countNodesL (spliceUnnamed n1.children) := by
        rw [count_eq]
      rw [Node.countNodes] at h2 ⊢
      rw [count_eq n1] at h2
      simp only at *
      omega

theorem astRemoveRedundant_le (ns : List Node) : countNodesL (astRemoveRedundant ns) ≤ countNodesL ns := by
  induction ns with
  | nil => exact Nat.le_refl _
  | cons n ns ih =>
    have := removeRedundant_le n
    rw [astRemoveRedundant]
    split <;> simp only [countNodesL] <;> omega

end Size
end Xbnf.Spec
