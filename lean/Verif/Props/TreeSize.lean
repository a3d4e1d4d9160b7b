import Verif.Lemmas.DocSize
import Verif.Props.WorkText
/-
C77: the size of the tree.

Full statement: for every grammar there is a number `K` such that the tree `EvalRule` returns has at most
`K` nodes for every character it stands for (and one more `K`), and so for the trees of `EvalRaw` and `Eval`.
Proved for evaluations in which nothing goes astray (`Regular`, `Orderly`); there is no condition on the
grammar.  Without the condition the claim is false: `C77_counterexample` in Verif/Props/TreeGrowth.lean.
-/
namespace Xbnf.Props
open Spec Grammar

/-- Numbers for all rules of a grammar. -/
theorem sizes (g : Grammar) : ∃ W B, ∀ fuel, ∀ r ∈ (g.records ++ g.roots).map (·.rule), ∀ flag ∈ Size.flags, ∀ l nd u n st,
    Spec.run g.env fuel r flag l = .hit nd u n st → (u = 0 → nd.countNodes ≤ W) ∧ (1 ≤ u → nd.countNodes ≤ B * u) := by
  have hnamed : ∀ name r, g.env name = some r → r ∈ g.records.map (·.rule) := by
    intro name r h
    simp only [Grammar.env, Option.map_eq_some_iff] at h
    obtain ⟨rc, hrc, rfl⟩ := h
    exact List.mem_map_of_mem (List.mem_of_find?_eq_some hrc)
  obtain ⟨U, hU1, hU2⟩ := Shape.closed_env hnamed ((g.records ++ g.roots).map (·.rule))
  obtain ⟨W, B, h⟩ := Size.size_le hU2
  exact ⟨W, B, fun fuel r hr => h fuel r (hU1 r hr)⟩

/-- The tree of a rule has at most `K` nodes for every character it stands for, and at most `K` nodes if it
stands for none.  `K` depends on the grammar only; the grammar is any. -/
theorem C77_rule_partial (g : Grammar) : ∃ K, ∀ (name : Name) (rc : Record), g.getRecord name = some rc →
    ∀ sample : List Rune, Valid sample → Regular g.env rc.rule SUGGEST_SKIP sample → ∀ (fuel : Nat) (res : Res) (n : Node),
      g.evalRule fuel name sample = .ok res → res.node = some n →
      ∃ u : Nat, res.countUsed = u ∧ u ≤ sample.length ∧ n.countNodes ≤ K * max 1 u := by
  obtain ⟨W, B, hWB⟩ := sizes g
  refine ⟨W + B, fun name rc hrc sample hv hreg fuel res n h hn => ?_⟩
  simp only [Grammar.evalRule, hrc] at h
  obtain ⟨⟨res', s'⟩, he, h⟩ := Exec.of_bind h
  simp only [Exec.ok.injEq] at h
  subst h
  have hl := rem_ofChars sample
  obtain ⟨F, k, h1, h2, _, _, href⟩ := regular_eval (ready_ofChars hv) (by rw [hl]; exact hreg) he
  rw [hl] at h1 h2 href
  cases hr : Spec.run g.env F rc.rule SUGGEST_SKIP sample with
  | oof => exact absurd hr h1
  | risky => exact absurd hr h2
  | fail m st =>
    rw [hr] at href
    have := congrArg (fun x => match x with | .ok (r, _) => r.node | _ => none) href.2
    simp only [Res.core, hn] at this
    cases this
  | ambiguous m =>
    rw [hr] at href
    have := congrArg (fun x => match x with | .ok (r, _) => r.node | _ => none) href.2
    simp only [Res.core, hn] at this
    cases this
  | hit nd u m st =>
    rw [hr] at href
    obtain ⟨e1, e2, e3⟩ := href
    simp only [Exec.ok.injEq, Prod.mk.injEq] at e3
    obtain ⟨e3, rfl⟩ := e3
    have hnd := congrArg Res.node e3
    have hrd := congrArg Res.read e3
    have hun := congrArg Res.unused e3
    simp only [Res.core, hn, Option.map_some, Option.some.injEq] at hnd hrd hun
    have hsz := hWB F rc.rule (List.mem_map_of_mem (List.mem_append_left _ (List.mem_of_find?_eq_some hrc))) SUGGEST_SKIP (by simp [Size.flags]) _ _ _ _ _ hr
    refine ⟨u, ?_, by omega, ?_⟩
    · simp only [Res.countUsed, hrd, hun, List.length_drop, List.length_take]
      omega
    · rw [← Size.count_erase, hnd]
      rcases Nat.eq_zero_or_pos u with h0 | h0
      · have := hsz.1 h0
        rw [h0, Nat.max_eq_left (by omega), Nat.mul_one]
        omega
      · have := hsz.2 h0
        rw [Nat.max_eq_right h0, Nat.add_mul]
        omega

/-- For predictive grammars (C58) nothing can go astray. -/
theorem C77_predictive {g : Grammar} (hg : Predictive g) : ∃ K, ∀ (name : Name) (sample : List Rune), Valid sample → Tidy sample →
    ∀ (fuel : Nat) (res : Res) (n : Node), g.evalRule fuel name sample = .ok res → res.node = some n →
      n.countNodes ≤ K * (sample.length + 1) := by
  obtain ⟨K, hK⟩ := C77_rule_partial g
  obtain ⟨c, hc⟩ := hg
  refine ⟨K, fun name sample hv ht fuel res n h hn => ?_⟩
  cases hrc : g.getRecord name with
  | none =>
    simp only [Grammar.evalRule, hrc, Exec.ok.injEq] at h
    subst h
    cases hn
  | some rc =>
    have hcl := C58_clean hc ((certified hc).covers hrc (flag := SUGGEST_SKIP) (by decide)) (ready_ofChars hv)
      (by rw [rem_ofChars]; exact ht)
    rw [rem_ofChars] at hcl
    obtain ⟨u, _, h1, h2⟩ := hK name rc hrc sample hv hcl.2.1 fuel res n h hn
    exact Nat.le_trans h2 (Nat.mul_le_mul_left K (by omega))

/-- All trees of a document together have at most `K` nodes for every character of it. -/
theorem C77_document_partial (g : Grammar) : ∃ K, ∀ s : Stream, Ready s → Orderly g.env (g.roots.map (·.rule)) s.rem →
    ∀ sch : Sched, sch.Fair → ∀ fuel nodes s', g.evalRaw fuel sch s = .ok (.ok nodes, s') →
      countNodesL nodes ≤ K * s.rem.length := by
  obtain ⟨W, B, hWB⟩ := sizes g
  refine ⟨W + B, fun s hs ho sch hfair fuel nodes s' h => ?_⟩
  have hne : s.rem ≠ [] := by
    intro hc
    unfold evalRaw at h
    rw [if_pos (by rw [L.peek_eq hs.wf, L.peek_eof hs.valid]; exact hc)] at h
    cases h
  have hroots : ∀ r ∈ g.roots.map (·.rule), r ∈ (g.records ++ g.roots).map (·.rule) := by
    intro r hr
    rw [List.map_append]
    exact List.mem_append_right _ hr
  obtain ⟨F, hF⟩ := orderly_raw hfair hs.wf hs.valid hne ho h
  cases hd : docAt (Spec.run g.env F) (g.roots.map (·.rule)) F SUGGEST_SKIP 0 s.rem [] with
  | nodes ns =>
    rw [hd] at hF
    simp only [Doc.outcome, Except.map, Option.some.injEq, Except.ok.injEq] at hF
    have := Size.doc_le (fun r hr => hWB F r (hroots r hr)) (fun r _ flag l nd u n st hv h => run_used_le hv h) F hs.valid (.inl rfl) hd
    rw [hF, Size.countL_erase] at this
    simpa [countNodesL] using this
  | _ => rw [hd] at hF; cases hF

/-- Simplification never makes a tree larger, at any level. -/
theorem C77_simplify (level : Int) (nodes : List Node) : countNodesL (simplify level nodes) ≤ countNodesL nodes := by
  have h1 := Size.mergeStickyNodes_le nodes
  have h2 := Size.removeVirtualL_le (cs := mergeStickyNodes nodes) fun c _ => Size.removeVirtual_le c
  have h3 := Size.removeNonDataL_le (cs := removeVirtualL (mergeStickyNodes nodes)) fun c _ => Size.removeNonData_le c
  unfold simplify
  split
  · exact Nat.le_refl _
  · simp only
    refine Nat.le_trans (Size.astRemoveRedundant_le _) ?_
    split
    · omega
    · split <;> omega

/-- The same for what `Eval` returns. -/
theorem C77_eval_partial (g : Grammar) : ∃ K, ∀ s : Stream, Ready s → Orderly g.env (g.roots.map (·.rule)) s.rem →
    ∀ sch : Sched, sch.Fair → ∀ level fuel nodes s', g.evalAST fuel sch s level = .ok (.ok nodes, s') →
      countNodesL nodes ≤ K * s.rem.length := by
  obtain ⟨K, hK⟩ := C77_document_partial g
  refine ⟨K, fun s hs ho sch hfair level fuel nodes s' h => ?_⟩
  unfold evalAST at h
  obtain ⟨⟨y, t⟩, he, h⟩ := Exec.of_bind h
  simp only [Exec.ok.injEq, Prod.mk.injEq] at h
  cases y with
  | error e => cases h.1
  | ok raw =>
    simp only [Except.map, Except.ok.injEq] at h
    rw [← h.1]
    exact Nat.le_trans (C77_simplify level raw) (hK s hs ho sch hfair fuel raw t he)

/-- A match of a rule where nothing goes astray. -/
theorem size_matches {g : Grammar} {W B : Nat}
    (hWB : ∀ fuel, ∀ r ∈ (g.records ++ g.roots).map (·.rule), ∀ flag ∈ Size.flags, ∀ l nd u n st,
      Spec.run g.env fuel r flag l = .hit nd u n st → (u = 0 → nd.countNodes ≤ W) ∧ (1 ≤ u → nd.countNodes ≤ B * u))
    {r : Rule} (hr : r ∈ (g.records ++ g.roots).map (·.rule)) {flag : Int} (hf : flag ∈ Size.flags) {l : List Rune} (hv : Valid l)
    (hreg : Regular g.env r flag l) {nd u st} (h : Matches g.env r flag l nd u st) (hu : 1 ≤ u) : nd.countNodes ≤ B * u := by
  obtain ⟨F, h1, h2⟩ := hreg
  cases hrun : Spec.run g.env F r flag l with
  | oof => exact absurd hrun h1
  | risky => exact absurd hrun h2
  | fail m st' => exact (matches_not_fails h (fails_of_run hv (.inl ⟨_, _, hrun⟩))).elim
  | ambiguous m => exact (matches_not_fails h (fails_of_run hv (.inr ⟨_, hrun⟩))).elim
  | hit nd' u' m st' =>
    obtain ⟨rfl, rfl, _⟩ := matches_det h (matches_of_run hv hrun)
    exact (hWB F r hr flag hf l _ _ _ _ hrun).2 hu

theorem count_gap (t : List Rune) : countNodesL (gapNodes t) ≤ t.length := by
  unfold gapNodes
  split
  · simp [countNodesL]
  · rename_i h
    rw [Size.countL_one]
    exact List.length_pos_iff.2 h

/-- The tree of `EvalEmbed` has one node, and at most `K` nodes for every character of the text. -/
theorem C77_embed_partial (g : Grammar) : ∃ K, ∀ (name : Name) (rc : Record), g.getRecord name = some rc →
    ∀ sample : List Rune, Valid sample → (∀ i ≤ sample.length, Clean g.env rc.rule NOT_SKIP (sample.drop i)) →
      ∀ (fuel : Nat) (res : Res), g.evalEmbed fuel name sample = .ok res →
      ∃ n, res.node = some n ∧ n.countNodes ≤ 1 + K * sample.length := by
  obtain ⟨W, B, hWB⟩ := sizes g
  refine ⟨1 + B, fun name rc hrc sample hv hc fuel res h => ?_⟩
  obtain ⟨n, hn, _, _, _, he⟩ := C23_embed_partial hrc hv hc h
  have hr := List.mem_map_of_mem (f := Record.rule) (List.mem_append_left g.roots (List.mem_of_find?_eq_some hrc))
  refine ⟨n, hn, ?_⟩
  rw [Size.count_eq, ← Size.countL_erase]
  generalize n.children.map Node.erase = kids at he
  clear hn h
  have : countNodesL kids ≤ (1 + B) * sample.length := by
    induction he with
    | @last t _ =>
      refine Nat.le_trans (count_gap t) ?_
      rw [Nat.add_mul]
      omega
    | @hit t m l nd st kids _ hm hpos hs ih =>
      have h1 := ih (fun c hc' => hv c (by simp [hc'])) (fun i hi => by
        have := hc (t.length + m.length + i) (by simp only [List.length_append]; omega)
        rw [← List.length_append, ← List.drop_drop, List.drop_left] at this
        exact this)
      have hreg : Regular g.env rc.rule NOT_SKIP (m ++ l) := by
        have := hc t.length (by simp only [List.length_append]; omega)
        rw [List.append_assoc, List.drop_left] at this
        exact Clean.regular this
      have h2 := size_matches hWB hr (by simp [Size.flags]) (fun c hc' => hv c (by simp only [List.append_assoc]; exact List.mem_append_right _ hc'))
        hreg hm (List.length_pos_iff.2 hpos)
      have h3 := count_gap t
      rw [Size.countL_append, countNodesL]
      simp only [List.length_append, Nat.mul_add, Nat.add_mul] at h1 ⊢
      omega
  omega

/-! ### Cases -/

/-- The number of nodes of a rule's tree, and the number of characters used. -/
def treeCount (x : Exec (Res × Stream)) : Option (Option Nat × Int) :=
  match x with
  | .ok (res, _) => some (res.node.map Node.countNodes, res.countUsed)
  | _ => none

/-- The number of nodes of the trees of a document. -/
def rawCount (x : Exec (Except RawErr (List Node) × Stream)) : Option Nat :=
  match x with
  | .ok (.ok ns, _) => some (countNodesL ns)
  | _ => none

/-- The rule of C75, for which the work doubles with every character. -/
def doublingAlone : Grammar := { records := [⟨runes "a", doublingRule, 1⟩] }

/-- It meets the conditions: its trees are small. -/
example : doublingAlone.getRecord (runes "a") = some ⟨runes "a", doublingRule, 1⟩ ∧
    Regular doublingAlone.env doublingRule SUGGEST_SKIP (runes "xxxyy") ∧
    treeCount (eval doublingAlone.env 30 doublingRule SUGGEST_SKIP (Stream.ofChars (runes "xxxyy"))) = some (some 12, 5) :=
  ⟨by rfl, regular_of (fuel := 30) (by decide +kernel), by decide +kernel⟩

/-- A tree that stands for nothing can have many nodes: `{ (( ['a'] )) }<0,5>` at a place without `a`. -/
example : Regular noRules (.rep {} (.group {} (.group {} (.option {} (lit "a")))) 0 5) SUGGEST_SKIP (runes "b") ∧
    treeCount (eval noRules 9 (.rep {} (.group {} (.group {} (.option {} (lit "a")))) 0 5) SUGGEST_SKIP (Stream.ofChars (runes "b"))) =
      some (some 16, 0) :=
  ⟨regular_of (fuel := 9) (by decide +kernel), by decide +kernel⟩

/-- The document of C24: ten nodes, eight after simplification. -/
example : Orderly itemsAndStops.env (itemsAndStops.roots.map (·.rule)) (runes "item 1 1 stop item 1") ∧ forward.Fair ∧
    rawCount (itemsAndStops.evalRaw 20 forward (Stream.ofChars (runes "item 1 1 stop item 1"))) = some 10 ∧
    rawCount (itemsAndStops.evalAST 20 forward (Stream.ofChars (runes "item 1 1 stop item 1")) LevelBasic) = some 8 :=
  ⟨orderly_of (fuel := 20) (by decide +kernel), forward_fair, by decide +kernel, by decide +kernel⟩

/-- A text with embedded matches. -/
example : (∀ i ≤ (runes "aab").length, Clean (oneRuleGrammar (lit "a")).env (lit "a") NOT_SKIP ((runes "aab").drop i)) ∧
    (match (oneRuleGrammar (lit "a")).evalEmbed 20 (runes "r") (runes "aab") with
      | .ok res => res.node.map Node.countNodes
      | _ => none) = some 4 := by
  refine ⟨fun i hi => ⟨9, ?_⟩, by decide +kernel⟩
  have : ∀ i ∈ List.range 4, plain (Spec.run (oneRuleGrammar (lit "a")).env 9 (lit "a") NOT_SKIP ((runes "aab").drop i)) = true := by
    decide +kernel
  exact this i (List.mem_range.2 (Nat.lt_succ_of_le hi))

end Xbnf.Props
