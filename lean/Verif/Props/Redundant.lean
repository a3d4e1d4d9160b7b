import Verif.Props.Merge
/-
C29: removing redundant nodes, and its share of C44.
-/
namespace Xbnf.Props
open Spec

theorem named_eq (n : Node) : named n =
    if n.name ≠ [] ∧ yield n ≠ [] then
      [⟨n.ruleType, n.name, n.pos, n.virt, n.nonData, n.tokenized, yield n⟩] ::
        (namedL n.children).map (⟨n.ruleType, n.name, n.pos, n.virt, n.nonData, n.tokenized, yield n⟩ :: ·)
    else namedL n.children := by
  obtain ⟨rt, nm, ch, cs, p, st, v, nd, tk⟩ := n
  rw [named]

theorem namedL_append (a b : List Node) : namedL (a ++ b) = namedL a ++ namedL b := by
  induction a with
  | nil => rfl
  | cons n a ih => simp [namedL, ih]

theorem removeRedundant_eq (n : Node) : n.removeRedundant =
    if n.children = [] then n else
      promoteLeaf { promoteOnly { n with children := n.children.map Node.removeRedundant } with children := spliceUnnamed (promoteOnly { n with children := n.children.map Node.removeRedundant }).children } := by
  have hl : ∀ cs, removeRedundantL cs = cs.map Node.removeRedundant := by
    intro cs
    induction cs with
    | nil => rfl
    | cons c cs ih => rw [removeRedundantL, ih]; rfl
  obtain ⟨rt, nm, ch, cs, p, st, v, nd, tk⟩ := n
  rw [Node.removeRedundant, hl]
  simp only [List.length_eq_zero_iff]

theorem leafy_iff {n : Node} : Leafy n ↔
    (n.chars = [] ∨ n.children = []) ∧ ∀ c ∈ n.children, Leafy c :=
  ⟨fun h => ⟨h.self, h.children⟩, fun h => .mk h.1 h.2⟩

theorem spaced_nil {l : List Rune} (h : Spaced l []) : l = [] := by cases h; rfl

theorem yield_of_text {n : Node} (h : n.text = []) : yield n = [] := by
  have := text_spaced n
  rw [h] at this
  exact spaced_nil this

theorem yieldL_nil {ns : List Node} (h : yieldL ns = []) : ∀ n ∈ ns, yield n = [] := by
  induction ns with
  | nil => intro n hn; cases hn
  | cons m ns ih =>
    rw [yieldL, List.append_eq_nil_iff] at h
    intro n hn
    rcases List.mem_cons.1 hn with rfl | hn
    · exact h.1
    · exact ih h.2 n hn

theorem namedL_nil {ns : List Node} (h : ∀ n ∈ ns, named n = []) : namedL ns = [] := by
  induction ns with
  | nil => rfl
  | cons m ns ih =>
    rw [namedL, h m List.mem_cons_self, ih fun x hx => h x (List.mem_cons_of_mem _ hx)]; rfl

theorem named_of_yield (n : Node) : Leafy n → yield n = [] → named n = [] := by
  induction n using node_ind with
  | h rt nm ch cs p st v nd tk ih =>
    intro hl hy
    rw [named_eq, if_neg (by simp [hy])]
    rw [leafy_iff] at hl
    rcases hl.1 with h | h
    · rw [yield_eq, if_pos h] at hy
      exact namedL_nil fun n hn => ih n hn (hl.2 n hn) (yieldL_nil hy n hn)
    · rw [h]; rfl

/-- What is kept when children are rearranged: the characters, the named nodes, and that no node has
both characters and children. -/
structure Kept (n m : Node) : Prop where
  ruleType : m.ruleType = n.ruleType
  name : m.name = n.name
  pos : m.pos = n.pos
  sticky : m.sticky = n.sticky
  virt : m.virt = n.virt
  nonData : m.nonData = n.nonData
  tokenized : m.tokenized = n.tokenized
  yield : yield m = yield n
  below : namedL m.children = namedL n.children
  leafy : Leafy m

theorem Kept.named {n m : Node} (h : Kept n m) : named m = named n := by
  rw [named_eq, named_eq, h.ruleType, h.name, h.pos, h.virt, h.nonData, h.tokenized, h.yield, h.below]

theorem Kept.trans {n m k : Node} (h : Kept n m) (h' : Kept m k) : Kept n k :=
  ⟨h'.ruleType.trans h.ruleType, h'.name.trans h.name, h'.pos.trans h.pos, h'.sticky.trans h.sticky,
    h'.virt.trans h.virt, h'.nonData.trans h.nonData, h'.tokenized.trans h.tokenized,
    h'.yield.trans h.yield, h'.below.trans h.below, h'.leafy⟩

theorem Kept.refl {n : Node} (h : Leafy n) : Kept n n :=
  ⟨rfl, rfl, rfl, rfl, rfl, rfl, rfl, rfl, rfl, h⟩

theorem kept_children {n : Node} {cs : List Node} (hn : n.chars = []) (hy : yieldL cs = yieldL n.children)
    (hb : namedL cs = namedL n.children) (hl : ∀ c ∈ cs, Leafy c) :
    Kept n { n with children := cs } :=
  ⟨rfl, rfl, rfl, rfl, rfl, rfl, rfl, by rw [yield_eq, yield_eq, if_pos hn, if_pos hn]; exact hy, hb,
    leafy_iff.2 ⟨.inl hn, hl⟩⟩

theorem unnamed_named {c : Node} (h : c.name = []) : named c = namedL c.children := by
  rw [named_eq, if_neg (by simp [h])]

theorem kept_promote {n c : Node} (hn : n.chars = []) (hc : n.children = [c]) (hnm : c.name = [])
    (hch : c.children = []) : Kept n { n with chars := c.chars, children := [] } := by
  refine ⟨rfl, rfl, rfl, rfl, rfl, rfl, rfl, ?_, ?_, leafy_iff.2 ⟨.inr rfl, fun x hx => by cases hx⟩⟩
  · rw [yield_eq, yield_eq n, if_pos hn, hc, yieldL, yieldL, yield_eq c, hch]
    simp [yieldL]
  · simp only [hc, namedL, unnamed_named hnm, hch, List.append_nil]

theorem promoteOnly_kept {n : Node} (h : Leafy n) : Kept n (promoteOnly n) := by
  have h' := leafy_iff.1 h
  unfold promoteOnly
  split
  · rename_i c hc
    have hlc := leafy_iff.1 (h'.2 c (by rw [hc]; exact List.mem_cons_self))
    have hn : n.chars = [] := by
      rcases h'.1 with h1 | h1
      · exact h1
      · rw [hc] at h1; cases h1
    split
    · rename_i hnm
      split
      · rename_i hlen
        have hch : c.children = [] := by
          rcases hlc.1 with h1 | h1
          · rw [h1] at hlen; cases hlen
          · exact h1
        exact kept_promote hn hc hnm hch
      · rename_i hlen
        have hcc : c.chars = [] := by
          cases hx : c.chars with
          | nil => rfl
          | cons => rw [hx] at hlen; exact absurd (Nat.zero_lt_succ _) hlen
        refine kept_children hn ?_ ?_ hlc.2
        · rw [hc, yieldL, yieldL, yield_eq c, if_pos hcc, List.append_nil]
        · rw [hc, namedL, namedL, unnamed_named hnm, List.append_nil]
    · exact .refl h
  · exact .refl h

theorem splice_kept {cs : List Node} (h : ∀ c ∈ cs, Leafy c) :
    yieldL (spliceUnnamed cs) = yieldL cs ∧ namedL (spliceUnnamed cs) = namedL cs ∧
      ∀ c ∈ spliceUnnamed cs, Leafy c := by
  induction cs with
  | nil => exact ⟨rfl, rfl, fun c hc => by cases hc⟩
  | cons c cs ih =>
    obtain ⟨i1, i2, i3⟩ := ih fun x hx => h x (List.mem_cons_of_mem _ hx)
    have hc := h c List.mem_cons_self
    rw [spliceUnnamed]
    split
    · rename_i ht
      have hy := yield_of_text (List.length_eq_zero_iff.1 ht.1)
      refine ⟨?_, ?_, i3⟩
      · rw [yieldL, hy, i1]; rfl
      · rw [namedL, named_of_yield c hc hy, i2]; rfl
    · split
      · rename_i ht
        have hl := leafy_iff.1 hc
        have hcc : c.chars = [] := by
          rcases hl.1 with h1 | h1
          · exact h1
          · rw [h1] at ht; exact absurd ht.2 (Nat.lt_irrefl _)
        refine ⟨?_, ?_, ?_⟩
        · rw [yieldL_append, i1, yieldL, yield_eq c, if_pos hcc]
        · rw [namedL_append, i2, namedL, unnamed_named ht.1]
        · intro x hx
          rcases List.mem_append.1 hx with hx | hx
          · exact hl.2 x hx
          · exact i3 x hx
      · refine ⟨?_, ?_, ?_⟩
        · rw [yieldL, i1, yieldL]
        · rw [namedL, i2, namedL]
        · intro x hx
          rcases List.mem_cons.1 hx with rfl | hx
          · exact hc
          · exact i3 x hx

theorem promoteLeaf_kept {n : Node} (h : Leafy n) : Kept n (promoteLeaf n) := by
  have h' := leafy_iff.1 h
  unfold promoteLeaf
  split
  · rename_i c hc
    have hn : n.chars = [] := by
      rcases h'.1 with h1 | h1
      · exact h1
      · rw [hc] at h1; cases h1
    split
    · rename_i hx
      exact kept_promote hn hc hx.1 (List.length_eq_zero_iff.1 hx.2)
    · exact .refl h
  · exact .refl h

theorem yieldL_map {f : Node → Node} {cs : List Node} (h : ∀ c ∈ cs, yield (f c) = yield c) :
    yieldL (cs.map f) = yieldL cs := by
  induction cs with
  | nil => rfl
  | cons c cs ih =>
    rw [List.map_cons, yieldL, yieldL, h c List.mem_cons_self,
      ih fun x hx => h x (List.mem_cons_of_mem _ hx)]

theorem namedL_map {f : Node → Node} {cs : List Node} (h : ∀ c ∈ cs, named (f c) = named c) :
    namedL (cs.map f) = namedL cs := by
  induction cs with
  | nil => rfl
  | cons c cs ih =>
    rw [List.map_cons, namedL, namedL, h c List.mem_cons_self,
      ih fun x hx => h x (List.mem_cons_of_mem _ hx)]

theorem splice_node_kept {n : Node} (h : Leafy n) : Kept n { n with children := spliceUnnamed n.children } := by
  have h' := leafy_iff.1 h
  obtain ⟨a, b, c⟩ := splice_kept h'.2
  rcases h'.1 with h1 | h1
  · exact kept_children h1 a b c
  · have : ({ n with children := spliceUnnamed n.children } : Node) = n := by
      obtain ⟨rt, nm, ch, cs, p, st, v, nd, tk⟩ := n
      simp only at h1
      rw [h1]; rfl
    rw [this]; exact .refl h

theorem removeRedundant_kept (n : Node) : Leafy n → Kept n n.removeRedundant := by
  induction n using node_ind with
  | h rt nm ch cs p st v nd tk ih =>
    intro hl
    rw [removeRedundant_eq]
    split
    · exact .refl hl
    · rename_i hne
      have h' := leafy_iff.1 hl
      have hch : ch = [] := by
        rcases h'.1 with h1 | h1
        · exact h1
        · exact absurd h1 hne
      have k1 : Kept (⟨rt, nm, ch, cs, p, st, v, nd, tk⟩ : Node)
          { (⟨rt, nm, ch, cs, p, st, v, nd, tk⟩ : Node) with children := cs.map Node.removeRedundant } :=
        kept_children hch (yieldL_map fun c hc => (ih c hc (h'.2 c hc)).yield)
          (namedL_map fun c hc => (ih c hc (h'.2 c hc)).named)
          (fun x hx => by
            obtain ⟨c, hc, rfl⟩ := List.mem_map.1 hx
            exact (ih c hc (h'.2 c hc)).leafy)
      have k2 := k1.trans (promoteOnly_kept k1.leafy)
      have k3 := k2.trans (splice_node_kept k2.leafy)
      exact k3.trans (promoteLeaf_kept k3.leafy)

/-- `RemoveRedundantNodes` keeps every named node that has text, in order and below the same named
nodes, with its type, name, marks, position and characters, and it keeps the characters of the
leaves.  This is for trees where no node has both characters and children, as the parser builds
them. -/
theorem C29_kept (n : Node) (h : Leafy n) :
    yield n.removeRedundant = yield n ∧ named n.removeRedundant = named n :=
  ⟨(removeRedundant_kept n h).yield, (removeRedundant_kept n h).named⟩

/-- The text stays the same apart from white space. -/
theorem C29_text (n : Node) (h : Leafy n) : solid n.removeRedundant.text = solid n.text := by
  rw [← (text_spaced _).solid, (C29_kept n h).1, (text_spaced _).solid]

/-- The node keeps its own name and marks. -/
theorem C29_self (n : Node) (h : Leafy n) : n.removeRedundant.name = n.name ∧
    n.removeRedundant.ruleType = n.ruleType ∧ n.removeRedundant.virt = n.virt ∧
    n.removeRedundant.nonData = n.nonData ∧ n.removeRedundant.pos = n.pos :=
  have k := removeRedundant_kept n h
  ⟨k.name, k.ruleType, k.virt, k.nonData, k.pos⟩

/-! ### Nothing redundant is left -/

theorem reduced_iff {n : Node} : Reduced n ↔
    (∀ c ∈ n.children, c.name = [] → c.children = [] ∧ c.text ≠ [] ∧ 2 ≤ n.children.length) ∧
      ∀ c ∈ n.children, Reduced c :=
  ⟨fun h => ⟨h.self, h.children⟩, fun h => .mk h.1 h.2⟩

theorem splice_reduced {cs : List Node} (h : ∀ c ∈ cs, Reduced c) : ∀ c ∈ spliceUnnamed cs,
    Reduced c ∧ (c.name = [] → c.children = [] ∧ c.text ≠ []) := by
  induction cs with
  | nil => intro c hc; cases hc
  | cons d cs ih =>
    have ih := ih fun x hx => h x (List.mem_cons_of_mem _ hx)
    have hd := h d List.mem_cons_self
    intro c hc
    rw [spliceUnnamed] at hc
    split at hc
    · exact ih c hc
    · rename_i h1
      split at hc
      · rcases List.mem_append.1 hc with hc | hc
        · have := reduced_iff.1 hd
          exact ⟨this.2 c hc, fun e => ⟨(this.1 c hc e).1, (this.1 c hc e).2.1⟩⟩
        · exact ih c hc
      · rename_i h2
        rcases List.mem_cons.1 hc with rfl | hc
        · refine ⟨hd, fun e => ⟨?_, ?_⟩⟩
          · cases hx : c.children with
            | nil => rfl
            | cons => exact absurd ⟨e, by rw [hx]; exact Nat.zero_lt_succ _⟩ h2
          · intro ht; exact h1 ⟨by rw [ht]; rfl, e⟩
        · exact ih c hc

theorem promoteOnly_children {n : Node} {P : Node → Prop} (h : ∀ c ∈ n.children, P c)
    (hs : ∀ c, P c → ∀ d ∈ c.children, P d) : ∀ c ∈ (promoteOnly n).children, P c := by
  unfold promoteOnly
  split
  · rename_i c hc
    split
    · split
      · intro x hx; cases hx
      · exact hs c (h c (by rw [hc]; exact List.mem_cons_self))
    · exact h
  · exact h

theorem removeRedundant_reduced (n : Node) : Reduced n.removeRedundant := by
  induction n using node_ind with
  | h rt nm ch cs p st v nd tk ih =>
    rw [removeRedundant_eq]
    split
    · rename_i hc
      rw [reduced_iff, hc]
      exact ⟨fun c hc => (by cases hc), fun c hc => (by cases hc)⟩
    · have h1 : ∀ c ∈ (promoteOnly ⟨rt, nm, ch, cs.map Node.removeRedundant, p, st, v, nd, tk⟩).children,
          Reduced c := by
        apply promoteOnly_children
        · intro x hx
          obtain ⟨c, hc, rfl⟩ := List.mem_map.1 hx
          exact ih c hc
        · intro c hc; exact (reduced_iff.1 hc).2
      have h2 := splice_reduced h1
      generalize promoteOnly ⟨rt, nm, ch, cs.map Node.removeRedundant, p, st, v, nd, tk⟩ = k at *
      generalize spliceUnnamed k.children = ds at *
      unfold promoteLeaf
      split
      · rename_i c hc
        simp only at hc
        split
        · rw [reduced_iff]
          exact ⟨fun c hc => (by cases hc), fun c hc => (by cases hc)⟩
        · rename_i hx
          rw [reduced_iff]
          simp only [hc] at hx h2 ⊢
          refine ⟨fun d hd e => ?_, fun d hd => (h2 d hd).1⟩
          have : d = c := by simpa using hd
          subst this
          exact absurd ⟨e, by rw [((h2 d hd).2 e).1]; rfl⟩ hx
      · rename_i hx
        rw [reduced_iff]
        refine ⟨fun d hd e => ⟨((h2 d hd).2 e).1, ((h2 d hd).2 e).2, ?_⟩, fun d hd => (h2 d hd).1⟩
        simp only at hx hd ⊢
        match ds, hx, hd with
        | [], _, hd => cases hd
        | [c], hx, _ => exact absurd rfl (hx c)
        | _ :: _ :: _, _, _ => simp

/-- After `RemoveRedundantNodes` every node below that has no name is a leaf with text, and it is
not an only child. -/
theorem C29_reduced (n : Node) : Reduced n.removeRedundant := removeRedundant_reduced n

theorem splice_id {cs : List Node} (h : ∀ c ∈ cs, c.name = [] → c.children = [] ∧ c.text ≠ []) :
    spliceUnnamed cs = cs := by
  induction cs with
  | nil => rfl
  | cons c cs ih =>
    have hc := h c List.mem_cons_self
    rw [spliceUnnamed, if_neg, if_neg, ih fun x hx => h x (List.mem_cons_of_mem _ hx)]
    · rintro ⟨e, hl⟩
      rw [(hc e).1] at hl; exact absurd hl (Nat.lt_irrefl _)
    · rintro ⟨hl, e⟩
      exact (hc e).2 (List.length_eq_zero_iff.1 hl)

theorem removeRedundant_id (n : Node) : Reduced n → n.removeRedundant = n := by
  induction n using node_ind with
  | h rt nm ch cs p st v nd tk ih =>
    intro hr
    have h' := reduced_iff.1 hr
    simp only at h'
    rw [removeRedundant_eq]
    split
    · rfl
    · have hm : cs.map Node.removeRedundant = cs := by
        conv => rhs; rw [← List.map_id cs]
        exact List.map_congr_left fun c hc => ih c hc (h'.2 c hc)
      simp only [hm]
      have hp : promoteOnly ⟨rt, nm, ch, cs, p, st, v, nd, tk⟩ = ⟨rt, nm, ch, cs, p, st, v, nd, tk⟩ := by
        unfold promoteOnly
        split
        · rename_i c hc
          simp only at hc
          rw [if_neg]
          intro e
          have := (h'.1 c (by rw [hc]; exact List.mem_cons_self) e).2.2
          rw [hc] at this; simp at this
        · rfl
      rw [hp]
      simp only
      rw [splice_id fun c hc e => ⟨(h'.1 c hc e).1, (h'.1 c hc e).2.1⟩]
      unfold promoteLeaf
      split
      · rename_i c hc
        simp only at hc
        rw [if_neg]
        rintro ⟨e, _⟩
        have := (h'.1 c (by rw [hc]; exact List.mem_cons_self) e).2.2
        rw [hc] at this; simp at this
      · rfl

/-- Removing redundant nodes twice changes nothing more. -/
theorem C44_removeRedundant_idempotent (n : Node) :
    n.removeRedundant.removeRedundant = n.removeRedundant :=
  removeRedundant_id _ (removeRedundant_reduced n)

/-- A tree for examples: a named node over two levels of unnamed ones, an empty option, and a named
leaf. -/
def sampleRedundant : Node :=
  { ruleType := .concatenate, name := runes "top", children :=
    [{ ruleType := .group, children :=
       [{ ruleType := .concatenate, children :=
          [{ ruleType := .string, name := runes "w", chars := runes "let" },
           { ruleType := .option },
           { ruleType := .choice, children := [{ ruleType := .char, chars := [120] }] }] }] }] }

/-- Non-vacuity. -/
example : sampleRedundant.removeRedundant =
    { ruleType := .concatenate, name := runes "top", children :=
      [{ ruleType := .string, name := runes "w", chars := runes "let" },
       { ruleType := .choice, chars := [120] }] } := by rfl

example : Leafy sampleRedundant ∧ (named sampleRedundant).map (·.map (·.text)) =
    [[runes "letx"], [runes "letx", runes "let"]] := by
  refine ⟨?_, by decide +kernel⟩
  refine .mk (by decide) fun c hc => ?_
  simp only [sampleRedundant, List.mem_cons, List.not_mem_nil, or_false] at hc
  subst hc
  refine .mk (by decide) fun c hc => ?_
  simp only [List.mem_cons, List.not_mem_nil, or_false] at hc
  subst hc
  refine .mk (by decide) fun c hc => ?_
  simp only [List.mem_cons, List.not_mem_nil, or_false] at hc
  rcases hc with rfl | rfl | rfl
  · exact .mk (by decide) fun c hc => by cases hc
  · exact .mk (by decide) fun c hc => by cases hc
  · refine .mk (by decide) fun c hc => ?_
    simp only [List.mem_cons, List.not_mem_nil, or_false] at hc
    subst hc
    exact .mk (by decide) fun c hc => by cases hc

/-- The text of a node can get a space more: two sticky characters below an unnamed node that is not
sticky, next to an unnamed sticky one. -/
theorem C29_text_counterexample : ∃ n : Node, Leafy n ∧ n.removeRedundant.text ≠ n.text := by
  refine ⟨{ ruleType := .concatenate, children :=
      [{ ruleType := .block, children :=
          [{ ruleType := .char, chars := [97] }, { ruleType := .char, chars := [98] }] },
       { ruleType := .char, chars := [99] }] }, ?_, by decide +kernel⟩
  refine .mk (by decide) fun c hc => ?_
  simp only [List.mem_cons, List.not_mem_nil, or_false] at hc
  rcases hc with rfl | rfl
  · refine .mk (by decide) fun c hc => ?_
    simp only [List.mem_cons, List.not_mem_nil, or_false] at hc
    rcases hc with rfl | rfl <;> exact .mk (by decide) fun c hc => by cases hc
  · exact .mk (by decide) fun c hc => by cases hc

end Xbnf.Props
