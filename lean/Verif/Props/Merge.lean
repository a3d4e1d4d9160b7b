import Verif.Props.Ast
/-
C28: merging sticky nodes.
-/
namespace Xbnf.Props
open Spec

theorem mergeLoop_out (ns : List Node) : ∀ out prev,
    mergeLoop out prev ns = out ++ mergeLoop [] prev ns := by
  induction ns with
  | nil =>
    intro out prev
    cases prev <;> simp [mergeLoop]
  | cons n ns ih =>
    intro out prev
    simp only [mergeLoop]
    cases n.sticky <;> cases prev <;> simp only [if_true, Bool.false_eq_true, if_false]
    · rw [ih, ih ([] ++ _)]; simp
    · rw [ih, ih ([] ++ _)]; simp
    · rw [ih]
    · rw [ih]

/-- What the loop does after a sticky node: it collects the rest of the run. -/
theorem mergeLoop_run (ns : List Node) (p : Node) :
    mergeLoop [] (some p) ns =
      { p with chars := p.chars ++ ((ns.takeWhile (·.sticky)).map Node.text).flatten, sticky := false } ::
        mergeLoop [] none (ns.dropWhile (·.sticky)) := by
  induction ns generalizing p with
  | nil => simp [mergeLoop]
  | cons n ns ih =>
    cases hn : n.sticky with
    | true =>
      simp only [mergeLoop, hn, if_true, List.takeWhile_cons, List.dropWhile_cons]
      rw [ih]
      simp
    | false =>
      simp only [mergeLoop, hn, Bool.false_eq_true, if_false, List.takeWhile_cons, List.dropWhile_cons]
      rw [mergeLoop_out, mergeLoop_out _ ([] ++ _)]
      simp

theorem takeWhile_all {p : Node → Bool} {l : List Node} : ∀ x ∈ l.takeWhile p, p x = true := by
  induction l with
  | nil => intro x hx; cases hx
  | cons a l ih =>
    intro x hx
    rw [List.takeWhile_cons] at hx
    split at hx
    · rcases List.mem_cons.1 hx with rfl | hx
      · assumption
      · exact ih x hx
    · cases hx

theorem dropWhile_head {p : Node → Bool} {l : List Node} : ∀ x ∈ (l.dropWhile p).head?, p x = false := by
  induction l with
  | nil => intro x hx; cases hx
  | cons a l ih =>
    intro x hx
    rw [List.dropWhile_cons] at hx
    split at hx
    · exact ih x hx
    · cases hx; simpa using ‹¬ p a = true›

theorem merged_loop (ns : List Node) (h : ∀ n ∈ ns, MergedNode n n.mergeSticky) :
    Merged ns (mergeLoop [] none ns) := by
  generalize hk : ns.length = k
  induction k using Nat.strongRecOn generalizing ns with
  | ind k ih =>
    cases ns with
    | nil => exact .nil
    | cons n ns =>
      cases hn : n.sticky with
      | false =>
        simp only [mergeLoop, hn, Bool.false_eq_true, if_false]
        rw [mergeLoop_out]
        exact .plain hn (h n List.mem_cons_self)
          (ih ns.length (by rw [← hk]; simp) ns (fun x hx => h x (List.mem_cons_of_mem _ hx)) rfl)
      | true =>
        simp only [mergeLoop, hn, if_true]
        rw [mergeLoop_run]
        have hsub : ∀ x ∈ ns.dropWhile (·.sticky), MergedNode x x.mergeSticky := fun x hx =>
          h x (List.mem_cons_of_mem _ ((List.dropWhile_sublist _).subset hx))
        have hlen : (ns.dropWhile (·.sticky)).length ≤ ns.length :=
          (List.dropWhile_sublist _).length_le
        have hk' : ns.length + 1 = k := by simpa using hk
        have h1 := ih _ (by omega) _ hsub rfl
        have := Merged.run hn (takeWhile_all (p := (·.sticky)) (l := ns)) dropWhile_head h1
        rw [List.cons_append, List.takeWhile_append_dropWhile] at this
        simpa using this

theorem mergedEach_loop (ns : List Node) (h : ∀ n ∈ ns, MergedNode n n.mergeSticky) :
    MergedEach ns (mergeBlockL ns) := by
  induction ns with
  | nil => exact .nil
  | cons n ns ih =>
    rw [mergeBlockL]
    exact .cons (h n List.mem_cons_self) (ih fun x hx => h x (List.mem_cons_of_mem _ hx))

theorem mergedNode (n : Node) : MergedNode n n.mergeSticky := by
  induction n using node_ind with
  | h rt nm ch cs p st v nd tk ih =>
    rw [Node.mergeSticky]
    split
    · exact .leaf (List.length_eq_zero_iff.1 ‹_›)
    · have hc : cs ≠ [] := fun e => ‹¬ _› (by rw [e]; rfl)
      split
      · exact MergedNode.block (n := ⟨rt, nm, ch, cs, p, st, v, nd, tk⟩) hc ‹_› (mergedEach_loop cs ih)
      · exact MergedNode.inner (n := ⟨rt, nm, ch, cs, p, st, v, nd, tk⟩) hc ‹_› (merged_loop cs ih)

/-- `MergeStickyNodes` merges exactly the maximal runs of adjacent sticky siblings: each becomes one
leaf with the texts of the run; all other nodes stay, with their children treated in the same way. -/
theorem C28_merge (ns : List Node) : Merged ns (mergeStickyNodes ns) := by
  rw [mergeStickyNodes]
  split
  · rename_i h; rw [List.length_eq_zero_iff.1 h]; exact .nil
  · exact merged_loop ns fun n _ => mergedNode n

/-- Induction over the merging of nodes. -/
theorem merged_ind {P : Node → Node → Prop} {Q R : List Node → List Node → Prop}
    (leaf : ∀ {n}, n.children = [] → P n n)
    (block : ∀ {n cs}, n.children ≠ [] → n.ruleType = .block → Q n.children cs →
      P n { n with children := cs, sticky := false })
    (inner : ∀ {n cs}, n.children ≠ [] → n.ruleType ≠ .block → R n.children cs →
      P n { n with children := cs })
    (enil : Q [] [])
    (econs : ∀ {n m ns ms}, P n m → Q ns ms → Q (n :: ns) ({ m with sticky := false } :: ms))
    (nil : R [] [])
    (plain : ∀ {n m ns ms}, n.sticky = false → m.sticky = false → P n m → R ns ms →
      R (n :: ns) (m :: ms))
    (run : ∀ {n run ns ms}, n.sticky = true → (∀ x ∈ run, x.sticky = true) →
      (∀ x ∈ ns.head?, x.sticky = false) → R ns ms → R (n :: run ++ ns)
        ({ n with chars := ((n :: run).map Node.text).flatten, children := [], sticky := false } :: ms))
    {ns ms : List Node} (h : Merged ns ms) : R ns ms := by
  refine Merged.rec (motive_1 := fun n m _ => P n m) (motive_2 := fun ns ms _ => Q ns ms)
    (motive_3 := fun ns ms _ => R ns ms) ?_ ?_ ?_ ?_ ?_ ?_ ?_ ?_ h
  · exact leaf
  · intro n cs h ht _ ih; exact block h ht ih
  · intro n cs h ht _ ih; exact inner h ht ih
  · exact enil
  · intro n m ns ms _ _ h hs; exact econs h hs
  · exact nil
  · intro n m ns ms hn hm _ ih ihs
    refine plain hn ?_ ih ihs
    cases hm with
    | leaf => exact hn
    | block => rfl
    | inner => exact hn
  · intro n r ns ms hn hr hh _ ih; exact run hn hr hh ih

theorem countSticky_eq (n : Node) :
    n.countSticky = (if n.sticky then 1 else 0) + countStickyL n.children := by
  obtain ⟨rt, nm, ch, cs, p, st, v, nd, tk⟩ := n
  rw [Node.countSticky]

/-- No sticky node is left anywhere, as `CountStickyNodes` counts them. -/
theorem C28_no_sticky (ns : List Node) : countStickyL (mergeStickyNodes ns) = 0 :=
  merged_ind (P := fun _ m => countStickyL m.children = 0) (Q := fun _ ms => countStickyL ms = 0)
    (R := fun _ ms => countStickyL ms = 0)
    (fun h => by rw [h]; rfl) (fun _ _ h => h) (fun _ _ h => h) rfl
    (fun h hs => by simp only [countStickyL, countSticky_eq, h, hs]; rfl) rfl
    (fun _ hm h hs => by simp only [countStickyL, countSticky_eq, h, hs, hm]; rfl)
    (fun _ _ _ hs => by simp only [countStickyL, countSticky_eq, hs]; rfl)
    (C28_merge ns)

/-! ### Text -/

theorem joinText_cases (b : Bool) (acc : List Rune) (ps : Bool) (t : List Rune) (st : Bool) :
    joinText b acc ps t st = acc ++ t ∨ joinText b acc ps t st = acc ++ [32] ++ t := by
  unfold joinText
  split
  · split
    · exact .inr rfl
    · exact .inl rfl
  · exact .inl rfl

theorem joinText_nil (b : Bool) (ps : Bool) (t : List Rune) (st : Bool) :
    joinText b [] ps t st = t := by
  simp [joinText]

theorem text_eq (n : Node) : n.text =
    if n.chars = [] then textLoop (n.ruleType == .block) [] false n.children
    else if n.chars = [EOFChar] then [] else n.chars := by
  obtain ⟨rt, nm, ch, cs, p, st, v, nd, tk⟩ := n
  rw [Node.text]
  cases ch with
  | nil => simp
  | cons a ch => simp

theorem yield_eq (n : Node) : yield n =
    if n.chars = [] then yieldL n.children else if n.chars = [EOFChar] then [] else n.chars := by
  obtain ⟨rt, nm, ch, cs, p, st, v, nd, tk⟩ := n
  rw [yield]

theorem textLoop_ne_eof (b : Bool) (ns : List Node) (h : ∀ n ∈ ns, n.text ≠ [EOFChar]) :
    ∀ acc ps, acc ≠ [EOFChar] → textLoop b acc ps ns ≠ [EOFChar] := by
  induction ns with
  | nil => intro acc ps ha; simpa [textLoop] using ha
  | cons n ns ih =>
    intro acc ps ha
    rw [textLoop]
    apply ih fun x hx => h x (List.mem_cons_of_mem _ hx)
    have hn := h n List.mem_cons_self
    cases acc with
    | nil => rwa [joinText_nil]
    | cons a acc =>
      intro e
      rcases joinText_cases b (a :: acc) ps n.text n.sticky with h | h <;> rw [e] at h
      · cases acc with
        | nil =>
          cases ht : n.text with
          | nil => rw [ht] at h; exact ha h.symm
          | cons => rw [ht] at h; simp at h
        | cons => simp at h
      · simp at h

/-- The text of a node is never the end-of-file character alone. -/
theorem text_ne_eof (n : Node) : n.text ≠ [EOFChar] := by
  induction n using node_ind with
  | h rt nm ch cs p st v nd tk ih =>
    rw [text_eq]
    split
    · exact textLoop_ne_eof _ cs ih [] false (by simp)
    · split
      · simp
      · assumption

theorem _root_.Xbnf.Spec.Spaced.refl (l : List Rune) : Spaced l l := by
  induction l with
  | nil => exact .nil
  | cons a l ih => exact .keep ih

theorem _root_.Xbnf.Spec.Spaced.append {a b c d : List Rune} (h : Spaced a b) (h' : Spaced c d) :
    Spaced (a ++ c) (b ++ d) := by
  induction h with
  | nil => exact h'
  | keep _ ih => exact .keep ih
  | space _ ih => exact .space ih

theorem _root_.Xbnf.Spec.Spaced.trans {a b c : List Rune} (h : Spaced a b) (h' : Spaced b c) :
    Spaced a c := by
  induction h' generalizing a with
  | nil => exact h
  | @keep x l m _ ih =>
    cases h with
    | keep h => exact .keep (ih h)
    | space h => exact .space (ih h)
  | space _ ih => exact .space (ih h)

/-- Putting in spaces does not change the other characters. -/
theorem _root_.Xbnf.Spec.Spaced.solid {a b : List Rune} (h : Spaced a b) : solid a = solid b := by
  induction h with
  | nil => rfl
  | @keep c l m _ ih =>
    simp only [Spec.solid, List.filter_cons] at ih ⊢
    rw [ih]
  | space _ ih =>
    rw [ih]
    simp only [Spec.solid, List.filter_cons]
    rw [if_neg (by decide)]

theorem textLoop_spaced (b : Bool) (ns : List Node) (h : ∀ n ∈ ns, Spaced (yield n) n.text) :
    ∀ acc ps l, Spaced l acc → Spaced (l ++ yieldL ns) (textLoop b acc ps ns) := by
  induction ns with
  | nil => intro acc ps l hl; simpa [textLoop, yieldL] using hl
  | cons n ns ih =>
    intro acc ps l hl
    rw [textLoop, yieldL, ← List.append_assoc]
    apply ih fun x hx => h x (List.mem_cons_of_mem _ hx)
    have hn := h n List.mem_cons_self
    rcases joinText_cases b acc ps n.text n.sticky with h | h <;> rw [h]
    · exact hl.append hn
    · rw [List.append_assoc]; exact hl.append (.space hn)

/-- `Text` gives the characters of the leaves in order, with some spaces put in. -/
theorem text_spaced (n : Node) : Spaced (yield n) n.text := by
  induction n using node_ind with
  | h rt nm ch cs p st v nd tk ih =>
    rw [text_eq, yield_eq]
    split
    · exact textLoop_spaced _ cs ih [] false [] .nil
    · exact .refl _

theorem yieldL_append (a b : List Node) : yieldL (a ++ b) = yieldL a ++ yieldL b := by
  induction a with
  | nil => rfl
  | cons n a ih => simp [yieldL, ih]

theorem flatten_text_spaced (ns : List Node) : Spaced (yieldL ns) (ns.map Node.text).flatten := by
  induction ns with
  | nil => exact .nil
  | cons n ns ih => simpa [yieldL] using (text_spaced n).append ih

theorem flatten_text_ne_eof (ns : List Node) : (ns.map Node.text).flatten ≠ [EOFChar] := by
  induction ns with
  | nil => simp
  | cons n ns ih =>
    rw [List.map_cons, List.flatten_cons]
    intro h
    have hn := text_ne_eof n
    cases ht : n.text with
    | nil => rw [ht] at h; exact ih h
    | cons a l =>
      rw [ht] at h hn
      cases l with
      | nil =>
        simp only [List.cons_append, List.nil_append, List.cons.injEq] at h
        rw [h.1] at hn; exact hn rfl
      | cons => simp at h

theorem leaf_yield {l : List Rune} (h : l ≠ [EOFChar]) : (if l = [] then yieldL [] else
    if l = [EOFChar] then [] else l) = l := by
  rw [if_neg h]
  split
  · simp [yieldL, *]
  · rfl

/-- Merging keeps the characters of the leaves in order; it only puts in spaces. -/
theorem C28_characters (ns : List Node) : Spaced (yieldL ns) (yieldL (mergeStickyNodes ns)) :=
  merged_ind (P := fun n m => Spaced (yield n) (yield m)) (Q := fun ns ms => Spaced (yieldL ns) (yieldL ms))
    (R := fun ns ms => Spaced (yieldL ns) (yieldL ms))
    (fun _ => .refl _)
    (fun _ _ h => by rw [yield_eq, yield_eq]; split <;> first | exact h | exact .refl _)
    (fun _ _ h => by rw [yield_eq, yield_eq]; split <;> first | exact h | exact .refl _)
    .nil
    (fun {n m ns ms} h hs => by
      rw [yieldL, yieldL, yield_eq { m with sticky := false }]
      rw [yield_eq m] at h
      exact h.append hs)
    .nil
    (fun _ _ h hs => h.append hs)
    (fun {n run ns ms} _ _ _ hs => by
      rw [yieldL_append, yieldL.eq_2 (n := { n with chars := _, children := _, sticky := _ }), yield_eq { n with chars := _, children := _, sticky := _ }]
      rw [leaf_yield (flatten_text_ne_eof _)]
      exact (flatten_text_spaced _).append hs)
    (C28_merge ns)

theorem astText_spaced (ns : List Node) : Spaced (yieldL ns) (astText ns) := by
  induction ns with
  | nil => exact .nil
  | cons n ns ih => exact (text_spaced n).append ih

/-- The text of the AST keeps all its characters, in order, apart from white space. -/
theorem C28_text (ns : List Node) : solid (astText (mergeStickyNodes ns)) = solid (astText ns) := by
  rw [← (astText_spaced _).solid, ← (C28_characters ns).solid, (astText_spaced _).solid]

/-! ### Exact text -/

theorem text_sticky (n : Node) (b : Bool) : ({ n with sticky := b } : Node).text = n.text := by
  rw [text_eq, text_eq]

theorem joinText_both (acc t : List Rune) : joinText false acc true t true = acc ++ t := by
  unfold joinText
  split
  · simp
  · rfl

theorem textLoop_run (run ns : List Node) (h : ∀ x ∈ run, x.sticky = true) : ∀ acc,
    textLoop false acc true (run ++ ns) =
      textLoop false (acc ++ (run.map Node.text).flatten) true ns := by
  induction run with
  | nil => intro acc; simp
  | cons n run ih =>
    intro acc
    rw [List.cons_append, textLoop, h n List.mem_cons_self, joinText_both,
      ih fun x hx => h x (List.mem_cons_of_mem _ hx)]
    simp

theorem joinText_plain (acc t : List Rune) (a b : Bool) (h : (!a || !b) = true) :
    joinText false acc a t b = joinText false acc false t false := by
  unfold joinText
  split
  · simp [h]
  · rfl

theorem joinText_more (acc t u : List Rune) (b : Bool) (h : t ≠ []) :
    joinText false acc false (t ++ u) b = joinText false acc false t b ++ u := by
  cases t with
  | nil => exact absurd rfl h
  | cons x t =>
    unfold joinText
    cases acc.getLast? with
    | none => simp
    | some a =>
      simp only [List.cons_append, List.head?_cons]
      split <;> simp

theorem joinText_block (acc t : List Rune) (a b : Bool) : joinText true acc a t b = acc ++ t := by
  unfold joinText
  split
  · simp
  · rfl

theorem textLoop_block (ns : List Node) : ∀ acc ps,
    textLoop true acc ps ns = acc ++ (ns.map Node.text).flatten := by
  induction ns with
  | nil => intro acc ps; simp [textLoop]
  | cons n ns ih =>
    intro acc ps
    rw [textLoop, joinText_block, ih]
    simp

theorem astText_eq (ns : List Node) : astText ns = (ns.map Node.text).flatten := by
  induction ns with
  | nil => rfl
  | cons n ns ih => simp [astText, ih]

theorem _root_.Xbnf.Spec.Everywhere.children {p : Node → Prop} {n : Node} (h : Everywhere p n) : ∀ c ∈ n.children, Everywhere p c := by
  cases h with
  | mk _ hc => exact hc

theorem _root_.Xbnf.Spec.Everywhere.self {p : Node → Prop} {n : Node} (h : Everywhere p n) : p n := by
  cases h with
  | mk h _ => exact h

theorem merged_text {n : Node} {l : List Rune} (h : l ≠ [EOFChar]) :
    ({ n with chars := l, children := [], sticky := false } : Node).text = l := by
  rw [text_eq]
  simp only [textLoop]
  rw [if_neg h]
  split
  · simp [*]
  · rfl

/-- When every sticky node has text, merging does not change the text of the AST at all.  Missing for
the full statement: sticky nodes without text; see `C28_counterexample`. -/
theorem C28_exact_text_partial (ns : List Node) (h : ∀ n ∈ ns, StickyText n) :
    astText (mergeStickyNodes ns) = astText ns := by
  have := merged_ind
    (P := fun n m => StickyText n → m.text = n.text)
    (Q := fun ns ms => (∀ n ∈ ns, StickyText n) → (ms.map Node.text).flatten = (ns.map Node.text).flatten)
    (R := fun ns ms => (∀ n ∈ ns, StickyText n) →
      (ms.map Node.text).flatten = (ns.map Node.text).flatten ∧
      ∀ acc ps, (ps = true → ∀ x ∈ ns.head?, x.sticky = false) →
        textLoop false acc false ms = textLoop false acc ps ns)
    (fun _ _ => rfl)
    (fun {n cs} _ ht h hn => by
      rw [text_eq, text_eq]
      simp only [ht, beq_self_eq_true, textLoop_block, h hn.children])
    (fun {n cs} _ ht h hn => by
      rw [text_eq, text_eq]
      have hb : (n.ruleType == .block) = false := by simpa using ht
      simp only [hb]
      rw [(h hn.children).2 [] false (by simp)])
    (fun _ => rfl)
    (fun {n m ns ms} h hs hn => by
      simp only [List.map_cons, List.flatten_cons, text_sticky, h (hn n List.mem_cons_self),
        hs fun x hx => hn x (List.mem_cons_of_mem _ hx)])
    (fun _ => ⟨rfl, fun acc ps _ => rfl⟩)
    (fun {n m ns ms} hn hm h hs hst => by
      have h1 := h (hst n List.mem_cons_self)
      have h2 := hs fun x hx => hst x (List.mem_cons_of_mem _ hx)
      refine ⟨by simp [h1, h2.1], fun acc ps _ => ?_⟩
      rw [textLoop, textLoop, hn, hm, h1, joinText_plain acc n.text ps false (by simp)]
      exact h2.2 _ _ (by simp))
    (fun {n run ns ms} hn hr hh hs hst => by
      have h2 := hs fun x hx => hst x (List.mem_append_right _ hx)
      have hl := flatten_text_ne_eof (n :: run)
      refine ⟨by rw [List.map_cons, List.flatten_cons, merged_text hl, h2.1]; simp, fun acc ps hps => ?_⟩
      cases ps with
      | true =>
        have := hps rfl n rfl
        rw [hn] at this; cases this
      | false =>
        have hne := (hst n List.mem_cons_self).self hn
        rw [List.cons_append, textLoop, textLoop, hn, merged_text hl, textLoop_run _ _ hr,
          List.map_cons, List.flatten_cons, joinText_more _ _ _ _ hne,
          joinText_plain acc n.text false true (by simp)]
        exact h2.2 _ _ fun _ => hh)
    (C28_merge ns)
  rw [astText_eq, astText_eq]
  exact (this h).1

/-! ### Idempotence -/

theorem mergeLoop_id (ns : List Node) (h : countStickyL ns = 0)
    (hn : ∀ n ∈ ns, n.countSticky = 0 → n.mergeSticky = n) : mergeLoop [] none ns = ns := by
  induction ns with
  | nil => rfl
  | cons n ns ih =>
    rw [countStickyL] at h
    have h0 : n.countSticky = 0 := by omega
    have hs : n.sticky = false := by
      rw [countSticky_eq] at h0
      cases hb : n.sticky with
      | false => rfl
      | true => rw [hb] at h0; simp at h0
    simp only [mergeLoop, hs, Bool.false_eq_true, if_false]
    rw [mergeLoop_out, ih (by omega) fun x hx => hn x (List.mem_cons_of_mem _ hx),
      hn n List.mem_cons_self h0]
    rfl

theorem mergeBlockL_id (ns : List Node) (h : countStickyL ns = 0)
    (hn : ∀ n ∈ ns, n.countSticky = 0 → n.mergeSticky = n) : mergeBlockL ns = ns := by
  induction ns with
  | nil => rfl
  | cons n ns ih =>
    rw [countStickyL] at h
    have h0 : n.countSticky = 0 := by omega
    have hs : n.sticky = false := by
      rw [countSticky_eq] at h0
      cases hb : n.sticky with
      | false => rfl
      | true => rw [hb] at h0; simp at h0
    rw [mergeBlockL, ih (by omega) fun x hx => hn x (List.mem_cons_of_mem _ hx),
      hn n List.mem_cons_self h0]
    obtain ⟨rt, nm, ch, cs, p, st, v, nd, tk⟩ := n
    simp only at hs
    rw [hs]

theorem mergeSticky_id (n : Node) : n.countSticky = 0 → n.mergeSticky = n := by
  induction n using node_ind with
  | h rt nm ch cs p st v nd tk ih =>
    intro h
    rw [countSticky_eq] at h
    have hst : st = false := by
      cases st with
      | false => rfl
      | true => simp at h
    have hc : countStickyL cs = 0 := by simp only at h; omega
    subst hst
    rw [Node.mergeSticky]
    split
    · rfl
    · split
      · rw [mergeBlockL_id cs hc ih]
      · rw [mergeLoop_id cs hc ih]

/-- Trees without sticky nodes are not changed by merging. -/
theorem C44_merge_nothing (ns : List Node) (h : countStickyL ns = 0) : mergeStickyNodes ns = ns := by
  rw [mergeStickyNodes]
  split
  · rfl
  · exact mergeLoop_id ns h fun n _ => mergeSticky_id n

/-- Merging twice changes nothing more. -/
theorem C44_merge_idempotent (ns : List Node) :
    mergeStickyNodes (mergeStickyNodes ns) = mergeStickyNodes ns :=
  C44_merge_nothing _ (C28_no_sticky ns)

/-! ### Cases -/

/-- Non-vacuity: a run of two sticky nodes, one of them with children, below a node. -/
example : mergeStickyNodes [{ ruleType := .concatenate, children := sampleTree }] =
    [{ ruleType := .concatenate, children :=
      [{ ruleType := .char, name := runes "a", chars := [97, 98] },
       { ruleType := .group, children :=
          [{ ruleType := .char, name := runes "c", chars := [99], virt := true },
           { ruleType := .char, name := runes "d", chars := [100], nonData := true },
           { ruleType := .group, children :=
             [{ ruleType := .string, name := runes "e", chars := [101] }] }] }] }] := by rfl

/-- The hypothesis of `C28_exact_text_partial` holds for this tree, and there is something to merge. -/
example : (∀ n ∈ sampleTree, StickyText n) ∧ countStickyL sampleTree = 3 ∧
    astText sampleTree = runes "abc d e" := by
  refine ⟨?_, by decide +kernel, by decide +kernel⟩
  intro n hn
  have leaf : ∀ n : Node, n.children = [] → n.text ≠ [] → StickyText n := fun n h1 h2 =>
    .mk (fun _ => h2) (by rw [h1]; intro c hc; cases hc)
  simp only [sampleTree, List.mem_cons, List.not_mem_nil, or_false] at hn
  rcases hn with rfl | rfl | rfl
  · exact leaf _ rfl (by decide +kernel)
  · exact leaf _ rfl (by decide +kernel)
  · refine .mk (by decide +kernel) ?_
    intro c hc
    simp only [List.mem_cons, List.not_mem_nil, or_false] at hc
    rcases hc with rfl | rfl | rfl
    · exact leaf _ rfl (by decide +kernel)
    · exact leaf _ rfl (by decide +kernel)
    · refine .mk (by decide +kernel) ?_
      intro c hc
      simp only [List.mem_cons, List.not_mem_nil, or_false] at hc
      subst hc
      exact leaf _ rfl (by decide +kernel)

/-- Merging can put a space into the text: `x`, then an empty sticky node, then a sticky `b`, read
`xb` before and `x b` after. -/
theorem C28_counterexample : ∃ n : Node, n.text = runes "xb" ∧ n.mergeSticky.text = runes "x b" :=
  ⟨{ ruleType := .concatenate, children :=
      [{ ruleType := .char, chars := [120] }, { ruleType := .option, sticky := true },
       { ruleType := .char, chars := [98], sticky := true }] }, by decide +kernel, by decide +kernel⟩

end Xbnf.Props
