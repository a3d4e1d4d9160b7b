import Verif.Lemmas.NodeEval
import Verif.Props.InPlace
import Verif.Props.Joined
/-
C84: the trees that come out of an evaluation are made of new nodes, each in one place, and an evaluation changes no node that was there before.
-/
namespace Xbnf.Props
open Spec Grammar

theorem HeldAt.new {h h' : Heap} {k : Nat} {ts : List Node} {ps : List Nat} (g : Enlarged h h') (hh : HeldAt h'.mem h.next h'.next k ts ps) : NewTrees h h' ts ps := by
  obtain ⟨fp, a, b, _⟩ := hh
  exact ⟨g, fp, a, b⟩

/-- **C84**, `EvalRule`. -/
theorem C84_rule (g : Grammar) (fuel : Nat) (name : Name) (sample : List Rune) (h : Heap) :
    AgreeBy (SameResult h) (g.evalRule fuel name sample) (Ptr.evalRule g fuel name sample h) := by
  unfold Grammar.evalRule Ptr.evalRule
  cases g.getRecord name with
  | none => exact .ok ⟨rfl, HeldAt.new (Enlarged.refl h) (HeldAt.nil _ _ _ 0)⟩
  | some r =>
    refine AgreeBy.bind (eval_heap g.env fuel r.rule SUGGEST_SKIP (Stream.ofChars sample) h) ?_
    rintro ⟨res, s⟩ ⟨res', s', h'⟩ ⟨_, g, hr⟩
    exact .ok ⟨hr.1, HeldAt.new g hr.2⟩

theorem textNodes_same (text : List Rune) (h : Heap) (k : Nat) : Enlarged h (Ptr.textNodes text h).2 ∧
    HeldAt (Ptr.textNodes text h).2.mem h.next (Ptr.textNodes text h).2.next (k + 1) (Grammar.textNodes text) (Ptr.textNodes text h).1 := by
  unfold Ptr.textNodes Grammar.textNodes
  by_cases hl : text.length > 0
  · simp only [if_pos hl]
    exact ⟨(Enlarged.fresh h).write (Nat.le_refl _) _, HeldAt.node (m := h.mem) (lo := h.next + 1) (hi := h.next + 1) (k := k)
      ({ ruleType := .text, name := runes "_", chars := text } : Node) (ps := []) (HeldAt.nil _ _ _ _) (Nat.le_refl _) (Nat.lt_succ_self _) (Nat.le_refl _)⟩
  · simp only [if_neg hl]
    exact ⟨Enlarged.refl h, HeldAt.nil _ _ _ _⟩

theorem embed_loop_same (env : Env) (fuel : Nat) (rule : Rule) (h0 : Heap) :
    ∀ (n : Nat) (kids : List Node) (ks : List Nat) (text : List Rune) (cs : Stream) (h : Heap), Enlarged (Ptr.fresh h0) h →
      HeldAt h.mem (h0.next + 1) h.next (fuel + 1) kids ks →
      AgreeBy (fun x y => Enlarged (Ptr.fresh h0) y.2 ∧ HeldAt y.2.mem (h0.next + 1) y.2.next (fuel + 1) x y.1)
        (Grammar.embedLoop env fuel rule n kids text cs) (Ptr.embedLoop env fuel rule n ks text cs h) := by
  intro n
  induction n with
  | zero => intro kids ks text cs h _ _; exact .oof
  | succ n ih =>
    intro kids ks text cs h hg hh
    rw [Grammar.embedLoop, Ptr.embedLoop]
    refine AgreeBy.bind (eval_heap env fuel rule NOT_SKIP cs h) ?_
    rintro ⟨res, cs1⟩ ⟨res', cs1', h1⟩ ⟨e, g, hr⟩
    dsimp only at e g hr ⊢
    subst e
    obtain ⟨f1, f2, f3, f4, f5⟩ := hr.fields
    have hg1 := hg.trans g
    have hn : h0.next + 1 ≤ h.next := hg.next
    have hn1 : h0.next + 1 ≤ h1.next := hg1.next
    obtain ⟨tg, th⟩ := textNodes_same text h1 fuel
    rw [f4]
    rcases sameRes_node hr with ⟨e1, e2⟩ | ⟨t, p, e1, e2, e3⟩
    · rw [e1, e2]
      dsimp only
      split
      · exact .ok ⟨hg1.trans tg, HeldAt.append ((hh.grown g).congr fun q _ hq => tg.old q hq) th hn1 tg.next⟩
      · exact ih _ _ _ _ _ hg1 (hh.grown g)
    · rw [e1, e2]
      dsimp only
      refine ih _ _ _ _ _ (hg1.trans tg) ?_
      -- the text is made after the match, so its address is the greater one
      obtain ⟨fp, ⟨a1, a2⟩, a3, a4⟩ := (hh.grown g).congr (m' := (Ptr.textNodes text h1).2.mem) fun q _ hq => tg.old q hq
      obtain ⟨fq, ⟨b1, b2⟩, b3, b4⟩ := th
      obtain ⟨fr, ⟨c1, c2⟩, c3, c4⟩ := e3.congr (m' := (Ptr.textNodes text h1).2.mem) fun q _ hq => tg.old q hq
      have tn := tg.next
      obtain ⟨fp', ⟨a1', a2'⟩, a3', a4'⟩ := hh
      have hfp : fp' = fp := (showsL_unique (showsL_congr a1' fun q hq => by rw [tg.old q (by have := a3' q hq; have := g.next; omega), g.old q (a3' q hq).2]) a1).2
      subst hfp
      refine ⟨fp' ++ fq ++ fr, ⟨showsL_append (showsL_append a1 b1) c1, ?_⟩, ?_, ?_⟩
      · refine List.nodup_append.2 ⟨List.nodup_append.2 ⟨a2, b2, fun q hq q' hq' => ?_⟩, c2, fun q hq q' hq' => ?_⟩
        · have := a3 q hq; have := b3 q' hq'; omega
        · have := c3 q' hq'
          rcases List.mem_append.1 hq with hq | hq
          · have := a3' q hq; omega
          · have := b3 q hq; omega
      · intro q hq
        rcases List.mem_append.1 hq with hq | hq
        · rcases List.mem_append.1 hq with hq | hq
          · have := a3 q hq; omega
          · have := b3 q hq; omega
        · have := c3 q hq; omega
      · rw [levelsL_append, levelsL_append]; omega

/-- **C84**, `EvalEmbed`. -/
theorem C84_embed (g : Grammar) (fuel : Nat) (name : Name) (sample : List Rune) (h : Heap) :
    AgreeBy (SameResult h) (g.evalEmbed fuel name sample) (Ptr.evalEmbed g fuel name sample h) := by
  unfold Grammar.evalEmbed Ptr.evalEmbed
  cases g.getRecord name with
  | none => exact .ok ⟨rfl, HeldAt.new (Enlarged.refl h) (HeldAt.nil _ _ _ 0)⟩
  | some r =>
    refine AgreeBy.bind (embed_loop_same g.env fuel r.rule h fuel [] [] [] _ _ (Enlarged.refl _) (HeldAt.nil _ _ _ _)) ?_
    rintro kids ⟨ks, h'⟩ ⟨g, hh⟩
    have hn : h.next + 1 ≤ h'.next := g.next
    exact .ok ⟨rfl, HeldAt.new (((Enlarged.fresh h).trans g).write (Nat.le_refl _) _)
      (HeldAt.node ({ ruleType := .embed, name := name, children := kids } : Node) hh (Nat.le_refl _) (Nat.lt_succ_self _) hn)⟩

theorem roots_loop_same (env : Env) (fuel : Nat) (flag : Int) :
    ∀ (rs : List Record) (mr : List Rune) (s : Stream) (h : Heap) (lo : Nat), lo ≤ h.next →
      AgreeBy (fun x y => y.2.1 = x.2.1 ∧ x.2.2 = y.2.2.1 ∧ Enlarged h y.2.2.2 ∧ AllSame y.2.2.2.mem lo y.2.2.2.next fuel x.1 y.1)
        (rootsLoop env fuel flag rs mr s) (Ptr.rootsLoop env fuel flag rs mr s h) := by
  intro rs
  induction rs with
  | nil => intro mr s h lo _; exact .ok ⟨rfl, rfl, Enlarged.refl h, .nil⟩
  | cons r rs ih =>
    intro mr s h lo hlo
    rw [rootsLoop, Ptr.rootsLoop]
    refine AgreeBy.bind (eval_heap env fuel r.rule flag (s.pushBack mr) h) ?_
    rintro ⟨res, cs⟩ ⟨res', cs', h'⟩ ⟨e, g, hr⟩
    dsimp only at e g hr ⊢
    subst e
    obtain ⟨f1, f2, f3, f4, f5⟩ := hr.fields
    rw [f3]
    refine AgreeBy.bind (ih _ _ h' lo (Nat.le_trans hlo g.next)) ?_
    rintro ⟨ms, st2, s2⟩ ⟨ms', st2', s2', h2⟩ ⟨a1, a2, a3, a4⟩
    dsimp only at a1 a2 a3 a4 ⊢
    subst a1 a2
    rcases sameRes_node hr with ⟨e1, e2⟩ | ⟨t, p, e1, e2, e3⟩
    · rw [e1, e2]
      exact .ok ⟨rfl, rfl, g.trans a3, a4⟩
    · rw [e1, e2]
      exact .ok ⟨rfl, rfl, g.trans a3, .cons ((hr.weaken hlo (Nat.le_refl _) (Nat.le_refl _)).grown a3) a4⟩

theorem AllSame.get {m : NodeMem} {lo hi k : Nat} {rs : List Res} {rs' : List PRes} (h : AllSame m lo hi k rs rs') :
    ∀ i : Nat, (rs[i]? = none ∧ rs'[i]? = none) ∨ ∃ r r', rs[i]? = some r ∧ rs'[i]? = some r' ∧ SameRes m lo hi k r r' := by
  induction h with
  | nil => intro i; exact .inl ⟨by simp, by simp⟩
  | @cons r r' rs rs' hr hs ih =>
    intro i
    cases i with
    | zero => exact .inr ⟨r, r', by simp, by simp, hr⟩
    | succ i => simpa using ih i

theorem inOrder_same {m : NodeMem} {lo hi k : Nat} {rs : List Res} {rs' : List PRes} (h : AllSame m lo hi k rs rs') (is : List Nat) :
    AllSame m lo hi k (Ptr.inOrder is rs) (Ptr.inOrder is rs') := by
  unfold Ptr.inOrder
  induction is with
  | nil => exact .nil
  | cons i is ih =>
    rw [List.filterMap_cons, List.filterMap_cons]
    rcases h.get i with ⟨e1, e2⟩ | ⟨r, r', e1, e2, hr⟩
    · rw [e1, e2]; exact ih
    · rw [e1, e2]; exact .cons hr ih

/-- What the loop of `EvalRaw` does. -/
def SameRaw (h : Heap) (k : Nat) (x : Except RawErr (List Node) × Stream) (y : Except RawErr (List Nat) × Stream × Heap) : Prop :=
  y.2.1 = x.2 ∧ Enlarged h y.2.2 ∧
    match x.1, y.1 with
    | .ok ts, .ok ps => HeldAt y.2.2.mem h.next y.2.2.next k ts ps
    | .error e, .error e' => e' = e
    | _, _ => False

theorem raw_loop_same (env : Env) (fuel : Nat) (roots : List Record) (sch : Ptr.Sched) (h0 : Heap) :
    ∀ (n i : Nat) (nodes : List Node) (ns : List Nat) (flag : Int) (unused : List Rune) (s : Stream) (h : Heap), Enlarged h0 h →
      HeldAt h.mem h0.next h.next fuel nodes ns →
      AgreeBy (SameRaw h0 fuel) (rawLoop env fuel roots sch.value n i nodes flag unused s) (Ptr.rawLoop env fuel roots sch n i ns flag unused s h) := by
  intro n
  induction n with
  | zero => intro i nodes ns flag unused s h _ _; exact .oof
  | succ n ih =>
    intro i nodes ns flag unused s h hg hh
    rw [rawLoop, Ptr.rawLoop]
    dsimp only
    by_cases hE : (s.pushBack unused).peek = EOFChar
    · rw [if_pos hE, if_pos hE]
      have hl := hh.length
      by_cases h0' : nodes.length = 0
      · rw [if_pos h0', if_pos (by omega)]
        exact .ok ⟨rfl, hg, rfl⟩
      · rw [if_neg h0', if_neg (by omega)]
        exact .ok ⟨rfl, hg, hh⟩
    · rw [if_neg hE, if_neg hE]
      refine AgreeBy.bind (roots_loop_same env fuel flag _ [] _ h h.next (Nat.le_refl _)) ?_
      rintro ⟨ms, mr, s2⟩ ⟨ms', mr', s2', h2⟩ ⟨a1, a2, a3, a4⟩
      dsimp only at a1 a2 a3 a4 ⊢
      subst a1 a2
      have hp := pick_heap (inOrder_same a4 (sch.order i ms.length))
      rw [a4.len]
      have hval : sch.value.matched i ms = Ptr.inOrder (sch.order i ms.length) ms := rfl
      rw [hval]
      generalize pick (Ptr.inOrder (sch.order i ms.length) ms) = x at hp ⊢
      generalize Ptr.pick (Ptr.inOrder (sch.order i ms.length) ms') = y at hp ⊢
      cases hp with
      | none => exact .ok ⟨rfl, hg.trans a3, rfl⟩
      | ambiguous hx hy => exact .ok ⟨rfl, hg.trans a3, rfl⟩
      | @found r r' hr =>
        obtain ⟨f1, f2, f3, f4, f5⟩ := hr.fields
        dsimp only
        rw [hr.count, f5]
        refine AgreeBy.same fun unused => ?_
        exact ih _ _ _ _ _ _ _ (hg.trans a3) (HeldAt.append (hh.congr fun q _ hq => a3.old q hq) hr.2 hg.next a3.next)

theorem raw_same (g : Grammar) (fuel : Nat) (sch : Ptr.Sched) (s : Stream) (h : Heap) :
    AgreeBy (SameRaw h fuel) (g.evalRaw fuel sch.value s) (Ptr.evalRaw g fuel sch s h) := by
  unfold Grammar.evalRaw Ptr.evalRaw
  by_cases hE : s.peek = EOFChar
  · rw [if_pos hE, if_pos hE]
    exact .ok ⟨rfl, Enlarged.refl h, rfl⟩
  · rw [if_neg hE, if_neg hE]
    exact raw_loop_same g.env fuel g.roots sch h fuel 0 [] [] SUGGEST_SKIP [] s h (Enlarged.refl h) (HeldAt.nil _ _ _ _)

/-- **C84**, `EvalRaw`. -/
theorem C84_raw (g : Grammar) (fuel : Nat) (sch : Ptr.Sched) (s : Stream) (h : Heap) :
    AgreeBy (SameDoc h) (g.evalRaw fuel sch.value s) (Ptr.evalRaw g fuel sch s h) := by
  refine AgreeBy.mono (raw_same g fuel sch s h) ?_
  rintro ⟨x, s1⟩ ⟨y, s1', h1⟩ ⟨e, gr, hm⟩
  refine ⟨e, ?_⟩
  dsimp only at hm gr ⊢
  cases x with
  | error e =>
    cases y with
    | error e' => exact ⟨hm, HeldAt.new gr (HeldAt.nil _ _ _ 0)⟩
    | ok _ => exact hm
  | ok ts =>
    cases y with
    | error e' => exact hm
    | ok _ => exact HeldAt.new gr hm

/-- **C84**, `Eval`, at every level. -/
theorem C84_eval (g : Grammar) (fuel : Nat) (sch : Ptr.Sched) (s : Stream) (level : Int) (h : Heap) :
    AgreeBy (SameDoc h) (g.evalAST fuel sch.value s level) (Ptr.evalAST g fuel sch s level h) := by
  unfold Grammar.evalAST Ptr.evalAST
  refine AgreeBy.bind (raw_same g fuel sch s h) ?_
  rintro ⟨x, s1⟩ ⟨y, s1', h1⟩ ⟨e, gr, hm⟩
  dsimp only at e hm gr ⊢
  subst e
  cases x with
  | error e =>
    cases y with
    | error e' => exact .ok ⟨rfl, hm, HeldAt.new gr (HeldAt.nil _ _ _ 0)⟩
    | ok _ => exact hm.elim
  | ok ts =>
    cases y with
    | error e' => exact hm.elim
    | ok ps =>
      obtain ⟨fp, hf, hb, hl⟩ := hm
      obtain ⟨ps', m', fp', e1, i1⟩ := C83_simplify hf level hl
      dsimp only
      rw [e1, Exec.ok_bind]
      exact .ok ⟨rfl, ⟨gr.next, fun q hq => by
        show m' q = _
        rw [i1.other q fun hc => by have := hb q hc; omega, gr.old q hq]⟩, fp', C83_forest hf i1, fun q hq => hb q (i1.sub.subset hq)⟩

theorem inOrder_range {α : Type} : ∀ l : List α, Ptr.inOrder (List.range l.length) l = l
  | [] => rfl
  | a :: l => by
    have ih := inOrder_range l
    unfold Ptr.inOrder at ih ⊢
    rw [List.length_cons, List.range_succ_eq_map, List.filterMap_cons, List.filterMap_map]
    have hc : ((fun i => (a :: l)[i]?) ∘ Nat.succ) = fun i => l[i]? := by funext i; simp
    rw [hc, ih]
    rfl

/-- The orders of maps that a run can meet are orders that an evaluation with values can meet. -/
theorem C84_fair {sch : Ptr.Sched} (h : sch.Fair) : sch.value.Fair := by
  refine ⟨h.1, fun i l => ?_⟩
  have h1 : (Ptr.inOrder (sch.order i l.length) l).Perm (Ptr.inOrder (List.range l.length) l) := (h.2 i l.length).filterMap _
  have h2 : Ptr.inOrder (List.range l.length) l = l := inOrder_range l
  rw [h2] at h1
  exact h1

/-- Trees that were in memory before an evaluation are there afterwards, and have no node in common with the new ones. -/
theorem C84_kept {h h' : Heap} {ts us : List Node} {ps qs gp : List Nat} (hn : NewTrees h h' ts ps) (hu : Forest h.mem us qs gp) (hb : ∀ q ∈ gp, q < h.next) :
    Forest h'.mem us qs gp ∧ ∃ fp, Forest h'.mem (us ++ ts) (qs ++ ps) (gp ++ fp) ∧ ∀ q ∈ gp ++ fp, q < h'.next := by
  obtain ⟨g, fp, ⟨a, n⟩, b⟩ := hn
  have hk : ShowsL h'.mem us qs gp := showsL_congr hu.1 fun q hq => g.old q (hb q hq)
  refine ⟨⟨hk, hu.2⟩, fp, ⟨showsL_append hk a, List.nodup_append.2 ⟨hu.2, n, fun q hq q' hq' => ?_⟩⟩, fun q hq => ?_⟩
  · have := hb q hq; have := b q' hq'; omega
  · rcases List.mem_append.1 hq with hq | hq
    · have := hb q hq; have := g.next; omega
    · exact (b q hq).2

/-- **C84**, one after the other: two documents are evaluated; both ASTs are in memory afterwards, and no node is in both. -/
theorem C84_two {g1 g2 : Grammar} {f1 f2 : Nat} {sch1 sch2 : Ptr.Sched} {s1 s2 s1' s2' : Stream} {l1 l2 : Int} {h h1 h2 : Heap} {ps1 ps2 : List Nat}
    (e1 : Ptr.evalAST g1 f1 sch1 s1 l1 h = .ok (.ok ps1, s1', h1)) (e2 : Ptr.evalAST g2 f2 sch2 s2 l2 h1 = .ok (.ok ps2, s2', h2)) :
    ∃ ts1 ts2 fp, g1.evalAST f1 sch1.value s1 l1 = .ok (.ok ts1, s1') ∧ g2.evalAST f2 sch2.value s2 l2 = .ok (.ok ts2, s2') ∧
      Forest h2.mem (ts1 ++ ts2) (ps1 ++ ps2) fp := by
  have key : ∀ {g : Grammar} {f : Nat} {sch : Ptr.Sched} {s s' : Stream} {l : Int} {h h' : Heap} {ps : List Nat},
      Ptr.evalAST g f sch s l h = .ok (.ok ps, s', h') → ∃ ts, g.evalAST f sch.value s l = .ok (.ok ts, s') ∧ NewTrees h h' ts ps := by
    intro g f sch s s' l h h' ps e
    have := C84_eval g f sch s l h
    rw [e] at this
    generalize g.evalAST f sch.value s l = x at this
    cases this with
    | @ok a _ ha =>
      obtain ⟨a, s2⟩ := a
      obtain ⟨ha, hb⟩ := ha
      dsimp only at ha hb
      subst ha
      cases a with
      | error _ => exact hb.elim
      | ok ts => exact ⟨ts, rfl, hb⟩
  obtain ⟨ts1, a1, n1⟩ := key e1
  obtain ⟨ts2, a2, n2⟩ := key e2
  obtain ⟨_, fp1, b1, b2⟩ := n1
  obtain ⟨_, fp2, c1, _⟩ := C84_kept n2 b1 fun q hq => (b2 q hq).2
  exact ⟨ts1, ts2, _, a1, a2, c1⟩

/-- … and simplifying the first of them at any level leaves the second as it is. -/
theorem C84_then_simplify {m : NodeMem} {ts1 ts2 : List Node} {ps1 ps2 fp : List Nat} (hl : ps1.length = ts1.length) (hf : Forest m (ts1 ++ ts2) (ps1 ++ ps2) fp)
    (level : Int) {fuel : Nat} (hd : levelsL ts1 ≤ fuel) :
    ∃ ps1' m' fp', Ptr.simplify level fuel ps1 m = .ok (ps1', m') ∧ Forest m' (simplify level ts1 ++ ts2) (ps1' ++ ps2) fp' := by
  have split : ∀ {us1 us2 : List Node} {qs1 qs2 gp : List Nat}, qs1.length = us1.length → ShowsL m (us1 ++ us2) (qs1 ++ qs2) gp →
      ∃ g1 g2, gp = g1 ++ g2 ∧ ShowsL m us1 qs1 g1 ∧ ShowsL m us2 qs2 g2 := by
    intro us1
    induction us1 with
    | nil =>
      intro us2 qs1 qs2 gp hlen h
      cases qs1 with
      | nil => exact ⟨[], gp, rfl, .nil, h⟩
      | cons _ _ => simp at hlen
    | cons t us1 ih =>
      intro us2 qs1 qs2 gp hlen h
      cases qs1 with
      | nil => simp at hlen
      | cons q qs1 =>
        cases h with
        | cons h1 h2 =>
          obtain ⟨g1, g2, e, a, b⟩ := ih (by simpa using hlen) h2
          subst e
          exact ⟨_, g2, (List.append_assoc _ _ _).symm, .cons h1 a, b⟩
  obtain ⟨f1, f2, e, a, b⟩ := split hl hf.1
  subst e
  obtain ⟨n1, n2, n3⟩ := List.nodup_append.1 hf.2
  obtain ⟨ps1', m', fp', e1, i1⟩ := C83_simplify ⟨a, n1⟩ level hd
  refine ⟨ps1', m', fp' ++ f2, e1, showsL_append i1.shows (C83_apart i1 b fun q hq hc => n3 q hc q hq rfl), List.nodup_append.2 ⟨n1.sublist i1.sub, n2, ?_⟩⟩
  exact fun q hq q' hq' => n3 q (i1.sub.subset hq) q' hq'

/-! ### Cases -/

/-- Visiting maps in the order in which they were filled. -/
def oneByOne : Ptr.Sched := { roots := fun _ l => l, order := fun _ n => List.range n }

theorem oneByOne_fair : oneByOne.Fair := ⟨fun _ l => .refl l, fun _ _ => .refl _⟩

/-- `Eval` of a document with `recordGrammar`, and then of another. -/
def recordTwice (level : Int) : Exec (Except RawErr (List Nat) × Except RawErr (List Nat) × Heap) := do
  let (x, _, h) ← Ptr.evalAST recordGrammar 40 oneByOne (Stream.ofChars (runes "ab = 1;")) level {}
  let (y, _, h) ← Ptr.evalAST recordGrammar 40 oneByOne (Stream.ofChars (runes "c=2; d=3;")) level h
  .ok (x, y, h)

/-- The addresses of the two ASTs, how many nodes have been made; and of the nodes that are asked for the children and the characters. -/
def seenAt (x : Exec (Except RawErr (List Nat) × Except RawErr (List Nat) × Heap)) (at' : List Nat) : List (List Nat) × List (List Nat) × List (List Rune) :=
  match x with
  | .ok (.ok ps, .ok qs, h) => ([ps, qs, [h.next]], at'.map fun q => (h.mem q).kids, at'.map fun q => (h.mem q).chars)
  | _ => ([], [], [])

/-- Non-vacuity: both documents have ASTs.  The nodes of the first are still there when the second has been made. -/
example : seenAt (recordTwice LevelRaw) [0, 1, 2] = ([[0], [8, 15], [22]], [[1, 4, 5, 7], [2, 3], []], [[], [], runes "a"]) := by decide +kernel

example : seenAt (recordTwice LevelBasic) [0, 1, 2] = ([[0], [8, 15], [22]], [[1, 4, 5, 7], [], []], [[], runes "ab", runes "a"]) := by decide +kernel

/-- A reference turns the virtual mark of the node it gets, where it is; a choice and an option make their own. -/
def marking : Grammar :=
  let a : Rule := .char { name := runes "a" } 97 false
  let r : Rule := .concat { name := runes "r" } [.ref { virt := true } (runes "a"), .option {} (.str {} (runes "x")), .ref {} (runes "a")]
  { records := [⟨runes "a", a, 1⟩, ⟨runes "r", r, 2⟩], roots := [⟨runes "r", r, 2⟩], maxLine := 2 }

example : (match Ptr.evalRule marking 20 (runes "r") (runes "aa") {} with
    | .ok (res, h) => (res.node, (h.mem 0).kids, (h.mem 1).virt, (h.mem 3).virt, h.next)
    | _ => default) = (some 0, [1, 2, 3], true, false, 4) := by decide +kernel

/-- `EvalEmbed`: the texts in between have nodes too. -/
example : (match Ptr.evalEmbed marking 30 (runes "a") (runes "xaya") {} with
    | .ok (res, h) => (res.node, (h.mem 0).kids.map fun q => ((h.mem q).name, (h.mem q).chars))
    | _ => default) = (some 0, [(runes "_", runes "x"), (runes "a", runes "a"), (runes "_", runes "y"), (runes "a", runes "a")]) := by decide +kernel

end Xbnf.Props
