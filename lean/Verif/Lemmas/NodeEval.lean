import Verif.Spec.NodeEval
import Verif.Lemmas.NodeHeap
import Verif.Lemmas.WorkFuel
/-
The evaluators that make node objects agree with those on values.
-/
namespace Xbnf.Props
open Spec

theorem _root_.Xbnf.Spec.AgreeBy.bind {α β γ δ : Type} {R : α → β → Prop} {S : γ → δ → Prop} {x : Exec α} {y : Exec β} {f : α → Exec γ} {g : β → Exec δ} (h : AgreeBy R x y)
    (hf : ∀ a b, R a b → AgreeBy S (f a) (g b)) : AgreeBy S (x >>= f) (y >>= g) := by
  cases h with
  | ok h => exact hf _ _ h
  | panic => exact .panic
  | oof => exact .oof

theorem _root_.Xbnf.Spec.AgreeBy.same {α γ δ : Type} {S : γ → δ → Prop} {x : Exec α} {f : α → Exec γ} {g : α → Exec δ}
    (hf : ∀ a, AgreeBy S (f a) (g a)) : AgreeBy S (x >>= f) (x >>= g) := by
  cases x with
  | ok a => exact hf a
  | panic => exact .panic
  | oof => exact .oof

theorem _root_.Xbnf.Spec.AgreeBy.mono {α β : Type} {R S : α → β → Prop} {x : Exec α} {y : Exec β} (h : AgreeBy R x y) (hRS : ∀ a b, R a b → S a b) : AgreeBy S x y := by
  cases h with
  | ok h => exact .ok (hRS _ _ h)
  | panic => exact .panic
  | oof => exact .oof

/-! ### Memory -/

theorem _root_.Xbnf.Spec.Enlarged.refl (h : Heap) : Enlarged h h := ⟨Nat.le_refl _, fun _ _ => rfl⟩

theorem _root_.Xbnf.Spec.Enlarged.trans {h1 h2 h3 : Heap} (a : Enlarged h1 h2) (b : Enlarged h2 h3) : Enlarged h1 h3 :=
  ⟨Nat.le_trans a.next b.next, fun q hq => by rw [b.old q (Nat.lt_of_lt_of_le hq a.next), a.old q hq]⟩

theorem _root_.Xbnf.Spec.Enlarged.fresh (h : Heap) : Enlarged h (Ptr.fresh h) := ⟨Nat.le_succ _, fun _ _ => rfl⟩

/-- A write to a new node. -/
theorem _root_.Xbnf.Spec.Enlarged.write {h h' : Heap} (g : Enlarged h h') {p : Nat} (hp : h.next ≤ p) (o : NodeObj) : Enlarged h (Ptr.write p o h') :=
  ⟨g.next, fun q hq => by show (h'.mem.put p o) q = _; rw [put_other _ _ (by omega), g.old q hq]⟩

theorem _root_.Xbnf.Spec.HeldAt.nil (m : NodeMem) (lo hi k : Nat) : HeldAt m lo hi k [] [] := ⟨[], ⟨.nil, .nil⟩, by simp, by simp [levelsL]⟩

theorem _root_.Xbnf.Spec.HeldAt.weaken {m : NodeMem} {lo hi k lo' hi' k' : Nat} {ts : List Node} {ps : List Nat} (h : HeldAt m lo hi k ts ps) (h1 : lo' ≤ lo) (h2 : hi ≤ hi')
    (h3 : k ≤ k') : HeldAt m lo' hi' k' ts ps := by
  obtain ⟨fp, a, b, c⟩ := h
  exact ⟨fp, a, fun q hq => by have := b q hq; omega, by omega⟩

theorem _root_.Xbnf.Spec.HeldAt.congr {m m' : NodeMem} {lo hi k : Nat} {ts : List Node} {ps : List Nat} (h : HeldAt m lo hi k ts ps) (h1 : ∀ q, lo ≤ q → q < hi → m' q = m q) :
    HeldAt m' lo hi k ts ps := by
  obtain ⟨fp, ⟨a, n⟩, b, c⟩ := h
  exact ⟨fp, ⟨showsL_congr a fun q hq => h1 q (b q hq).1 (b q hq).2, n⟩, b, c⟩

theorem _root_.Xbnf.Spec.HeldAt.grown {h h' : Heap} {lo k : Nat} {ts : List Node} {ps : List Nat} (a : HeldAt h.mem lo h.next k ts ps) (g : Enlarged h h') :
    HeldAt h'.mem lo h'.next k ts ps :=
  (a.congr fun q _ hq => g.old q hq).weaken (Nat.le_refl _) g.next (Nat.le_refl _)

theorem _root_.Xbnf.Spec.HeldAt.append {m : NodeMem} {lo mid hi k : Nat} {ts ts' : List Node} {ps ps' : List Nat} (h : HeldAt m lo mid k ts ps) (h' : HeldAt m mid hi k ts' ps')
    (h1 : lo ≤ mid) (h2 : mid ≤ hi) : HeldAt m lo hi k (ts ++ ts') (ps ++ ps') := by
  obtain ⟨fp, ⟨a, n⟩, b, c⟩ := h
  obtain ⟨fp', ⟨a', n'⟩, b', c'⟩ := h'
  refine ⟨fp ++ fp', ⟨showsL_append a a', List.nodup_append.2 ⟨n, n', fun q hq q' hq' => ?_⟩⟩, fun q hq => ?_, by rw [levelsL_append]; omega⟩
  · have := b q hq; have := b' q' hq'; omega
  · rcases List.mem_append.1 hq with hq | hq
    · have := b q hq; omega
    · have := b' q hq; omega

theorem _root_.Xbnf.Spec.HeldAt.length {m : NodeMem} {lo hi k : Nat} {ts : List Node} {ps : List Nat} (h : HeldAt m lo hi k ts ps) : ps.length = ts.length := by
  obtain ⟨fp, ⟨a, _⟩, _⟩ := h
  exact a.length

/-- A node over others that are in memory. -/
theorem _root_.Xbnf.Spec.HeldAt.node {m : NodeMem} {lo hi k : Nat} {ps : List Nat} (t : Node) (h : HeldAt m lo hi k t.children ps) {p lo' : Nat} (hp : lo' ≤ p) (hl : p < lo)
    (hh : lo ≤ hi) : HeldAt (m.put p (t.obj ps)) lo' hi (k + 1) [t] [p] := by
  obtain ⟨fp, ⟨a, n⟩, b, c⟩ := h
  have hnot : p ∉ fp := fun hc => by have := b p hc; omega
  refine ⟨p :: fp, ⟨showsL_one (.node (put_same _ _ _) (showsL_congr a fun q hq => put_other _ _ fun e => hnot (e ▸ hq))), List.nodup_cons.2 ⟨hnot, n⟩⟩,
    fun q hq => ?_, ?_⟩
  · rcases List.mem_cons.1 hq with rfl | hq
    · omega
    · have := b q hq; omega
  · have := levelsL_children t
    simp only [levelsL]
    omega

theorem _root_.Xbnf.Spec.HeldAt.one {m : NodeMem} {lo hi k : Nat} {t : Node} {p : Nat} (h : HeldAt m lo hi k [t] [p]) :
    ∃ fp ks, Shows m t p fp ∧ fp.Nodup ∧ (∀ q ∈ fp, lo ≤ q ∧ q < hi) ∧ t.levels ≤ k ∧ m p = t.obj ks ∧ ks.length = t.children.length ∧ lo ≤ p ∧ p < hi := by
  obtain ⟨fp, ⟨a, n⟩, b, c⟩ := h
  cases a with
  | @cons _ _ f _ _ fp' hsh hs =>
    cases hs
    rw [List.append_nil] at n b
    obtain ⟨f', rfl, ks, hk, hkc⟩ := Shows.head hsh
    refine ⟨_, ks, hsh, n, b, ?_, hk, hkc.length, (b p (by simp)).1, (b p (by simp)).2⟩
    simp only [levelsL] at c
    omega

theorem sameRes_node {m : NodeMem} {lo hi k : Nat} {r : Res} {r' : PRes} (h : SameRes m lo hi k r r') :
    (r.node = none ∧ r'.node = none) ∨ ∃ t p, r.node = some t ∧ r'.node = some p ∧ HeldAt m lo hi k [t] [p] := by
  obtain ⟨_, h⟩ := h
  have hl := h.length
  cases h1 : r.node with
  | none =>
    cases h2 : r'.node with
    | none => exact .inl ⟨rfl, rfl⟩
    | some p => rw [h1, h2] at hl; simp at hl
  | some t =>
    cases h2 : r'.node with
    | none => rw [h1, h2] at hl; simp at hl
    | some p => rw [h1, h2] at h; exact .inr ⟨t, p, rfl, rfl, h⟩

theorem _root_.Xbnf.Spec.SameRes.fields {m : NodeMem} {lo hi k : Nat} {r : Res} {r' : PRes} (h : SameRes m lo hi k r r') :
    r'.error = r.error ∧ r'.errIdx = r.errIdx ∧ r'.read = r.read ∧ r'.unused = r.unused ∧ r'.sticky = r.sticky := by
  have := h.1
  simp only [PRes.bare, Res.mk.injEq, true_and] at this
  exact this

theorem _root_.Xbnf.Spec.SameRes.count {m : NodeMem} {lo hi k : Nat} {r : Res} {r' : PRes} (h : SameRes m lo hi k r r') : r'.countUsed = r.countUsed := by
  rw [PRes.countUsed, h.1]; rfl

theorem _root_.Xbnf.Spec.SameRes.used {m : NodeMem} {lo hi k : Nat} {r : Res} {r' : PRes} (h : SameRes m lo hi k r r') : r'.charsUsed = r.charsUsed := by
  rw [PRes.charsUsed, h.1]; rfl

theorem _root_.Xbnf.Spec.SameRes.account {m : NodeMem} {lo hi k : Nat} {r : Res} {r' : PRes} (h : SameRes m lo hi k r r') (a b : List Rune) :
    account a b r'.bare = account a b r := by
  rw [h.1]; rfl

theorem _root_.Xbnf.Spec.SameRes.weaken {m : NodeMem} {lo hi k lo' hi' k' : Nat} {r : Res} {r' : PRes} (h : SameRes m lo hi k r r') (h1 : lo' ≤ lo) (h2 : hi ≤ hi')
    (h3 : k ≤ k') : SameRes m lo' hi' k' r r' := ⟨h.1, h.2.weaken h1 h2 h3⟩

theorem _root_.Xbnf.Spec.SameRes.grown {h h' : Heap} {lo k : Nat} {r : Res} {r' : PRes} (a : SameRes h.mem lo h.next k r r') (g : Enlarged h h') :
    SameRes h'.mem lo h'.next k r r' := ⟨a.1, a.2.grown g⟩

/-- A result with no node. -/
theorem sameRes_none {m : NodeMem} {lo hi k : Nat} {r : Res} {r' : PRes} (hb : r'.bare = r) (hn : r'.node = none) : SameRes m lo hi k r r' := by
  subst hb
  exact ⟨rfl, by rw [hn]; exact HeldAt.nil _ _ _ _⟩

/-- What an evaluator of objects should do. -/
def SameHeap (ev : Evaluator) (pv : Ptr.PEvaluator) (k : Nat) : Prop := ∀ r flag s h, AgreeBy (SameOut h k) (ev r flag s) (pv r flag s h)

/-! ### The rules -/

theorem leaf_same {r : Res} (hl : ∀ n, r.node = some n → n.children = []) (s : Stream) (h : Heap) (k : Nat) :
    SameOut h (k + 1) (r, s) ((Ptr.leaf r h).1, s, (Ptr.leaf r h).2) := by
  unfold Ptr.leaf
  cases hn : r.node with
  | none => exact ⟨rfl, Enlarged.refl h, sameRes_none (by simp only [PRes.bare, ← hn]) rfl⟩
  | some n =>
    have hc := hl n hn
    refine ⟨rfl, (Enlarged.fresh h).write (Nat.le_refl _) _, by simp only [PRes.bare], ?_⟩
    have := HeldAt.node (m := h.mem) (lo := h.next + 1) (hi := h.next + 1) (k := k) (ps := []) n (by rw [hc]; exact HeldAt.nil _ _ _ _) (Nat.le_refl h.next)
      (Nat.lt_succ_self _) (Nat.le_refl _)
    rw [hn]
    exact this

theorem group_same {b : RuleBase} {r : Res} {r' : PRes} {h h' : Heap} {k : Nat} (hg : Enlarged (Ptr.fresh h) h') (hr : SameRes h'.mem (h.next + 1) h'.next k r r')
    (s : Stream) : SameOut h (k + 1) (groupRes b r, s) ((Ptr.groupRes h.next b r' h').1, s, (Ptr.groupRes h.next b r' h').2) := by
  obtain ⟨f1, f2, f3, f4, f5⟩ := hr.fields
  have hn : h.next + 1 ≤ h'.next := hg.next
  unfold groupRes Ptr.groupRes
  rcases sameRes_node hr with ⟨e1, e2⟩ | ⟨t, p, e1, e2, e3⟩
  · rw [e1, e2]
    exact ⟨rfl, (Enlarged.fresh h).trans hg, sameRes_none (by simp only [PRes.bare, f1, f2, f3, f5]) rfl⟩
  · rw [e1, e2]
    refine ⟨rfl, ((Enlarged.fresh h).trans hg).write (Nat.le_refl _) _, by simp only [PRes.bare, f1, f2, f3, f4, f5], ?_⟩
    have := HeldAt.node (branchNode .group b r.sticky [t] none) (ps := [p]) e3 (Nat.le_refl h.next) (Nat.lt_succ_self _) hn
    rw [← f5] at this
    exact f5 ▸ this

theorem option_same {b : RuleBase} {r : Res} {r' : PRes} {h h' : Heap} {k : Nat} (hg : Enlarged (Ptr.fresh h) h')
    (hr : SameRes h'.mem (h.next + 1) h'.next k r r') (s : Stream) :
    SameOut h (k + 1) (optionRes b r, s) ((Ptr.optionRes h.next b r' h').1, s, (Ptr.optionRes h.next b r' h').2) := by
  obtain ⟨f1, f2, f3, f4, f5⟩ := hr.fields
  have hn : h.next + 1 ≤ h'.next := hg.next
  unfold optionRes Ptr.optionRes
  rcases sameRes_node hr with ⟨e1, e2⟩ | ⟨t, p, e1, e2, e3⟩
  · rw [e1, e2]
    refine ⟨rfl, ((Enlarged.fresh h).trans hg).write (Nat.le_refl _) _, by simp only [PRes.bare, f1, f2, f3, f4, f5], ?_⟩
    have := HeldAt.node (m := h'.mem) (lo := h.next + 1) (hi := h'.next) (k := k) (branchNode .option b r.sticky [] none) (ps := []) (HeldAt.nil _ _ _ _)
      (Nat.le_refl h.next) (Nat.lt_succ_self _) hn
    rw [← f5] at this
    exact f5 ▸ this
  · rw [e1, e2]
    obtain ⟨_, ks, _, _, _, _, hk, _⟩ := e3.one
    refine ⟨rfl, ((Enlarged.fresh h).trans hg).write (Nat.le_refl _) _, by simp only [PRes.bare, f1, f2, f3, f4, f5], ?_⟩
    have := HeldAt.node (branchNode .option b r.sticky [t] t.pos) (ps := [p]) e3 (Nat.le_refl h.next) (Nat.lt_succ_self _) hn
    dsimp only
    rw [hk, f5]
    exact this

theorem ref_same {b : RuleBase} {r : Res} {r' : PRes} {h h' : Heap} {k : Nat} (hg : Enlarged h h')
    (hr : SameRes h'.mem h.next h'.next k r r') (s : Stream) :
    SameOut h (k + 1) (refRes b r, s) ((Ptr.refRes b r' h').1, s, (Ptr.refRes b r' h').2) := by
  obtain ⟨f1, f2, f3, f4, f5⟩ := hr.fields
  unfold refRes Ptr.refRes
  rcases sameRes_node hr with ⟨e1, e2⟩ | ⟨t, p, e1, e2, e3⟩
  · rw [e1, e2]
    exact ⟨rfl, hg, hr.weaken (Nat.le_refl _) (Nat.le_refl _) (Nat.le_succ _)⟩
  · obtain ⟨fp, ks, hs, hn, hb, hl, hk, _, hp, _⟩ := e3.one
    rw [e1, e2]
    refine ⟨rfl, hg.write hp _, by simp only [PRes.bare, f1, f2, f3, f4, f5], ?_⟩
    dsimp only
    rw [e2]
    refine ⟨fp, ⟨showsL_one (shows_put hs hn ?_ ?_), hn⟩, hb, ?_⟩
    · rfl
    · intro ks' hk'
      rw [hk'] 
    · have h1 := levelsL_children t
      simp only [Option.toList_some, levelsL]
      rw [← levelsL_children]
      dsimp only
      omega

/-- The same variables, with the nodes at the given addresses. -/
def seqOf (st : SeqState) (ns : List Nat) : Ptr.PSeq :=
  { read := st.read, unused := st.unused, sticky := st.sticky, pos := st.pos, flag := st.flag, nodes := ns }

theorem nextFlag_same {t : Node} {ks : List Nat} (hl : ks.length = t.children.length) (flag : Int) (sticky : Bool) :
    Ptr.nextFlag flag (t.obj ks) sticky = nextFlag flag t sticky := by
  unfold Ptr.nextFlag nextFlag
  simp only [hl]

theorem concat_same {ev : Evaluator} {pv : Ptr.PEvaluator} {k : Nat} (hev : SameHeap ev pv k) (self : Rule) (h0 : Heap) :
    ∀ (rs : List Rule) (st : SeqState) (ns : List Nat) (s : Stream) (h : Heap), Enlarged (Ptr.fresh h0) h → HeldAt h.mem (h0.next + 1) h.next k st.nodes ns →
      AgreeBy (SameOut h0 (k + 1)) (concatLoop ev self rs st s) (Ptr.concatLoop pv self h0.next rs (seqOf st ns) s h) := by
  intro rs
  induction rs with
  | nil =>
    intro st ns s h hg hh
    have hn : h0.next + 1 ≤ h.next := hg.next
    rw [concatLoop, Ptr.concatLoop]
    exact .ok ⟨rfl, ((Enlarged.fresh h0).trans hg).write (Nat.le_refl _) _, rfl,
      HeldAt.node (branchNode .concatenate self.base st.sticky st.nodes st.pos) hh (Nat.le_refl h0.next) (Nat.lt_succ_self _) hn⟩
  | cons r rs ih =>
    intro st ns s h hg hh
    have hn : h0.next + 1 ≤ h.next := hg.next
    rw [concatLoop, Ptr.concatLoop]
    refine AgreeBy.bind (hev r st.flag (s.pushBack st.unused) h) ?_
    rintro ⟨res, cs⟩ ⟨res', cs', h'⟩ ⟨e, g, hr⟩
    dsimp only at e g hr ⊢
    subst e
    obtain ⟨f1, f2, f3, f4, f5⟩ := hr.fields
    rw [hr.account]
    refine AgreeBy.same ?_
    rintro ⟨read, unused⟩
    dsimp only
    rcases sameRes_node hr with ⟨e1, e2⟩ | ⟨t, p, e1, e2, e3⟩
    · rw [e1, e2]
      exact .ok ⟨rfl, ((Enlarged.fresh h0).trans hg).trans g, sameRes_none (by simp only [PRes.bare, f1, f2, f5, seqOf]) rfl⟩
    · rw [e1, e2]
      obtain ⟨_, ks, _, _, _, _, hk, hkl, _⟩ := e3.one
      dsimp only
      rw [hk, nextFlag_same hkl, f5]
      have hh' := (hh.grown g)
      have := ih { read := read, unused := unused, sticky := st.sticky && res.sticky, pos := firstPos st.pos t.pos,
                       flag := nextFlag st.flag t res.sticky, nodes := st.nodes ++ [t] } (ns ++ [p]) cs h' (hg.trans g)
          (HeldAt.append (hh.congr fun q _ hq => g.old q hq) e3 hn g.next)
      refine AgreeBy.bind this ?_
      rintro ⟨out, cs2⟩ ⟨out', cs2', h2⟩ ⟨e, g2, hr2⟩
      dsimp only at e g2 hr2 ⊢
      subst e
      exact .ok ⟨rfl, g2, hr2⟩

/-- The same ways in which the loop of a repetition ends. -/
def SameEnd (h0 : Heap) (k : Nat) (x : SeqState × Option Res × Stream) (y : Ptr.PSeq × Option PRes × Stream × Heap) : Prop :=
  x.2.2 = y.2.2.1 ∧ Enlarged (Ptr.fresh h0) y.2.2.2 ∧ (y.2.1.map (·.error)) = x.2.1.map (·.error) ∧
    ∃ ns, y.1 = seqOf x.1 ns ∧ HeldAt y.2.2.2.mem (h0.next + 1) y.2.2.2.next k x.1.nodes ns

theorem rep_loop_same {ev : Evaluator} {pv : Ptr.PEvaluator} {k : Nat} (hev : SameHeap ev pv k) (r : Rule) (max : Nat) (h0 : Heap) :
    ∀ (fuel : Nat) (st : SeqState) (ns : List Nat) (s : Stream) (h : Heap), Enlarged (Ptr.fresh h0) h → HeldAt h.mem (h0.next + 1) h.next k st.nodes ns →
      AgreeBy (SameEnd h0 k) (repLoop ev r max fuel st s) (Ptr.repLoop pv r max fuel (seqOf st ns) s h) := by
  intro fuel
  induction fuel with
  | zero => intro st ns s h _ _; exact .oof
  | succ fuel ih =>
    intro st ns s h hg hh
    have hn : h0.next + 1 ≤ h.next := hg.next
    rw [repLoop, Ptr.repLoop]
    by_cases hE : (s.pushBack st.unused).peek = EOFChar
    · rw [if_pos hE, if_pos (show (s.pushBack (seqOf st ns).unused).peek = EOFChar from hE)]
      exact .ok ⟨rfl, hg, rfl, ns, rfl, hh⟩
    · rw [if_neg hE, if_neg (show ¬ (s.pushBack (seqOf st ns).unused).peek = EOFChar from hE)]
      refine AgreeBy.bind (hev r st.flag (s.pushBack st.unused) h) ?_
      rintro ⟨res, cs⟩ ⟨res', cs', h'⟩ ⟨e, g, hr⟩
      dsimp only at e g hr ⊢
      subst e
      obtain ⟨f1, f2, f3, f4, f5⟩ := hr.fields
      rw [hr.account]
      refine AgreeBy.same ?_
      rintro ⟨read, unused⟩
      dsimp only
      rcases sameRes_node hr with ⟨e1, e2⟩ | ⟨t, p, e1, e2, e3⟩
      · rw [e1, e2, f5]
        exact .ok ⟨rfl, hg.trans g, by simp [f1], ns, rfl, hh.grown g⟩
      · rw [e1, e2, f5]
        obtain ⟨_, ks, _, _, _, _, hk, hkl, _⟩ := e3.one
        dsimp only
        rw [hk]
        have hh' := HeldAt.append (hh.congr fun q _ hq => g.old q hq) e3 hn g.next
        have hlen : (ns ++ [p]).length = (st.nodes ++ [t]).length := hh'.length
        by_cases hM : max > 0 ∧ (st.nodes ++ [t]).length = max
        · rw [if_pos hM, if_pos (show max > 0 ∧ ((seqOf st ns).nodes ++ [p]).length = max from hlen ▸ hM)]
          exact .ok ⟨rfl, hg.trans g, rfl, ns ++ [p], rfl, hh'⟩
        · rw [if_neg hM, if_neg (show ¬ (max > 0 ∧ ((seqOf st ns).nodes ++ [p]).length = max) from hlen ▸ hM)]
          refine AgreeBy.bind (ih
            { st with read := read, unused := unused, sticky := st.sticky && res.sticky, pos := firstPos st.pos t.pos, nodes := st.nodes ++ [t] } (ns ++ [p]) cs h' (hg.trans g) hh') ?_
          rintro ⟨out, why, cs2⟩ ⟨out', why', cs2', h2⟩ ⟨e, g2, hw, hr2⟩
          dsimp only at e g2 hw hr2 ⊢
          subst e
          exact .ok ⟨rfl, g2, hw, hr2⟩

theorem rep_same {ev : Evaluator} {pv : Ptr.PEvaluator} {k : Nat} (hev : SameHeap ev pv k) (fuel : Nat) (b : RuleBase) (r : Rule) (min max : Nat) (flag : Int)
    (s : Stream) (h : Heap) : AgreeBy (SameOut h (k + 1)) (evalRep ev fuel b r min max flag s) (Ptr.evalRep pv fuel b r min max flag s h) := by
  unfold evalRep Ptr.evalRep
  refine AgreeBy.bind (rep_loop_same hev r max h fuel { flag := flag } [] s (Ptr.fresh h) (Enlarged.refl _) (HeldAt.nil _ _ _ _)) ?_
  rintro ⟨st, why, s1⟩ ⟨st', why', s1', h1⟩ ⟨e, g, hw, ns, hst, hh⟩
  dsimp only at e g hw hst hh ⊢
  subst e hst
  have hn : h.next + 1 ≤ h1.next := g.next
  have hlen := hh.length
  have hE : why'.bind (·.error) = why.bind (·.error) := by
    cases why <;> cases why' <;> simp_all
  have hS : why'.isSome = why.isSome := by
    cases why <;> cases why' <;> simp_all
  have hl2 : (seqOf st ns).nodes.length = st.nodes.length := hlen
  simp only [Ptr.repFinish, repFinish, hE, hS, hl2]
  by_cases hM : st.nodes.length < min
  · simp only [if_pos hM]
    exact .ok ⟨rfl, (Enlarged.fresh h).trans g, sameRes_none rfl rfl⟩
  · simp only [if_neg hM]
    exact .ok ⟨rfl, ((Enlarged.fresh h).trans g).write (Nat.le_refl _) _, rfl,
      HeldAt.node (branchNode .repetition b st.sticky st.nodes st.pos) hh (Nat.le_refl h.next) (Nat.lt_succ_self _) hn⟩

/-! ### Choices -/

/-- The same results, one by one. -/
inductive AllSame (m : NodeMem) (lo hi k : Nat) : List Res → List PRes → Prop
  | nil : AllSame m lo hi k [] []
  | cons {r r' rs rs'} (h : SameRes m lo hi k r r') (hs : AllSame m lo hi k rs rs') : AllSame m lo hi k (r :: rs) (r' :: rs')

inductive SamePick (m : NodeMem) (lo hi k : Nat) : Pick → Ptr.PPick → Prop
  | none : SamePick m lo hi k .none .none
  | found {r r'} (h : SameRes m lo hi k r r') : SamePick m lo hi k (.found r) (.found r')
  | ambiguous {x x' y y'} (h : SameRes m lo hi k x x') (h' : SameRes m lo hi k y y') : SamePick m lo hi k (.ambiguous x y) (.ambiguous x' y')

theorem pickLoop_same {m : NodeMem} {lo hi k : Nat} {rs : List Res} {rs' : List PRes} (h : AllSame m lo hi k rs rs') :
    ∀ (n : Int) (b : Option Res) (b' : Option PRes), ((b = none ∧ b' = none) ∨ ∃ r r', b = some r ∧ b' = some r' ∧ SameRes m lo hi k r r') →
      SamePick m lo hi k (pickLoop n b rs) (Ptr.pickLoop n b' rs') := by
  induction h with
  | nil =>
    rintro n b b' (⟨rfl, rfl⟩ | ⟨r, r', rfl, rfl, hr⟩)
    · exact .none
    · exact .found hr
  | @cons r r' rs rs' hr hs ih =>
    intro n b b' hb
    have hbs : b'.isSome = b.isSome := by rcases hb with ⟨rfl, rfl⟩ | ⟨_, _, rfl, rfl, _⟩ <;> rfl
    rw [pickLoop.eq_def, Ptr.pickLoop.eq_def]
    simp only [hr.count, hbs]
    split
    · exact ih _ _ _ hb
    · split
      · rename_i hc
        rcases hb with ⟨rfl, rfl⟩ | ⟨x, x', rfl, rfl, hx⟩
        · simp at hc
        · exact .ambiguous hx hr
      · exact ih _ _ _ (.inr ⟨r, r', rfl, rfl, hr⟩)

theorem pick_heap {m : NodeMem} {lo hi k : Nat} {rs : List Res} {rs' : List PRes} (h : AllSame m lo hi k rs rs') :
    SamePick m lo hi k (pick rs) (Ptr.pick rs') := by
  cases h with
  | nil => exact .none
  | cons hr hs =>
    cases hs with
    | nil => exact .found hr
    | cons hr2 hs2 => exact pickLoop_same (.cons hr (.cons hr2 hs2)) 0 none none (.inl ⟨rfl, rfl⟩)

theorem AllSame.len {m : NodeMem} {lo hi k : Nat} {rs : List Res} {rs' : List PRes} (h : AllSame m lo hi k rs rs') : rs'.length = rs.length := by
  induction h with
  | nil => rfl
  | cons _ _ ih => simp [ih]

theorem choice_group_same {ev : Evaluator} {pv : Ptr.PEvaluator} {k : Nat} (hev : SameHeap ev pv k) (flag : Int) :
    ∀ (rs : List Rule) (st : ChoiceState) (s : Stream) (h : Heap) (lo : Nat), lo ≤ h.next →
      AgreeBy (fun x y => y.2.1 = x.2.1 ∧ x.2.2 = y.2.2.1 ∧ Enlarged h y.2.2.2 ∧ AllSame y.2.2.2.mem lo y.2.2.2.next k x.1 y.1)
        (choiceGroup ev flag rs st s) (Ptr.choiceGroup pv flag rs st s h) := by
  intro rs
  induction rs with
  | nil => intro st s h lo _; exact .ok ⟨rfl, rfl, Enlarged.refl h, .nil⟩
  | cons r rs ih =>
    intro st s h lo hlo
    rw [choiceGroup, Ptr.choiceGroup]
    refine AgreeBy.bind (hev r flag (s.pushBack st.read) h) ?_
    rintro ⟨res, cs⟩ ⟨res', cs', h'⟩ ⟨e, g, hr⟩
    dsimp only at e g hr ⊢
    subst e
    obtain ⟨f1, f2, f3, f4, f5⟩ := hr.fields
    have hlo' : lo ≤ h'.next := Nat.le_trans hlo g.next
    have post : ∀ {st : ChoiceState} {s : Stream}, AgreeBy (fun x y => y.2.1 = x.2.1 ∧ x.2.2 = y.2.2.1 ∧ Enlarged h y.2.2.2 ∧
        AllSame y.2.2.2.mem lo y.2.2.2.next k x.1 y.1) (choiceGroup ev flag rs st s) (Ptr.choiceGroup pv flag rs st s h') := fun {st s} =>
      AgreeBy.mono (ih st s h' lo hlo') fun a b ⟨a1, a2, a3, a4⟩ => ⟨a1, a2, g.trans a3, a4⟩
    rw [f3, f5]
    rcases sameRes_node hr with ⟨e1, e2⟩ | ⟨t, p, e1, e2, e3⟩
    · rw [e1, e2, f2, f1]
      dsimp only
      split
      · exact post
      · exact post
    · rw [e1, e2]
      dsimp only
      refine AgreeBy.bind (ih _ _ h' lo hlo') ?_
      rintro ⟨ms, st2, s2⟩ ⟨ms', st2', s2', h2⟩ ⟨a1, a2, a3, a4⟩
      dsimp only at a1 a2 a3 a4 ⊢
      subst a1 a2
      exact .ok ⟨rfl, rfl, g.trans a3, .cons ((hr.weaken hlo (Nat.le_refl _) (Nat.le_refl _)).grown a3) a4⟩

theorem named_heap {h : Heap} {lo hi k fuel : Nat} {r : Res} {r' : PRes} (hr : SameRes h.mem lo hi k r r') (hk : k ≤ fuel) :
    Ptr.named fuel h r' = .ok r.named := by
  unfold Ptr.named Res.named
  rcases sameRes_node hr with ⟨e1, e2⟩ | ⟨t, p, e1, e2, e3⟩
  · rw [e1, e2]
  · rw [e1, e2]
    obtain ⟨_, ks, hs, _, _, hl, ho, _⟩ := e3.one
    dsimp only
    rw [text_shows hs (by omega), ho]
    rfl

theorem choice_same {ev : Evaluator} {pv : Ptr.PEvaluator} {k fuel : Nat} (hev : SameHeap ev pv k) (hk : k ≤ fuel) (self : Rule) (flag : Int) (h0 : Heap) :
    ∀ (gs : List (List Rule)) (st : ChoiceState) (s : Stream) (h : Heap), Enlarged (Ptr.fresh h0) h →
      AgreeBy (SameOut h0 (k + 1)) (choiceLoop ev self flag gs st s) (Ptr.choiceLoop pv fuel self h0.next flag gs st s h) := by
  intro gs
  induction gs with
  | nil => intro st s h hg; exact .ok ⟨rfl, (Enlarged.fresh h0).trans hg, sameRes_none rfl rfl⟩
  | cons g gs ih =>
    intro st s h hg
    have hn : h0.next + 1 ≤ h.next := hg.next
    rw [choiceLoop, Ptr.choiceLoop]
    refine AgreeBy.bind (choice_group_same hev flag g st s h (h0.next + 1) hn) ?_
    rintro ⟨ms, st2, s2⟩ ⟨ms', st2', s2', h2⟩ ⟨a1, a2, a3, a4⟩
    dsimp only at a1 a2 a3 a4 ⊢
    subst a1 a2
    have hg2 := hg.trans a3
    have hn2 : h0.next + 1 ≤ h2.next := hg2.next
    have hp := pick_heap a4
    generalize pick ms = x at hp ⊢
    generalize Ptr.pick ms' = y at hp ⊢
    cases hp with
    | none => exact ih _ _ _ hg2
    | ambiguous hx hy =>
      dsimp only
      rw [named_heap hx hk, Exec.ok_bind, named_heap hy hk, Exec.ok_bind]
      exact .ok ⟨rfl, (Enlarged.fresh h0).trans hg2, sameRes_none rfl rfl⟩
    | @found r r' hr =>
      dsimp only
      rw [hr.count]
      refine AgreeBy.same fun unused => ?_
      rcases sameRes_node hr with ⟨e1, e2⟩ | ⟨t, p, e1, e2, e3⟩
      · rw [e1, e2]
        exact .ok ⟨rfl, (Enlarged.fresh h0).trans hg2, sameRes_none rfl rfl⟩
      · rw [e1, e2]
        obtain ⟨_, ks, _, _, _, _, ho, _⟩ := e3.one
        dsimp only
        rw [ho]
        exact .ok ⟨rfl, ((Enlarged.fresh h0).trans hg2).write (Nat.le_refl _) _, rfl,
          HeldAt.node (branchNode .choice self.base _ [t] t.pos) (ps := [p]) e3 (Nat.le_refl h0.next) (Nat.lt_succ_self _) hn2⟩

/-! ### Blocks -/

theorem greedy_loop_same {ev : Evaluator} {pv : Ptr.PEvaluator} {k : Nat} (hev : SameHeap ev pv k) (flag : Int) :
    ∀ (rs : List Rule) (mr : List Rune) (s : Stream) (h : Heap) (lo : Nat), lo ≤ h.next →
      AgreeBy (fun x y => y.2.1 = x.2.1 ∧ x.2.2 = y.2.2.1 ∧ Enlarged h y.2.2.2 ∧ AllSame y.2.2.2.mem lo y.2.2.2.next k x.1 y.1)
        (greedyLoop ev flag rs mr s) (Ptr.greedyLoop pv flag rs mr s h) := by
  intro rs
  induction rs with
  | nil => intro mr s h lo _; exact .ok ⟨rfl, rfl, Enlarged.refl h, .nil⟩
  | cons r rs ih =>
    intro mr s h lo hlo
    rw [greedyLoop, Ptr.greedyLoop]
    refine AgreeBy.bind (hev r flag (s.pushBack mr) h) ?_
    rintro ⟨res, cs⟩ ⟨res', cs', h'⟩ ⟨e, g, hr⟩
    dsimp only at e g hr ⊢
    subst e
    obtain ⟨f1, f2, f3, f4, f5⟩ := hr.fields
    rw [f3]
    refine AgreeBy.bind (ih _ _ h' lo (Nat.le_trans hlo g.next)) ?_
    rintro ⟨ms, st2, s2⟩ ⟨ms', st2', s2', h2⟩ ⟨a1, a2, a3, a4⟩
    dsimp only at a1 a2 a3 a4 ⊢
    subst a1 a2
    rcases sameRes_node hr with ⟨e1, e2⟩ | ⟨t, p, e1, e2, e3⟩
    · rw [e1, e2]
      exact .ok ⟨rfl, rfl, g.trans a3, a4⟩
    · rw [e1, e2]
      exact .ok ⟨rfl, rfl, g.trans a3, .cons ((hr.weaken hlo (Nat.le_refl _) (Nat.le_refl _)).grown a3) a4⟩

theorem mostGreedy_same {ev : Evaluator} {pv : Ptr.PEvaluator} {k fuel : Nat} (hev : SameHeap ev pv k) (hk : k ≤ fuel) (flag : Int) (rs : List Rule) (s : Stream)
    (h : Heap) : AgreeBy (SameOut h k) (mostGreedy ev flag rs s) (Ptr.mostGreedy pv fuel flag rs s h) := by
  unfold mostGreedy Ptr.mostGreedy
  refine AgreeBy.bind (greedy_loop_same hev flag rs [] s h h.next (Nat.le_refl _)) ?_
  rintro ⟨ms, mr, s2⟩ ⟨ms', mr', s2', h2⟩ ⟨a1, a2, a3, a4⟩
  dsimp only at a1 a2 a3 a4 ⊢
  subst a1 a2
  have hp := pick_heap a4
  generalize pick ms = x at hp ⊢
  generalize Ptr.pick ms' = y at hp ⊢
  cases hp with
  | none => exact .ok ⟨rfl, a3, sameRes_none rfl rfl⟩
  | ambiguous hx hy =>
    dsimp only
    rw [named_heap hx hk, Exec.ok_bind, named_heap hy hk, Exec.ok_bind]
    exact .ok ⟨rfl, a3, sameRes_none rfl rfl⟩
  | @found r r' hr =>
    obtain ⟨f1, f2, f3, f4, f5⟩ := hr.fields
    dsimp only
    rw [hr.count]
    refine AgreeBy.same fun unused => .ok ⟨rfl, a3, ?_, hr.2⟩
    simp only [PRes.bare, f5]

theorem escape_same {ev : Evaluator} {pv : Ptr.PEvaluator} {k : Nat} (hev : SameHeap ev pv k) (escape : Option Rule) (st : BlockState) (s : Stream) (h : Heap) :
    AgreeBy (fun x y => y.1 = x.1 ∧ y.2.1 = x.2.1 ∧ y.2.2.1 = x.2.2.1 ∧ y.2.2.2.1 = x.2.2.2.1 ∧ y.2.2.2.2.1 = x.2.2.2.2 ∧ Enlarged h y.2.2.2.2.2)
      (escapeStep ev escape st s) (Ptr.escapeStep pv escape st s h) := by
  unfold escapeStep Ptr.escapeStep
  cases escape with
  | none => exact .ok ⟨rfl, rfl, rfl, rfl, rfl, Enlarged.refl h⟩
  | some e =>
    refine AgreeBy.bind (hev e NOT_SKIP s h) ?_
    rintro ⟨res, cs⟩ ⟨res', cs', h'⟩ ⟨e, g, hr⟩
    dsimp only at e g hr ⊢
    subst e
    obtain ⟨f1, f2, f3, f4, f5⟩ := hr.fields
    rcases sameRes_node hr with ⟨e1, e2⟩ | ⟨t, p, e1, e2, e3⟩
    · rw [e1, e2]
      exact .ok ⟨rfl, rfl, rfl, f3, rfl, g⟩
    · rw [e1, e2]
      simp only [Option.isSome_some, if_true]
      rw [hr.used]
      exact AgreeBy.same fun c => .ok ⟨rfl, rfl, rfl, f4, rfl, g⟩

theorem exclude_same {ev : Evaluator} {pv : Ptr.PEvaluator} {k fuel : Nat} (hev : SameHeap ev pv k) (hk : k ≤ fuel) (excludes : List Rule) (s : Stream) (h : Heap) :
    AgreeBy (fun x y => ((x.1 = none ∧ y.1 = none) ∨ ∃ r r', x.1 = some r ∧ y.1 = some r' ∧ SameRes y.2.2.mem h.next y.2.2.next k r r') ∧ y.2.1 = x.2 ∧
        Enlarged h y.2.2)
      (excludeStep ev excludes s) (Ptr.excludeStep pv fuel excludes s h) := by
  unfold excludeStep Ptr.excludeStep
  by_cases hl : excludes.length > 0
  · rw [if_pos hl, if_pos hl]
    refine AgreeBy.bind (mostGreedy_same hev hk NOT_SKIP excludes s h) ?_
    rintro ⟨res, cs⟩ ⟨res', cs', h'⟩ ⟨e, g, hr⟩
    dsimp only at e g hr ⊢
    subst e
    exact .ok ⟨.inr ⟨_, _, rfl, rfl, hr⟩, rfl, g⟩
  · rw [if_neg hl, if_neg hl]
    exact .ok ⟨.inl ⟨rfl, rfl⟩, rfl, Enlarged.refl h⟩

/-- The same ways in which the loop of a block ends. -/
inductive SameBlock (m : NodeMem) (lo hi k : Nat) : BlockEnd → Ptr.PBlockEnd → Prop
  | excluded (a b) : SameBlock m lo hi k (.excluded a b) (.excluded a b)
  | closed (a b) {r r'} (c) (h : SameRes m lo hi k r r') : SameBlock m lo hi k (.closed a b r c) (.closed a b r' c)
  | eof (a b) : SameBlock m lo hi k (.eof a b) (.eof a b)

theorem block_loop_same {ev : Evaluator} {pv : Ptr.PEvaluator} {k depth : Nat} (hev : SameHeap ev pv k) (hk : k ≤ depth) (close : Rule) (escape : Option Rule)
    (excludes : List Rule) : ∀ (fuel : Nat) (st : BlockState) (s : Stream) (h : Heap) (lo : Nat), lo ≤ h.next →
      AgreeBy (fun x y => y.2.1 = x.2 ∧ Enlarged h y.2.2 ∧ SameBlock y.2.2.mem lo y.2.2.next k x.1 y.1)
        (blockLoop ev close escape excludes fuel st s) (Ptr.blockEnd pv depth close escape excludes fuel st s h) := by
  intro fuel
  induction fuel with
  | zero => intro st s h lo _; exact .oof
  | succ fuel ih =>
    intro st s h lo hlo
    rw [blockLoop_steps, Ptr.blockEnd]
    refine AgreeBy.bind (escape_same hev escape st s h) ?_
    rintro ⟨escaped, ec, used, u1, s1⟩ ⟨escaped', ec', used', u1', s1', h1⟩ ⟨e1, e2, e3, e4, e5, g1⟩
    dsimp only at e1 e2 e3 e4 e5 g1 ⊢
    subst e1 e2 e3 e4 e5
    refine AgreeBy.bind (exclude_same hev hk excludes _ h1) ?_
    rintro ⟨rx, cs1⟩ ⟨rx', cs1', h2⟩ ⟨hx, e6, g2⟩
    dsimp only at hx e6 g2 ⊢
    subst e6
    have hlo2 : lo ≤ h2.next := Nat.le_trans hlo (Nat.le_trans g1.next g2.next)
    -- what follows when nothing excluded is there
    have rest : ∀ u2 : List Rune, AgreeBy (fun x y => y.2.1 = x.2 ∧ Enlarged h y.2.2 ∧ SameBlock y.2.2.mem lo y.2.2.next k x.1 y.1)
        (do
          let (rc, cs2) ← ev close NOT_SKIP (cs1'.pushBack u2)
          match rc.node with
          | some _ => do
            let c ← rc.charsUsed
            if escaped' then do
              let (out, cs2) ← blockLoop ev close escape excludes fuel
                { used := used' ++ c, unused := rc.unused, content := st.content ++ c } cs2
              .ok (out, (cs2.popBack u2).popBack u1')
            else
              .ok (.closed (used' ++ st.content ++ c) rc.unused rc st.content,
                   (cs2.popBack u2).popBack u1')
          | none => do
            let content := st.content ++ ec'
            let cs3 := cs2.pushBack rc.unused
            if cs3.peek = EOFChar then
              .ok (.eof (used' ++ content) rc.unused, (cs2.popBack u2).popBack u1')
            else do
              let r := cs3.next
              let (out, cs3) ← blockLoop ev close escape excludes fuel
                { used := used', unused := [], content := content ++ ec' ++ [r.1] } r.2
              .ok (out, ((cs3.popBack rc.unused).popBack u2).popBack u1'))
        (do
          let (rc, cs2, h) ← pv close NOT_SKIP (cs1'.pushBack u2) h2
          match rc.node with
          | some _ => do
            let c ← rc.charsUsed
            if escaped' then do
              let (out, cs2, h) ← Ptr.blockEnd pv depth close escape excludes fuel
                { used := used' ++ c, unused := rc.unused, content := st.content ++ c } cs2 h
              .ok (out, (cs2.popBack u2).popBack u1', h)
            else
              .ok (.closed (used' ++ st.content ++ c) rc.unused rc st.content, (cs2.popBack u2).popBack u1', h)
          | none => do
            let content := st.content ++ ec'
            let cs3 := cs2.pushBack rc.unused
            if cs3.peek = EOFChar then
              .ok (.eof (used' ++ content) rc.unused, (cs2.popBack u2).popBack u1', h)
            else do
              let r := cs3.next
              let (out, cs3, h) ← Ptr.blockEnd pv depth close escape excludes fuel
                { used := used', unused := [], content := content ++ ec' ++ [r.1] } r.2 h
              .ok (out, ((cs3.popBack rc.unused).popBack u2).popBack u1', h)) := by
      intro u2
      refine AgreeBy.bind (hev close NOT_SKIP _ h2) ?_
      rintro ⟨rc, cs2⟩ ⟨rc', cs2', h3⟩ ⟨e, g3, hr⟩
      dsimp only at e g3 hr ⊢
      subst e
      obtain ⟨f1, f2, f3, f4, f5⟩ := hr.fields
      have hlo3 : lo ≤ h3.next := Nat.le_trans hlo2 g3.next
      have gg : Enlarged h h3 := (g1.trans g2).trans g3
      have post : ∀ (st : BlockState) (s : Stream) (f : Stream → Stream),
          AgreeBy (fun x y => y.2.1 = x.2 ∧ Enlarged h y.2.2 ∧ SameBlock y.2.2.mem lo y.2.2.next k x.1 y.1)
            (do let (out, cs) ← blockLoop ev close escape excludes fuel st s; .ok (out, f cs))
            (do let (out, cs, h) ← Ptr.blockEnd pv depth close escape excludes fuel st s h3; .ok (out, f cs, h)) := by
        intro st s f
        refine AgreeBy.bind (ih st s h3 lo hlo3) ?_
        rintro ⟨out, cs⟩ ⟨out', cs', h4⟩ ⟨e, g4, hb⟩
        dsimp only at e g4 hb ⊢
        subst e
        exact .ok ⟨rfl, gg.trans g4, hb⟩
      rcases sameRes_node hr with ⟨e1, e2⟩ | ⟨t, p, e1, e2, e3⟩
      · rw [e1, e2, f4]
        dsimp only
        split
        · exact .ok ⟨rfl, gg, .eof _ _⟩
        · exact post _ _ fun cs => ((cs.popBack rc.unused).popBack u2).popBack u1'
      · rw [e1, e2, f4]
        dsimp only
        rw [hr.used]
        refine AgreeBy.same fun c => ?_
        cases escaped' with
        | true => exact post _ _ fun cs => (cs.popBack u2).popBack u1'
        | false => exact .ok ⟨rfl, gg, .closed _ _ _ (hr.weaken hlo2 (Nat.le_refl _) (Nat.le_refl _))⟩
    rcases hx with ⟨rfl, rfl⟩ | ⟨r, r', rfl, rfl, hr⟩
    · exact rest u1'
    · obtain ⟨f1, f2, f3, f4, f5⟩ := hr.fields
      rcases sameRes_node hr with ⟨e1, e2⟩ | ⟨t, p, e1, e2, e3⟩
      · simp only [Option.bind_some, e1, e2, Option.map_none]
        rw [f3]
        exact rest r.read
      · simp only [Option.bind_some, e1, e2, Option.map_some]
        rw [hr.used]
        refine AgreeBy.same fun c => ?_
        rw [f3, f4]
        cases escaped' with
        | true =>
          refine AgreeBy.bind (ih _ _ h2 lo hlo2) ?_
          rintro ⟨out, cs⟩ ⟨out', cs', h4⟩ ⟨e, g4, hb⟩
          dsimp only at e g4 hb ⊢
          subst e
          exact .ok ⟨rfl, (g1.trans g2).trans g4, hb⟩
        | false => exact .ok ⟨rfl, g1.trans g2, .excluded _ _⟩

theorem block_same {ev : Evaluator} {pv : Ptr.PEvaluator} {k : Nat} (hev : SameHeap ev pv k) {fuel : Nat} (hk : k ≤ fuel) (hk1 : 1 ≤ k) (b : RuleBase) (opn : Rule)
    (v : Bool) (close : Rule) (escape : Option Rule) (excludes : List Rule) (flag : Int) (s : Stream) (h : Heap) :
    AgreeBy (SameOut h (k + 1)) (evalBlock ev fuel b opn v close escape excludes flag s) (Ptr.evalBlock pv fuel b opn v close escape excludes flag s h) := by
  unfold evalBlock Ptr.evalBlock
  refine AgreeBy.bind (hev opn flag s (Ptr.fresh h)) ?_
  rintro ⟨ro, s1⟩ ⟨ro', s1', h1⟩ ⟨e, g1, hr⟩
  dsimp only at e g1 hr ⊢
  subst e
  obtain ⟨f1, f2, f3, f4, f5⟩ := hr.fields
  have hn1 : h.next + 1 ≤ h1.next := g1.next
  rcases sameRes_node hr with ⟨e1, e2⟩ | ⟨t, q, e1, e2, e3⟩
  · rw [e1, e2, f1, f3, f4]
    exact .ok ⟨rfl, (Enlarged.fresh h).trans g1, sameRes_none rfl rfl⟩
  · rw [e1, e2, f3, f4, hr.count]
    dsimp only
    refine AgreeBy.same fun used => ?_
    refine AgreeBy.bind (block_loop_same hev hk close escape excludes fuel _ _ (Ptr.fresh h1) (h1.next + 1) (Nat.le_refl _)) ?_
    rintro ⟨en, cs⟩ ⟨en', cs', h2⟩ ⟨e, g2, hb⟩
    dsimp only at e g2 hb ⊢
    subst e
    have hn2 : h1.next + 1 ≤ h2.next := g2.next
    have gg : Enlarged h h2 := (((Enlarged.fresh h).trans g1).trans (Enlarged.fresh h1)).trans g2
    cases hb with
    | excluded a b => exact .ok ⟨rfl, gg, sameRes_none rfl rfl⟩
    | eof a b => exact .ok ⟨rfl, gg, sameRes_none rfl rfl⟩
    | @closed a b' rc rc' c hc =>
      obtain ⟨k1, k2, k3, k4, k5⟩ := hc.fields
      obtain ⟨_, ks, _, _, _, _, ho, _, hq1, hq2⟩ := e3.one
      have hq1 : h.next + 1 ≤ q := hq1
      -- the open node is still there
      have hopen : HeldAt h2.mem (h.next + 1) h1.next k [t] [q] :=
        e3.congr fun x _ hx => ((Enlarged.fresh h1).trans g2).old x hx
      have hoq : h2.mem q = t.obj ks := by rw [((Enlarged.fresh h1).trans g2).old q hq2, ho]
      have hput : (h2.mem.put h1.next { ruleType := .chars, chars := c, pos := (s1.pushBack ro.unused).position.1, sticky := true }) q = t.obj ks := by
        rw [put_other _ _ (by omega), hoq]
      have hcont : HeldAt (h2.mem.put h1.next { ruleType := .chars, chars := c, pos := (s1.pushBack ro.unused).position.1, sticky := true })
          h1.next (h1.next + 1) k [({ ruleType := .chars, chars := c, pos := (s1.pushBack ro.unused).position.1, sticky := true } : Node)] [h1.next] :=
        (HeldAt.node (m := h2.mem) (lo := h1.next + 1) (hi := h1.next + 1) (k := 0)
          ({ ruleType := .chars, chars := c, pos := (s1.pushBack ro.unused).position.1, sticky := true } : Node) (ps := []) (HeldAt.nil _ _ _ _)
          (Nat.le_refl h1.next) (Nat.lt_succ_self _) (Nat.le_refl _)).weaken (Nat.le_refl _) (Nat.le_refl _) hk1
      have hopen' := hopen.congr (m' := h2.mem.put h1.next { ruleType := .chars, chars := c, pos := (s1.pushBack ro.unused).position.1, sticky := true })
        fun x _ hx => put_other _ _ (by omega)
      have htwo := HeldAt.append hopen' hcont hn1 (Nat.le_succ _)
      have hclose : HeldAt (h2.mem.put h1.next { ruleType := .chars, chars := c, pos := (s1.pushBack ro.unused).position.1, sticky := true })
          (h1.next + 1) h2.next k (if v then [] else rc.node.toList) (if v then [] else rc'.node.toList) := by
        cases v with
        | true => exact HeldAt.nil _ _ _ _
        | false => exact hc.2.congr fun x hx _ => put_other _ _ (by omega)
      have hall := HeldAt.append htwo hclose (by omega) hn2
      refine .ok ⟨rfl, (gg.write (by omega) _).write (Nat.le_refl _) _, ?_, ?_⟩
      · simp only [PRes.bare, k3]
      · have := HeldAt.node (branchNode .block b false ([t, { ruleType := .chars, chars := c, pos := (s1.pushBack ro.unused).position.1, sticky := true }] ++
          (if v then [] else rc.node.toList)) t.pos) hall (Nat.le_refl h.next) (Nat.lt_succ_self _) (by omega)
        show HeldAt ((h2.mem.put h1.next _).put h.next (Ptr.branchObj .block b false _
          ((h2.mem.put h1.next { ruleType := .chars, chars := c, pos := (s1.pushBack ro.unused).position.1, sticky := true }) q).pos)) _ _ _ _ _
        rw [hput]
        exact this

/-! ### Every rule -/

theorem leaf_children {b : RuleBase} {rt : RType} {st : Bool} {cs : List Rune} {p : Option Position} : (leafNode rt b st cs p).children = [] := rfl

theorem evalEOF_leaf (b : RuleBase) (flag : Int) (s : Stream) : ∀ n, (evalEOF b flag s).1.node = some n → n.children = [] := by
  intro n h
  unfold evalEOF at h
  simp only at h
  repeat' split at h
  all_goals first
    | (cases h; rfl)
    | cases h

theorem evalChar_leaf (b : RuleBase) (t : Rune) (flag : Int) (s : Stream) : ∀ n, (evalChar b t flag s).1.node = some n → n.children = [] := by
  intro n h
  unfold evalChar at h
  simp only at h
  repeat' split at h
  all_goals first
    | (cases h; rfl)
    | cases h

theorem evalRange_leaf (b : RuleBase) (x y : Rune) (flag : Int) (s : Stream) : ∀ n, (evalRange b x y flag s).1.node = some n → n.children = [] := by
  intro n h
  unfold evalRange at h
  simp only at h
  repeat' split at h
  all_goals first
    | (cases h; rfl)
    | cases h

theorem evalChars_leaf (b : RuleBase) (t : List Rune) (flag : Int) (s : Stream) : ∀ n, (evalChars b t flag s).1.node = some n → n.children = [] := by
  intro n h
  unfold evalChars at h
  simp only at h
  repeat' split at h
  all_goals first
    | (cases h; rfl)
    | cases h

theorem evalString_leaf (b : RuleBase) (t : List Rune) (flag : Int) (s : Stream) : ∀ n, (evalString b t flag s).1.node = some n → n.children = [] := by
  intro n h
  unfold evalString at h
  simp only at h
  repeat' split at h
  all_goals first
    | (cases h; rfl)
    | cases h

/-- The evaluators agree; the trees have at most as many levels as there is fuel. -/
theorem eval_heap (env : Env) : ∀ fuel, SameHeap (eval env fuel) (Ptr.eval env fuel) fuel := by
  intro fuel
  induction fuel with
  | zero => intro r flag s h; exact .oof
  | succ fuel ih =>
    intro r flag s h
    rw [eval.eq_def, Ptr.eval.eq_def]
    cases r with
    | eof b => exact .ok (leaf_same (evalEOF_leaf _ _ _) _ _ _)
    | char b t u => exact .ok (leaf_same (evalChar_leaf _ _ _ _) _ _ _)
    | range b x u y w => exact .ok (leaf_same (evalRange_leaf _ _ _ _ _) _ _ _)
    | chars b t => exact .ok (leaf_same (evalChars_leaf _ _ _ _) _ _ _)
    | str b t => exact .ok (leaf_same (evalString_leaf _ _ _ _) _ _ _)
    | group b r =>
      refine AgreeBy.bind (ih r flag s (Ptr.fresh h)) ?_
      rintro ⟨res, s1⟩ ⟨res', s1', h1⟩ ⟨e, g, hr⟩
      dsimp only at e g hr ⊢
      subst e
      exact .ok (group_same g hr _)
    | option b r =>
      refine AgreeBy.bind (ih r flag s (Ptr.fresh h)) ?_
      rintro ⟨res, s1⟩ ⟨res', s1', h1⟩ ⟨e, g, hr⟩
      dsimp only at e g hr ⊢
      subst e
      exact .ok (option_same g hr _)
    | rep b r mn mx => exact rep_same ih fuel b r mn mx flag s h
    | choice b gs => exact choice_same ih (Nat.le_refl _) _ flag h gs {} s _ (Enlarged.refl _)
    | concat b rs => exact concat_same ih _ h rs { flag := flag } [] s _ (Enlarged.refl _) (HeldAt.nil _ _ _ _)
    | block b o v c e x =>
      cases fuel with
      | zero => exact .oof
      | succ fuel => exact block_same ih (Nat.le_refl _) (Nat.succ_le_succ (Nat.zero_le _)) b o v c e x flag s h
    | ref b name =>
      dsimp only
      cases env name with
      | none => exact .ok ⟨rfl, Enlarged.refl h, sameRes_none rfl rfl⟩
      | some r =>
        refine AgreeBy.bind (ih r flag s h) ?_
        rintro ⟨res, s1⟩ ⟨res', s1', h1⟩ ⟨e, g, hr⟩
        dsimp only at e g hr ⊢
        subst e
        exact .ok (ref_same g hr _)

end Xbnf.Props
