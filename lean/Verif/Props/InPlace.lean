import Verif.Lemmas.NodeHeap
/-
C83: the simplifications change trees in place.  Nodes are objects and the methods write into them; on trees no node of which is in two places
this does to the trees what the functions of Model/Node.lean do to values, with the nodes there are, and nothing else.
-/
namespace Xbnf.Props
open Spec Grammar

/-! ### What memory shows -/

mutual
theorem shows_unique {m : NodeMem} : {t t' : Node} → {p : Nat} → {fp fp' : List Nat} → Shows m t p fp → Shows m t' p fp' → t = t' ∧ fp = fp'
  | t, t', _, _, _, .node h hc, .node h' hc' => by
    rw [h] at h'
    obtain ⟨rt, nm, ch, cs, pos, st, v, nd, tk⟩ := t
    obtain ⟨rt', nm', ch', cs', pos', st', v', nd', tk'⟩ := t'
    simp only [Node.obj, NodeObj.mk.injEq] at h'
    obtain ⟨rfl, rfl, rfl, rfl, rfl, rfl, rfl, rfl, rfl⟩ := h'
    obtain ⟨e1, e2⟩ := showsL_unique hc hc'
    simp only at e1
    exact ⟨by rw [e1], by rw [e2]⟩
theorem showsL_unique {m : NodeMem} : {ts ts' : List Node} → {ps fp fp' : List Nat} → ShowsL m ts ps fp → ShowsL m ts' ps fp' → ts = ts' ∧ fp = fp'
  | _, _, _, _, _, .nil, .nil => ⟨rfl, rfl⟩
  | _, _, _, _, _, .cons h hs, .cons h' hs' => by
    obtain ⟨rfl, rfl⟩ := shows_unique h h'
    obtain ⟨rfl, rfl⟩ := showsL_unique hs hs'
    exact ⟨rfl, rfl⟩
end

/-- Any trees can be put into memory, beyond any address, without touching what is there. -/
theorem C83_layout (ts : List Node) (m0 : NodeMem) (n : Nat) :
    ∃ m ps fp n', Forest m ts ps fp ∧ n ≤ n' ∧ (∀ q ∈ fp, n ≤ q ∧ q < n') ∧ ∀ q, q ∉ fp → m q = m0 q := by
  have hlist : ∀ ts : List Node, (∀ t ∈ ts, ∀ (m0 : NodeMem) (n : Nat), ∃ m p fp n', Shows m t p fp ∧ fp.Nodup ∧ n ≤ n' ∧ (∀ q ∈ fp, n ≤ q ∧ q < n') ∧
      ∀ q, q ∉ fp → m q = m0 q) → ∀ (m0 : NodeMem) (n : Nat), ∃ m ps fp n', Forest m ts ps fp ∧ n ≤ n' ∧ (∀ q ∈ fp, n ≤ q ∧ q < n') ∧
      ∀ q, q ∉ fp → m q = m0 q := by
    intro ts
    induction ts with
    | nil => intro _ m0 n; exact ⟨m0, [], [], n, ⟨.nil, .nil⟩, Nat.le_refl _, by simp, fun _ _ => rfl⟩
    | cons t ts ih =>
      intro h m0 n
      obtain ⟨m1, p, f, n1, a1, a2, a3, a4, a5⟩ := h t (by simp) m0 n
      obtain ⟨m2, ps, fp, n2, ⟨b1, b2⟩, b3, b4, b5⟩ := ih (fun t' ht => h t' (List.mem_cons_of_mem _ ht)) m1 n1
      have hd : ∀ q ∈ f, ∀ q' ∈ fp, q ≠ q' := fun q hq q' hq' => by have := a4 q hq; have := b4 q' hq'; omega
      refine ⟨m2, p :: ps, f ++ fp, n2, ⟨.cons (shows_congr a1 fun q hq => b5 q fun hc => hd q hq q hc rfl) b1, List.nodup_append.2 ⟨a2, b2, hd⟩⟩,
        by omega, fun q hq => ?_, fun q hq => ?_⟩
      · rcases List.mem_append.1 hq with hq | hq
        · have := a4 q hq; omega
        · have := b4 q hq; omega
      · rw [b5 q fun hc => hq (List.mem_append_right _ hc), a5 q fun hc => hq (List.mem_append_left _ hc)]
  have hnode : ∀ (k : Nat) (t : Node), t.levels ≤ k → ∀ (m0 : NodeMem) (n : Nat), ∃ m p fp n', Shows m t p fp ∧ fp.Nodup ∧ n ≤ n' ∧
      (∀ q ∈ fp, n ≤ q ∧ q < n') ∧ ∀ q, q ∉ fp → m q = m0 q := by
    intro k
    induction k with
    | zero => intro t h; have := Node.levels_pos t; omega
    | succ k ih =>
      intro t hl m0 n
      have hlv := levelsL_children t
      obtain ⟨m, ps, fp, n', ⟨b1, b2⟩, b3, b4, b5⟩ := hlist t.children (fun t' ht => ih t' (by have := levels_mem ht; omega)) m0 (n + 1)
      have hp : n ∉ fp := fun hc => by have := b4 n hc; omega
      refine ⟨m.put n (t.obj ps), n, n :: fp, n', .node (put_same _ _ _) (showsL_congr b1 fun q hq => put_other _ _ fun e => hp (e ▸ hq)),
        List.nodup_cons.2 ⟨hp, b2⟩, by omega, fun q hq => ?_, fun q hq => ?_⟩
      · rcases List.mem_cons.1 hq with rfl | hq
        · omega
        · have := b4 q hq; omega
      · simp only [List.mem_cons, not_or] at hq
        rw [put_other _ _ hq.1, b5 q hq.2]
  exact hlist ts (fun t _ => hnode t.levels t (Nat.le_refl _)) m0 n

/-- What happens to a forest does not happen to another one. -/
theorem C83_apart {m m' : NodeMem} {fp ps' fp' : List Nat} {ts : List Node} (h : InPlace m fp ts m' ps' fp') {us : List Node} {qs gp : List Nat}
    (hu : ShowsL m us qs gp) (hd : ∀ q ∈ gp, q ∉ fp) : ShowsL m' us qs gp :=
  showsL_congr hu fun q hq => h.other q (hd q hq)

/-- The forest afterwards is one again. -/
theorem C83_forest {m m' : NodeMem} {fp ps ps' fp' : List Nat} {ts us : List Node} (hf : Forest m us ps fp) (h : InPlace m fp ts m' ps' fp') :
    Forest m' ts ps' fp' := ⟨h.shows, hf.2.sublist h.sub⟩

/-! ### The methods -/

/-- **C83**, `Text`. -/
theorem C83_text {m : NodeMem} {t : Node} {p : Nat} {fp : List Nat} (h : Shows m t p fp) {fuel : Nat} (hf : t.levels ≤ fuel) :
    Ptr.text fuel m p = .ok t.text := text_shows h hf

/-- **C83**, the methods of `Node`: the node is what the function makes of its value, at the same address. -/
theorem C83_node {m : NodeMem} {t : Node} {p : Nat} {fp : List Nat} (h : Shows m t p fp) (hn : fp.Nodup) {fuel : Nat} (hf : t.levels ≤ fuel) :
    (∃ m' fp', Ptr.dropMarked NodeObj.virt fuel p m = .ok m' ∧ InPlace m fp [t.removeVirtual] m' [p] fp') ∧
    (∃ m' fp', Ptr.dropMarked NodeObj.nonData fuel p m = .ok m' ∧ InPlace m fp [t.removeNonData] m' [p] fp') ∧
    (∃ m' fp', Ptr.mergeNode fuel p m = .ok m' ∧ InPlace m fp [t.mergeSticky] m' [p] fp') ∧
    (∃ m' fp', Ptr.removeRedundant fuel p m = .ok m' ∧ InPlace m fp [t.removeRedundant] m' [p] fp') := by
  have key : ∀ {op : Nat → NodeMem → Exec NodeMem} {f : Node → Node}, Does op f t → ∃ m' fp', op p m = .ok m' ∧ InPlace m fp [f t] m' [p] fp' := by
    intro op f hd
    obtain ⟨m', fp', e1, e2, e3, e4⟩ := hd m p fp h hn
    exact ⟨m', fp', e1, showsL_one e2, e3, e4⟩
  exact ⟨key (virtual_does hf), key (nonData_does hf), key (merge_does hf), key (redundant_does hf)⟩

theorem ast_drop {drop : NodeObj → Bool} {mark : Node → Bool} (hd : ∀ t ks, drop (t.obj ks) = mark t) {f : Node → Node}
    {fuel : Nat} {ts : List Node} (hop : ∀ t ∈ ts, Does (Ptr.dropMarked drop fuel) f t) {m : NodeMem} {ps fp : List Nat} (h : Forest m ts ps fp) :
    ∃ ps' m' fp', Ptr.astDrop drop fuel ps m = .ok (ps', m') ∧ InPlace m fp (keepL mark f ts) m' ps' fp' := by
  unfold Ptr.astDrop
  have hlen := h.1.length
  by_cases h0 : ps.length = 0
  · rw [if_pos h0]
    have hn : ts = [] := List.length_eq_zero_iff.1 (by omega)
    subst hn
    exact ⟨_, _, fp, rfl, h.1, List.Sublist.refl _, fun _ _ => rfl⟩
  · rw [if_neg h0]
    obtain ⟨ps', m', fp', e1, e2, e3, e4⟩ := drop_loop hd hop h.1 .nil (by simpa using h.2)
    exact ⟨ps', m', fp', e1, by simpa using e2, by simpa using e3, e4⟩

/-- **C83**, `AST.RemoveVirtualNodes`. -/
theorem C83_virtual {m : NodeMem} {ts : List Node} {ps fp : List Nat} (h : Forest m ts ps fp) {fuel : Nat} (hf : levelsL ts ≤ fuel) :
    ∃ ps' m' fp', Ptr.astDrop NodeObj.virt fuel ps m = .ok (ps', m') ∧ InPlace m fp (removeVirtualL ts) m' ps' fp' := by
  have := ast_drop (drop := NodeObj.virt) (mark := Node.virt) (fun _ _ => rfl)
    (fun t ht => virtual_does (fuel := fuel) (by have := levels_mem ht; omega)) h
  rwa [keep_virtual] at this

/-- **C83**, `AST.RemoveNonDataNodes`. -/
theorem C83_nonData {m : NodeMem} {ts : List Node} {ps fp : List Nat} (h : Forest m ts ps fp) {fuel : Nat} (hf : levelsL ts ≤ fuel) :
    ∃ ps' m' fp', Ptr.astDrop NodeObj.nonData fuel ps m = .ok (ps', m') ∧ InPlace m fp (removeNonDataL ts) m' ps' fp' := by
  have := ast_drop (drop := NodeObj.nonData) (mark := Node.nonData) (fun _ _ => rfl)
    (fun t ht => nonData_does (fuel := fuel) (by have := levels_mem ht; omega)) h
  rwa [keep_nonData] at this

/-- **C83**, `MergeStickyNodes` of a list of nodes and of an AST. -/
theorem C83_merge {m : NodeMem} {ts : List Node} {ps fp : List Nat} (h : Forest m ts ps fp) {fuel : Nat} (hf : levelsL ts ≤ fuel) :
    ∃ ps' m' fp', Ptr.mergeNodes fuel ps m = .ok (ps', m') ∧ InPlace m fp (mergeStickyNodes ts) m' ps' fp' := by
  unfold Ptr.mergeNodes mergeStickyNodes
  have hlen := h.1.length
  by_cases h0 : ps.length = 0
  · have h1 : ts.length = 0 := by omega
    rw [if_pos h0, if_pos h1]
    exact ⟨_, _, fp, rfl, h.1, List.Sublist.refl _, fun _ _ => rfl⟩
  · have h1 : ¬ ts.length = 0 := by omega
    rw [if_neg h0, if_neg h1]
    obtain ⟨ps', m', fp', e1, e2, e3, e4⟩ := merge_loop (tx := Ptr.text fuel) (op := Ptr.mergeNode fuel)
      (fun t ht => merge_does (by have := levels_mem ht; omega)) (fun t ht m p f h' => text_shows h' (by have := levels_mem ht; omega)) h.1 .nil .none
      (by simpa using h.2)
    exact ⟨ps', m', fp', by simpa using e1, e2, by simpa using e3, fun q hq => e4 q (by simpa using hq)⟩

/-- **C83**, `AST.RemoveRedundantNodes`; the roots stay where they are. -/
theorem C83_redundant {ts : List Node} : ∀ {m : NodeMem} {ps fp : List Nat}, Forest m ts ps fp → ∀ {fuel : Nat}, levelsL ts ≤ fuel →
    ∃ m' fp', Ptr.astRedundant fuel ps m = .ok m' ∧ InPlace m fp (astRemoveRedundant ts) m' ps fp' := by
  induction ts with
  | nil =>
    intro m ps fp h fuel hf
    cases h.1
    exact ⟨m, [], rfl, .nil, List.Sublist.refl _, fun _ _ => rfl⟩
  | cons t ts ih =>
    intro m ps fp h fuel hf
    obtain ⟨hsh, hn⟩ := h
    rw [levelsL] at hf
    cases hsh with
    | @cons _ p g _ ps fp h hs =>
      obtain ⟨hn1, hn2, hn3⟩ := List.nodup_append.1 hn
      obtain ⟨ks, hk⟩ := h.obj
      rw [Ptr.astRedundant, astRemoveRedundant, hk]
      by_cases hd : t.nonData = true
      · rw [if_pos hd, if_pos hd]
        obtain ⟨m', fp', e1, e2, e3, e4⟩ := ih ⟨hs, hn2⟩ (fuel := fuel) (by omega)
        refine ⟨m', g ++ fp', e1, .cons (shows_congr h fun q hq => e4 q fun hc => hn3 q hq q hc rfl) e2, List.Sublist.append_left e3 _,
          fun q hq => e4 q fun hc => hq (List.mem_append_right _ hc)⟩
      · rw [if_neg hd, if_neg hd]
        obtain ⟨m1, g', e1, e2, e3, e4⟩ := redundant_does (fuel := fuel) (t := t) (by omega) m p g h hn1
        rw [e1, Exec.ok_bind]
        obtain ⟨m', fp', e5, e6, e7, e8⟩ := ih ⟨showsL_congr hs fun q hq => e4 q fun hc => hn3 q hc q hq rfl, hn2⟩ (fuel := fuel) (by omega)
        refine ⟨m', g' ++ fp', e5, .cons (shows_congr e2 fun q hq => e8 q fun hc => hn3 q (e3.subset hq) q hc rfl) e6, List.Sublist.append e3 e7,
          fun q hq => ?_⟩
        rw [e8 q fun hc => hq (List.mem_append_right _ hc), e4 q fun hc => hq (List.mem_append_left _ hc)]

/-! ### `Eval` -/

theorem levels_eq {t t' : Node} (h : t'.children = t.children) : t'.levels = t.levels := by
  rw [← levelsL_children, ← levelsL_children, h]

theorem levels_keep {mark : Node → Bool} {f : Node → Node} {ts : List Node} (h : ∀ t ∈ ts, (f t).levels ≤ t.levels) : levelsL (keepL mark f ts) ≤ levelsL ts := by
  induction ts with
  | nil => simp [keepL]
  | cons t ts ih =>
    have h1 := h t (by simp)
    have h2 := ih fun t' ht => h t' (List.mem_cons_of_mem _ ht)
    rw [keepL, levelsL]
    split
    · omega
    · rw [levelsL]; omega

theorem levels_virtual : ∀ (n : Nat) (t : Node), t.levels ≤ n → t.removeVirtual.levels ≤ t.levels := by
  intro n
  induction n with
  | zero => intro t h; have := Node.levels_pos t; omega
  | succ n ih =>
    intro t h
    have h0 := levelsL_children t
    have := levels_keep (mark := Node.virt) (f := Node.removeVirtual) (ts := t.children) fun t' ht => ih t' (by have := levels_mem ht; omega)
    rw [keep_virtual] at this
    rw [← levelsL_children t.removeVirtual]
    obtain ⟨rt, nm, ch, cs, pos, st, v, nd, tk⟩ := t
    rw [Node.removeVirtual]
    simp only at h0 this ⊢
    omega

theorem levels_mergeLoop {n : Nat} {ts : List Node} (h : ∀ t ∈ ts, t.levels ≤ n ∧ t.mergeSticky.levels ≤ n) : ∀ {outs : List Node} {prev : Option Node},
    levelsL outs ≤ n → (∀ v, prev = some v → v.levels ≤ n) → levelsL (mergeLoop outs prev ts) ≤ n := by
  have hun : ∀ {outs : List Node} {prev : Option Node}, levelsL outs ≤ n → (∀ v, prev = some v → v.levels ≤ n) → levelsL (outs ++ unstuck prev) ≤ n := by
    intro outs prev h1 h2
    rw [levelsL_append]
    cases prev with
    | none => simpa [unstuck, levelsL] using h1
    | some v =>
      have := h2 v rfl
      have h3 : ({ v with sticky := false } : Node).levels = v.levels := levels_eq rfl
      simp only [unstuck, Option.map_some, Option.toList_some, levelsL, h3]
      omega
  induction ts with
  | nil => intro outs prev h1 h2; rw [mergeLoop_nil]; exact hun h1 h2
  | cons t ts ih =>
    intro outs prev h1 h2
    have ih := @ih (fun t' ht => h t' (List.mem_cons_of_mem _ ht))
    obtain ⟨h3, h4⟩ := h t (by simp)
    by_cases hs : t.sticky = true
    · rw [mergeLoop.eq_def]
      simp only [hs, if_true]
      cases prev with
      | some v =>
        refine ih h1 fun w hw => ?_
        cases hw
        exact Nat.le_trans (Nat.le_of_eq (levels_eq (t := v) rfl)) (h2 v rfl)
      | none =>
        refine ih h1 fun w hw => ?_
        cases hw
        have := Node.levels_pos t
        rw [← levelsL_children]
        simp only [levelsL]
        omega
    · rw [mergeLoop_step _ _ _ (by simpa using hs)]
      refine ih ?_ (fun _ hv => by cases hv)
      rw [levelsL_append]
      have := hun h1 h2
      simp only [levelsL]
      omega

theorem levels_merge : ∀ (n : Nat) (t : Node), t.levels ≤ n → t.mergeSticky.levels ≤ t.levels := by
  intro n
  induction n with
  | zero => intro t h; have := Node.levels_pos t; omega
  | succ n ih =>
    intro t h
    have h0 := levelsL_children t
    have hkids : ∀ t' ∈ t.children, t'.levels ≤ levelsL t.children ∧ t'.mergeSticky.levels ≤ levelsL t.children := fun t' ht => by
      have h1 := levels_mem ht
      have h2 := ih t' (by omega)
      omega
    obtain ⟨rt, nm, ch, cs, pos, st, v, nd, tk⟩ := t
    simp only at h0 hkids
    rw [Node.mergeSticky]
    split
    · exact Nat.le_refl _
    · split
      · rw [← levelsL_children, mergeBlock_map]
        have : levelsL (cs.map fun t => { t.mergeSticky with sticky := false }) ≤ levelsL cs := levelsL_le fun x hx => by
          obtain ⟨y, hy, rfl⟩ := List.mem_map.1 hx
          exact Nat.le_trans (Nat.le_of_eq (levels_eq (t := y.mergeSticky) rfl)) (hkids y hy).2
        exact Nat.le_trans (Nat.succ_le_succ this) (Nat.le_of_eq h0)
      · rw [← levelsL_children]
        have := levels_mergeLoop hkids (outs := []) (prev := none) (by simp [levelsL]) (fun _ hv => by cases hv)
        simp only
        omega

theorem levels_mergeNodes (ts : List Node) : levelsL (mergeStickyNodes ts) ≤ levelsL ts := by
  unfold mergeStickyNodes
  split
  · exact Nat.le_refl _
  · exact levels_mergeLoop (fun t ht => by have := levels_mem ht; have := levels_merge _ t (Nat.le_refl _); omega) (by simp [levelsL]) (fun _ hv => by cases hv)

theorem InPlace.trans {m m1 m2 : NodeMem} {fp ps1 fp1 ps2 fp2 : List Nat} {ts1 ts2 : List Node} (h1 : InPlace m fp ts1 m1 ps1 fp1)
    (h2 : InPlace m1 fp1 ts2 m2 ps2 fp2) : InPlace m fp ts2 m2 ps2 fp2 :=
  ⟨h2.shows, h2.sub.trans h1.sub, fun q hq => by rw [h2.other q fun hc => hq (h1.sub.subset hc), h1.other q hq]⟩

/-- **C83**.  What `Eval` does after `EvalRaw`, at every level: it ends (the number of levels of the trees is enough fuel), the roots it returns are those of the
trees that `simplify` makes of the values, these are made of nodes that were there before, in the order they had, and no other node is changed. -/
theorem C83_simplify {m : NodeMem} {ts : List Node} {ps fp : List Nat} (h : Forest m ts ps fp) (level : Int) {fuel : Nat} (hf : levelsL ts ≤ fuel) :
    ∃ ps' m' fp', Ptr.simplify level fuel ps m = .ok (ps', m') ∧ InPlace m fp (simplify level ts) m' ps' fp' := by
  unfold Ptr.simplify simplify
  by_cases h0 : level = LevelRaw
  · rw [if_pos h0, if_pos h0]
    exact ⟨_, _, fp, rfl, h.1, List.Sublist.refl _, fun _ _ => rfl⟩
  rw [if_neg h0, if_neg h0]
  obtain ⟨ps1, m1, fp1, e1, i1⟩ := C83_merge h hf
  have f1 := C83_forest h i1
  have l1 := levels_mergeNodes ts
  rw [e1, Exec.ok_bind]
  dsimp only
  have fin : ∀ {ts2 : List Node} {m2 : NodeMem} {ps2 fp2 : List Nat}, InPlace m fp ts2 m2 ps2 fp2 → levelsL ts2 ≤ fuel →
      ∃ ps' m' fp', (Ptr.astRedundant fuel ps2 m2 >>= fun m => Exec.ok (ps2, m)) = .ok (ps', m') ∧ InPlace m fp (astRemoveRedundant ts2) m' ps' fp' := by
    intro ts2 m2 ps2 fp2 i2 hl
    obtain ⟨m3, fp3, e3, i3⟩ := C83_redundant (C83_forest h i2) hl
    exact ⟨ps2, m3, fp3, by rw [e3]; rfl, InPlace.trans i2 i3⟩
  have lv : ∀ ts : List Node, levelsL (removeVirtualL ts) ≤ levelsL ts := fun ts => by
    rw [← keep_virtual]
    exact levels_keep fun t _ => levels_virtual _ t (Nat.le_refl _)
  have ln : ∀ ts : List Node, levelsL (removeNonDataL ts) ≤ levelsL ts := by
    have key : ∀ (n : Nat) (t : Node), t.levels ≤ n → t.removeNonData.levels ≤ t.levels := by
      intro n
      induction n with
      | zero => intro t h; have := Node.levels_pos t; omega
      | succ n ih =>
        intro t h
        have h0 := levelsL_children t
        have := levels_keep (mark := Node.nonData) (f := Node.removeNonData) (ts := t.children) fun t' ht => ih t' (by have := levels_mem ht; omega)
        rw [keep_nonData] at this
        rw [← levelsL_children t.removeNonData]
        obtain ⟨rt, nm, ch, cs, pos, st, v, nd, tk⟩ := t
        rw [Node.removeNonData]
        simp only at h0 this ⊢
        omega
    intro ts
    rw [← keep_nonData]
    exact levels_keep fun t _ => key _ t (Nat.le_refl _)
  by_cases h2 : level = LevelDataOnly
  · rw [if_pos h2, if_pos h2]
    obtain ⟨ps2, m2, fp2, e2, i2⟩ := C83_virtual f1 (fuel := fuel) (by omega)
    have l2 := lv (mergeStickyNodes ts)
    obtain ⟨ps3, m3, fp3, e3, i3⟩ := C83_nonData (C83_forest f1 i2) (fuel := fuel) (by omega)
    have l3 := ln (removeVirtualL (mergeStickyNodes ts))
    rw [e2, Exec.ok_bind]
    dsimp only
    rw [e3, Exec.ok_bind]
    exact fin (InPlace.trans (InPlace.trans i1 i2) i3) (by omega)
  · rw [if_neg h2, if_neg h2]
    by_cases h1 : level = LevelNoVirtual
    · rw [if_pos h1, if_pos h1]
      obtain ⟨ps2, m2, fp2, e2, i2⟩ := C83_virtual f1 (fuel := fuel) (by omega)
      have l2 := lv (mergeStickyNodes ts)
      rw [e2, Exec.ok_bind]
      exact fin (InPlace.trans i1 i2) (by omega)
    · rw [if_neg h1, if_neg h1, Exec.ok_bind]
      exact fin i1 (by omega)

/-! ### Cases -/

/-- `x` with three children: two sticky letters and a virtual one; at 0, 1, 2 and 3.  At 4 is a node of another tree. -/
def caseMem : NodeMem
  | 0 => { ruleType := .group, name := runes "x", kids := [1, 2, 3] }
  | 1 => { ruleType := .char, chars := runes "a", sticky := true }
  | 2 => { ruleType := .char, chars := runes "b", sticky := true }
  | 3 => { ruleType := .char, chars := runes "c", virt := true }
  | _ => { ruleType := .char, chars := runes "z" }

def caseTree : Node :=
  { ruleType := .group, name := runes "x", children := [{ ruleType := .char, chars := runes "a", sticky := true },
    { ruleType := .char, chars := runes "b", sticky := true }, { ruleType := .char, chars := runes "c", virt := true }] }

theorem shows_leaf {m : NodeMem} {t : Node} {p : Nat} (hc : t.children = []) (h : m p = t.obj []) : Shows m t p [p] :=
  .node (ks := []) (fp := []) h (by rw [hc]; exact .nil)

theorem case_forest : Forest caseMem [caseTree] [0] [0, 1, 2, 3] := by
  refine ⟨showsL_one (Shows.node (ks := [1, 2, 3]) (fp := [1, 2, 3]) rfl ?_), by decide⟩
  have h1 : Shows caseMem { ruleType := .char, chars := runes "a", sticky := true } 1 [1] := shows_leaf rfl rfl
  have h2 : Shows caseMem { ruleType := .char, chars := runes "b", sticky := true } 2 [2] := shows_leaf rfl rfl
  have h3 : Shows caseMem { ruleType := .char, chars := runes "c", virt := true } 3 [3] := shows_leaf rfl rfl
  exact .cons h1 (.cons h2 (.cons h3 .nil))

/-- The case meets what C83 asks, and what comes out is the text "ab" at the root, with no children left. -/
example : levelsL [caseTree] = 2 ∧ (∃ ps' m' fp', Ptr.simplify LevelNoVirtual 2 [0] caseMem = .ok (ps', m') ∧
      InPlace caseMem [0, 1, 2, 3] (simplify LevelNoVirtual [caseTree]) m' ps' fp') ∧
    (simplify LevelNoVirtual [caseTree]).map (fun t => (t.name, t.chars, t.children.length)) = [(runes "x", runes "ab", 0)] :=
  ⟨by decide +kernel, C83_simplify case_forest LevelNoVirtual (by decide +kernel), by decide +kernel⟩

example : (match Ptr.simplify LevelNoVirtual 2 [0] caseMem with
    | .ok (ps, m) => (ps, (m 0).chars, (m 0).kids, (m 1).chars, (m 3).chars, (m 4).chars)
    | _ => default) = ([0], runes "ab", [], runes "ab", runes "c", runes "z") := by decide +kernel

/-- **C83** needs that no node is in two places: a sticky leaf that is three children of one node.  Read as a value the tree says "aaa" once merged; in place the
leaf is read after it has been written to, and says "aaaa". -/
def twiceMem : NodeMem
  | 0 => { ruleType := .group, name := runes "x", kids := [1, 1, 1] }
  | _ => { ruleType := .char, chars := runes "a", sticky := true }

def twiceTree : Node :=
  let a : Node := { ruleType := .char, chars := runes "a", sticky := true }
  { ruleType := .group, name := runes "x", children := [a, a, a] }

theorem C83_shared_counterexample : Shows twiceMem twiceTree 0 [0, 1, 1, 1] ∧ twiceTree.mergeSticky.text = runes "aaa" ∧
    ∃ m', Ptr.mergeNode 2 0 twiceMem = .ok m' ∧ Ptr.text 2 m' 0 = .ok (runes "aaaa") ∧ ∀ fp', ¬ Shows m' twiceTree.mergeSticky 0 fp' := by
  have hv : twiceTree.mergeSticky.text = runes "aaa" := by decide +kernel
  have hl : Shows twiceMem { ruleType := .char, chars := runes "a", sticky := true } 1 [1] := shows_leaf rfl rfl
  refine ⟨.node (ks := [1, 1, 1]) (fp := [1, 1, 1]) rfl (.cons hl (.cons hl (.cons hl .nil))), hv, ?_⟩
  have ht : (Ptr.mergeNode 2 0 twiceMem >>= fun m => Ptr.text 2 m 0) = .ok (runes "aaaa") := by decide +kernel
  cases hm : Ptr.mergeNode 2 0 twiceMem with
  | ok m' =>
    rw [hm, Exec.ok_bind] at ht
    refine ⟨m', rfl, ht, fun fp' hs => ?_⟩
    have h2 := text_shows hs (fuel := 2) (by decide +kernel)
    rw [ht, hv] at h2
    exact absurd h2 (by decide +kernel)
  | panic => rw [hm] at ht; exact absurd ht (by decide)
  | oof => rw [hm] at ht; exact absurd ht (by decide)

/-- … and that no node is below itself: then `Text` has no end. -/
theorem C83_cycle_counterexample (fuel : Nat) : Ptr.text fuel (fun _ => { ruleType := .group, kids := [0] }) 0 = .oof := by
  induction fuel with
  | zero => rfl
  | succ fuel ih =>
    rw [Ptr.text]
    simp only [List.length_nil, Nat.lt_irrefl, if_false, gt_iff_lt, Ptr.textLoop, ih]
    rfl

end Xbnf.Props
