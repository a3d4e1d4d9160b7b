import Verif.Spec.NodeHeap
import Verif.Lemmas.Safe
/-
The simplifications in place do what they do on values.
-/
namespace Xbnf.Props
open Spec

variable {m m' : NodeMem}

theorem Node.levels_pos (t : Node) : 1 ≤ t.levels := by
  obtain ⟨_, _, _, cs, _, _, _, _, _⟩ := t
  rw [Node.levels]; omega

theorem levelsL_children (t : Node) : levelsL t.children + 1 = t.levels := by
  obtain ⟨_, _, _, cs, _, _, _, _, _⟩ := t
  rw [Node.levels]

theorem levels_mem {ts : List Node} {t : Node} (h : t ∈ ts) : t.levels ≤ levelsL ts := by
  induction ts with
  | nil => cases h
  | cons x xs ih =>
    rw [levelsL]
    rcases List.mem_cons.1 h with rfl | h
    · omega
    · have := ih h; omega

mutual
theorem shows_congr : {t : Node} → {p : Nat} → {fp : List Nat} → Shows m t p fp → (∀ q ∈ fp, m' q = m q) → Shows m' t p fp
  | _, _, _, .node h hc, hm =>
    .node (by rw [hm _ (by simp)]; exact h) (showsL_congr hc fun q hq => hm q (List.mem_cons_of_mem _ hq))
theorem showsL_congr : {ts : List Node} → {ps fp : List Nat} → ShowsL m ts ps fp → (∀ q ∈ fp, m' q = m q) → ShowsL m' ts ps fp
  | _, _, _, .nil, _ => .nil
  | _, _, _, .cons h hs, hm =>
    .cons (shows_congr h fun q hq => hm q (List.mem_append_left _ hq)) (showsL_congr hs fun q hq => hm q (List.mem_append_right _ hq))
end

theorem showsL_append {ts ts' : List Node} {ps ps' fp fp' : List Nat} (h : ShowsL m ts ps fp) (h' : ShowsL m ts' ps' fp') :
    ShowsL m (ts ++ ts') (ps ++ ps') (fp ++ fp') := by
  induction ts generalizing ps fp with
  | nil => cases h; exact h'
  | cons t ts ih =>
    cases h with
    | cons h hs => rw [List.cons_append, List.cons_append, List.append_assoc]; exact .cons h (ih hs)

theorem showsL_one {t : Node} {p : Nat} {fp : List Nat} (h : Shows m t p fp) : ShowsL m [t] [p] fp := by
  have := ShowsL.cons h .nil
  rwa [List.append_nil] at this

theorem _root_.Xbnf.Spec.Shows.obj {t : Node} {p : Nat} {fp : List Nat} (h : Shows m t p fp) : ∃ ks, m p = t.obj ks := by
  cases h with
  | node h _ => exact ⟨_, h⟩

theorem _root_.Xbnf.Spec.Shows.mem {t : Node} {p : Nat} {fp : List Nat} (h : Shows m t p fp) : p ∈ fp := by
  cases h; simp

theorem _root_.Xbnf.Spec.ShowsL.length {ts : List Node} {ps fp : List Nat} (h : ShowsL m ts ps fp) : ps.length = ts.length := by
  induction ts generalizing ps fp with
  | nil => cases h; rfl
  | cons t ts ih => cases h with | cons h hs => simp [ih hs]

theorem put_same (m : NodeMem) (p : Nat) (o : NodeObj) : m.put p o p = o := by simp [NodeMem.put]

theorem put_other (m : NodeMem) {p q : Nat} (o : NodeObj) (h : q ≠ p) : m.put p o q = m q := by simp [NodeMem.put, h]

/-! ### Text -/

theorem text_loop {tx : Nat → Exec (List Rune)} {b : Bool} {ts : List Node} {ps fp : List Nat} (h : ShowsL m ts ps fp)
    (htx : ∀ t ∈ ts, ∀ p f, Shows m t p f → tx p = .ok t.text) (acc : List Rune) (st : Bool) :
    Ptr.textLoop tx m b acc st ps = .ok (textLoop b acc st ts) := by
  induction ts generalizing ps fp acc st with
  | nil => cases h; rw [Ptr.textLoop, textLoop]
  | cons t ts ih =>
    cases h with
    | cons h hs =>
      obtain ⟨ks, hk⟩ := h.obj
      rw [Ptr.textLoop, htx t (by simp) _ _ h, Exec.ok_bind, ih hs (fun t' ht => htx t' (List.mem_cons_of_mem _ ht)), hk, textLoop]

theorem text_shows {fuel : Nat} : ∀ {t : Node} {p : Nat} {fp : List Nat}, Shows m t p fp → t.levels ≤ fuel → Ptr.text fuel m p = .ok t.text := by
  induction fuel with
  | zero => intro t p fp _ h; have := Node.levels_pos t; omega
  | succ fuel ih =>
    intro t p fp h hl
    cases h with
    | node h hc =>
      rename_i ks fp
      have hlv := levelsL_children t
      have hloop := text_loop (b := t.ruleType == .block) hc (tx := Ptr.text fuel m)
        (fun t' ht' p' f' h' => ih h' (by have := levels_mem ht'; omega)) [] false
      obtain ⟨rt, nm, ch, cs, pos, st, v, nd, tk⟩ := t
      rw [Ptr.text, h, Node.text]
      show (if ch.length > 0 then (if ch = [EOFChar] then Exec.ok [] else Exec.ok ch)
        else Ptr.textLoop (Ptr.text fuel m) m (rt == RType.block) [] false ks) = _
      by_cases h1 : ch.length > 0
      · rw [if_pos h1, if_pos h1]
        by_cases h2 : ch = [EOFChar]
        · rw [if_pos h2, if_pos h2]
        · rw [if_neg h2, if_neg h2]
      · rw [if_neg h1, if_neg h1]
        exact hloop

/-! ### Removing marked nodes -/

/-- What a method is to do with one node. -/
def Does (op : Nat → NodeMem → Exec NodeMem) (f : Node → Node) (t : Node) : Prop :=
  ∀ (m : NodeMem) (p : Nat) (fp : List Nat), Shows m t p fp → fp.Nodup →
    ∃ m' fp', op p m = .ok m' ∧ Shows m' (f t) p fp' ∧ fp'.Sublist fp ∧ ∀ q, q ∉ fp → m' q = m q

/-- The trees without the marked ones, the others changed. -/
def keepL (drop : Node → Bool) (f : Node → Node) : List Node → List Node
  | [] => []
  | t :: ts => if drop t then keepL drop f ts else f t :: keepL drop f ts

theorem drop_loop {drop : NodeObj → Bool} {mark : Node → Bool} (hd : ∀ t ks, drop (t.obj ks) = mark t) {op : Nat → NodeMem → Exec NodeMem} {f : Node → Node}
    {ts : List Node} (hop : ∀ t ∈ ts, Does op f t) : ∀ {m : NodeMem} {ps fp out ofp : List Nat} {outs : List Node}, ShowsL m ts ps fp →
    ShowsL m outs out ofp → (ofp ++ fp).Nodup →
    ∃ ps' m' fp', Ptr.dropLoop drop op ps out m = .ok (ps', m') ∧ ShowsL m' (outs ++ keepL mark f ts) ps' fp' ∧ fp'.Sublist (ofp ++ fp) ∧
      ∀ q, q ∉ fp → m' q = m q := by
  induction ts with
  | nil =>
    intro m ps fp out ofp outs h ho hn
    cases h
    exact ⟨out, m, ofp, rfl, by simpa [keepL] using ho, by simp, fun _ _ => rfl⟩
  | cons t ts ih =>
    intro m ps fp out ofp outs h ho hn
    cases h with
    | @cons _ p g _ ps fp h hs =>
      obtain ⟨ks, hk⟩ := h.obj
      have ih := @ih (fun t' ht => hop t' (List.mem_cons_of_mem _ ht))
      rw [Ptr.dropLoop, hk, hd, keepL]
      have hn' := List.nodup_append.1 hn
      have hn2 := List.nodup_append.1 hn'.2.1
      by_cases hdt : mark t = true
      · rw [if_pos hdt, if_pos hdt]
        obtain ⟨ps', m', fp', e1, e2, e3, e4⟩ := ih hs ho (by
          refine List.nodup_append.2 ⟨hn'.1, hn2.2.1, fun a ha b hb => hn'.2.2 a ha b (List.mem_append_right _ hb)⟩)
        refine ⟨ps', m', fp', e1, e2, e3.trans (List.Sublist.append_left (List.sublist_append_right ..) _), fun q hq => e4 q fun hc => hq (List.mem_append_right _ hc)⟩
      · rw [if_neg hdt, if_neg hdt]
        obtain ⟨m1, g', e1, e2, e3, e4⟩ := hop t (by simp) m p g h hn2.1
        rw [e1, Exec.ok_bind]
        have hs1 : ShowsL m1 ts ps fp := showsL_congr hs fun q hq => e4 q fun hc => hn2.2.2 q hc q hq rfl
        have ho1 : ShowsL m1 (outs ++ [f t]) (out ++ [p]) (ofp ++ g') :=
          showsL_append (showsL_congr ho fun q hq => e4 q fun hc => hn'.2.2 q hq q (List.mem_append_left _ hc) rfl) (showsL_one e2)
        have hsub : (ofp ++ g' ++ fp).Sublist (ofp ++ (g ++ fp)) := by
          rw [List.append_assoc]
          exact List.Sublist.append_left (List.Sublist.append_right e3 _) _
        obtain ⟨ps', m', fp', e5, e6, e7, e8⟩ := ih hs1 ho1 (hn.sublist hsub)
        refine ⟨ps', m', fp', e5, by simpa using e6, e7.trans hsub, fun q hq => ?_⟩
        rw [e8 q fun hc => hq (List.mem_append_right _ hc), e4 q fun hc => hq (List.mem_append_left _ hc)]

/-- Changing the children of a node. -/
theorem does_kids {t t' : Node} {p : Nat} {ks fp fp' : List Nat} (h : m' p = t'.obj ks) (hc : ShowsL m' t'.children ks fp') (hs : fp'.Sublist fp) :
    Shows m' t' p (p :: fp') ∧ (p :: fp').Sublist (p :: fp) := ⟨.node h hc, hs.cons_cons p⟩

theorem drop_does {drop : NodeObj → Bool} {mark : Node → Bool} (hd : ∀ t ks, drop (t.obj ks) = mark t) {f : Node → Node}
    (hf : ∀ t, f t = { t with children := keepL mark f t.children }) {fuel : Nat} : ∀ {t : Node}, t.levels ≤ fuel → Does (Ptr.dropMarked drop fuel) f t := by
  induction fuel with
  | zero => intro t h; have := Node.levels_pos t; omega
  | succ fuel ih =>
    intro t hl m p fp h hn
    cases h with
    | @node _ _ ks fp h hc =>
      have hlv := levelsL_children t
      rw [Ptr.dropMarked, h]
      obtain ⟨hp, hn'⟩ := List.nodup_cons.1 hn
      by_cases hk : ks.length = 0
      · rw [if_pos hk]
        have hlen := hc.length
        have hnil : t.children = [] := List.length_eq_zero_iff.1 (by omega)
        refine ⟨m, _, rfl, ?_, List.Sublist.refl _, fun _ _ => rfl⟩
        have : f t = t := by
          rw [hf, hnil]
          obtain ⟨rt, nm, ch, cs, pos, st, v, nd, tk⟩ := t
          simp only at hnil
          subst hnil; rfl
        rw [this]
        exact .node h hc
      · rw [if_neg hk]
        obtain ⟨ps', m', fp', e1, e2, e3, e4⟩ := drop_loop hd (fun t' ht => ih (by have := levels_mem ht; omega)) hc .nil (by simpa using hn')
        rw [e1, Exec.ok_bind]
        have hpm : m' p = t.obj ks := by rw [e4 p hp, h]
        simp only [List.nil_append] at e2 e3
        have hp' : p ∉ fp' := fun hc => hp (e3.subset hc)
        obtain ⟨d1, d2⟩ := does_kids (m' := m'.put p { m' p with kids := ps' }) (t := t) (t' := f t) (p := p) (ks := ps') (fp' := fp')
          (by rw [put_same, hpm, hf])
          (by rw [hf]; exact showsL_congr e2 fun q hq => put_other _ _ fun hc => hp' (hc ▸ hq)) e3
        refine ⟨_, _, rfl, d1, d2, fun q hq => ?_⟩
        simp only [List.mem_cons, not_or] at hq
        rw [put_other _ _ hq.1, e4 q hq.2]

theorem keep_virtual (ts : List Node) : keepL Node.virt Node.removeVirtual ts = removeVirtualL ts := by
  induction ts with
  | nil => rw [keepL, removeVirtualL]
  | cons t ts ih => rw [keepL, removeVirtualL, ih]

theorem keep_nonData (ts : List Node) : keepL Node.nonData Node.removeNonData ts = removeNonDataL ts := by
  induction ts with
  | nil => rw [keepL, removeNonDataL]
  | cons t ts ih => rw [keepL, removeNonDataL, ih]

theorem virtual_does {fuel : Nat} {t : Node} (h : t.levels ≤ fuel) : Does (Ptr.dropMarked NodeObj.virt fuel) Node.removeVirtual t :=
  drop_does (fun _ _ => rfl) (fun t => by
    rw [keep_virtual]
    obtain ⟨rt, nm, ch, cs, pos, st, v, nd, tk⟩ := t
    rw [Node.removeVirtual]) h

theorem nonData_does {fuel : Nat} {t : Node} (h : t.levels ≤ fuel) : Does (Ptr.dropMarked NodeObj.nonData fuel) Node.removeNonData t :=
  drop_does (fun _ _ => rfl) (fun t => by
    rw [keep_nonData]
    obtain ⟨rt, nm, ch, cs, pos, st, v, nd, tk⟩ := t
    rw [Node.removeNonData]) h

/-! ### Merging -/

theorem each_loop {op : Nat → NodeMem → Exec NodeMem} {f : Node → Node} {ts : List Node} (hop : ∀ t ∈ ts, Does op f t) :
    ∀ {m : NodeMem} {ps fp : List Nat}, ShowsL m ts ps fp → fp.Nodup →
    ∃ m' fp', Ptr.eachLoop op ps m = .ok m' ∧ ShowsL m' (ts.map f) ps fp' ∧ fp'.Sublist fp ∧ ∀ q, q ∉ fp → m' q = m q := by
  induction ts with
  | nil =>
    intro m ps fp h _
    cases h
    exact ⟨m, [], rfl, .nil, List.Sublist.refl _, fun _ _ => rfl⟩
  | cons t ts ih =>
    intro m ps fp h hn
    cases h with
    | @cons _ p g _ ps fp h hs =>
      obtain ⟨hn1, hn2, hn3⟩ := List.nodup_append.1 hn
      obtain ⟨m1, g', e1, e2, e3, e4⟩ := hop t (by simp) m p g h hn1
      obtain ⟨m2, fp', e5, e6, e7, e8⟩ := ih (fun t' ht => hop t' (List.mem_cons_of_mem _ ht))
        (showsL_congr hs fun q hq => e4 q fun hc => hn3 q hc q hq rfl) hn2
      refine ⟨m2, g' ++ fp', ?_, ?_, List.Sublist.append e3 e7, fun q hq => ?_⟩
      · rw [Ptr.eachLoop, e1, Exec.ok_bind, e5]
      · rw [List.map_cons]
        exact .cons (shows_congr e2 fun q hq => e8 q fun hc => hn3 q (e3.subset hq) q hc rfl) e6
      · rw [e8 q fun hc => hq (List.mem_append_right _ hc), e4 q fun hc => hq (List.mem_append_left _ hc)]

theorem block_each (op : Nat → NodeMem → Exec NodeMem) (ps : List Nat) (m : NodeMem) :
    Ptr.blockLoop op ps m = Ptr.eachLoop (fun q m => do let m ← op q m; .ok (m.put q { m q with sticky := false })) ps m := by
  induction ps generalizing m with
  | nil => rfl
  | cons p ps ih =>
    rw [Ptr.blockLoop, Ptr.eachLoop]
    cases op p m with
    | ok m' => exact ih _
    | panic => rfl
    | oof => rfl

/-- Changing an object without its list of children. -/
theorem shows_put {t t' : Node} {p : Nat} {fp : List Nat} (h : Shows m t p fp) (hn : fp.Nodup) (hc : t'.children = t.children)
    {o : NodeObj} (ho : ∀ ks, m p = t.obj ks → o = t'.obj ks) : Shows (m.put p o) t' p fp := by
  cases h with
  | node h hs =>
    refine .node (by rw [put_same]; exact ho _ h) ?_
    rw [hc]
    exact showsL_congr hs fun q hq => put_other _ _ fun e => (List.nodup_cons.1 hn).1 (e ▸ hq)

theorem does_unsticky {op : Nat → NodeMem → Exec NodeMem} {f : Node → Node} {t : Node} (h : Does op f t) :
    Does (fun q m => do let m ← op q m; .ok (m.put q { m q with sticky := false })) (fun t => { f t with sticky := false }) t := by
  intro m p fp hs hn
  obtain ⟨m', fp', e1, e2, e3, e4⟩ := h m p fp hs hn
  refine ⟨m'.put p { m' p with sticky := false }, fp', by show (op p m >>= _) = _; rw [e1]; rfl,
    shows_put (t' := { f t with sticky := false }) e2 (hn.sublist e3) rfl (fun ks hk => by rw [hk]), e3, fun q hq => ?_⟩
  exact (put_other _ _ fun e : q = p => hq (e ▸ hs.mem)).trans (e4 q hq)

/-- `prevNode`, its value, its address. -/
inductive PrevOk (m : NodeMem) : Option Node → Option Nat → List Nat → Prop
  | none : PrevOk m none none []
  | some {v p} (h : m p = v.obj []) (hc : v.children = []) (hs : v.sticky = true) : PrevOk m (some v) (some p) [p]

/-- `prevNode` made non-sticky. -/
def unstuck (prev : Option Node) : List Node := (prev.map fun v => { v with sticky := false }).toList

theorem mergeLoop_nil (outs : List Node) (prev : Option Node) : mergeLoop outs prev [] = outs ++ unstuck prev := by
  rw [mergeLoop.eq_def]
  cases prev <;> simp [unstuck]

theorem mergeLoop_step (outs : List Node) (prev : Option Node) {t : Node} (ts : List Node) (h : t.sticky = false) :
    mergeLoop outs prev (t :: ts) = mergeLoop (outs ++ unstuck prev ++ [t.mergeSticky]) none ts := by
  rw [mergeLoop.eq_def]
  cases prev <;> simp [unstuck, h]

theorem unstick_ok {prev : Option Node} {pp : Option Nat} {pf ofp out : List Nat} {outs : List Node} (ho : ShowsL m outs out ofp)
    (hp : PrevOk m prev pp pf) (hn : (ofp ++ pf).Nodup) :
    ShowsL (Ptr.unstick pp m) (outs ++ unstuck prev) (out ++ pp.toList) (ofp ++ pf) ∧ ∀ q, q ∉ pf → Ptr.unstick pp m q = m q := by
  cases hp with
  | none => exact ⟨by simpa [unstuck, Ptr.unstick] using ho, fun _ _ => rfl⟩
  | @some v p h hc hs =>
    obtain ⟨_, _, hn3⟩ := List.nodup_append.1 hn
    refine ⟨?_, fun q hq => put_other _ _ (by simpa using hq)⟩
    refine showsL_append (showsL_congr ho fun q hq => put_other _ _ fun e => hn3 q hq p (by simp) e) (showsL_one (.node (ks := []) (fp := []) ?_ ?_))
    · rw [Ptr.unstick, put_same, h]
    · rw [show ({ v with sticky := false } : Node).children = [] from hc]
      exact .nil

theorem merge_loop {tx : NodeMem → Nat → Exec (List Rune)} {op : Nat → NodeMem → Exec NodeMem} {ts : List Node}
    (hop : ∀ t ∈ ts, Does op Node.mergeSticky t) (htx : ∀ t ∈ ts, ∀ m p f, Shows m t p f → tx m p = .ok t.text) :
    ∀ {m : NodeMem} {ps fp out ofp pf : List Nat} {outs : List Node} {prev : Option Node} {pp : Option Nat}, ShowsL m ts ps fp →
    ShowsL m outs out ofp → PrevOk m prev pp pf → (ofp ++ pf ++ fp).Nodup →
    ∃ ps' m' fp', Ptr.mergeLoop tx op ps (out ++ pp.toList) pp m = .ok (ps', m') ∧ ShowsL m' (mergeLoop outs prev ts) ps' fp' ∧
      fp'.Sublist (ofp ++ pf ++ fp) ∧ ∀ q, q ∉ pf ++ fp → m' q = m q := by
  induction ts with
  | nil =>
    intro m ps fp out ofp pf outs prev pp h ho hp hn
    cases h
    rw [List.append_nil] at hn
    obtain ⟨e1, e2⟩ := unstick_ok ho hp hn
    refine ⟨_, _, ofp ++ pf, rfl, ?_, by simp, fun q hq => e2 q (by simpa using hq)⟩
    rw [mergeLoop_nil]
    exact e1
  | cons t ts ih =>
    intro m ps fp out ofp pf outs prev pp h ho hp hn
    have ih := @ih (fun t' ht => hop t' (List.mem_cons_of_mem _ ht)) (fun t' ht => htx t' (List.mem_cons_of_mem _ ht))
    cases h with
    | @cons _ p g _ ps fp h hs =>
      obtain ⟨ks, hk⟩ := h.obj
      obtain ⟨hn1, hn2, hn3⟩ := List.nodup_append.1 hn
      obtain ⟨hn4, hn5, hn6⟩ := List.nodup_append.1 hn2
      have hst : (m p).sticky = t.sticky := by rw [hk]
      rw [Ptr.mergeLoop, hst]
      by_cases hs0 : t.sticky = true
      · rw [if_pos hs0, htx t (by simp) m p g h, Exec.ok_bind]
        have hsub : (ofp ++ pf ++ fp).Sublist (ofp ++ pf ++ (g ++ fp)) := List.Sublist.append_left (List.sublist_append_right ..) _
        cases hp with
        | @some v p' hv hvc hvs =>
          have hd : ∀ q ∈ ofp, q ≠ p' := fun q hq => (List.nodup_append.1 hn1).2.2 q hq p' (by simp)
          have hd2 : ∀ q ∈ fp, q ≠ p' := fun q hq e => hn3 p' (by simp) q (List.mem_append_right _ hq) e.symm
          have hvs' : (m p').sticky = true := by rw [hv]; exact hvs
          dsimp only
          rw [if_pos hvs']
          obtain ⟨ps', m', fp', e1, e2, e3, e4⟩ := ih (m := m.put p' { m p' with chars := (m p').chars ++ t.text })
            (prev := some { v with chars := v.chars ++ t.text }) (pp := some p')
            (showsL_congr hs fun q hq => put_other _ _ (hd2 q hq)) (showsL_congr ho fun q hq => put_other _ _ (hd q hq))
            (.some (by rw [put_same, hv]) hvc hvs) (hn.sublist hsub)
          refine ⟨ps', m', fp', e1, ?_, e3.trans hsub, fun q hq => ?_⟩
          · rw [mergeLoop, if_pos hs0]; exact e2
          · simp only [List.mem_append, not_or] at hq
            rw [e4 q (by simp only [List.mem_append, not_or]; exact ⟨hq.1, hq.2.2⟩), put_other _ _ (by simpa using hq.1)]
        | none =>
          have hpg := h.mem
          have hsub' : (ofp ++ [p] ++ fp).Sublist (ofp ++ [] ++ (g ++ fp)) := by
            rw [List.append_nil, List.append_assoc]
            exact List.Sublist.append_left (List.Sublist.append_right (List.singleton_sublist.2 hpg) _) _
          obtain ⟨ps', m', fp', e1, e2, e3, e4⟩ := ih (m := m.put p { m p with chars := t.text, kids := [] })
            (prev := some { t with chars := t.text, children := [] }) (pp := some p)
            (showsL_congr hs fun q hq => put_other _ _ fun e => hn6 p hpg q hq e.symm)
            (showsL_congr ho fun q hq => put_other _ _ fun e => hn3 q (by simpa using hq) p (List.mem_append_left _ hpg) e)
            (.some (by rw [put_same, hk]) rfl hs0) (hn.sublist hsub')
          refine ⟨ps', m', fp', by simpa using e1, ?_, e3.trans hsub', fun q hq => ?_⟩
          · rw [mergeLoop, if_pos hs0]; exact e2
          · simp only [List.nil_append, List.mem_append, not_or] at hq
            have hqp : q ≠ p := fun e => hq.1 (e ▸ hpg)
            rw [e4 q (by simp only [List.mem_append, List.mem_singleton, not_or]; exact ⟨hqp, hq.2⟩), put_other _ _ hqp]
      · rw [if_neg hs0]
        obtain ⟨u1, u2⟩ := unstick_ok ho hp hn1
        have h1 : Shows (Ptr.unstick pp m) t p g := shows_congr h fun q hq => u2 q fun hc =>
          hn3 q (List.mem_append_right _ hc) q (List.mem_append_left _ hq) rfl
        obtain ⟨m1, g', e1, e2, e3, e4⟩ := hop t (by simp) _ p g h1 hn4
        rw [e1, Exec.ok_bind]
        have hsub : (ofp ++ pf ++ g' ++ [] ++ fp).Sublist (ofp ++ pf ++ (g ++ fp)) := by
          rw [List.append_nil, List.append_assoc (ofp ++ pf)]
          exact List.Sublist.append_left (List.Sublist.append_right e3 _) _
        obtain ⟨ps', m', fp', e5, e6, e7, e8⟩ := ih (m := m1) (ps := ps) (fp := fp) (out := out ++ pp.toList ++ [p]) (ofp := ofp ++ pf ++ g') (pf := [])
          (outs := outs ++ unstuck prev ++ [t.mergeSticky]) (prev := none) (pp := none)
          (showsL_congr hs fun q hq => by
            rw [e4 q fun hc => hn6 q hc q hq rfl, u2 q fun hc => hn3 q (List.mem_append_right _ hc) q (List.mem_append_right _ hq) rfl])
          (showsL_append (showsL_congr u1 fun q hq => e4 q fun hc => hn3 q hq q (List.mem_append_left _ hc) rfl) (showsL_one e2))
          .none (hn.sublist hsub)
        refine ⟨ps', m', fp', by simpa using e5, ?_, e7.trans hsub, fun q hq => ?_⟩
        · rw [mergeLoop_step _ _ _ (by simpa using hs0)]; exact e6
        · simp only [List.mem_append, not_or] at hq
          rw [e8 q (by simpa using hq.2.2), e4 q hq.2.1, u2 q hq.1]

theorem mergeBlock_map (ts : List Node) : mergeBlockL ts = ts.map fun t => { t.mergeSticky with sticky := false } := by
  induction ts with
  | nil => rw [mergeBlockL]; rfl
  | cons t ts ih => rw [mergeBlockL, ih]; rfl

theorem merge_does {fuel : Nat} : ∀ {t : Node}, t.levels ≤ fuel → Does (Ptr.mergeNode fuel) Node.mergeSticky t := by
  induction fuel with
  | zero => intro t h; have := Node.levels_pos t; omega
  | succ fuel ih =>
    intro t hl m p fp h hn
    cases h with
    | @node _ _ ks fp h hc =>
      have hlv := levelsL_children t
      obtain ⟨hp, hn'⟩ := List.nodup_cons.1 hn
      have hlen := hc.length
      have hkids : ∀ t' ∈ t.children, Does (Ptr.mergeNode fuel) Node.mergeSticky t' := fun t' ht => ih (by have := levels_mem ht; omega)
      have htx : ∀ t' ∈ t.children, ∀ m p f, Shows m t' p f → Ptr.text fuel m p = .ok t'.text := fun t' ht m p f h' =>
        text_shows h' (by have := levels_mem ht; omega)
      obtain ⟨rt, nm, ch, cs, pos, st, v, nd, tk⟩ := t
      simp only at hc hlen hkids htx
      rw [Ptr.mergeNode, h, Node.mergeSticky]
      by_cases hk : ks.length = 0
      · have hk' : cs.length = 0 := by omega
        rw [if_pos hk, if_pos hk']
        exact ⟨m, _, rfl, .node h hc, List.Sublist.refl _, fun _ _ => rfl⟩
      · have hk' : ¬ cs.length = 0 := by omega
        rw [if_neg hk, if_neg hk']
        by_cases hb : rt = .block
        · rw [if_pos hb, if_pos hb, block_each]
          obtain ⟨m', fp', e1, e2, e3, e4⟩ := each_loop (fun t' ht => does_unsticky (hkids t' ht)) hc hn'
          rw [e1, Exec.ok_bind]
          have hp' : p ∉ fp' := fun hc => hp (e3.subset hc)
          refine ⟨_, p :: fp', rfl, .node (ks := ks) ?_ ?_, e3.cons_cons p, fun q hq => ?_⟩
          · rw [put_same, e4 p hp, h]
          · rw [mergeBlock_map]
            exact showsL_congr e2 fun q hq => put_other _ _ fun e => hp' (e ▸ hq)
          · simp only [List.mem_cons, not_or] at hq
            rw [put_other _ _ hq.1, e4 q hq.2]
        · rw [if_neg hb, if_neg hb]
          obtain ⟨ps', m', fp', e1, e2, e3, e4⟩ := merge_loop hkids htx hc .nil .none (by simpa using hn')
          simp only [List.nil_append, Option.toList_none] at e1 e3 e4
          rw [e1, Exec.ok_bind]
          have hp' : p ∉ fp' := fun hc => hp (e3.subset hc)
          refine ⟨_, p :: fp', rfl, .node (ks := ps') ?_ ?_, e3.cons_cons p, fun q hq => ?_⟩
          · rw [put_same, e4 p hp, h]
          · exact showsL_congr e2 fun q hq => put_other _ _ fun e => hp' (e ▸ hq)
          · simp only [List.mem_cons, not_or] at hq
            rw [put_other _ _ hq.1, e4 q hq.2]

/-! ### Redundant nodes -/

theorem set_kids {t : Node} {p : Nat} {fp fp' ks' : List Nat} {cs' : List Node} (h : Shows m t p (p :: fp)) (hn : (p :: fp).Nodup)
    (hc : ShowsL m cs' ks' fp') (hs : fp'.Sublist fp) :
    Shows (m.put p { m p with kids := ks' }) { t with children := cs' } p (p :: fp') := by
  obtain ⟨ks, hk⟩ := h.obj
  have hp : p ∉ fp' := fun hc => (List.nodup_cons.1 hn).1 (hs.subset hc)
  exact .node (by rw [put_same, hk]) (showsL_congr hc fun q hq => put_other _ _ fun e => hp (e ▸ hq))

theorem Shows.head {t : Node} {p : Nat} {fp : List Nat} (h : Shows m t p fp) : ∃ fp', fp = p :: fp' ∧ ∃ ks, m p = t.obj ks ∧ ShowsL m t.children ks fp' := by
  cases h with
  | node h hc => exact ⟨_, rfl, _, h, hc⟩

/-- What a write to one node is to do. -/
def Writes (op : Nat → NodeMem → NodeMem) (f : Node → Node) : Prop :=
  ∀ (m : NodeMem) (t : Node) (p : Nat) (fp : List Nat), Shows m t p fp → fp.Nodup →
    ∃ fp', Shows (op p m) (f t) p fp' ∧ fp'.Sublist fp ∧ ∀ q, q ≠ p → op p m q = m q

theorem promoteOnly_writes : Writes Ptr.promoteOnly promoteOnly := by
  intro m t p fp h hn
  obtain ⟨fp, rfl, ks, hk, hc⟩ := Shows.head h
  unfold Ptr.promoteOnly promoteOnly
  rw [hk]
  generalize hcs : t.children = cs at hc
  have same : ∃ fp', Shows m t p fp' ∧ fp'.Sublist (p :: fp) ∧ ∀ q, q ≠ p → m q = m q := ⟨_, h, List.Sublist.refl _, fun _ _ => rfl⟩
  cases hc with
  | nil => exact same
  | @cons c q g cs' ks' fp' hq hs =>
    cases hs with
    | cons _ _ => exact same
    | nil =>
      obtain ⟨g, rfl, kq, hkq, hcq⟩ := Shows.head hq
      rw [List.append_nil] at h hn ⊢
      dsimp only
      rw [hkq]
      by_cases h1 : c.name = []
      · rw [if_pos h1, if_pos h1]
        by_cases h2 : c.chars.length > 0
        · rw [if_pos h2, if_pos h2]
          refine ⟨[p], .node (ks := []) (by rw [put_same]) .nil, by simp, fun q' hq' => put_other _ _ hq'⟩
        · rw [if_neg h2, if_neg h2]
          have := set_kids h hn hcq (List.sublist_cons_self q g)
          rw [hk] at this
          exact ⟨_, this, (List.sublist_cons_self q g).cons_cons p, fun q' hq' => put_other _ _ hq'⟩
      · rw [if_neg h1, if_neg h1]
        exact ⟨_, h, List.Sublist.refl _, fun _ _ => rfl⟩

theorem promoteLeaf_writes : Writes Ptr.promoteLeaf promoteLeaf := by
  intro m t p fp h hn
  obtain ⟨fp, rfl, ks, hk, hc⟩ := Shows.head h
  unfold Ptr.promoteLeaf promoteLeaf
  rw [hk]
  generalize hcs : t.children = cs at hc
  have same : ∃ fp', Shows m t p fp' ∧ fp'.Sublist (p :: fp) ∧ ∀ q, q ≠ p → m q = m q := ⟨_, h, List.Sublist.refl _, fun _ _ => rfl⟩
  cases hc with
  | nil => exact same
  | @cons c q g cs' ks' fp' hq hs =>
    cases hs with
    | cons _ _ => exact same
    | nil =>
      obtain ⟨g, rfl, kq, hkq, hcq⟩ := Shows.head hq
      have hlen := hcq.length
      dsimp only
      rw [hkq]
      by_cases h1 : c.name = [] ∧ c.children.length = 0
      · have h2 : c.name = [] ∧ kq.length = 0 := ⟨h1.1, by omega⟩
        rw [if_pos h1, if_pos h2]
        refine ⟨[p], .node (ks := []) (by rw [put_same]) .nil, by simp, fun q' hq' => put_other _ _ hq'⟩
      · have h2 : ¬ (c.name = [] ∧ kq.length = 0) := fun hc => h1 ⟨hc.1, by omega⟩
        rw [if_neg h1, if_neg h2]
        exact ⟨_, h, List.Sublist.refl _, fun _ _ => rfl⟩

theorem splice_loop {tx : Nat → Exec (List Rune)} {ts : List Node} (htx : ∀ t ∈ ts, ∀ p f, Shows m t p f → tx p = .ok t.text) :
    ∀ {ps fp out ofp : List Nat} {outs : List Node}, ShowsL m ts ps fp → ShowsL m outs out ofp →
    ∃ ps' fp', Ptr.spliceLoop tx m ps out = .ok ps' ∧ ShowsL m (outs ++ spliceUnnamed ts) ps' fp' ∧ fp'.Sublist (ofp ++ fp) := by
  induction ts with
  | nil =>
    intro ps fp out ofp outs h ho
    cases h
    exact ⟨out, ofp, rfl, by simpa [spliceUnnamed] using ho, by simp⟩
  | cons t ts ih =>
    intro ps fp out ofp outs h ho
    have ih := @ih (fun t' ht => htx t' (List.mem_cons_of_mem _ ht))
    cases h with
    | @cons _ p g _ ps fp h hs =>
      rw [Ptr.spliceLoop, htx t (by simp) p g h, Exec.ok_bind, spliceUnnamed]
      obtain ⟨g, rfl, ks, hk, hc⟩ := Shows.head h
      have hlen := hc.length
      rw [hk]
      by_cases h1 : t.text.length = 0 ∧ t.name = []
      · rw [if_pos h1, if_pos h1]
        obtain ⟨ps', fp', e1, e2, e3⟩ := ih hs ho
        exact ⟨ps', fp', e1, e2, e3.trans (List.Sublist.append_left (List.sublist_append_right ..) _)⟩
      · rw [if_neg h1, if_neg h1]
        by_cases h2 : t.name = [] ∧ t.children.length > 0
        · have h3 : t.name = [] ∧ ks.length > 0 := ⟨h2.1, by omega⟩
          rw [if_pos h2, if_pos h3]
          obtain ⟨ps', fp', e1, e2, e3⟩ := ih hs (showsL_append ho hc)
          refine ⟨ps', fp', e1, by simpa using e2, e3.trans ?_⟩
          rw [List.append_assoc]
          exact List.Sublist.append_left (List.Sublist.append_right (List.sublist_cons_self ..) _) _
        · have h3 : ¬ (t.name = [] ∧ ks.length > 0) := fun hc => h2 ⟨hc.1, by omega⟩
          rw [if_neg h2, if_neg h3]
          obtain ⟨ps', fp', e1, e2, e3⟩ := ih hs (showsL_append ho (showsL_one h))
          refine ⟨ps', fp', e1, by simpa using e2, e3.trans ?_⟩
          rw [List.append_assoc]
          exact List.Sublist.refl _

theorem redundant_map (ts : List Node) : removeRedundantL ts = ts.map Node.removeRedundant := by
  induction ts with
  | nil => rw [removeRedundantL]; rfl
  | cons t ts ih => rw [removeRedundantL, ih]; rfl

/-! How many levels there are afterwards. -/

theorem levelsL_append (ts ts' : List Node) : levelsL (ts ++ ts') = max (levelsL ts) (levelsL ts') := by
  induction ts with
  | nil => simp [levelsL]
  | cons t ts ih => simp only [List.cons_append, levelsL, ih]; omega

theorem levelsL_le {ts : List Node} {n : Nat} (h : ∀ t ∈ ts, t.levels ≤ n) : levelsL ts ≤ n := by
  induction ts with
  | nil => simp [levelsL]
  | cons t ts ih =>
    rw [levelsL]
    have h1 := h t (by simp)
    have h2 := ih fun t' ht => h t' (List.mem_cons_of_mem _ ht)
    omega

theorem levelsL_splice (ts : List Node) : levelsL (spliceUnnamed ts) ≤ levelsL ts := by
  induction ts with
  | nil => simp [spliceUnnamed]
  | cons t ts ih =>
    have := levelsL_children t
    rw [spliceUnnamed, levelsL]
    split
    · omega
    · split
      · rw [levelsL_append]; omega
      · rw [levelsL]; omega

theorem levels_promoteOnly (t : Node) : (promoteOnly t).levels ≤ t.levels := by
  have h0 := levelsL_children t
  unfold promoteOnly
  split
  · rename_i only ho
    have h2 := levelsL_children only
    rw [ho] at h0
    simp only [levelsL] at h0
    split
    · split
      · rw [← levelsL_children]; simp only [levelsL]; omega
      · rw [← levelsL_children]; simp only; omega
    · exact Nat.le_refl _
  · exact Nat.le_refl _

theorem levels_promoteLeaf (t : Node) : (promoteLeaf t).levels ≤ t.levels := by
  have h0 := levelsL_children t
  unfold promoteLeaf
  split
  · split
    · rw [← levelsL_children]; simp only [levelsL]; omega
    · exact Nat.le_refl _
  · exact Nat.le_refl _

theorem levels_redundant : ∀ (n : Nat) (t : Node), t.levels ≤ n → t.removeRedundant.levels ≤ t.levels := by
  intro n
  induction n with
  | zero => intro t h; have := Node.levels_pos t; omega
  | succ n ih =>
    intro t h
    have h0 := levelsL_children t
    obtain ⟨rt, nm, ch, cs, pos, st, v, nd, tk⟩ := t
    rw [Node.removeRedundant]
    split
    · exact Nat.le_refl _
    · simp only at h0
      refine Nat.le_trans (levels_promoteLeaf _) ?_
      rw [← levelsL_children]
      have h1 := levelsL_splice (promoteOnly ⟨rt, nm, ch, removeRedundantL cs, pos, st, v, nd, tk⟩).children
      have h2 := levels_promoteOnly ⟨rt, nm, ch, removeRedundantL cs, pos, st, v, nd, tk⟩
      rw [← levelsL_children, ← levelsL_children] at h2
      simp only at h2 ⊢
      have h3 : levelsL (removeRedundantL cs) ≤ levelsL cs := by
        rw [redundant_map]
        refine levelsL_le fun x hx => ?_
        obtain ⟨y, hy, rfl⟩ := List.mem_map.1 hx
        have := levels_mem hy
        have := ih y (by omega)
        omega
      omega

theorem redundant_does {fuel : Nat} : ∀ {t : Node}, t.levels ≤ fuel → Does (Ptr.removeRedundant fuel) Node.removeRedundant t := by
  induction fuel with
  | zero => intro t h; have := Node.levels_pos t; omega
  | succ fuel ih =>
    intro t hl m p fp h hn
    obtain ⟨fp, rfl, ks, hk, hc⟩ := Shows.head h
    have hlv := levelsL_children t
    obtain ⟨hp, hn'⟩ := List.nodup_cons.1 hn
    have hlen := hc.length
    obtain ⟨rt, nm, ch, cs, pos, st, v, nd, tk⟩ := t
    simp only at hc hlen hlv
    rw [Ptr.removeRedundant, hk, Node.removeRedundant]
    by_cases hk0 : ks.length = 0
    · have hk' : cs.length = 0 := by omega
      rw [if_pos hk0, if_pos hk']
      exact ⟨m, _, rfl, h, List.Sublist.refl _, fun _ _ => rfl⟩
    · have hk' : ¬ cs.length = 0 := by omega
      rw [if_neg hk0, if_neg hk']
      obtain ⟨m1, fp1, e1, e2, e3, e4⟩ := each_loop (fun t' ht => ih (t := t') (by have := levels_mem ht; omega)) hc hn'
      rw [e1, Exec.ok_bind, ← redundant_map] at *
      have hn1 : (p :: fp1).Nodup := hn.sublist (e3.cons_cons p)
      have hs1 : Shows m1 ⟨rt, nm, ch, removeRedundantL cs, pos, st, v, nd, tk⟩ p (p :: fp1) := .node (ks := ks) (by rw [e4 p hp, hk]) e2
      obtain ⟨fp2, s1, s2, s3⟩ := promoteOnly_writes m1 _ p _ hs1 hn1
      have hlevel := levels_promoteOnly ⟨rt, nm, ch, removeRedundantL cs, pos, st, v, nd, tk⟩
      have hlr : levelsL (removeRedundantL cs) ≤ levelsL cs := by
        rw [redundant_map]
        refine levelsL_le fun x hx => ?_
        obtain ⟨y, hy, rfl⟩ := List.mem_map.1 hx
        have := levels_mem hy
        have := levels_redundant _ y (Nat.le_refl _)
        omega
      rw [← levelsL_children, ← levelsL_children] at hlevel
      generalize promoteOnly ⟨rt, nm, ch, removeRedundantL cs, pos, st, v, nd, tk⟩ = t2 at s1 hlevel ⊢
      simp only at hlevel
      generalize Ptr.promoteOnly p m1 = m2 at s1 s3 ⊢
      obtain ⟨fp2, rfl, k2, hk2, hc2⟩ := Shows.head s1
      have hn2 := hn1.sublist s2
      dsimp only
      rw [hk2]
      obtain ⟨ps3, fp3, t1, t2', t3⟩ := splice_loop (m := m2) (tx := Ptr.text fuel m2) (ts := t2.children)
        (fun x hx q f hs => text_shows hs (by have := levels_mem hx; omega)) hc2 (.nil)
      simp only [List.nil_append] at t2' t3
      rw [show (t2.obj k2).kids = k2 from rfl, t1, Exec.ok_bind]
      have s4 := set_kids s1 hn2 t2' t3
      rw [hk2] at s4
      obtain ⟨fp5, w1, w2, w3⟩ := promoteLeaf_writes _ _ p _ s4 (hn2.sublist (t3.cons_cons p))
      refine ⟨_, fp5, rfl, w1, (w2.trans (t3.cons_cons p)).trans (s2.trans (e3.cons_cons p)), fun q hq => ?_⟩
      simp only [List.mem_cons, not_or] at hq
      rw [w3 q hq.1, put_other _ _ hq.1, s3 q hq.1, e4 q hq.2]

end Xbnf.Props
