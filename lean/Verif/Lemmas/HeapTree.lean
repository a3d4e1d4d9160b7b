import Verif.Lemmas.HeapGrammar
/-
Memory: `Text` and the simplification of trees.
-/
namespace Xbnf.Mem
open Xbnf.Grammar

section
variable {n m : Nat} {h h' h1 h2 : Heap} {grow : Growth}

/-- Slices that were made since `n`, no two of one array. -/
structure Good (n : Nat) (h : Heap) (S : List Slice) : Prop where
  all : ∀ x ∈ S, x.ok h ∧ Own n x
  apart : S.Pairwise Apart

/-- Appending to `y` cannot change what `x` shows. -/
def Safe (y x : Slice) : Prop := Apart y x ∨ x.off + x.len ≤ y.off + y.len

/-- From the slices `S` to the slices `S'`: nothing changed that is apart from `S`, and it is apart from `S'`; and what appending to `S` cannot change
has not changed. -/
structure Step (n : Nat) (h : Heap) (S : List Slice) (h' : Heap) (S' : List Slice) : Prop where
  good : Good n h' S'
  kept : Kept n h h'
  streams : h'.streams = h.streams
  frame : ∀ x : Slice, x.ok h → (∀ y ∈ S, Apart y x) → h'.read x = h.read x ∧ ∀ y ∈ S', Apart y x
  safe : ∀ x : Slice, x.ok h → (∀ y ∈ S, Safe y x) → h'.read x = h.read x ∧ ∀ y ∈ S', Safe y x

theorem Step.refl {S : List Slice} (g : Good n h S) : Step n h S h S :=
  ⟨g, Kept.refl _ _, rfl, fun _ _ d => ⟨rfl, d⟩, fun _ _ d => ⟨rfl, d⟩⟩

theorem Step.trans {S S1 S2 : List Slice} (a : Step n h S h1 S1) (b : Step n h1 S1 h2 S2) : Step n h S h2 S2 := by
  refine ⟨b.good, a.kept.trans b.kept, b.streams.trans a.streams, fun x hx d => ?_, fun x hx d => ?_⟩
  · obtain ⟨e1, d1⟩ := a.frame x hx d
    obtain ⟨e2, d2⟩ := b.frame x (a.kept.ok hx) d1
    exact ⟨e2.trans e1, d2⟩
  · obtain ⟨e1, d1⟩ := a.safe x hx d
    obtain ⟨e2, d2⟩ := b.safe x (a.kept.ok hx) d1
    exact ⟨e2.trans e1, d2⟩

theorem Good.sublist {S S' : List Slice} (g : Good n h S) (k : S'.Sublist S) : Good n h S' :=
  ⟨fun x hx => g.all x (k.subset hx), g.apart.sublist k⟩

theorem Step.sublist {S S1 S2 : List Slice} (a : Step n h S h1 S1) (k : S2.Sublist S1) : Step n h S h1 S2 :=
  ⟨a.good.sublist k, a.kept, a.streams, fun x hx d => ⟨(a.frame x hx d).1, fun y hy => (a.frame x hx d).2 y (k.subset hy)⟩,
   fun x hx d => ⟨(a.safe x hx d).1, fun y hy => (a.safe x hx d).2 y (k.subset hy)⟩⟩

/-- New arrays do not matter. -/
theorem Step.of_kept {S : List Slice} (g : Good n h S) (hn : n ≤ h.arrays.length) (k : Kept h.arrays.length h h1) (e : h1.streams = h.streams) :
    Step n h S h1 S :=
  ⟨⟨fun x hx => ⟨k.ok (g.all x hx).1, (g.all x hx).2⟩, g.apart⟩, k.mono hn, e, fun _ hx d => ⟨k.read_all hx, d⟩, fun _ hx d => ⟨k.read_all hx, d⟩⟩

theorem Good.mid {A B C : List Slice} (g : Good n h (A ++ B ++ C)) : Good n h B :=
  g.sublist ((List.sublist_append_right A B).trans (List.sublist_append_left _ C))

/-- A step next to other slices. -/
theorem Step.context {A B C B' : List Slice} (g : Good n h (A ++ B ++ C)) (st : Step n h B h1 B') :
    Step n h (A ++ B ++ C) h1 (A ++ B' ++ C) ∧ (∀ x ∈ A, h1.read x = h.read x) ∧ ∀ x ∈ C, h1.read x = h.read x := by
  obtain ⟨pAB, pC, pc⟩ := List.pairwise_append.1 g.apart
  obtain ⟨pA, pB, pb⟩ := List.pairwise_append.1 pAB
  have fa : ∀ x ∈ A, h1.read x = h.read x ∧ ∀ y ∈ B', Apart y x := fun x hx =>
    st.frame x (g.all x (List.mem_append_left _ (List.mem_append_left _ hx))).1 fun y hy => (pb x hx y hy).symm
  have fc : ∀ x ∈ C, h1.read x = h.read x ∧ ∀ y ∈ B', Apart y x := fun x hx =>
    st.frame x (g.all x (List.mem_append_right _ hx)).1 fun y hy => pc y (List.mem_append_right _ hy) x hx
  refine ⟨⟨⟨fun x hx => ?_, ?_⟩, st.kept, st.streams, fun x hx d => ?_, fun x hx d => ?_⟩, fun x hx => (fa x hx).1, fun x hx => (fc x hx).1⟩
  · rcases List.mem_append.1 hx with hx | hx
    · rcases List.mem_append.1 hx with hx | hx
      · have := g.all x (List.mem_append_left _ (List.mem_append_left _ hx))
        exact ⟨st.kept.ok this.1, this.2⟩
      · exact st.good.all x hx
    · have := g.all x (List.mem_append_right _ hx)
      exact ⟨st.kept.ok this.1, this.2⟩
  · refine List.pairwise_append.2 ⟨List.pairwise_append.2 ⟨pA, st.good.apart, fun x hx y hy => ((fa x hx).2 y hy).symm⟩, pC, fun x hx y hy => ?_⟩
    rcases List.mem_append.1 hx with hx | hx
    · exact pc x (List.mem_append_left _ hx) y hy
    · exact (fc y hy).2 x hx
  · obtain ⟨e, d'⟩ := st.frame x hx fun y hy => d y (List.mem_append_left _ (List.mem_append_right _ hy))
    refine ⟨e, fun y hy => ?_⟩
    rcases List.mem_append.1 hy with hy | hy
    · rcases List.mem_append.1 hy with hy | hy
      · exact d y (List.mem_append_left _ (List.mem_append_left _ hy))
      · exact d' y hy
    · exact d y (List.mem_append_right _ hy)
  · obtain ⟨e, d'⟩ := st.safe x hx fun y hy => d y (List.mem_append_left _ (List.mem_append_right _ hy))
    refine ⟨e, fun y hy => ?_⟩
    rcases List.mem_append.1 hy with hy | hy
    · rcases List.mem_append.1 hy with hy | hy
      · exact d y (List.mem_append_left _ (List.mem_append_left _ hy))
      · exact d' y hy
    · exact d y (List.mem_append_right _ hy)

/-- Appending writes behind the end only. -/
theorem append_safe {o x : Slice} (hok : o.ok h) (xs : List Rune) (hx : x.ok h) (d : Safe o x) :
    (h.append grow o xs).2.read x = h.read x ∧ Safe (h.append grow o xs).1 x := by
  by_cases hc : o.len + xs.length ≤ o.cap
  · have e : h.append grow o xs = ({ o with len := o.len + xs.length }, h.write o.arr (o.off + o.len) xs) := by
      unfold Heap.append
      rw [if_pos hc]
    rw [e]
    refine ⟨?_, d.imp id (fun k => Nat.le_trans k (by show o.off + o.len ≤ o.off + (o.len + xs.length); omega))⟩
    by_cases hxs : xs = []
    · rw [hxs, write_nil]
    rw [Heap.write, if_neg hxs]
    by_cases ha : x.arr = o.arr
    · by_cases hcap : x.cap = 0 ∨ o.cap = 0
      · rcases hcap with hcap | hcap
        · have : x.len = 0 := by have := hx.1; omega
          rw [read_nil _ this, read_nil _ this]
        · have : xs = [] := List.length_eq_zero_iff.1 (by omega)
          exact absurd this hxs
      · have hle : x.off + x.len ≤ o.off + o.len := by
          rcases d with (d | d | d) | d
          · omega
          · omega
          · exact absurd ha d
          · exact d
        obtain ⟨h1, h2⟩ := hok.2.resolve_left (fun k => hcap (.inr k))
        have hlen := hok.1
        simp only [Heap.read, ha, getD_modify_same h1]
        generalize h.arrays.getD o.arr [] = a at *
        rw [List.append_assoc, List.drop_append_of_le_length (by simp; omega), List.take_append_of_le_length (by simp; omega), List.drop_take,
          List.take_take]
        congr 1
        omega
    · simp only [Heap.read, getD_modify_other ha]
  · have e : h.append grow o xs =
        ({ arr := h.arrays.length, off := 0, len := o.len + xs.length, cap := o.len + xs.length + grow o.cap (o.len + xs.length) },
         { h with arrays := h.arrays.push (h.read o ++ xs ++ List.replicate (grow o.cap (o.len + xs.length)) 0) }) := by
      unfold Heap.append
      rw [if_neg hc]
    rw [e]
    refine ⟨(kept_alloc _ h _).read_all hx, .inl ?_⟩
    rcases hx.2 with k | ⟨k, _⟩
    · exact .inl k
    · exact .inr (.inr (by show x.arr ≠ h.arrays.length; omega))

/-- Appending to a slice of one's own. -/
theorem append_step {o : Slice} (hok : o.ok h) (ho : Own n o) (hn : n ≤ h.arrays.length) (xs : List Rune) :
    Step n h [o] (h.append grow o xs).2 [(h.append grow o xs).1] := by
  have ap := Mem.appended (grow := grow) hok ho hn xs
  refine ⟨⟨fun x hx => ?_, List.pairwise_singleton _ _⟩, ap.kept, ap.streams, fun x hx d => ?_, fun x hx d => ?_⟩
  · rw [List.mem_singleton.1 hx]; exact ⟨ap.ok, ap.own⟩
  · obtain ⟨_, e2, e3⟩ := ap.other x hx (d o (List.mem_singleton.2 rfl))
    exact ⟨e3, fun y hy => by rw [List.mem_singleton.1 hy]; exact e2⟩
  · obtain ⟨e1, e2⟩ := append_safe (grow := grow) hok xs hx (d o (List.mem_singleton.2 rfl))
    exact ⟨e1, fun y hy => by rw [List.mem_singleton.1 hy]; exact e2⟩

/-! ### Text -/

/-- A slice in one of the first `m` arrays. -/
def Below (m : Nat) (x : Slice) : Prop := x.cap = 0 ∨ x.arr < m

theorem Below.apart {o x : Slice} (k : Below m x) (ho : Own m o) : Apart o x := by
  rcases k with k | k
  · exact .inl k
  · rcases ho with ho | ho
    · exact .inr (.inl ho)
    · exact .inr (.inr (by omega))

theorem Slice.ok.below {x : Slice} (k : x.ok h) : Below h.arrays.length x := k.2.imp_right And.left

/-- What building up a text leaves. -/
structure Built (m : Nat) (h : Heap) (v : List Rune) (a : Slice × Heap) : Prop where
  ok : a.1.ok a.2
  own : Own m a.1
  read : a.2.read a.1 = v
  kept : Kept m h a.2
  streams : a.2.streams = h.streams

theorem append_built {o : Slice} (hok : o.ok h) (ho : Own m o) (hm : m ≤ h.arrays.length) (xs : List Rune) :
    Built m h (h.read o ++ xs) (h.append grow o xs) := by
  have ap := Mem.appended (grow := grow) hok ho hm xs
  exact ⟨ap.ok, ap.own, ap.read, ap.kept, ap.streams⟩

theorem hJoin_spec (b : Bool) {acc t : Slice} (ps ns : Bool) (ka : acc.ok h) (ho : Own m acc) (hm : m ≤ h.arrays.length) (kt : t.ok h) (d : Apart acc t) :
    Built m h (joinText b (h.read acc) ps (h.read t) ns) (hJoin grow b acc ps t ns h) := by
  have plain := append_built (grow := grow) ka ho hm (h.read t)
  unfold hJoin joinText
  cases (h.read acc).getLast? with
  | none => exact plain
  | some a =>
    cases (h.read t).head? with
    | none => exact plain
    | some c =>
      dsimp only
      split
      · have ap := Mem.appended (grow := grow) ka ho hm [32]
        obtain ⟨_, _, e3⟩ := ap.other t kt d
        have := append_built (grow := grow) ap.ok ap.own (Nat.le_trans hm ap.kept.size) ((h.append grow acc [32]).2.read t)
        refine ⟨this.ok, this.own, ?_, ap.kept.trans this.kept, this.streams.trans ap.streams⟩
        rw [this.read, ap.read, e3]
      · exact plain

/-- What `Text` returns. -/
structure TextPost (h : Heap) (S : List Slice) (v : List Rune) (a : Slice × Heap) : Prop where
  ok : a.1.ok a.2
  read : a.2.read a.1 = v
  kept : Kept h.arrays.length h a.2
  streams : a.2.streams = h.streams
  own : a.1 ∈ S ∨ Own h.arrays.length a.1

mutual
theorem text_spec (grow : Growth) (nd : HNode) {h : Heap} (k : ∀ x ∈ nd.slices, x.ok h) : TextPost h nd.slices (nd.view h).text (nd.text grow h) := by
  obtain ⟨rt, nm, ch, cs, p, st, v, dd, tk⟩ := nd
  have kc : ch.ok h := k ch (by simp [HNode.slices])
  simp only [HNode.text, HNode.view, Node.text, read_length kc]
  by_cases hl : ch.len > 0
  · rw [if_pos hl, if_pos hl]
    by_cases he : h.read ch = [EOFChar]
    · rw [if_pos he, if_pos he]
      exact ⟨Slice.ok_nil h, read_empty h, Kept.refl _ _, rfl, .inr (Own.nil _)⟩
    · rw [if_neg he, if_neg he]
      exact ⟨kc, rfl, Kept.refl _ _, rfl, .inl (by simp [HNode.slices])⟩
  · rw [if_neg hl, if_neg hl]
    have kk : ∀ x ∈ slicesL cs, x.ok h ∧ Below h.arrays.length x := fun x hx => by
      have := k x (by simp [HNode.slices, hx])
      exact ⟨this, this.below⟩
    have := textLoop_spec grow (rt == .block) false cs (acc := {}) (Slice.ok_nil h) (Own.nil _) (Nat.le_refl _) kk
    rw [read_empty] at this
    exact ⟨this.ok, this.read, this.kept, this.streams, .inr this.own⟩
theorem textLoop_spec (grow : Growth) (b ps : Bool) (ns : List HNode) {m : Nat} {h : Heap} {acc : Slice} (ka : acc.ok h) (ho : Own m acc)
    (hm : m ≤ h.arrays.length) (k : ∀ x ∈ slicesL ns, x.ok h ∧ Below m x) :
    Built m h (textLoop b (h.read acc) ps (viewL h ns)) (hTextLoop grow b acc ps ns h) := by
  match ns with
  | [] => exact ⟨ka, ho, rfl, Kept.refl _ _, rfl⟩
  | nd :: ns =>
    simp only [hTextLoop, viewL, textLoop]
    have kn : ∀ x ∈ nd.slices, x.ok h ∧ Below m x := fun x hx => k x (by simp [slicesL, hx])
    have kns : ∀ x ∈ slicesL ns, x.ok h ∧ Below m x := fun x hx => k x (by simp [slicesL, hx])
    have t := text_spec grow nd (h := h) fun x hx => (kn x hx).1
    have hd : Apart acc (nd.text grow h).1 := by
      rcases t.own with e | e
      · exact (kn _ e).2.apart ho
      · exact fresh_apart ka e
    have hs : nd.sticky = (nd.view h).sticky := by cases nd; rfl
    have j := hJoin_spec (grow := grow) b ps nd.sticky (t.kept.ok ka) ho (Nat.le_trans hm t.kept.size) t.ok hd
    rw [t.read, t.kept.read_all ka] at j
    have hk : Kept m h (hJoin grow b acc ps (nd.text grow h).1 nd.sticky (nd.text grow h).2).2 := (t.kept.mono hm).trans j.kept
    have := textLoop_spec grow b nd.sticky ns j.ok j.own (Nat.le_trans hm hk.size) fun x hx => ⟨hk.ok (kns x hx).1, (kns x hx).2⟩
    rw [j.read, viewL_congr ns fun x hx => hk.read (kns x hx).1 (kns x hx).2] at this
    rw [← hs]
    exact ⟨this.ok, this.own, this.read, hk.trans this.kept, this.streams.trans (j.streams.trans t.streams)⟩
end

theorem hAstText_spec (ns : List HNode) : ∀ {h : Heap} {acc : Slice}, acc.ok h → Own m acc → m ≤ h.arrays.length →
    (∀ x ∈ slicesL ns, x.ok h ∧ Below m x) → Built m h (h.read acc ++ astText (viewL h ns)) (hAstText grow acc ns h) := by
  induction ns with
  | nil => intro h acc ka ho hm k; exact ⟨ka, ho, by simp [viewL, astText, hAstText], Kept.refl _ _, rfl⟩
  | cons nd ns ih =>
    intro h acc ka ho hm k
    simp only [hAstText, viewL, astText]
    have kn : ∀ x ∈ nd.slices, x.ok h ∧ Below m x := fun x hx => k x (by simp [slicesL, hx])
    have kns : ∀ x ∈ slicesL ns, x.ok h ∧ Below m x := fun x hx => k x (by simp [slicesL, hx])
    have t := text_spec grow nd (h := h) fun x hx => (kn x hx).1
    have j := append_built (grow := grow) (t.kept.ok ka) ho (Nat.le_trans hm t.kept.size) ((nd.text grow h).2.read (nd.text grow h).1)
    have hk := (t.kept.mono hm).trans j.kept
    have := ih j.ok j.own (Nat.le_trans hm hk.size) fun x hx => ⟨hk.ok (kns x hx).1, (kns x hx).2⟩
    have hr := this.read
    rw [j.read, viewL_congr ns fun x hx => hk.read (kns x hx).1 (kns x hx).2, t.kept.read_all ka, List.append_assoc] at hr
    rw [← t.read]
    exact ⟨this.ok, this.own, hr, hk.trans this.kept, this.streams.trans (j.streams.trans t.streams)⟩

/-- The text of a node instead of the node. -/
theorem text_step {nd : HNode} (hn : n ≤ h.arrays.length) (g : Good n h nd.slices) : Step n h nd.slices (nd.text grow h).2 [(nd.text grow h).1] := by
  have t := text_spec grow nd (h := h) fun x hx => (g.all x hx).1
  rcases t.own with e | e
  · exact (Step.of_kept g hn t.kept t.streams).sublist (List.singleton_sublist.2 e)
  · refine ⟨⟨fun x hx => ?_, List.pairwise_singleton _ _⟩, t.kept.mono hn, t.streams, fun x hx d => ⟨t.kept.read_all hx, fun y hy => ?_⟩,
      fun x hx d => ⟨t.kept.read_all hx, fun y hy => .inl ?_⟩⟩
    · rw [List.mem_singleton.1 hx]; exact ⟨t.ok, e.mono hn⟩
    · rw [List.mem_singleton.1 hy]; exact (fresh_apart hx e).symm
    · rw [List.mem_singleton.1 hy]; exact (fresh_apart hx e).symm

/-! ### Merging -/

theorem slices_eq (nd : HNode) : nd.slices = nd.chars :: slicesL nd.children := by cases nd; rfl

theorem view_eq (nd : HNode) (h : Heap) : nd.view h = ⟨nd.ruleType, nd.name, h.read nd.chars, viewL h nd.children, nd.pos, nd.sticky, nd.virt, nd.nonData, nd.tokenized⟩ := by
  cases nd; rfl

/-- A change of trees: the slices, and what the trees show afterwards. -/
def Turned (n : Nat) (h : Heap) (S : List Slice) (a : List HNode × Heap) (l : List Node) : Prop :=
  Step n h S a.2 (slicesL a.1) ∧ viewL a.2 a.1 = l

theorem Turned.after {S S1 : List Slice} {a : List HNode × Heap} {l : List Node} (t : Turned n h1 S1 a l) (st : Step n h S h1 S1) : Turned n h S a l :=
  ⟨st.trans t.1, t.2⟩

theorem slicesL_one (nd : HNode) : slicesL [nd] = nd.slices := by simp [slicesL]

mutual
theorem mergeSticky_step (grow : Growth) (nd : HNode) {n : Nat} {h : Heap} (hn : n ≤ h.arrays.length) (g : Good n h nd.slices) :
    Step n h nd.slices (nd.mergeSticky grow h).2 (nd.mergeSticky grow h).1.slices ∧
    (nd.mergeSticky grow h).1.view (nd.mergeSticky grow h).2 = (nd.view h).mergeSticky := by
  obtain ⟨rt, nm, ch, cs, p, st, v, dd, tk⟩ := nd
  simp only [HNode.mergeSticky, HNode.view, Node.mergeSticky, viewL_length]
  by_cases h0 : cs.length = 0
  · rw [if_pos h0, if_pos h0]
    exact ⟨Step.refl g, rfl⟩
  · rw [if_neg h0, if_neg h0]
    have g' : Good n h ([ch] ++ slicesL cs ++ []) := by simpa [HNode.slices] using g
    by_cases hb : rt = .block
    · rw [if_pos hb, if_pos hb]
      obtain ⟨s1, s2⟩ := mergeBlock_step grow cs hn g'.mid
      obtain ⟨c1, c2, _⟩ := Step.context g' s1
      refine ⟨by simpa [HNode.slices] using c1, ?_⟩
      simp only [HNode.view, s2, c2 ch (List.mem_singleton.2 rfl)]
    · rw [if_neg hb, if_neg hb]
      have gm : Good n h (slicesL [] ++ slicesL (none : Option HNode).toList ++ slicesL cs) := g'.mid
      obtain ⟨s1, s2⟩ := mergeLoop_step grow [] none cs hn gm
      obtain ⟨c1, c2, _⟩ := Step.context g' s1
      refine ⟨by simpa [HNode.slices] using c1, ?_⟩
      simp only [HNode.view, s2, c2 ch (List.mem_singleton.2 rfl)]
      rfl
theorem mergeBlock_step (grow : Growth) (ns : List HNode) {n : Nat} {h : Heap} (hn : n ≤ h.arrays.length) (g : Good n h (slicesL ns)) :
    Turned n h (slicesL ns) (hMergeBlockL grow ns h) (mergeBlockL (viewL h ns)) := by
  match ns with
  | [] => exact ⟨Step.refl g, rfl⟩
  | nd :: ns =>
    have g' : Good n h ([] ++ nd.slices ++ slicesL ns) := g
    obtain ⟨s1, s2⟩ := mergeSticky_step grow nd hn g'.mid
    obtain ⟨c1, _, c3⟩ := Step.context g' s1
    have g2 : Good n (nd.mergeSticky grow h).2 ((nd.mergeSticky grow h).1.slices ++ slicesL ns ++ []) := by simpa using c1.good
    obtain ⟨s3, s4⟩ := mergeBlock_step grow ns (Nat.le_trans hn s1.kept.size) g2.mid
    obtain ⟨c4, c5, _⟩ := Step.context g2 s3
    refine ⟨?_, ?_⟩
    · have := c1.trans (by simpa using c4)
      simpa [hMergeBlockL, slicesL, slices_eq] using this
    · rw [viewL_congr ns c3] at s4
      have e1 := view_congr _ c5
      rw [s2] at e1
      simp only [hMergeBlockL, viewL, mergeBlockL, s4, List.cons.injEq, and_true]
      rw [← e1, view_eq, view_eq]
theorem mergeLoop_step (grow : Growth) (out : List HNode) (prev : Option HNode) (ns : List HNode) {n : Nat} {h : Heap} (hn : n ≤ h.arrays.length)
    (g : Good n h (slicesL out ++ slicesL prev.toList ++ slicesL ns)) :
    Turned n h (slicesL out ++ slicesL prev.toList ++ slicesL ns) (hMergeLoop grow out prev ns h)
      (mergeLoop (viewL h out) (prev.map (fun x => x.view h)) (viewL h ns)) := by
  match ns with
  | [] =>
    cases prev with
    | none => exact ⟨by simpa [slicesL, hMergeLoop] using Step.refl g, rfl⟩
    | some p =>
      refine ⟨by simpa [slicesL, hMergeLoop, slicesL_append, slices_eq] using Step.refl g, ?_⟩
      simp only [hMergeLoop, viewL_append, viewL, mergeLoop, Option.map_some, view_eq]
  | nd :: ns =>
    have hs : (nd.view h).sticky = nd.sticky := by rw [view_eq]
    have g1 : Good n h ((slicesL out ++ slicesL prev.toList) ++ nd.slices ++ slicesL ns) := by simpa [slicesL] using g
    simp only [hMergeLoop, viewL, mergeLoop, hs]
    by_cases hst : nd.sticky = true
    · rw [if_pos hst, if_pos hst]
      have t := text_spec grow nd (h := h) fun x hx => (g1.mid.all x hx).1
      obtain ⟨c1, c2, c3⟩ := Step.context g1 (text_step (grow := grow) hn g1.mid)
      have hn2 := Nat.le_trans hn t.kept.size
      cases prev with
      | none =>
        have st : Step n h (slicesL out ++ slicesL (none : Option HNode).toList ++ slicesL (nd :: ns)) (nd.text grow h).2
            (slicesL out ++ slicesL (some { nd with chars := (nd.text grow h).1, children := [] } : Option HNode).toList ++ slicesL ns) := by
          simpa [slicesL, slices_eq] using c1
        have := mergeLoop_step grow out (some { nd with chars := (nd.text grow h).1, children := [] }) ns hn2 st.good
        rw [viewL_congr out fun x hx => c2 x (by simp [hx]), viewL_congr ns c3] at this
        simp only [Option.map_none, Option.map_some] at this ⊢
        have e : ({ nd with chars := (nd.text grow h).1, children := [] } : HNode).view (nd.text grow h).2 =
            { nd.view h with chars := (nd.view h).text, children := [] } := by
          rw [view_eq]
          simp only [t.read]
          cases nd
          rfl
        rw [e] at this
        simp only [hs] at this
        exact this.after st
      | some p =>
        -- the slice of the node before
        have g2 : Good n (nd.text grow h).2 (slicesL out ++ [p.chars] ++ (slicesL p.children ++ [(nd.text grow h).1] ++ slicesL ns)) := by
          simpa [slicesL, slices_eq] using c1.good
        have kp := g2.mid.all p.chars (List.mem_singleton.2 rfl)
        have sa := append_step (grow := grow) kp.1 kp.2 hn2 ((nd.text grow h).2.read (nd.text grow h).1)
        have ap := append_built (grow := grow) kp.1 kp.2 hn2 ((nd.text grow h).2.read (nd.text grow h).1)
        obtain ⟨d1, d2, d3⟩ := Step.context g2 sa
        have hsub : (slicesL out ++ slicesL (some { p with chars := ((nd.text grow h).2.append grow p.chars ((nd.text grow h).2.read (nd.text grow h).1)).1 } : Option HNode).toList ++ slicesL ns).Sublist
            (slicesL out ++ [((nd.text grow h).2.append grow p.chars ((nd.text grow h).2.read (nd.text grow h).1)).1] ++
              (slicesL p.children ++ [(nd.text grow h).1] ++ slicesL ns)) := by
          simp only [Option.toList, slicesL_one, slices_eq, List.append_assoc, List.singleton_append]
          refine List.Sublist.append_left (List.Sublist.cons_cons _ (List.Sublist.append_left (List.sublist_cons_self _ _) _)) _
        have st : Step n h (slicesL out ++ slicesL (some p).toList ++ slicesL (nd :: ns))
            ((nd.text grow h).2.append grow p.chars ((nd.text grow h).2.read (nd.text grow h).1)).2
            (slicesL out ++ slicesL (some { p with chars := ((nd.text grow h).2.append grow p.chars ((nd.text grow h).2.read (nd.text grow h).1)).1 } : Option HNode).toList ++ slicesL ns) := by
          have c1' : Step n h (slicesL out ++ slicesL (some p).toList ++ slicesL (nd :: ns)) (nd.text grow h).2
              (slicesL out ++ [p.chars] ++ (slicesL p.children ++ [(nd.text grow h).1] ++ slicesL ns)) := by
            simpa [slicesL, slices_eq] using c1
          exact (c1'.trans d1).sublist hsub
        have := mergeLoop_step grow out (some { p with chars := ((nd.text grow h).2.append grow p.chars ((nd.text grow h).2.read (nd.text grow h).1)).1 }) ns
          (Nat.le_trans hn2 ap.kept.size) st.good
        rw [viewL_congr out d2, viewL_congr out fun x hx => c2 x (by simp [hx]), viewL_congr ns fun x hx => d3 x (by simp [hx]), viewL_congr ns c3] at this
        simp only [Option.map_some] at this ⊢
        have e : ({ p with chars := ((nd.text grow h).2.append grow p.chars ((nd.text grow h).2.read (nd.text grow h).1)).1 } : HNode).view
            ((nd.text grow h).2.append grow p.chars ((nd.text grow h).2.read (nd.text grow h).1)).2 =
            { p.view h with chars := (p.view h).chars ++ (nd.view h).text } := by
          rw [view_eq, view_eq p h]
          simp only [ap.read]
          rw [viewL_congr p.children fun x hx => d3 x (by simp [hx]), viewL_congr p.children fun x hx => c2 x (by simp [slicesL, slices_eq, hx]),
            c2 p.chars (by simp [slicesL, slices_eq]), t.read]
        rw [e] at this
        exact this.after st
    · rw [if_neg hst, if_neg hst]
      obtain ⟨s1, s2⟩ := mergeSticky_step grow nd hn g1.mid
      obtain ⟨c1, c2, c3⟩ := Step.context g1 s1
      have hn2 := Nat.le_trans hn s1.kept.size
      cases prev with
      | none =>
        have st : Step n h (slicesL out ++ slicesL (none : Option HNode).toList ++ slicesL (nd :: ns)) (nd.mergeSticky grow h).2
            (slicesL (out ++ [(nd.mergeSticky grow h).1]) ++ slicesL (none : Option HNode).toList ++ slicesL ns) := by
          simpa [slicesL, slicesL_append] using c1
        have := mergeLoop_step grow (out ++ [(nd.mergeSticky grow h).1]) none ns hn2 st.good
        rw [viewL_append, viewL_congr out fun x hx => c2 x (by simp [hx]), viewL_congr ns c3] at this
        simp only [viewL, s2] at this
        exact this.after st
      | some p =>
        have st : Step n h (slicesL out ++ slicesL (some p).toList ++ slicesL (nd :: ns)) (nd.mergeSticky grow h).2
            (slicesL (out ++ [{ p with sticky := false }, (nd.mergeSticky grow h).1]) ++ slicesL (none : Option HNode).toList ++ slicesL ns) := by
          simpa [slicesL, slicesL_append, slices_eq] using c1
        have := mergeLoop_step grow (out ++ [{ p with sticky := false }, (nd.mergeSticky grow h).1]) none ns hn2 st.good
        rw [viewL_append, viewL_congr out fun x hx => c2 x (by simp [hx]), viewL_congr ns c3] at this
        have e : ({ p with sticky := false } : HNode).view (nd.mergeSticky grow h).2 = { p.view h with sticky := false } := by
          rw [view_eq, view_eq p h]
          simp only
          rw [viewL_congr p.children fun x hx => c2 x (by simp [slicesL, slices_eq, hx]), c2 p.chars (by simp [slicesL, slices_eq])]
        simp only [viewL, s2, e] at this
        exact this.after st
end

theorem hMergeStickyNodes_step (ns : List HNode) (hn : n ≤ h.arrays.length) (g : Good n h (slicesL ns)) :
    Turned n h (slicesL ns) (hMergeStickyNodes grow ns h) (mergeStickyNodes (viewL h ns)) := by
  unfold hMergeStickyNodes mergeStickyNodes
  rw [viewL_length]
  by_cases h0 : ns.length = 0
  · rw [if_pos h0, if_pos h0]
    exact ⟨Step.refl g, rfl⟩
  · rw [if_neg h0, if_neg h0]
    exact mergeLoop_step grow [] none ns hn g

/-! ### Removing -/

mutual
theorem removeVirtual_spec (nd : HNode) (h : Heap) : nd.removeVirtual.slices.Sublist nd.slices ∧ nd.removeVirtual.view h = (nd.view h).removeVirtual := by
  obtain ⟨rt, nm, ch, cs, p, st, v, dd, tk⟩ := nd
  obtain ⟨a, b⟩ := removeVirtualL_spec cs h
  simp only [HNode.removeVirtual, HNode.slices, HNode.view, Node.removeVirtual, b]
  exact ⟨a.cons_cons _, trivial⟩
theorem removeVirtualL_spec (ns : List HNode) (h : Heap) : (slicesL (hRemoveVirtualL ns)).Sublist (slicesL ns) ∧
    viewL h (hRemoveVirtualL ns) = removeVirtualL (viewL h ns) := by
  match ns with
  | [] => exact ⟨List.Sublist.refl _, rfl⟩
  | nd :: ns =>
    obtain ⟨a, b⟩ := removeVirtualL_spec ns h
    obtain ⟨c, d⟩ := removeVirtual_spec nd h
    have hv : (nd.view h).virt = nd.virt := by rw [view_eq]
    simp only [hRemoveVirtualL, viewL, removeVirtualL, hv]
    by_cases h0 : nd.virt = true
    · rw [if_pos h0, if_pos h0]
      exact ⟨a.trans (List.sublist_append_right _ _), b⟩
    · rw [if_neg h0, if_neg h0]
      exact ⟨c.append a, by simp only [viewL, b, d]⟩
end

mutual
theorem removeNonData_spec (nd : HNode) (h : Heap) : nd.removeNonData.slices.Sublist nd.slices ∧ nd.removeNonData.view h = (nd.view h).removeNonData := by
  obtain ⟨rt, nm, ch, cs, p, st, v, dd, tk⟩ := nd
  obtain ⟨a, b⟩ := removeNonDataL_spec cs h
  simp only [HNode.removeNonData, HNode.slices, HNode.view, Node.removeNonData, b]
  exact ⟨a.cons_cons _, trivial⟩
theorem removeNonDataL_spec (ns : List HNode) (h : Heap) : (slicesL (hRemoveNonDataL ns)).Sublist (slicesL ns) ∧
    viewL h (hRemoveNonDataL ns) = removeNonDataL (viewL h ns) := by
  match ns with
  | [] => exact ⟨List.Sublist.refl _, rfl⟩
  | nd :: ns =>
    obtain ⟨a, b⟩ := removeNonDataL_spec ns h
    obtain ⟨c, d⟩ := removeNonData_spec nd h
    have hv : (nd.view h).nonData = nd.nonData := by rw [view_eq]
    simp only [hRemoveNonDataL, viewL, removeNonDataL, hv]
    by_cases h0 : nd.nonData = true
    · rw [if_pos h0, if_pos h0]
      exact ⟨a.trans (List.sublist_append_right _ _), b⟩
    · rw [if_neg h0, if_neg h0]
      exact ⟨c.append a, by simp only [viewL, b, d]⟩
end

theorem promoteOnly_spec (nd : HNode) (k : ∀ x ∈ nd.slices, x.ok h) :
    (hPromoteOnly nd).slices.Sublist nd.slices ∧ (hPromoteOnly nd).view h = promoteOnly (nd.view h) := by
  obtain ⟨rt, nm, ch, cs, p, st, v, dd, tk⟩ := nd
  unfold hPromoteOnly promoteOnly
  match cs, k with
  | [], _ => exact ⟨List.Sublist.refl _, rfl⟩
  | [only], k =>
    have ko : only.chars.ok h := k _ (by simp [HNode.slices, slicesL, slices_eq])
    have e1 : (only.view h).name = only.name := by rw [view_eq]
    have e2 : (only.view h).chars = h.read only.chars := by rw [view_eq]
    have e3 : (only.view h).children = viewL h only.children := by rw [view_eq]
    simp only [HNode.view, viewL, e1, e2, e3, read_length ko]
    by_cases hn : only.name = []
    · rw [if_pos hn, if_pos hn]
      by_cases hl : only.chars.len > 0
      · rw [if_pos hl, if_pos hl]
        refine ⟨?_, rfl⟩
        simp only [HNode.slices, slicesL, List.append_nil, slices_eq only]
        exact (List.singleton_sublist.2 List.mem_cons_self).cons _
      · rw [if_neg hl, if_neg hl]
        refine ⟨?_, rfl⟩
        simp only [HNode.slices, slicesL, List.append_nil, slices_eq only]
        exact (List.sublist_cons_self _ _).cons_cons _
    · rw [if_neg hn, if_neg hn]
      exact ⟨List.Sublist.refl _, rfl⟩
  | a :: b :: cs, _ => exact ⟨List.Sublist.refl _, rfl⟩

theorem promoteLeaf_spec (nd : HNode) (h : Heap) :
    (hPromoteLeaf nd).slices.Sublist nd.slices ∧ (hPromoteLeaf nd).view h = promoteLeaf (nd.view h) := by
  obtain ⟨rt, nm, ch, cs, p, st, v, dd, tk⟩ := nd
  unfold hPromoteLeaf promoteLeaf
  match cs with
  | [] => exact ⟨List.Sublist.refl _, rfl⟩
  | [only] =>
    have e1 : (only.view h).name = only.name := by rw [view_eq]
    have e2 : (only.view h).chars = h.read only.chars := by rw [view_eq]
    have e3 : (only.view h).children = viewL h only.children := by rw [view_eq]
    simp only [HNode.view, viewL, e1, e2, e3, viewL_length]
    by_cases hn : only.name = [] ∧ only.children.length = 0
    · rw [if_pos hn, if_pos hn]
      refine ⟨?_, rfl⟩
      simp only [HNode.slices, slicesL, List.append_nil, slices_eq only]
      exact (List.singleton_sublist.2 List.mem_cons_self).cons _
    · rw [if_neg hn, if_neg hn]
      exact ⟨List.Sublist.refl _, rfl⟩
  | a :: b :: cs => exact ⟨List.Sublist.refl _, rfl⟩

theorem splice_step (cs : List HNode) : ∀ {h : Heap}, n ≤ h.arrays.length → Good n h (slicesL cs) →
    Turned n h (slicesL cs) (hSpliceUnnamed grow cs h) (spliceUnnamed (viewL h cs)) := by
  induction cs with
  | nil => intro h hn g; exact ⟨Step.refl g, rfl⟩
  | cons c cs ih =>
    intro h hn g
    have t := text_spec grow c (h := h) fun x hx => (g.all x (by simp [slicesL, hx])).1
    have st := Step.of_kept (n := n) g hn t.kept t.streams
    have g2 : Good n (c.text grow h).2 (c.slices ++ slicesL cs ++ []) := by simpa [slicesL] using st.good
    obtain ⟨s1, s2⟩ := ih (Nat.le_trans hn t.kept.size) g2.mid
    obtain ⟨c1, c2, _⟩ := Step.context g2 s1
    have c1' : Step n h (slicesL (c :: cs)) (hSpliceUnnamed grow cs (c.text grow h).2).2 (c.slices ++ slicesL (hSpliceUnnamed grow cs (c.text grow h).2).1) :=
      st.trans (by simpa [slicesL] using c1)
    rw [viewL_congr cs fun x hx => t.kept.read_all (g.all x (by simp [slicesL, hx])).1] at s2
    have ev : c.view (hSpliceUnnamed grow cs (c.text grow h).2).2 = c.view h :=
      (view_congr c c2).trans (view_congr c fun x hx => t.kept.read_all (g.all x (by simp [slicesL, hx])).1)
    have e1 : (c.view h).name = c.name := by rw [view_eq]
    have e3 : (c.view h).children.length = c.children.length := by rw [view_eq, viewL_length]
    have el : (c.view h).text.length = (c.text grow h).1.len := by rw [← t.read, read_length t.ok]
    simp only [hSpliceUnnamed, viewL, spliceUnnamed, el, e1, e3]
    by_cases h1 : (c.text grow h).1.len = 0 ∧ c.name = []
    · rw [if_pos h1, if_pos h1]
      exact ⟨c1'.sublist (List.sublist_append_right _ _), s2⟩
    · rw [if_neg h1, if_neg h1]
      by_cases h2 : c.name = [] ∧ c.children.length > 0
      · rw [if_pos h2, if_pos h2]
        refine ⟨c1'.sublist ?_, ?_⟩
        · simp only [slicesL_append, slices_eq c, List.cons_append]
          exact List.sublist_cons_self _ _
        · simp only [viewL_append, s2]
          rw [← ev, view_eq c]
      · rw [if_neg h2, if_neg h2]
        exact ⟨by simpa [slicesL] using c1', by simp only [viewL, s2, ev]⟩

mutual
theorem removeRedundant_step (grow : Growth) (nd : HNode) {n : Nat} {h : Heap} (hn : n ≤ h.arrays.length) (g : Good n h nd.slices) :
    Step n h nd.slices (nd.removeRedundant grow h).2 (nd.removeRedundant grow h).1.slices ∧
    (nd.removeRedundant grow h).1.view (nd.removeRedundant grow h).2 = (nd.view h).removeRedundant := by
  obtain ⟨rt, nm, ch, cs, p, st, v, dd, tk⟩ := nd
  simp only [HNode.removeRedundant, HNode.view, Node.removeRedundant, viewL_length]
  by_cases h0 : cs.length = 0
  · rw [if_pos h0, if_pos h0]
    exact ⟨Step.refl g, rfl⟩
  · rw [if_neg h0, if_neg h0]
    have g' : Good n h ([ch] ++ slicesL cs ++ []) := by simpa [HNode.slices] using g
    obtain ⟨s1, s2⟩ := removeRedundantL_step grow cs hn g'.mid
    obtain ⟨c1, c2, _⟩ := Step.context g' s1
    generalize hRemoveRedundantL grow cs h = k at s1 s2 c1 c2
    have hn2 := Nat.le_trans hn s1.kept.size
    have gp : Good n k.2 (HNode.slices ⟨rt, nm, ch, k.1, p, st, v, dd, tk⟩) := by simpa [HNode.slices] using c1.good
    obtain ⟨p1, p2⟩ := promoteOnly_spec (h := k.2) ⟨rt, nm, ch, k.1, p, st, v, dd, tk⟩ fun x hx => (gp.all x hx).1
    have vp : HNode.view k.2 ⟨rt, nm, ch, k.1, p, st, v, dd, tk⟩ = ⟨rt, nm, h.read ch, removeRedundantL (viewL h cs), p, st, v, dd, tk⟩ := by
      simp only [HNode.view, s2, c2 ch (List.mem_singleton.2 rfl)]
    rw [vp] at p2
    generalize hPromoteOnly ⟨rt, nm, ch, k.1, p, st, v, dd, tk⟩ = n1 at p1 p2
    have st1 : Step n h (HNode.slices ⟨rt, nm, ch, cs, p, st, v, dd, tk⟩) k.2 n1.slices :=
      Step.sublist (by simpa [HNode.slices] using c1) p1
    have g3 : Good n k.2 ([n1.chars] ++ slicesL n1.children ++ []) := by simpa [slices_eq] using st1.good
    obtain ⟨s3, s4⟩ := splice_step (grow := grow) n1.children hn2 g3.mid
    obtain ⟨c3, c4, _⟩ := Step.context g3 s3
    generalize hSpliceUnnamed grow n1.children k.2 = m at s3 s4 c3 c4
    obtain ⟨p3, p4⟩ := promoteLeaf_spec { n1 with children := m.1 } m.2
    refine ⟨(st1.trans (by simpa [slices_eq] using c3)).sublist p3, ?_⟩
    rw [p4, ← p2]
    congr 1
    rw [view_eq, view_eq n1]
    simp only [s4, c4 n1.chars (List.mem_singleton.2 rfl)]
theorem removeRedundantL_step (grow : Growth) (ns : List HNode) {n : Nat} {h : Heap} (hn : n ≤ h.arrays.length) (g : Good n h (slicesL ns)) :
    Turned n h (slicesL ns) (hRemoveRedundantL grow ns h) (removeRedundantL (viewL h ns)) := by
  match ns with
  | [] => exact ⟨Step.refl g, rfl⟩
  | nd :: ns =>
    have g' : Good n h ([] ++ nd.slices ++ slicesL ns) := g
    obtain ⟨s1, s2⟩ := removeRedundant_step grow nd hn g'.mid
    obtain ⟨c1, _, c3⟩ := Step.context g' s1
    have g2 : Good n (nd.removeRedundant grow h).2 ((nd.removeRedundant grow h).1.slices ++ slicesL ns ++ []) := by simpa using c1.good
    obtain ⟨s3, s4⟩ := removeRedundantL_step grow ns (Nat.le_trans hn s1.kept.size) g2.mid
    obtain ⟨c4, c5, _⟩ := Step.context g2 s3
    refine ⟨?_, ?_⟩
    · have := c1.trans (by simpa using c4)
      simpa [hRemoveRedundantL, slicesL] using this
    · rw [viewL_congr ns c3] at s4
      have e1 := view_congr _ c5
      rw [s2] at e1
      simp only [hRemoveRedundantL, viewL, removeRedundantL, s4, e1]
end

theorem astRemoveRedundant_step (ns : List HNode) : ∀ {h : Heap}, n ≤ h.arrays.length → Good n h (slicesL ns) →
    Turned n h (slicesL ns) (hAstRemoveRedundant grow ns h) (astRemoveRedundant (viewL h ns)) := by
  induction ns with
  | nil => intro h hn g; exact ⟨Step.refl g, rfl⟩
  | cons nd ns ih =>
    intro h hn g
    have g' : Good n h ([] ++ nd.slices ++ slicesL ns) := g
    have hv : (nd.view h).nonData = nd.nonData := by rw [view_eq]
    simp only [hAstRemoveRedundant, viewL, astRemoveRedundant, hv]
    have key : Step n h nd.slices (if nd.nonData = true then (nd, h) else nd.removeRedundant grow h).2
        (if nd.nonData = true then (nd, h) else nd.removeRedundant grow h).1.slices ∧
        (if nd.nonData = true then (nd, h) else nd.removeRedundant grow h).1.view (if nd.nonData = true then (nd, h) else nd.removeRedundant grow h).2 =
        (if nd.nonData = true then nd.view h else (nd.view h).removeRedundant) := by
      by_cases h0 : nd.nonData = true
      · simp only [if_pos h0]
        exact ⟨Step.refl g'.mid, trivial⟩
      · simp only [if_neg h0]
        exact removeRedundant_step grow nd hn g'.mid
    generalize (if nd.nonData = true then (nd, h) else nd.removeRedundant grow h) = a at key
    obtain ⟨s1, s2⟩ := key
    obtain ⟨c1, _, c3⟩ := Step.context g' s1
    have g2 : Good n a.2 (a.1.slices ++ slicesL ns ++ []) := by simpa using c1.good
    obtain ⟨s3, s4⟩ := ih (Nat.le_trans hn s1.kept.size) g2.mid
    obtain ⟨c4, c5, _⟩ := Step.context g2 s3
    refine ⟨?_, ?_⟩
    · have := c1.trans (by simpa using c4)
      simpa [slicesL] using this
    · rw [viewL_congr ns c3] at s4
      simp only [viewL, s4, view_congr _ c5, s2]

theorem hSimplify_step (level : Int) (ns : List HNode) (hn : n ≤ h.arrays.length) (g : Good n h (slicesL ns)) :
    Turned n h (slicesL ns) (hSimplify grow level ns h) (simplify level (viewL h ns)) := by
  unfold hSimplify simplify
  by_cases h0 : level = LevelRaw
  · rw [if_pos h0, if_pos h0]
    exact ⟨Step.refl g, rfl⟩
  · rw [if_neg h0, if_neg h0]
    obtain ⟨s1, s2⟩ := hMergeStickyNodes_step (grow := grow) ns hn g
    generalize hMergeStickyNodes grow ns h = m at s1 s2
    rw [← s2]
    have key : ∀ ms : List HNode, (slicesL ms).Sublist (slicesL m.1) →
        Turned n h (slicesL ns) (hAstRemoveRedundant grow ms m.2) (astRemoveRedundant (viewL m.2 ms)) := fun ms k =>
      (astRemoveRedundant_step ms (Nat.le_trans hn s1.kept.size) (s1.good.sublist k)).after (s1.sublist k)
    obtain ⟨a, b⟩ := removeVirtualL_spec m.1 m.2
    obtain ⟨c, d⟩ := removeNonDataL_spec (hRemoveVirtualL m.1) m.2
    dsimp only
    by_cases h1 : level = LevelDataOnly
    · rw [if_pos h1, if_pos h1, ← b, ← d]
      exact key _ (c.trans a)
    · rw [if_neg h1, if_neg h1]
      by_cases h2 : level = LevelNoVirtual
      · rw [if_pos h2, if_pos h2, ← b]
        exact key _ a
      · rw [if_neg h2, if_neg h2]
        exact key _ (List.Sublist.refl _)

theorem Tree.good {T : Slice} {ns : List HNode} {l : List Node} (t : Tree n T h ns l) : Good n h (slicesL ns) := ⟨t.all, t.apart⟩

theorem hEvalAST_rel {T : Slice} {L : List Slice} {cs : Nat} (g : Grammar) (fuel : Nat) (o : Order) (level : Int) (sc : Scene h.arrays.length T L cs h) :
    Rel (RawPost h.arrays.length T L cs h) (evalAST g fuel o.sched (h.stream cs) level) (hEvalAST grow g fuel o cs level h) := by
  unfold evalAST hEvalAST
  refine (hEvalRaw_rel (grow := grow) g fuel o sc).bind fun ⟨v, s⟩ ⟨a, h1⟩ p => ?_
  have sh : RawShows h.arrays.length T h1 a v := p.shows
  cases a with
  | error e =>
    cases v with
    | error f => exact p
    | ok l => exact False.elim sh
  | ok ns =>
    cases v with
    | error f => exact False.elim sh
    | ok l =>
      have t : Tree h.arrays.length T h1 ns l := sh
      obtain ⟨s1, s2⟩ := hSimplify_step (grow := grow) level ns p.run.scene.size t.good
      dsimp only
      refine ⟨p.run.change s1.kept s1.streams fun x hx => s1.kept.read (p.run.scene.ok x hx) (sc.ok x hx).below, ?_⟩
      rw [t.view] at s2
      exact ⟨s1.good.all, s2, s1.good.apart⟩

end

end Xbnf.Mem
