import Verif.Lemmas.HeapLeaf
/-
Memory: sequences and repetitions.
-/
namespace Xbnf.Mem

section
variable {n m : Nat} {T : Slice} {L : List Slice} {cs : Nat} {h h0 h1 h2 : Heap} {s : Stream} {grow : Growth}

theorem fromIdx_rel {x : Slice} {l : List Rune} (k : Has n T h x l) (i : Int) :
    Rel (fun m y => Has n T h y m ∧ ∀ o, Apart o x → Apart o y) (sliceFrom l i) (x.fromIdx i) := by
  unfold sliceFrom Slice.fromIdx
  rw [k.len]
  by_cases hi : 0 ≤ i ∧ i ≤ l.length
  · simp only [if_pos hi]
    have := k.rest (i := i.toNat) (by omega)
    simp only [Slice.part, k.len] at this
    exact ⟨this, fun o d => part_apart (s := x) d i.toNat x.len⟩
  · simp only [if_neg hi]
    trivial

theorem Shows.countUsed {r : HRes} {v : Res} (t : Shows n T h r v) : r.countUsed = v.countUsed := by
  rw [HRes.countUsed, Res.countUsed, t.read.len, t.unused.len]

theorem charsUsed_rel {r : HRes} {v : Res} (t : Shows n T h r v) :
    Rel (fun m y => Has n T h y m ∧ ∀ o, Apart o r.read → Apart o y) v.charsUsed r.charsUsed := by
  have hle : v.countUsed ≤ v.read.length := by
    unfold Res.countUsed
    omega
  unfold HRes.charsUsed Res.charsUsed sliceTo Slice.upto
  rw [t.countUsed]
  have hcap := t.read.ok.1
  have hlen := t.read.len
  by_cases hi : 0 ≤ v.countUsed
  · rw [if_pos ⟨hi, by omega⟩, if_pos ⟨hi, by omega⟩]
    have := t.read.part (i := 0) (j := v.countUsed.toNat) (Nat.zero_le _) (by omega)
    simp only [Slice.part, Nat.add_zero, Nat.sub_zero, List.drop_zero] at this
    exact ⟨this, fun o d => part_apart (s := r.read) d 0 v.countUsed.toNat⟩
  · rw [if_neg (fun h => hi h.1), if_neg (fun h => hi h.1)]
    trivial

/-- What did not change for the slices that are apart from `o` and are now apart from `o'`. -/
def Frame (n : Nat) (T : Slice) (h h' : Heap) (o o' : Slice) : Prop := ∀ x l, Has n T h x l → Apart o x → Has n T h' x l ∧ Apart o' x

theorem Frame.refl (h : Heap) (o : Slice) : Frame n T h h o o := fun _ _ k d => ⟨k, d⟩

theorem Frame.trans {o o1 o2 : Slice} (a : Frame n T h h1 o o1) (b : Frame n T h1 h2 o1 o2) : Frame n T h h2 o o2 :=
  fun x l k d => b x l (a x l k d).1 (a x l k d).2

theorem Frame.of_kept {o : Slice} (k : Kept h.arrays.length h h1) : Frame n T h h1 o o := fun _ _ e d => ⟨e.kept k, d⟩

theorem Tree.frame {o o' : Slice} {ns : List HNode} {l : List Node} (t : Tree n T h ns l) (f : Frame n T h h1 o o') (d : ∀ x ∈ slicesL ns, Apart o x) :
    Tree n T h1 ns l ∧ ∀ x ∈ slicesL ns, Apart o' x := by
  have key : ∀ x ∈ slicesL ns, Has n T h1 x (h.read x) ∧ Apart o' x := fun x hx => f x _ ⟨(t.all x hx).1, (t.all x hx).2.born T, rfl⟩ (d x hx)
  exact ⟨⟨fun x hx => ⟨(key x hx).1.ok, (t.all x hx).2⟩, (viewL_congr ns fun x hx => (key x hx).1.read).trans t.view, t.apart⟩, fun x hx => (key x hx).2⟩

/-- What a call returned is apart from what the caller owns. -/
theorem Shows.apart {r : HRes} {v : Res} {o : Slice} (t : Shows h.arrays.length T h1 r v) (ho : Own n o) (hok : o.ok h) (hT : 0 < T.cap → T.arr < n) :
    Apart o r.read ∧ Apart o r.unused ∧ ∀ x ∈ slicesL r.node.toList, Apart o x :=
  ⟨t.read.born.apart ho hok hT, t.unused.born.apart ho hok hT, fun x hx => ((t.node.all x hx).2.born T).apart ho hok hT⟩

theorem Run.mono {L : List Slice} (sc : Scene n T L cs h) (r : Run m T L cs h h1 s) (hm : n ≤ m) : Run n T L cs h h1 s :=
  ⟨sc.step r.kept r.shape, r.kept.mono hm, r.only, r.stream⟩

/-- A new layer. -/
structure Pushed (n : Nat) (T : Slice) (L L' : List Slice) (cs : Nat) (h0 h1 : Heap) (s : Stream) (x : Slice) (u : List Rune) (c : Nat × Heap) : Prop where
  run : Run n T L' c.1 c.2 c.2 (s.pushBack u)
  layers : ∀ y ∈ L', y = x ∨ y ∈ L
  below : ∀ y ∈ L, y ∈ L'
  old : Run n T L cs h0 c.2 s
  arrays : c.2.arrays = h1.arrays
  pop : ∀ {m h3 s3}, n ≤ m → Run m T L' c.1 c.2 h3 s3 → Run n T L cs h0 h3 (s3.popBack u)

theorem Run.push (r : Run n T L cs h0 h1 s) {x : Slice} {u : List Rune} (k : Has n T h1 x u) : ∃ L', Pushed n T L L' cs h0 h1 s x u (h1.newPre cs x) := by
  obtain ⟨⟨L', c1, c2, c2'⟩, c3⟩ := newPre_spec r.scene.chain k.ok
  have ha := newPre_arrays h1 cs x
  have hs := newPre_shape h1 cs x
  have hk : ∀ m, Kept m h1 (h1.newPre cs x).2 := fun m => Kept.of_arrays ha
  rw [r.stream, k.read] at c3
  have hold : Run n T L cs h0 (h1.newPre cs x).2 s := by
    refine ⟨r.scene.step (hk n) hs, r.kept.trans (hk n), r.only.trans (newPre_only h1 r.scene.chain.lt x), ?_⟩
    rw [← r.stream]
    refine stream_congr r.scene.chain (fun i hi => ?_) (fun y _ => by rw [Heap.read, Heap.read, ha])
    have := r.scene.chain.lt
    unfold Heap.newPre
    split
    · rfl
    · exact List.getElem?_append_left (by omega)
  refine ⟨L', ⟨⟨c1, fun y hy => ?_, by rw [ha]; exact r.scene.size, r.scene.text⟩, Kept.refl _ _, Only.refl c1.lt, c3⟩, c2, c2', hold, ha, ?_⟩
  · rcases c2 y hy with e | e
    · rw [e]; exact (hk 0).ok k.ok
    · exact (hk 0).ok (r.scene.ok y e)
  · intro m h3 s3 hm r3
    refine ⟨hold.scene.step r3.kept r3.shape, hold.kept.trans (r3.kept.mono hm), r.only.pop r.scene.chain.lt r3.only, ?_⟩
    have := newPre_pop r.scene.chain k.ok r3.shape
    rw [this, r3.stream, k.read]

/-- A call on a layer, seen from the caller. -/
theorem Sim.call {ev : Evaluator} {hev : HEvaluator} (sim : Sim ev hev) (rule : Rule) (flag : Int) (r : Run n T L cs h0 h1 s) :
    Rel (Post h1.arrays.length T L cs h1) (ev rule flag s) (hev rule flag cs h1) := by
  have := sim rule flag cs h1 L T r.scene.now
  rwa [r.stream] at this

/-! ### Nodes -/

theorem node_fields {x : HNode} {y : Node} (t : Tree n T h [x] [y]) :
    x.pos = y.pos ∧ x.ruleType = y.ruleType ∧ x.children.length = y.children.length ∧ x.chars.len = y.chars.length := by
  have hv := t.view
  have hx : x.chars ∈ slicesL [x] := by
    cases x
    simp [slicesL, HNode.slices]
  have hl := read_length (t.all _ hx).1
  cases x
  simp only [viewL, HNode.view, List.cons.injEq, and_true] at hv
  subst hv
  exact ⟨rfl, rfl, by simp [viewL_length], hl.symm⟩

theorem branch_tree {rt : RType} {b : RuleBase} {st : Bool} {ns : List HNode} {l : List Node} {p : Option Position} (t : Tree n T h ns l) :
    Tree n T h [hBranch rt b st ns p] [branchNode rt b st l p] := by
  refine ⟨fun y hy => ?_, ?_, ?_⟩
  · simp only [slicesL, HNode.slices, hBranch, List.append_nil, List.mem_cons] at hy
    rcases hy with e | e
    · subst e
      exact ⟨Slice.ok_nil h, Own.nil n⟩
    · exact t.all y e
  · simp only [viewL, HNode.view, hBranch, branchNode, t.view, read_empty]
  · simp only [slicesL, HNode.slices, hBranch, List.append_nil]
    exact List.pairwise_cons.2 ⟨fun y _ => Apart.nil_left y, t.apart⟩

theorem node_cases {r : HRes} {v : Res} (t : Tree n T h r.node.toList v.node.toList) :
    (r.node = none ∧ v.node = none) ∨ ∃ x y, r.node = some x ∧ v.node = some y ∧ Tree n T h [x] [y] := by
  have hv := t.view
  cases hr : r.node with
  | none =>
    cases hn : v.node with
    | none => exact .inl ⟨rfl, rfl⟩
    | some y => rw [hr, hn] at hv; cases hv
  | some x =>
    cases hn : v.node with
    | none => rw [hr, hn] at hv; cases hv
    | some y => rw [hr, hn] at t; exact .inr ⟨x, y, rfl, rfl, t⟩

/-! ### The characters read -/

/-- The new `CharsRead` and `CharsUnused`. -/
structure Acc (n : Nat) (T : Slice) (L : List Slice) (cs : Nat) (h0 h1 : Heap) (s : Stream) (o : Slice) (v : List Rune × List Rune)
    (a : Slice × Slice × Heap) : Prop where
  run : Run n T L cs h0 a.2.2 s
  has : Has n T a.2.2 a.1 v.1
  own : Own n a.1
  layers : ∀ x ∈ L, Apart a.1 x
  unused : Has n T a.2.2 a.2.1 v.2
  apart : Apart a.1 a.2.1
  frame : Frame n T h1 a.2.2 o a.1

theorem hAccount_rel (r : Run n T L cs h0 h1 s) {o u : Slice} {l w : List Rune} {res : HRes} {v : Res} (ko : Has n T h1 o l) (ho : Own n o)
    (d : ∀ x ∈ L, Apart o x) (ku : Has n T h1 u w) (du : Apart o u) (t : Shows n T h1 res v) (dr : Apart o res.unused) :
    Rel (Acc n T L cs h0 h1 s o) (account l w v) (hAccount grow o u res h1) := by
  unfold account hAccount
  rw [t.read.len, ku.len]
  by_cases hc : v.read.length > w.length
  · rw [if_pos hc, if_pos hc]
    refine (fromIdx_rel t.read _).bind fun e x ⟨kx, _⟩ => ?_
    have g := r.grown (grow := grow) ko ho d (h1.read x)
    have := g.other _ _ t.unused dr
    rw [kx.read] at *
    exact ⟨g.run, g.has, g.own, g.layers, this.1, this.2, g.other⟩
  · rw [if_neg hc, if_neg hc]
    refine (charsUsed_rel t).bind fun e x ⟨kx, _⟩ => ?_
    rw [kx.len]
    refine (fromIdx_rel ku _).bind fun f y ⟨ky, dy⟩ => ?_
    rw [ky.len]
    by_cases hq : f.length < e.length
    · rw [if_pos hq, if_pos hq]
      exact ⟨r, ko, ho, d, t.unused, dr, Frame.refl _ _⟩
    · rw [if_neg hq, if_neg hq]
      exact ⟨r, ko, ho, d, ky, dy _ du, Frame.refl _ _⟩

/-- The variables of a loop, and what they show. -/
structure SeqShows (n : Nat) (T : Slice) (L : List Slice) (h : Heap) (a : HSeq) (v : SeqState) : Prop where
  read : Has n T h a.read v.read
  own : Own n a.read
  layers : ∀ x ∈ L, Apart a.read x
  unused : Has n T h a.unused v.unused
  apart : Apart a.read a.unused
  nodes : Tree n T h a.nodes v.nodes
  nodesApart : ∀ x ∈ slicesL a.nodes, Apart a.read x
  sticky : a.sticky = v.sticky
  pos : a.pos = v.pos
  flag : a.flag = v.flag

theorem SeqShows.start (n : Nat) (T : Slice) (L : List Slice) (h : Heap) (flag : Int) : SeqShows n T L h { flag := flag } { flag := flag } :=
  ⟨Has.nil, Own.nil n, fun x _ => Apart.nil_left x, Has.nil, Apart.nil_left _, Tree.nil n T h, fun x _ => Apart.nil_left x, rfl, rfl, rfl⟩

theorem hNextFlag_eq {flag : Int} {x : HNode} {y : Node} {st : Bool} (t : Tree n T h [x] [y]) : hNextFlag flag x st = nextFlag flag y st := by
  obtain ⟨_, e1, e2, e3⟩ := node_fields t
  rw [hNextFlag, nextFlag, e1, e2, e3]

/-- One more sub-result: what the loops of sequences and repetitions have in common. -/
structure Stepped (n : Nat) (T : Slice) (L L' : List Slice) (cs : Nat) (h0 : Heap) (st : SeqState) (hst : HSeq) (c : Nat × Heap)
    (res : Res) (s' : Stream) (hres : HRes) (v : List Rune × List Rune) (a : Slice × Slice × Heap) : Prop where
  run : Run n T L' c.1 c.2 a.2.2 s'
  old : Run n T L cs h0 a.2.2 (s'.popBack st.unused)
  read : Has n T a.2.2 a.1 v.1
  own : Own n a.1
  layers : ∀ x ∈ L', Apart a.1 x
  unused : Has n T a.2.2 a.2.1 v.2
  apart : Apart a.1 a.2.1
  nodes : Tree n T a.2.2 hst.nodes st.nodes
  nodesApart : ∀ x ∈ slicesL hst.nodes, Apart a.1 x
  node : Tree n T a.2.2 hres.node.toList res.node.toList
  nodeApart : ∀ x ∈ slicesL hres.node.toList, Apart a.1 x
  cross : ∀ x ∈ slicesL hst.nodes, ∀ y ∈ slicesL hres.node.toList, Apart x y
  error : hres.error = res.error
  errIdx : hres.errIdx = res.errIdx
  sticky : hres.sticky = res.sticky

/-- The call and the accounting of one round. -/
theorem step_rel {st : SeqState} {hst : HSeq} (ss : SeqShows n T L h1 hst st) {L' : List Slice} {c : Nat × Heap}
    (p : Pushed n T L L' cs h0 h1 s hst.unused st.unused c) {res : Res} {s' : Stream} {hres : HRes} {h' : Heap}
    (post : Post c.2.arrays.length T L' c.1 c.2 (res, s') (hres, h')) :
    Rel (Stepped n T L L' cs h0 st hst c res s' hres) (account st.read st.unused res) (hAccount grow hst.read hst.unused hres h') := by
  have hk : Kept h1.arrays.length h1 c.2 := Kept.of_arrays p.arrays
  have hsz := p.run.scene.size
  have k' := post.run.kept
  have hok : hst.read.ok c.2 := hk.ok ss.read.ok
  obtain ⟨d1, d2, d3⟩ := post.shows.apart ss.own hok p.run.scene.text
  have rr := Run.mono p.run.scene post.run hsz
  have dL : ∀ x ∈ L', Apart hst.read x := fun x hx => (p.layers x hx).elim (fun e => e ▸ ss.apart) (ss.layers x)
  refine (hAccount_rel (grow := grow) rr ((ss.read.kept hk).kept k') ss.own dL ((ss.unused.kept hk).kept k') ss.apart
    (post.shows.mono hsz) d2).mono fun v a acc => ?_
  obtain ⟨t1, t2⟩ := ((ss.nodes.kept hk).kept k').frame acc.frame ss.nodesApart
  obtain ⟨t3, t4⟩ := (post.shows.node.mono hsz).frame acc.frame d3
  exact ⟨acc.run, p.pop (Nat.le_refl _) acc.run, acc.has, acc.own, acc.layers, acc.unused, acc.apart, t1, t2, t3, t4,
    fun x hx y hy => fresh_apart ((ss.nodes.kept hk).all x hx).1 (post.shows.node.all y hy).2,
    post.shows.error, post.shows.errIdx, post.shows.sticky⟩

theorem hConcat_rel {ev : Evaluator} {hev : HEvaluator} (sim : Sim ev hev) (self : Rule) (rs : List Rule) :
    ∀ {L : List Slice} {cs : Nat} {h0 h1 : Heap} {s : Stream} {st : SeqState} {hst : HSeq}, Run n T L cs h0 h1 s → SeqShows n T L h1 hst st →
    Rel (Post n T L cs h0) (concatLoop ev self rs st s) (hConcat grow hev self rs hst cs h1) := by
  induction rs with
  | nil =>
    intro L cs h0 h1 s st hst r ss
    simp only [concatLoop, hConcat]
    refine ⟨r, ss.read, ss.unused, ?_, rfl, rfl, ss.sticky⟩
    rw [ss.sticky, ss.pos]
    exact branch_tree ss.nodes
  | cons rule rs ih =>
    intro L cs h0 h1 s st hst r ss
    obtain ⟨L', p⟩ := r.push ss.unused
    simp only [concatLoop, hConcat]
    rw [ss.flag]
    refine (sim.call rule st.flag p.run).bind fun ⟨res, s'⟩ ⟨hres, h'⟩ post => ?_
    refine (step_rel (grow := grow) ss p post).bind fun ⟨v1, v2⟩ ⟨a1, a2, h2⟩ q => ?_
    rcases node_cases q.node with ⟨e1, e2⟩ | ⟨x, y, e1, e2, tt⟩
    · simp only [e1, e2]
      refine ⟨q.old, q.read, q.read, Tree.nil _ _ _, ?_, q.errIdx, ?_⟩
      · rw [q.error]
      · rw [q.sticky, ss.sticky]
    · simp only [e1, e2]
      have hn : Tree n T h2 (hst.nodes ++ [x]) (st.nodes ++ [y]) := q.nodes.append tt (by have := q.cross; rw [e1] at this; exact this)
      have ss' : SeqShows n T L' h2
          { read := a1, unused := a2, sticky := hst.sticky && hres.sticky, pos := firstPos hst.pos x.pos,
            flag := hNextFlag st.flag x hres.sticky, nodes := hst.nodes ++ [x] }
          { read := v1, unused := v2, sticky := st.sticky && res.sticky, pos := firstPos st.pos y.pos,
            flag := nextFlag st.flag y res.sticky, nodes := st.nodes ++ [y] } := by
        refine ⟨q.read, q.own, q.layers, q.unused, q.apart, hn, fun z hz => ?_, by rw [q.sticky, ss.sticky],
          by rw [ss.pos, (node_fields tt).1], by rw [hNextFlag_eq tt, q.sticky]⟩
        rw [slicesL_append] at hz
        rcases List.mem_append.1 hz with hz | hz
        · exact q.nodesApart z hz
        · have := q.nodeApart z
          rw [e1] at this
          exact this hz
      refine (ih q.run ss').bind_left fun ⟨out, s3⟩ ⟨ho, h3⟩ post3 => ?_
      exact ⟨p.pop (Nat.le_refl _) post3.run, post3.shows⟩

theorem hRepLoop_rel {ev : Evaluator} {hev : HEvaluator} (sim : Sim ev hev) (rule : Rule) (max : Nat) (fuel : Nat) :
    ∀ {L : List Slice} {cs : Nat} {h0 h1 : Heap} {s : Stream} {st : SeqState} {hst : HSeq}, Run n T L cs h0 h1 s → SeqShows n T L h1 hst st →
    Rel (fun (v : SeqState × Option Res × Stream) (a : HSeq × Option HRes × Heap) => Run n T L cs h0 a.2.2 v.2.2 ∧ SeqShows n T [] a.2.2 a.1 v.1 ∧
        a.2.1.isSome = v.2.1.isSome ∧ a.2.1.bind (·.error) = v.2.1.bind (·.error))
      (repLoop ev rule max fuel st s) (hRepLoop grow hev rule max fuel hst cs h1) := by
  induction fuel with
  | zero => intros; trivial
  | succ fuel ih =>
    intro L cs h0 h1 s st hst r ss
    obtain ⟨L', p⟩ := r.push ss.unused
    simp only [repLoop, hRepLoop]
    rw [p.run.peek]
    by_cases h0' : (s.pushBack st.unused).peek = EOFChar
    · simp only [if_pos h0']
      have hk : Kept h1.arrays.length h1 (h1.newPre cs hst.unused).2 := Kept.of_arrays p.arrays
      exact ⟨p.old, ⟨ss.read.kept hk, ss.own, fun x hx => absurd hx List.not_mem_nil, ss.unused.kept hk, ss.apart, ss.nodes.kept hk, ss.nodesApart,
        ss.sticky, ss.pos, ss.flag⟩, rfl, rfl⟩
    simp only [if_neg h0']
    have call := sim.call rule st.flag p.run
    rw [← ss.flag] at call
    rw [← ss.flag]
    refine call.bind fun ⟨res, s'⟩ ⟨hres, h'⟩ post => ?_
    refine (step_rel (grow := grow) ss p post).bind fun ⟨v1, v2⟩ ⟨a1, a2, h2⟩ q => ?_
    rcases node_cases q.node with ⟨e1, e2⟩ | ⟨x, y, e1, e2, tt⟩
    · simp only [e1, e2]
      refine ⟨q.old, ⟨q.read, q.own, fun x hx => absurd hx List.not_mem_nil, q.unused, q.apart, q.nodes, q.nodesApart, ?_, ss.pos, ?_⟩, rfl, q.error⟩
      · show (hst.sticky && hres.sticky) = (st.sticky && res.sticky)
        rw [q.sticky, ss.sticky]
      · rfl
    · simp only [e1, e2]
      have hn : Tree n T h2 (hst.nodes ++ [x]) (st.nodes ++ [y]) := q.nodes.append tt (by have := q.cross; rw [e1] at this; exact this)
      have ss' : ∀ L'', (∀ z ∈ L'', Apart a1 z) → SeqShows n T L'' h2
          { hst with read := a1, unused := a2, sticky := hst.sticky && hres.sticky, pos := firstPos hst.pos x.pos, nodes := hst.nodes ++ [x] }
          { read := v1, unused := v2, sticky := st.sticky && res.sticky, pos := firstPos st.pos y.pos, flag := hst.flag, nodes := st.nodes ++ [y] } := by
        intro L'' hL''
        refine ⟨q.read, q.own, hL'', q.unused, q.apart, hn, fun z hz => ?_, ?_, ?_, rfl⟩
        · have hz : z ∈ slicesL (hst.nodes ++ [x]) := hz
          rw [slicesL_append] at hz
          rcases List.mem_append.1 hz with hz | hz
          · exact q.nodesApart z hz
          · have := q.nodeApart z
            rw [e1] at this
            exact this hz
        · show (hst.sticky && hres.sticky) = (st.sticky && res.sticky)
          rw [q.sticky, ss.sticky]
        · show firstPos hst.pos x.pos = firstPos st.pos y.pos
          rw [ss.pos, (node_fields tt).1]
      have hlen : hst.nodes.length = st.nodes.length := by rw [← q.nodes.view, viewL_length]
      simp only [List.length_append, List.length_cons, List.length_nil, hlen]
      by_cases hm : max > 0 ∧ st.nodes.length + (0 + 1) = max
      · rw [if_pos hm, if_pos hm]
        exact ⟨q.old, ss' [] (fun z hz => absurd hz List.not_mem_nil), rfl, rfl⟩
      · rw [if_neg hm, if_neg hm]
        refine (ih q.run (ss' L' q.layers)).bind_left fun ⟨out, why, s3⟩ ⟨ho, hw, h3⟩ post3 => ?_
        exact ⟨p.pop (Nat.le_refl _) post3.1, post3.2⟩

theorem hRep_rel {ev : Evaluator} {hev : HEvaluator} (sim : Sim ev hev) (fuel : Nat) (b : RuleBase) (rule : Rule) (mn mx : Nat) (flag : Int)
    (r : Run n T L cs h0 h1 s) :
    Rel (Post n T L cs h0) (evalRep ev fuel b rule mn mx flag s) (hRep grow hev fuel b rule mn mx flag cs h1) := by
  unfold evalRep hRep
  refine (hRepLoop_rel (grow := grow) sim rule mx fuel r (SeqShows.start n T L h1 flag)).bind fun ⟨st, why, s'⟩ ⟨hst, hwhy, h'⟩ ⟨r', ss, q1, q2⟩ => ?_
  dsimp only at r' ss q1 q2
  have hlen : hst.nodes.length = st.nodes.length := by rw [← ss.nodes.view, viewL_length]
  simp only [repFinish, q1, q2, r'.cursor, hlen]
  by_cases hm : st.nodes.length < mn
  · simp only [if_pos hm]
    exact ⟨r', ss.read, ss.read, Tree.nil _ _ _, rfl, rfl, ss.sticky⟩
  · simp only [if_neg hm]
    refine ⟨r', ss.read, ss.unused, ?_, rfl, rfl, ss.sticky⟩
    rw [ss.sticky, ss.pos]
    exact branch_tree ss.nodes

end

end Xbnf.Mem
