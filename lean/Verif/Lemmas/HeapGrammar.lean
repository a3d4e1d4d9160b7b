import Verif.Lemmas.HeapBlock
/-
Memory: `EvalRule`, `EvalEmbed` and `EvalRaw`.
-/
namespace Xbnf.Mem
open Xbnf.Grammar

section
variable {n : Nat} {T : Slice} {L : List Slice} {cs : Nat} {h h0 h1 : Heap} {s : Stream} {grow : Growth}

/-- A new stream on the text: another object, another array, nothing else changes. -/
theorem newStream_spec (grow : Growth) (h : Heap) (text : List Rune) :
    ∃ T, Scene (h.newStream grow text).2.arrays.length T [T] (h.newStream grow text).1 (h.newStream grow text).2 ∧
    (h.newStream grow text).2.stream (h.newStream grow text).1 = Stream.ofChars text ∧ Kept h.arrays.length h (h.newStream grow text).2 ∧
    (∀ (i : Nat) (o : StreamObj), h.streams[i]? = some o → (h.newStream grow text).2.streams[i]? = some o) ∧
    ∀ i, Reach (h.newStream grow text).2 (h.newStream grow text).1 i → h.streams.length ≤ i := by
  obtain ⟨a, b, c, d⟩ := append_nil_spec (grow := grow) (h := h) text
  have e : (h.newStream grow text).2.streams[(h.newStream grow text).1]? = some (.base (h.append grow {} text).1 0 [-1]) := by
    simp [Heap.newStream]
  have ok : (h.append grow {} text).1.ok (h.newStream grow text).2 := a
  refine ⟨(h.append grow {} text).1, Scene.mk' (.base e) (fun x hx => ?_), ?_, ⟨d.size, d.lens, d.same, d.log⟩, fun i o k => ?_, fun i k => ?_⟩
  · rw [List.mem_singleton.1 hx]; exact ok
  · rw [stream_base e]
    show Stream.base ⟨(h.append grow {} text).2.read _, _, _⟩ = _
    rw [c]
    rfl
  · obtain ⟨hlt, -⟩ := List.getElem?_eq_some_iff.1 k
    simp only [Heap.newStream, List.getElem?_append_left hlt, k]
  · cases k with
    | self => exact Nat.le_refl _
    | under e' _ _ => rw [e] at e'; cases e'

/-- What a call that starts with a text of its own leaves. -/
structure Done (h : Heap) (v : Res) (a : HRes × Heap) : Prop where
  kept : Kept h.arrays.length h a.2
  streams : ∀ (i : Nat) (o : StreamObj), h.streams[i]? = some o → a.2.streams[i]? = some o
  shows : ∃ m T, h.arrays.length ≤ m ∧ Shows m T a.2 a.1 v

theorem undefined_done (h : Heap) (e : Err) : Done h { error := some e } ({ error := some e }, h) :=
  ⟨Kept.refl _ _, fun _ _ e => e, _, {}, Nat.le_refl _, Has.nil, Has.nil, Tree.nil _ _ _, rfl, rfl, rfl⟩

/-- Work on a new stream does not change the streams there were. -/
theorem only_new {h2 : Heap} {i0 : Nat} (sh : ∀ (i : Nat) (o : StreamObj), h.streams[i]? = some o → h1.streams[i]? = some o) (new : ∀ i, Reach h1 i0 i → h.streams.length ≤ i)
    (k : Only i0 h1 h2) : ∀ (i : Nat) (o : StreamObj), h.streams[i]? = some o → h2.streams[i]? = some o := by
  intro i o e
  obtain ⟨hlt, -⟩ := List.getElem?_eq_some_iff.1 e
  obtain ⟨hlt1, -⟩ := List.getElem?_eq_some_iff.1 (sh i o e)
  rw [k.others i hlt1 fun r => by have := new i r; omega]
  exact sh i o e

theorem hEvalRule_rel (g : Grammar) (fuel : Nat) (name : Name) (sample : List Rune) :
    Rel (Done h) (evalRule g fuel name sample) (hEvalRule grow g fuel name sample h) := by
  unfold evalRule hEvalRule
  cases g.getRecord name with
  | none => exact undefined_done h _
  | some r =>
    obtain ⟨T, sc, e, k, sh, new⟩ := newStream_spec grow h sample
    have := hEval_sim grow g.env fuel r.rule SUGGEST_SKIP _ _ _ _ sc
    rw [e] at this
    refine Rel.bind_left this fun v a p => ?_
    exact ⟨k.trans (p.run.kept.mono k.size), only_new sh new p.run.only, _, T, k.size, p.shows⟩

theorem text_tree {x : Slice} {l : List Rune} (k : Has n T h x l) (ho : Own n x) : Tree n T h (hTextNodes x) (textNodes l) ∧
    ∀ y ∈ slicesL (hTextNodes x), y = x ∨ y = {} := by
  unfold hTextNodes textNodes
  rw [k.len]
  by_cases hl : l.length > 0
  · rw [if_pos hl, if_pos hl]
    refine ⟨⟨fun y hy => ?_, ?_, ?_⟩, fun y hy => ?_⟩
    · simp only [slicesL, HNode.slices, List.append_nil, List.mem_singleton] at hy
      rw [hy]; exact ⟨k.ok, ho⟩
    · simp only [viewL, HNode.view, k.read]
    · simp only [slicesL, HNode.slices, List.append_nil]
      exact List.pairwise_cons.2 ⟨fun y hy => absurd hy List.not_mem_nil, List.Pairwise.nil⟩
    · simp only [slicesL, HNode.slices, List.append_nil, List.mem_singleton] at hy
      exact .inl hy
  · rw [if_neg hl, if_neg hl]
    exact ⟨Tree.nil _ _ _, fun y hy => absurd hy List.not_mem_nil⟩

theorem hEmbedLoop_rel {env : Env} {fuel : Nat} {rule : Rule} (k : Nat) :
    ∀ {L : List Slice} {cs : Nat} {h1 : Heap} {s : Stream} {kids : List HNode} {l : List Node} {text : Slice} {t : List Rune},
    Run n T L cs h1 h1 s → Has n T h1 text t → Own n text → (∀ x ∈ L, Apart text x) → Tree n T h1 kids l → (∀ x ∈ slicesL kids, Apart text x) →
    Rel (fun v a => Kept n h1 a.2 ∧ Only cs h1 a.2 ∧ Tree n T a.2 a.1 v) (embedLoop env fuel rule k l t s) (hEmbedLoop grow env fuel rule k kids text cs h1) := by
  induction k with
  | zero => intros; trivial
  | succ k ih =>
    intro L cs h1 s kids l text t r kt ho dL tk dk
    simp only [embedLoop, hEmbedLoop]
    refine ((hEval_sim grow env fuel).call rule NOT_SKIP r).bind fun ⟨res, s'⟩ ⟨hres, h'⟩ post => ?_
    have k1 : Kept h1.arrays.length h1 h' := post.run.kept
    have sh : Shows h1.arrays.length T h' hres res := post.shows
    obtain ⟨_, d2, d3⟩ := sh.apart ho kt.ok r.scene.text
    have r1 : Run n T L cs h1 h' s' := Run.mono r.scene post.run r.scene.size
    obtain ⟨L', p⟩ := r1.push (sh.unused.mono r.scene.size)
    have kt1 : Has n T (h'.newPre cs hres.unused).2 text t := (kt.kept k1).of_arrays p.arrays
    have tk1 : Tree n T (h'.newPre cs hres.unused).2 kids l := (tk.kept k1).kept (Kept.of_arrays p.arrays)
    have dL1 : ∀ x ∈ L', Apart text x := fun x hx => (p.layers x hx).elim (fun e => e ▸ d2) (dL x)
    rcases node_cases sh.node with ⟨e1, e2⟩ | ⟨x, y, e1, e2, tt⟩
    · simp only [e1, e2]
      obtain ⟨n1, n2, n3⟩ := p.run.next
      rw [n1]
      by_cases h0 : (s'.pushBack res.unused).next.1 = EOFChar
      · rw [if_pos h0, if_pos h0]
        have tt := text_tree (kt1.of_arrays n3) ho
        refine ⟨p.old.kept.trans n2.kept, r1.only.pop r1.scene.chain.lt n2.only, (tk1.kept (Kept.of_arrays n3)).append tt.1 fun x hx y hy => ?_⟩
        rcases tt.2 y hy with e | e
        · rw [e]; exact (dk x hx).symm
        · rw [e]; exact Apart.nil_right x
      · rw [if_neg h0, if_neg h0]
        have hap := Mem.appended (grow := grow) (kt1.of_arrays n3).ok ho n2.scene.size [(s'.pushBack res.unused).next.1]
        have g := n2.grown (grow := grow) (kt1.of_arrays n3) ho dL1 [(s'.pushBack res.unused).next.1]
        obtain ⟨t1, t2⟩ := (tk1.kept (Kept.of_arrays n3)).appended hap dk
        refine (ih ⟨g.run.scene, Kept.refl _ _, Only.refl g.run.scene.chain.lt, g.run.stream⟩ g.has g.own g.layers t1 t2).mono fun v a q => ?_
        exact ⟨(p.old.kept.trans g.run.kept).trans q.1, r1.only.pop r1.scene.chain.lt (g.run.only.trans q.2.1), q.2.2⟩
    · simp only [e1, e2]
      have hk2 : Kept h'.arrays.length h' (h'.newPre cs hres.unused).2 := Kept.of_arrays p.arrays
      have tx := text_tree kt1 ho
      have ty : Tree n T (h'.newPre cs hres.unused).2 [x] [y] := (tt.mono r.scene.size).kept hk2
      have d3' : ∀ z ∈ slicesL [x], Apart text z := by
        rw [e1] at d3; exact d3
      have t1 := (tk1.append tx.1 fun a ha b hb => ?_).append ty fun a ha b hb => ?_
      · refine (ih p.run Has.nil (Own.nil n) (fun x _ => Apart.nil_left x) t1 (fun x _ => Apart.nil_left x)).mono fun v a q => ?_
        exact ⟨p.old.kept.trans q.1, r1.only.pop r1.scene.chain.lt q.2.1, q.2.2⟩
      · rcases tx.2 b hb with e | e
        · rw [e]; exact (dk a ha).symm
        · rw [e]; exact Apart.nil_right a
      · rw [slicesL_append] at ha
        rcases List.mem_append.1 ha with ha | ha
        · exact fresh_apart (tk.all a ha).1 (tt.all b hb).2
        · rcases tx.2 a ha with e | e
          · rw [e]; exact d3' b hb
          · rw [e]; exact Apart.nil_left b

theorem hEvalEmbed_rel (g : Grammar) (fuel : Nat) (name : Name) (sample : List Rune) :
    Rel (Done h) (evalEmbed g fuel name sample) (hEvalEmbed grow g fuel name sample h) := by
  unfold evalEmbed hEvalEmbed
  cases g.getRecord name with
  | none => exact undefined_done h _
  | some r =>
    obtain ⟨T, sc, e, k, sh, new⟩ := newStream_spec grow h sample
    have := hEmbedLoop_rel (grow := grow) (env := g.env) (fuel := fuel) (rule := r.rule) fuel ⟨sc, Kept.refl _ _, Only.refl sc.chain.lt, e⟩ Has.nil (Own.nil _)
      (fun x _ => Apart.nil_left x) (Tree.nil _ _ _) (fun x _ => Apart.nil_left x)
    refine this.bind fun v ⟨a, h'⟩ p => ?_
    obtain ⟨p1, p2, p3⟩ := p
    refine ⟨k.trans (p1.mono k.size), only_new sh new p2, _, T, k.size, Has.nil, Has.nil, ⟨fun y hy => ?_, ?_, ?_⟩, rfl, rfl, rfl⟩
    · simp only [Option.toList, slicesL, HNode.slices, List.append_nil, List.mem_cons] at hy
      rcases hy with e | e
      · subst e
        exact ⟨Slice.ok_nil _, Own.nil _⟩
      · exact p3.all y e
    · have := p3.view
      dsimp only at this
      simp only [Option.toList, viewL, HNode.view, this, read_empty]
    · simp only [Option.toList, slicesL, HNode.slices, List.append_nil]
      exact List.pairwise_cons.2 ⟨fun y _ => Apart.nil_left y, p3.apart⟩

/-! ### `EvalRaw` -/

theorem ShowsL.length {rs : List HRes} {vs : List Res} (k : ShowsL n T h rs vs) : rs.length = vs.length := by
  induction k with
  | nil => rfl
  | cons _ _ ih => simp [ih]

theorem ShowsL.get {rs : List HRes} {vs : List Res} (k : ShowsL n T h rs vs) : ∀ i : Nat,
    (rs[i]? = none ∧ vs[i]? = none) ∨ ∃ r v, rs[i]? = some r ∧ vs[i]? = some v ∧ Shows n T h r v := by
  induction k with
  | nil => exact fun i => .inl ⟨rfl, rfl⟩
  | @cons r v rs vs t _ ih =>
    intro i
    cases i with
    | zero => exact .inr ⟨r, v, rfl, rfl, t⟩
    | succ i => exact ih i

theorem ShowsL.select {rs : List HRes} {vs : List Res} (k : ShowsL n T h rs vs) (is : List Nat) : ShowsL n T h (select is rs) (select is vs) := by
  induction is with
  | nil => exact .nil
  | cons i is ih =>
    unfold Mem.select at *
    rcases k.get i with ⟨e1, e2⟩ | ⟨r, v, e1, e2, t⟩
    · rw [List.filterMap_cons_none e1, List.filterMap_cons_none e2]
      exact ih
    · rw [List.filterMap_cons_some e1, List.filterMap_cons_some e2]
      exact .cons t ih

/-- What the loop over the root rules leaves. -/
structure RootsPost (n : Nat) (T : Slice) (L : List Slice) (cs : Nat) (h0 h1 : Heap) (v : List Res × List Rune × Stream) (a : List HRes × Slice × Heap) :
    Prop where
  run : Run n T L cs h0 a.2.2 v.2.2
  shows : ShowsL n T a.2.2 a.1 v.1
  read : Has n T a.2.2 a.2.1 v.2.1
  kept : Kept h1.arrays.length h1 a.2.2

theorem hRootsLoop_rel {env : Env} {fuel : Nat} {flag : Int} (rs : List Record) :
    ∀ {L : List Slice} {cs : Nat} {h0 h1 : Heap} {s : Stream} {x : Slice} {l : List Rune}, Run n T L cs h0 h1 s → Has n T h1 x l →
    Rel (RootsPost n T L cs h0 h1) (rootsLoop env fuel flag rs l s) (hRootsLoop grow env fuel flag rs x cs h1) := by
  induction rs with
  | nil =>
    intro L cs h0 h1 s x l r kx
    exact ⟨r, .nil, kx, Kept.refl _ _⟩
  | cons rule rs ih =>
    intro L cs h0 h1 s x l r kx
    simp only [rootsLoop, hRootsLoop]
    obtain ⟨L', p⟩ := r.push kx
    refine ((hEval_sim grow env fuel).call rule.rule flag p.run).bind fun ⟨res, s'⟩ ⟨hres, h'⟩ post => ?_
    have hk0 : Kept h1.arrays.length h1 (h1.newPre cs x).2 := Kept.of_arrays p.arrays
    have hk1 : Kept (h1.newPre cs x).2.arrays.length (h1.newPre cs x).2 h' := post.run.kept
    have hk : Kept h1.arrays.length h1 h' := hk0.trans (hk1.mono hk0.size)
    have sh : Shows n T h' hres res := post.shows.mono p.run.scene.size
    have r1 : Run n T L' (h1.newPre cs x).1 (h1.newPre cs x).2 h' s' := Run.mono p.run.scene post.run p.run.scene.size
    refine (ih r1 (longer_has (kx.kept hk) sh.read)).bind fun ⟨ms, l2, s2⟩ ⟨hms, x2, h2⟩ q => ?_
    have hkk := hk.trans (q.kept.mono hk.size)
    have rr := p.pop (Nat.le_refl _) q.run
    rcases node_cases sh.node with ⟨e1, e2⟩ | ⟨x, y, e1, e2, tt⟩
    · simp only [e1, e2, Option.isSome_none, Bool.false_eq_true, if_false]
      exact ⟨rr, q.shows, q.read, hkk⟩
    · simp only [e1, e2, Option.isSome_some, if_true]
      exact ⟨rr, .cons (sh.kept q.kept) q.shows, q.read, hkk⟩

/-- The same outcome of `EvalRaw`, with trees or with an error. -/
def RawShows (n : Nat) (T : Slice) (h : Heap) (a : Except RawErr (List HNode)) (v : Except RawErr (List Node)) : Prop :=
  match a, v with
  | .ok ns, .ok l => Tree n T h ns l
  | .error e, .error f => e = f
  | _, _ => False

/-- What `EvalRaw` leaves. -/
structure RawPost (n : Nat) (T : Slice) (L : List Slice) (cs : Nat) (h0 : Heap) (v : Except RawErr (List Node) × Stream)
    (a : Except RawErr (List HNode) × Heap) : Prop where
  run : Run n T L cs h0 a.2 v.2
  shows : RawShows n T a.2 a.1 v.1

theorem hRawLoop_rel {env : Env} {fuel : Nat} {roots : List Record} {o : Order} (k : Nat) :
    ∀ {i : Nat} {h1 : Heap} {s : Stream} {nodes : List HNode} {l : List Node} {flag : Int} {x : Slice} {u : List Rune},
    Run n T L cs h0 h1 s → Tree n T h1 nodes l → Has n T h1 x u →
    Rel (RawPost n T L cs h0) (rawLoop env fuel roots o.sched k i l flag u s) (hRawLoop grow env fuel roots o k i nodes flag x cs h1) := by
  induction k with
  | zero => intros; trivial
  | succ k ih =>
    intro i h1 s nodes l flag x u r tn kx
    obtain ⟨L', p⟩ := r.push kx
    simp only [rawLoop, hRawLoop]
    rw [p.run.peek]
    have hk0 : Kept h1.arrays.length h1 (h1.newPre cs x).2 := Kept.of_arrays p.arrays
    by_cases hp : (s.pushBack u).peek = EOFChar
    · rw [if_pos hp, if_pos hp]
      refine ⟨p.old, ?_⟩
      have hlen : nodes.length = l.length := by rw [← tn.view, viewL_length]
      dsimp only
      rw [hlen]
      split
      · rfl
      · exact tn.kept hk0
    · rw [if_neg hp, if_neg hp]
      have r0 : Run (h1.newPre cs x).2.arrays.length T L' (h1.newPre cs x).1 (h1.newPre cs x).2 (h1.newPre cs x).2 (s.pushBack u) :=
        ⟨p.run.scene.now, Kept.refl _ _, Only.refl p.run.scene.chain.lt, p.run.stream⟩
      refine (hRootsLoop_rel (grow := grow) (env := env) (fuel := fuel) (flag := flag) (o.roots i roots) r0 Has.nil).bind
        fun ⟨ms, mr, s2⟩ ⟨hms, hmr, h2⟩ q => ?_
      have rr : Run n T L cs h0 h2 (s2.popBack u) := p.pop p.run.scene.size q.run
      have qs : ShowsL (h1.newPre cs x).2.arrays.length T h2 hms ms := q.shows
      have qk : Kept (h1.newPre cs x).2.arrays.length (h1.newPre cs x).2 h2 := q.kept
      have qr : Has (h1.newPre cs x).2.arrays.length T h2 hmr mr := q.read
      dsimp only
      have hpk := hPick_rel (qs.select (o.matched i ms.length))
      rw [qs.length]
      show Rel _ (match pick (select (o.matched i ms.length) ms) with | .none => _ | .ambiguous _ _ => _ | .found r => _) _
      generalize pick (select (o.matched i ms.length) ms) = vp at hpk
      generalize hPick (select (o.matched i ms.length) hms) = ap at hpk
      cases hpk with
      | none => exact ⟨rr, rfl⟩
      | ambiguous _ _ => exact ⟨rr, rfl⟩
      | @found hr v t =>
        dsimp only
        rw [t.countUsed]
        refine (fromIdx_rel qr _).bind fun w y ⟨ky, _⟩ => ?_
        rw [t.sticky]
        refine ih rr (((tn.kept hk0).kept qk).append (t.node.mono p.run.scene.size) fun a ha b hb => ?_) (ky.mono p.run.scene.size)
        exact fresh_apart ((tn.kept hk0).all a ha).1 (t.node.all b hb).2

theorem hEvalRaw_rel (g : Grammar) (fuel : Nat) (o : Order) (sc : Scene h.arrays.length T L cs h) :
    Rel (RawPost h.arrays.length T L cs h) (evalRaw g fuel o.sched (h.stream cs)) (hEvalRaw grow g fuel o cs h) := by
  unfold evalRaw hEvalRaw
  have r := Run.refl sc
  rw [r.peek]
  by_cases hp : (h.stream cs).peek = EOFChar
  · rw [if_pos hp, if_pos hp]
    exact ⟨r, rfl⟩
  · rw [if_neg hp, if_neg hp]
    exact hRawLoop_rel fuel r (Tree.nil _ _ _) Has.nil

end

end Xbnf.Mem
