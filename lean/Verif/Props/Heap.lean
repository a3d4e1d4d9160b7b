import Verif.Lemmas.HeapTree
import Verif.Props.Document
/-
C73: slices and streams in memory.  The rest of the model takes `[]rune` for values and threads streams through the
calls.  Here both are what Go has: windows of arrays that others see, and objects that everyone shares.  Nothing
that existed is changed by an evaluation, and it returns what the rest of the model says, however much room
`append` leaves.
-/
namespace Xbnf.Props
open Xbnf.Mem Xbnf.Grammar

/-! ### Auxiliary -/

theorem stands_scene {h : Heap} {cs : Nat} (st : Stands h cs) : ∃ L T, Scene h.arrays.length T L cs h := by
  suffices ∃ L T, Chain h cs L T ∧ ∀ x ∈ L, x.ok h by
    obtain ⟨L, T, a, b⟩ := this
    exact ⟨L, T, Scene.mk' a b⟩
  induction st with
  | base e k => exact ⟨_, _, .base e, fun x hx => by rw [List.mem_singleton.1 hx]; exact k⟩
  | pre e k hu _ ih =>
    obtain ⟨L, T, a, b⟩ := ih
    refine ⟨_, T, .pre e hu a, fun x hx => ?_⟩
    rcases List.mem_cons.1 hx with hx | hx
    · rw [hx]; exact k
    · exact b x hx

theorem scene_stands {n : Nat} {T : Slice} {L : List Slice} {h : Heap} {cs : Nat} (sc : Scene n T L cs h) : Stands h cs := by
  have hc := sc.chain
  have ho := sc.ok
  clear sc
  induction hc with
  | base e => exact .base e (ho _ List.mem_cons_self)
  | pre e hu _ ih => exact .pre e (ho _ List.mem_cons_self) hu (ih fun x hx => ho x (List.mem_cons_of_mem _ hx))

theorem rel_map {α β : Type} {R : α → β → Prop} {f : β → α} {x : Exec α} {y : Exec β} (r : Rel R x y) (k : ∀ a b, R a b → f b = a) : x = y.map' f := by
  cases x <;> cases y <;> first | exact congrArg Exec.ok (k _ _ r).symm | rfl | exact False.elim r

theorem rel_ok {α β : Type} {R : α → β → Prop} {x : Exec α} {y : Exec β} {b : β} (r : Rel R x y) (e : y = .ok b) : ∃ a, x = .ok a ∧ R a b := by
  subst e
  cases x with
  | ok a => exact ⟨a, rfl, r⟩
  | panic => exact False.elim r
  | oof => exact False.elim r

theorem rawShows_map {n : Nat} {T : Slice} {h : Heap} {a : Except RawErr (List HNode)} {v : Except RawErr (List Node)} (r : RawShows n T h a v) :
    a.map (viewL h) = v := by
  cases a with
  | error e =>
    cases v with
    | error f => exact congrArg Except.error r
    | ok l => exact False.elim r
  | ok ns =>
    cases v with
    | error f => exact False.elim r
    | ok l => exact congrArg Except.ok (Tree.view r)

theorem stands_kept {n : Nat} {h h' : Heap} {cs : Nat} (k : Mem.Kept n h h') (s : Shape h h') (st : Stands h cs) : Stands h' cs := by
  obtain ⟨L, T, sc⟩ := stands_scene st
  exact scene_stands (sc.step k s)

/-- A stream shows the same if its objects and its slices do. -/
theorem stream_same {h h' : Heap} {cs : Nat} (st : Stands h cs) (k : Mem.Kept h.arrays.length h h')
    (e : ∀ i : Nat, Reach h cs i → h'.streams[i]? = h.streams[i]?) : h'.stream cs = h.stream cs := by
  induction st with
  | base ho ok => rw [stream_base ho, stream_base ((e _ (.self _)).trans ho), k.read_all ok]
  | pre ho ok hu _ ih =>
    rw [stream_pre ho hu, stream_pre ((e _ (.self _)).trans ho) hu, k.read_all ok, ih fun i hi => e i (.under ho hu hi)]

theorem shape_of_same {h h' : Heap} (e : ∀ (i : Nat) (o : StreamObj), h.streams[i]? = some o → h'.streams[i]? = some o) : Shape h h' := by
  refine ⟨Nat.not_lt.1 fun hlt => ?_, fun i o k => ⟨o, e i o k, rfl⟩⟩
  have := e h'.streams.length _ (List.getElem?_eq_getElem hlt)
  simp at this

theorem reach_lt {h : Heap} {cs i : Nat} (st : Stands h cs) (r : Reach h cs i) : i < h.streams.length := by
  induction r with
  | self =>
    obtain ⟨L, T, sc⟩ := stands_scene st
    exact sc.chain.lt
  | under e _ _ ih =>
    cases st with
    | base e' _ => rw [e] at e'; cases e'
    | pre e' _ _ st' => rw [e] at e'; cases e'; exact ih st'

/-- Everything there was is as it was, all the time. -/
def Untouched (h h' : Heap) : Prop :=
  NoWrite h h' ∧ (∀ x : Slice, x.ok h → x.ok h' ∧ h'.read x = h.read x) ∧ ∀ cs, Stands h cs → Stands h' cs ∧ h'.stream cs = h.stream cs

theorem done_untouched {h : Heap} {v : Res} {a : HRes × Heap} (d : Done h v a) : Untouched h a.2 := by
  refine ⟨d.kept.log, fun x hx => ⟨d.kept.ok hx, d.kept.read_all hx⟩, fun cs st => ⟨stands_kept d.kept (shape_of_same d.streams) st, ?_⟩⟩
  refine stream_same st d.kept fun i hi => ?_
  have hlt := reach_lt st hi
  rw [d.streams i _ (List.getElem?_eq_getElem hlt), List.getElem?_eq_getElem hlt]

/-! ### New streams -/

/-- A stream made from a text shows the text from its beginning; nothing else changes. -/
theorem C73_stream (grow : Growth) (h : Heap) (text : List Rune) :
    Stands (h.newStream grow text).2 (h.newStream grow text).1 ∧
    (h.newStream grow text).2.stream (h.newStream grow text).1 = Stream.ofChars text ∧ Untouched h (h.newStream grow text).2 := by
  obtain ⟨T, sc, e, k, sh, _⟩ := newStream_spec grow h text
  refine ⟨scene_stands sc, e, k.log, fun x hx => ⟨k.ok hx, k.read_all hx⟩, fun cs st => ⟨stands_kept k (shape_of_same sh) st, ?_⟩⟩
  refine stream_same st k fun i hi => ?_
  have hlt := reach_lt st hi
  rw [sh i _ (List.getElem?_eq_getElem hlt), List.getElem?_eq_getElem hlt]

/-! ### Evaluation -/

/-- `EvalRule` in memory returns what it returns for values. -/
theorem C73_rule (grow : Growth) (g : Grammar) (fuel : Nat) (name : Name) (sample : List Rune) (h : Heap) :
    evalRule g fuel name sample = (hEvalRule grow g fuel name sample h).map' (fun a => a.1.view a.2) := by
  refine rel_map (hEvalRule_rel (grow := grow) (h := h) g fuel name sample) fun v a d => ?_
  obtain ⟨_, _, _, s⟩ := d.shows
  exact s.view

/-- `EvalEmbed` in memory returns what it returns for values. -/
theorem C73_embed (grow : Growth) (g : Grammar) (fuel : Nat) (name : Name) (sample : List Rune) (h : Heap) :
    evalEmbed g fuel name sample = (hEvalEmbed grow g fuel name sample h).map' (fun a => a.1.view a.2) := by
  refine rel_map (hEvalEmbed_rel (grow := grow) (h := h) g fuel name sample) fun v a d => ?_
  obtain ⟨_, _, _, s⟩ := d.shows
  exact s.view

/-- `EvalRaw` in memory returns what it returns for values, and leaves the stream as it does for values. -/
theorem C73_raw (grow : Growth) (g : Grammar) (fuel : Nat) (o : Order) {h : Heap} {cs : Nat} (st : Stands h cs) :
    evalRaw g fuel o.sched (h.stream cs) = (hEvalRaw grow g fuel o cs h).map' (fun a => (a.1.map (viewL a.2), a.2.stream cs)) := by
  obtain ⟨L, T, sc⟩ := stands_scene st
  exact rel_map (hEvalRaw_rel (grow := grow) g fuel o sc) fun v a p => by rw [rawShows_map p.shows, p.run.stream]

/-- `Eval` in memory, which merges nodes in place, returns what it returns for values. -/
theorem C73_eval (grow : Growth) (g : Grammar) (fuel : Nat) (o : Order) (level : Int) {h : Heap} {cs : Nat} (st : Stands h cs) :
    evalAST g fuel o.sched (h.stream cs) level = (hEvalAST grow g fuel o cs level h).map' (fun a => (a.1.map (viewL a.2), a.2.stream cs)) := by
  obtain ⟨L, T, sc⟩ := stands_scene st
  exact rel_map (hEvalAST_rel (grow := grow) g fuel o level sc) fun v a p => by rw [rawShows_map p.shows, p.run.stream]

/-! ### What there was before -/

/-- `EvalRule` changes nothing that was there. -/
theorem C73_rule_untouched {grow : Growth} {g : Grammar} {fuel : Nat} {name : Name} {sample : List Rune} {h : Heap} {r : HRes} {h' : Heap}
    (e : hEvalRule grow g fuel name sample h = .ok (r, h')) : Untouched h h' := by
  obtain ⟨v, _, d⟩ := rel_ok (hEvalRule_rel (grow := grow) (h := h) g fuel name sample) e
  exact done_untouched d

/-- `EvalEmbed` changes nothing that was there. -/
theorem C73_embed_untouched {grow : Growth} {g : Grammar} {fuel : Nat} {name : Name} {sample : List Rune} {h : Heap} {r : HRes} {h' : Heap}
    (e : hEvalEmbed grow g fuel name sample h = .ok (r, h')) : Untouched h h' := by
  obtain ⟨v, _, d⟩ := rel_ok (hEvalEmbed_rel (grow := grow) (h := h) g fuel name sample) e
  exact done_untouched d

/-- No array there was is written into, all slices there were show what they showed; streams with no object in common with `cs` too. -/
def UntouchedBut (cs : Nat) (h h' : Heap) : Prop :=
  NoWrite h h' ∧ (∀ x : Slice, x.ok h → x.ok h' ∧ h'.read x = h.read x) ∧
  (∀ c, Stands h c → Stands h' c) ∧ ∀ c, Stands h c → (∀ i, Reach h c i → ¬ Reach h cs i) → h'.stream c = h.stream c

theorem raw_untouched {T : Slice} {L : List Slice} {cs : Nat} {h : Heap} {v : Except RawErr (List Node) × Stream} {a : Except RawErr (List HNode) × Heap}
    (p : RawPost h.arrays.length T L cs h v a) : UntouchedBut cs h a.2 := by
  refine ⟨p.run.kept.log, fun x hx => ⟨p.run.kept.ok hx, p.run.kept.read_all hx⟩, fun c st => stands_kept p.run.kept p.run.shape st, fun c st d => ?_⟩
  exact stream_same st p.run.kept fun i hi => p.run.only.others i (reach_lt st hi) (d i hi)

/-- `EvalRaw` changes nothing that was there but the position of its stream. -/
theorem C73_raw_untouched {grow : Growth} {g : Grammar} {fuel : Nat} {o : Order} {h : Heap} {cs : Nat} (st : Stands h cs)
    {r : Except RawErr (List HNode)} {h' : Heap} (e : hEvalRaw grow g fuel o cs h = .ok (r, h')) : UntouchedBut cs h h' := by
  obtain ⟨L, T, sc⟩ := stands_scene st
  obtain ⟨v, _, p⟩ := rel_ok (hEvalRaw_rel (grow := grow) g fuel o sc) e
  exact raw_untouched p

/-- `Eval` changes nothing that was there but the position of its stream. -/
theorem C73_eval_untouched {grow : Growth} {g : Grammar} {fuel : Nat} {o : Order} {level : Int} {h : Heap} {cs : Nat} (st : Stands h cs)
    {r : Except RawErr (List HNode)} {h' : Heap} (e : hEvalAST grow g fuel o cs level h = .ok (r, h')) : UntouchedBut cs h h' := by
  obtain ⟨L, T, sc⟩ := stands_scene st
  obtain ⟨v, _, p⟩ := rel_ok (hEvalAST_rel (grow := grow) g fuel o level sc) e
  exact raw_untouched p

/-! ### Trees -/

/-- Trees whose texts lie in arrays of their own: none is shared with another node, or with a slice there was in `h`. -/
def OwnTrees (h h' : Heap) (ns : List HNode) : Prop :=
  (∀ x ∈ slicesL ns, x.ok h') ∧ (slicesL ns).Pairwise Apart ∧ ∀ x ∈ slicesL ns, ∀ y : Slice, y.ok h → Apart y x

theorem tree_own {n : Nat} {T : Slice} {h h' : Heap} {ns : List HNode} {l : List Node} (t : Tree n T h' ns l) (hn : h.arrays.length ≤ n) : OwnTrees h h' ns :=
  ⟨fun x hx => (t.all x hx).1, t.apart, fun x hx _ hy => fresh_apart hy ((t.all x hx).2.mono hn)⟩

/-- The tree of `EvalRule` shares no array. -/
theorem C73_rule_own {grow : Growth} {g : Grammar} {fuel : Nat} {name : Name} {sample : List Rune} {h : Heap} {r : HRes} {h' : Heap}
    (e : hEvalRule grow g fuel name sample h = .ok (r, h')) : OwnTrees h h' r.node.toList := by
  obtain ⟨v, _, d⟩ := rel_ok (hEvalRule_rel (grow := grow) (h := h) g fuel name sample) e
  obtain ⟨m, T, hm, s⟩ := d.shows
  exact tree_own s.node hm

/-- The tree of `EvalEmbed` shares no array. -/
theorem C73_embed_own {grow : Growth} {g : Grammar} {fuel : Nat} {name : Name} {sample : List Rune} {h : Heap} {r : HRes} {h' : Heap}
    (e : hEvalEmbed grow g fuel name sample h = .ok (r, h')) : OwnTrees h h' r.node.toList := by
  obtain ⟨v, _, d⟩ := rel_ok (hEvalEmbed_rel (grow := grow) (h := h) g fuel name sample) e
  obtain ⟨m, T, hm, s⟩ := d.shows
  exact tree_own s.node hm

/-- The trees of `Eval` share no array (`EvalRaw` is the raw level). -/
theorem C73_eval_own {grow : Growth} {g : Grammar} {fuel : Nat} {o : Order} {level : Int} {h : Heap} {cs : Nat} (st : Stands h cs)
    {ns : List HNode} {h' : Heap} (e : hEvalAST grow g fuel o cs level h = .ok (.ok ns, h')) : OwnTrees h h' ns := by
  obtain ⟨L, T, sc⟩ := stands_scene st
  obtain ⟨⟨v, s⟩, _, p⟩ := rel_ok (hEvalAST_rel (grow := grow) g fuel o level sc) e
  have := p.shows
  cases v with
  | error f => exact False.elim this
  | ok l => exact tree_own (n := h.arrays.length) (T := T) this (Nat.le_refl _)

/-- A change of trees later on: it shows what it shows for values, the trees share no array afterwards, what shares none
with the trees is as it was, and so are the texts the nodes had. -/
def LaterChange (h : Heap) (ns : List HNode) (l : List Node) (a : List HNode × Heap) : Prop :=
  viewL a.2 a.1 = l ∧ ((∀ x ∈ slicesL a.1, x.ok a.2) ∧ (slicesL a.1).Pairwise Apart) ∧
  (∀ x : Slice, x.ok h → (∀ y ∈ slicesL ns, Apart y x) → a.2.read x = h.read x ∧ ∀ y ∈ slicesL a.1, Apart y x) ∧
  ∀ x ∈ slicesL ns, a.2.read x = h.read x

theorem turned_change {h : Heap} {ns : List HNode} {l : List Node} {a : List HNode × Heap} (ok : ∀ x ∈ slicesL ns, x.ok h)
    (ap : (slicesL ns).Pairwise Apart) (t : Turned 0 h (slicesL ns) a l) : LaterChange h ns l a := by
  refine ⟨t.2, ⟨fun x hx => (t.1.good.all x hx).1, t.1.good.apart⟩, t.1.frame, fun x hx => (t.1.safe x (ok x hx) fun y hy => ?_).1⟩
  by_cases exy : y = x
  · rw [exy]; exact .inr (Nat.le_refl _)
  · refine .inl ?_
    obtain ⟨i, hi, rfl⟩ := List.getElem_of_mem hx
    obtain ⟨j, hj, rfl⟩ := List.getElem_of_mem hy
    rcases Nat.lt_trichotomy i j with hij | hij | hij
    · exact (List.pairwise_iff_getElem.1 ap i j hi hj hij).symm
    · subst hij; exact absurd rfl exy
    · exact List.pairwise_iff_getElem.1 ap j i hj hi hij

/-- Merging trees in place is merging them as values. -/
theorem C73_merge (grow : Growth) {h : Heap} {ns : List HNode} (ok : ∀ x ∈ slicesL ns, x.ok h) (ap : (slicesL ns).Pairwise Apart) :
    LaterChange h ns (mergeStickyNodes (viewL h ns)) (hMergeStickyNodes grow ns h) :=
  turned_change ok ap (hMergeStickyNodes_step ns (Nat.zero_le _) ⟨fun x hx => ⟨ok x hx, .inr (Nat.zero_le _)⟩, ap⟩)

/-- Simplifying trees in place is simplifying them as values. -/
theorem C73_simplify (grow : Growth) (level : Int) {h : Heap} {ns : List HNode} (ok : ∀ x ∈ slicesL ns, x.ok h) (ap : (slicesL ns).Pairwise Apart) :
    LaterChange h ns (simplify level (viewL h ns)) (hSimplify grow level ns h) :=
  turned_change ok ap (hSimplify_step level ns (Nat.zero_le _) ⟨fun x hx => ⟨ok x hx, .inr (Nat.zero_le _)⟩, ap⟩)

/-- Two documents: simplifying the trees of the first later on does not change the trees of the second. -/
theorem C73_two {grow : Growth} {g1 g2 : Grammar} {fuel : Nat} {o1 o2 : Order} {l1 l2 : Int} {h : Heap} {c1 c2 : Nat} (s1 : Stands h c1) (s2 : Stands h c2)
    {ns1 ns2 : List HNode} {h1 h2 : Heap} (e1 : hEvalAST grow g1 fuel o1 c1 l1 h = .ok (.ok ns1, h1))
    (e2 : hEvalAST grow g2 fuel o2 c2 l2 h1 = .ok (.ok ns2, h2)) (level : Int) :
    viewL (hSimplify grow level ns1 h2).2 (hSimplify grow level ns1 h2).1 = simplify level (viewL h1 ns1) ∧
    viewL (hSimplify grow level ns1 h2).2 ns2 = viewL h2 ns2 := by
  obtain ⟨ok1, ap1, -⟩ := C73_eval_own s1 e1
  obtain ⟨-, kept, st, _⟩ := C73_eval_untouched s1 e1
  obtain ⟨ok2, _, new2⟩ := C73_eval_own (st _ s2) e2
  obtain ⟨-, kept2, _, _⟩ := C73_eval_untouched (st _ s2) e2
  obtain ⟨v, _, fr, _⟩ := C73_simplify grow level (fun x hx => (kept2 x (ok1 x hx)).1) ap1
  refine ⟨?_, viewL_congr _ fun x hx => (fr x (ok2 x hx) fun y hy => new2 x hx y (ok1 y hy)).1⟩
  rw [v, viewL_congr ns1 fun x hx => (kept2 x (ok1 x hx)).2]

/-- `Node.Text` shows the text of the node as a value and changes nothing; so does `AST.Text`. -/
theorem C73_text (grow : Growth) {h : Heap} {ns : List HNode} (ok : ∀ x ∈ slicesL ns, x.ok h) :
    ((hAstText grow {} ns h).2.read (hAstText grow {} ns h).1 = astText (viewL h ns) ∧
      ∀ x : Slice, x.ok h → (hAstText grow {} ns h).2.read x = h.read x) ∧
    ∀ nd ∈ ns, (nd.text grow h).2.read (nd.text grow h).1 = (nd.view h).text ∧ ∀ x : Slice, x.ok h → (nd.text grow h).2.read x = h.read x := by
  refine ⟨?_, fun nd hnd => ?_⟩
  · have := hAstText_spec (grow := grow) (m := h.arrays.length) ns (acc := {}) (Slice.ok_nil h) (Mem.Own.nil _) (Nat.le_refl _)
      fun x hx => ⟨ok x hx, (ok x hx).below⟩
    rw [read_empty] at this
    exact ⟨this.read, fun x hx => this.kept.read_all hx⟩
  · have sub : ∀ x ∈ nd.slices, x ∈ slicesL ns := by
      clear ok
      induction ns with
      | nil => cases hnd
      | cons a ns ih =>
        intro x hx
        rcases List.mem_cons.1 hnd with e | e
        · subst e; simp [slicesL, hx]
        · simp [slicesL, ih e x hx]
    have t := text_spec grow nd (h := h) fun x hx => ok x (sub x hx)
    exact ⟨t.read, fun x hx => t.kept.read_all hx⟩

/-! ### Concrete cases -/

/-- `append` that doubles the room. -/
def twice : Growth := fun _ n => n

/-- Roots and matches in the order of their indices. -/
def byIndex : Order := ⟨fun _ l => l, fun _ n => List.range n⟩

/-- `num: {'0'-'9'}`, `stop: "stop"`. -/
def numbersAndStops : Grammar :=
  rootGrammar [("num", .rep {} (.range {} 48 false 57 false) 1 0), ("stop", .str {} (runes "stop"))]

/-- A heap with a text, and a stream for it. -/
def textHeap (t : String) : Heap := (Heap.newStream twice {} (runes t)).2

/-- A heap with two streams. -/
def twoDocs (t u : String) : Heap := (Heap.newStream twice (textHeap t) (runes u)).2

theorem textHeap_stands (t : String) : Stands (textHeap t) 0 := (C73_stream twice {} (runes t)).1
theorem twoDocs_stands (t u : String) : Stands (twoDocs t u) 0 ∧ Stands (twoDocs t u) 1 :=
  ⟨((C73_stream twice (textHeap t) (runes u)).2.2.2.2 0 (textHeap_stands t)).1, (C73_stream twice (textHeap t) (runes u)).1⟩

/-- The trees and the heap after `EvalRaw`. -/
def rawOf (x : Exec (Except RawErr (List HNode) × Heap)) : List HNode × Heap :=
  match x with
  | .ok (.ok ns, h) => (ns, h)
  | _ => ([], {})

theorem rawOf_eq {x : Exec (Except RawErr (List HNode) × Heap)} (e : (rawOf x).1.length ≠ 0) : x = .ok (.ok (rawOf x).1, (rawOf x).2) := by
  unfold rawOf at e ⊢
  split
  · rfl
  · rename_i k
    split at e
    · rename_i ns h
      exact absurd rfl (k ns h)
    · exact absurd rfl e

/-- The memory is a real one: to append to a part of a text overwrites the text. -/
example : (Heap.append twice { arrays := ⟨[[97, 98, 99]], []⟩ } { arr := 0, off := 0, len := 1, cap := 3 } [120]).2.read { arr := 0, off := 0, len := 3, cap := 3 } =
    [97, 120, 99] := by decide +kernel

/-- Merging trees that share arrays overwrites what others see: `C73_merge` needs its hypotheses. -/
example : let a : HNode := { ruleType := .char, chars := { arr := 0, off := 0, len := 1, cap := 3 }, sticky := true }
    let b : HNode := { ruleType := .char, chars := { arr := 1, off := 0, len := 1, cap := 1 }, sticky := true }
    let c : HNode := { ruleType := .chars, chars := { arr := 0, off := 0, len := 3, cap := 3 } }
    let h : Heap := { arrays := ⟨[[97, 98, 99], [120]], []⟩ }
    let r := hMergeStickyNodes twice [a, b, c] h
    (viewL r.2 r.1).map Node.text = [[97, 120], [97, 120, 99]] ∧
    (mergeStickyNodes (viewL h [a, b, c])).map Node.text = [[97, 120], [97, 98, 99]] := by decide +kernel

/-- `Eval` of a document with numbers, which are merged. -/
example : Stands (textHeap "123stop4") 0 ∧
    (hEvalAST twice numbersAndStops 20 byIndex 0 2 (textHeap "123stop4")).map' (fun a => (a.1.map fun ns => (viewL a.2 ns).map Node.text).toOption) =
      .ok (some [runes "123", runes "stop", runes "4"]) := ⟨textHeap_stands _, by decide +kernel⟩

/-- `EvalRule` and `EvalEmbed` in memory. -/
example : (hEvalRule twice numbersAndStops 20 (runes "num") (runes "12x") {}).map' (fun a => (a.1.view a.2).node.map Node.text) = .ok (some (runes "12")) ∧
    (hEvalEmbed twice numbersAndStops 20 (runes "stop") (runes "ab stop") {}).map' (fun a => (a.1.view a.2).node.map Node.text) = .ok (some (runes "ab stop")) := by
  decide +kernel

/-- The parts of the raw trees of `123stop4`. -/
def rawParts : List HNode × Heap :=
  let r := rawOf (hEvalRaw twice numbersAndStops 20 byIndex 0 (textHeap "123stop4"))
  (r.1.flatMap HNode.children, r.2)

instance (h : Heap) (s : Slice) : Decidable (s.ok h) := by unfold Slice.ok; infer_instance
instance (x y : Slice) : Decidable (Apart x y) := by unfold Apart; infer_instance

/-- Merging writes into the array of the first digit, where there is room; what its node showed is not changed. -/
example : let d : Slice := { arr := 2, off := 0, len := 1, cap := 2 }
    let m := hMergeStickyNodes twice rawParts.1 rawParts.2
    (∀ x ∈ slicesL rawParts.1, x.ok rawParts.2) ∧ (slicesL rawParts.1).Pairwise Apart ∧ d ∈ slicesL rawParts.1 ∧
    rawParts.2.arrays.data[2]? = some [49, 0] ∧ m.2.arrays.data[2]? = some [49, 50] ∧ m.2.read d = rawParts.2.read d ∧
    (viewL rawParts.2 rawParts.1).map Node.text = [runes "1", runes "2", runes "3", runes "4"] ∧ (viewL m.2 m.1).map Node.text = [runes "1234"] := by
  decide +kernel

/-- `AST.Text` of these parts. -/
example : (∀ x ∈ slicesL rawParts.1, x.ok rawParts.2) ∧ astText (viewL rawParts.2 rawParts.1) = runes "1234" := by decide +kernel

/-- Two documents, one after the other, the first simplified at the end. -/
example : let h := twoDocs "123stop4" "stop56"
    let r1 := rawOf (hEvalAST twice numbersAndStops 20 byIndex 0 0 h)
    let r2 := rawOf (hEvalAST twice numbersAndStops 20 byIndex 1 0 r1.2)
    (viewL (hSimplify twice 2 r1.1 r2.2).2 (hSimplify twice 2 r1.1 r2.2).1 = simplify 2 (viewL r1.2 r1.1) ∧
    viewL (hSimplify twice 2 r1.1 r2.2).2 r2.1 = viewL r2.2 r2.1) ∧
    (simplify 2 (viewL r1.2 r1.1)).map Node.text = [runes "123", runes "stop", runes "4"] ∧
    (viewL r2.2 r2.1).map Node.text = [runes "stop", runes "56"] := by
  refine ⟨C73_two (twoDocs_stands _ _).1 (twoDocs_stands _ _).2 (rawOf_eq ?_) (rawOf_eq ?_) 2, ?_, ?_⟩ <;> decide +kernel

end Xbnf.Props
