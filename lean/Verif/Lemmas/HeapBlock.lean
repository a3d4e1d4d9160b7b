import Verif.Lemmas.HeapChoice
/-
Memory: blocks, and all rules.
-/
namespace Xbnf.Mem

section
variable {n : Nat} {T : Slice} {L : List Slice} {cs : Nat} {h h0 h1 h2 : Heap} {s : Stream} {grow : Growth}

/-- The two slices a block appends to, and what they show. -/
structure Owns (n : Nat) (T : Slice) (L : List Slice) (h : Heap) (x y : Slice) (l m : List Rune) : Prop where
  used : Has n T h x l
  ownUsed : Own n x
  layersUsed : ∀ z ∈ L, Apart x z
  content : Has n T h y m
  ownContent : Own n y
  layersContent : ∀ z ∈ L, Apart y z
  apart : Apart x y

/-- A slice that is neither of the two. -/
structure Off (n : Nat) (T : Slice) (h : Heap) (x y z : Slice) (l : List Rune) : Prop where
  has : Has n T h z l
  fromUsed : Apart x z
  fromContent : Apart y z

theorem Owns.kept {x y : Slice} {l m : List Rune} (o : Owns n T L h x y l m) (k : Kept h.arrays.length h h1) : Owns n T L h1 x y l m :=
  { o with used := o.used.kept k, content := o.content.kept k }

theorem Owns.layers {L' : List Slice} {x y : Slice} {l m : List Rune} (o : Owns n T L h x y l m) (d : ∀ z ∈ L', z ∈ L) : Owns n T L' h x y l m :=
  { o with layersUsed := fun z hz => o.layersUsed z (d z hz), layersContent := fun z hz => o.layersContent z (d z hz) }

theorem Owns.push {L' : List Slice} {x y z : Slice} {l m u : List Rune} {c : Nat × Heap} (o : Owns n T L h1 x y l m) (k : Off n T h1 x y z u)
    (p : Pushed n T L L' cs h0 h1 s z u c) : Owns n T L' c.2 x y l m :=
  { o.kept (Kept.of_arrays p.arrays) with
    layersUsed := fun w hw => (p.layers w hw).elim (fun e => e ▸ k.fromUsed) (o.layersUsed w)
    layersContent := fun w hw => (p.layers w hw).elim (fun e => e ▸ k.fromContent) (o.layersContent w) }

theorem Off.kept {x y z : Slice} {l : List Rune} (o : Off n T h x y z l) (k : Kept h.arrays.length h h1) : Off n T h1 x y z l :=
  { o with has := o.has.kept k }

theorem Off.nil {x y : Slice} : Off n T h x y {} [] := ⟨Has.nil, Apart.nil_right _, Apart.nil_right _⟩

/-- What a call returned is neither of the two. -/
theorem Shows.off {r : HRes} {v : Res} {x y : Slice} {l m : List Rune} (t : Shows h.arrays.length T h1 r v) (o : Owns n T L h x y l m)
    (hT : 0 < T.cap → T.arr < n) (hn : n ≤ h.arrays.length) : Off n T h1 x y r.read v.read ∧ Off n T h1 x y r.unused v.unused := by
  obtain ⟨a1, a2, _⟩ := t.apart o.ownUsed o.used.ok hT
  obtain ⟨b1, b2, _⟩ := t.apart o.ownContent o.content.ok hT
  exact ⟨⟨t.read.mono hn, a1, b1⟩, ⟨t.unused.mono hn, a2, b2⟩⟩

theorem charsUsed_off {r : HRes} {v : Res} {x y : Slice} (t : Shows n T h r v) (o : Off n T h x y r.read v.read) :
    Rel (fun m z => Off n T h x y z m) v.charsUsed r.charsUsed :=
  (charsUsed_rel t).mono fun _ _ ⟨k, d⟩ => ⟨k, d x o.fromUsed, d y o.fromContent⟩

/-- More used characters. -/
structure MoreUsed (n : Nat) (T : Slice) (L : List Slice) (cs : Nat) (h0 h1 : Heap) (s : Stream) (x y : Slice) (l m : List Rune) (a : Slice × Heap) :
    Prop where
  run : Run n T L cs h0 a.2 s
  owns : Owns n T L a.2 a.1 y l m
  frame : Frame n T h1 a.2 x a.1

theorem Owns.moreUsed (r : Run n T L cs h0 h1 s) {x y : Slice} {l m : List Rune} (o : Owns n T L h1 x y l m) (xs : List Rune) :
    MoreUsed n T L cs h0 h1 s x y (l ++ xs) m (h1.append grow x xs) := by
  have g := r.grown (grow := grow) o.used o.ownUsed o.layersUsed xs
  have c := g.other _ _ o.content o.apart
  exact ⟨g.run, ⟨g.has, g.own, g.layers, c.1, o.ownContent, o.layersContent, c.2⟩, g.other⟩

/-- More content. -/
structure MoreContent (n : Nat) (T : Slice) (L : List Slice) (cs : Nat) (h0 h1 : Heap) (s : Stream) (x y : Slice) (l m : List Rune) (a : Slice × Heap) :
    Prop where
  run : Run n T L cs h0 a.2 s
  owns : Owns n T L a.2 x a.1 l m
  frame : Frame n T h1 a.2 y a.1

theorem Owns.moreContent (r : Run n T L cs h0 h1 s) {x y : Slice} {l m : List Rune} (o : Owns n T L h1 x y l m) (xs : List Rune) :
    MoreContent n T L cs h0 h1 s x y l (m ++ xs) (h1.append grow y xs) := by
  have g := r.grown (grow := grow) o.content o.ownContent o.layersContent xs
  have c := g.other _ _ o.used o.apart.symm
  exact ⟨g.run, ⟨c.1, o.ownUsed, o.layersUsed, g.has, g.own, g.layers, c.2.symm⟩, g.other⟩

theorem Off.moreUsed {x y z x' : Slice} {l : List Rune} (k : Off n T h x y z l) (f : Frame n T h h1 x x') : Off n T h1 x' y z l :=
  ⟨(f _ _ k.has k.fromUsed).1, (f _ _ k.has k.fromUsed).2, k.fromContent⟩

theorem Off.moreContent {x y z y' : Slice} {l : List Rune} (k : Off n T h x y z l) (f : Frame n T h h1 y y') : Off n T h1 x y' z l :=
  ⟨(f _ _ k.has k.fromContent).1, k.fromUsed, (f _ _ k.has k.fromContent).2⟩

/-! ### The parts of the loop -/

/-- After the escape. -/
structure EscapePost (n : Nat) (T : Slice) (L : List Slice) (cs : Nat) (h0 h1 : Heap) (x y : Slice) (m : List Rune)
    (v : Bool × List Rune × List Rune × List Rune × Stream) (a : Bool × Slice × Slice × Slice × Heap) : Prop where
  run : Run n T L cs h0 a.2.2.2.2 v.2.2.2.2
  escaped : a.1 = v.1
  owns : Owns n T L a.2.2.2.2 a.2.2.1 y v.2.2.1 m
  chars : Off n T a.2.2.2.2 a.2.2.1 y a.2.1 v.2.1
  unused : Off n T a.2.2.2.2 a.2.2.1 y a.2.2.2.1 v.2.2.2.1
  other : ∀ z l, Off n T h1 x y z l → Off n T a.2.2.2.2 a.2.2.1 y z l

theorem hEscape_rel {ev : Evaluator} {hev : HEvaluator} (sim : Sim ev hev) (escape : Option Rule) {st : BlockState} {hst : HBlock}
    (r : Run n T L cs h0 h1 s) (o : Owns n T L h1 hst.used hst.content st.used st.content) (ku : Off n T h1 hst.used hst.content hst.unused st.unused) :
    Rel (EscapePost n T L cs h0 h1 hst.used hst.content st.content)
      (match escape with
        | none => .ok (false, [], st.used, st.unused, s)
        | some e => do
          let (res, s) ← ev e NOT_SKIP s
          if res.node.isSome then do
            let c ← res.charsUsed
            .ok (true, c, st.used ++ c, res.unused, s)
          else .ok (false, [], st.used, res.read, s) : Exec (Bool × List Rune × List Rune × List Rune × Stream))
      (hEscape grow hev escape hst cs h1) := by
  cases escape with
  | none => exact ⟨r, rfl, o, Off.nil, ku, fun _ _ k => k⟩
  | some e =>
    simp only [hEscape]
    refine (sim.call e NOT_SKIP r).bind fun ⟨res, s'⟩ ⟨hres, h'⟩ post => ?_
    have rr : Run n T L cs h1 h' s' := Run.mono r.scene post.run r.scene.size
    have r' : Run n T L cs h0 h' s' := ⟨rr.scene, r.kept.trans rr.kept, r.only.trans rr.only, rr.stream⟩
    have sh : Shows h1.arrays.length T h' hres res := post.shows
    have k : Kept h1.arrays.length h1 h' := post.run.kept
    obtain ⟨f1, f2⟩ := sh.off o r.scene.text r.scene.size
    rcases node_cases sh.node with ⟨e1, e2⟩ | ⟨x, y, e1, e2, tt⟩
    · simp only [e1, e2, Option.isSome_none, Bool.false_eq_true, if_false]
      exact ⟨r', rfl, o.kept k, Off.nil, f1, fun _ _ e => e.kept k⟩
    · simp only [e1, e2, Option.isSome_some, if_true]
      refine (charsUsed_off (sh.mono r.scene.size) f1).bind fun c z kz => ?_
      have mu := (o.kept k).moreUsed (grow := grow) r' c
      rw [kz.has.read]
      exact ⟨mu.run, rfl, mu.owns, kz.moreUsed mu.frame, f2.moreUsed mu.frame, fun _ _ e => (e.kept k).moreUsed mu.frame⟩

/-- After the excluded texts. -/
structure ExcludePost (n m : Nat) (T : Slice) (L : List Slice) (cs : Nat) (h1 : Heap) (v : Option Res × Stream) (a : Option HRes × Heap) : Prop where
  run : Run n T L cs h1 a.2 v.2
  kept : Kept h1.arrays.length h1 a.2
  shows : (a.1 = none ∧ v.1 = none) ∨ ∃ x y, a.1 = some x ∧ v.1 = some y ∧ Shows m T a.2 x y

theorem hExclude_rel {ev : Evaluator} {hev : HEvaluator} (sim : Sim ev hev) (excludes : List Rule) (r : Run n T L cs h1 h1 s) :
    Rel (ExcludePost n h1.arrays.length T L cs h1)
      (if excludes.length > 0 then do
          let (res, cs) ← mostGreedy ev NOT_SKIP excludes s
          .ok (some res, cs)
        else .ok (none, s) : Exec (Option Res × Stream))
      (hExclude hev excludes cs h1) := by
  unfold hExclude
  by_cases he : excludes.length > 0
  · rw [if_pos he, if_pos he]
    have rn : Run h1.arrays.length T L cs h1 h1 s := ⟨r.scene.now, Kept.refl _ _, Only.refl r.scene.chain.lt, r.stream⟩
    refine (hMostGreedy_rel sim NOT_SKIP excludes rn).bind fun ⟨res, s'⟩ ⟨hres, h'⟩ post => ?_
    exact ⟨Run.mono r.scene post.run r.scene.size, post.run.kept, .inr ⟨hres, res, rfl, rfl, post.shows⟩⟩
  · rw [if_neg he, if_neg he]
    exact ⟨r, Kept.refl _ _, .inl ⟨rfl, rfl⟩⟩

/-- How the loop of a block ended. -/
inductive EndShows (n : Nat) (T : Slice) (L : List Slice) (h : Heap) : HBlockEnd → BlockEnd → Prop
  | excluded {t x l} : Has n T h x l → EndShows n T L h (.excluded t x) (.excluded t l)
  | closed {x y u l m w r v} : Owns n T L h x y l m → Off n T h x y u w → Shows n T h r v → Apart x r.read →
      (∀ z ∈ slicesL r.node.toList, Apart x z ∧ Apart y z) → EndShows n T L h (.closed x u r y) (.closed l w v m)
  | eof {x y u l m w} : Owns n T L h x y l m → Off n T h x y u w → EndShows n T L h (.eof x u) (.eof l w)

/-- A slice that was not touched, and is not the one the block appends to. -/
def EndOff (n : Nat) (T : Slice) (h : Heap) (e : HBlockEnd) (z : Slice) (l : List Rune) : Prop :=
  match e with
  | .closed x _ r y => Off n T h x y z l ∧ ∀ w ∈ slicesL r.node.toList, Apart z w
  | _ => True

theorem EndShows.layers {L' : List Slice} {a : HBlockEnd} {v : BlockEnd} (k : EndShows n T L h a v) (d : ∀ z ∈ L', z ∈ L) : EndShows n T L' h a v := by
  cases k with
  | excluded k => exact .excluded k
  | closed o u t d1 d2 => exact .closed (o.layers d) u t d1 d2
  | eof o u => exact .eof (o.layers d) u

theorem hBlockLoop_rel {ev : Evaluator} {hev : HEvaluator} (sim : Sim ev hev) (close : Rule) (escape : Option Rule) (excludes : List Rule) (fuel : Nat) :
    ∀ {L : List Slice} {cs : Nat} {h0 h1 : Heap} {s : Stream} {st : BlockState} {hst : HBlock}, Run n T L cs h0 h1 s →
    Owns n T L h1 hst.used hst.content st.used st.content → Off n T h1 hst.used hst.content hst.unused st.unused →
    Rel (fun (v : BlockEnd × Stream) (a : HBlockEnd × Heap) => Run n T L cs h0 a.2 v.2 ∧ EndShows n T L a.2 a.1 v.1 ∧
        ∀ z l, Off n T h1 hst.used hst.content z l → EndOff n T a.2 a.1 z l)
      (blockLoop ev close escape excludes fuel st s) (hBlockLoop grow hev close escape excludes fuel hst cs h1) := by
  induction fuel with
  | zero => intros; trivial
  | succ fuel ih =>
    intro L cs h0 h1 s st hst r o ku
    simp only [blockLoop, hBlockLoop]
    refine (hEscape_rel (grow := grow) sim escape r o ku).bind fun ⟨esc, ec, used, u1, s1⟩ ⟨hesc, hec, hused, hu1, h2⟩ ep => ?_
    have r2 : Run n T L cs h0 h2 s1 := ep.run
    have o2 : Owns n T L h2 hused hst.content used st.content := ep.owns
    have kec : Off n T h2 hused hst.content hec ec := ep.chars
    have ku1 : Off n T h2 hused hst.content hu1 u1 := ep.unused
    have hE : hesc = esc := ep.escaped
    have fr2 : ∀ z l, Off n T h1 hst.used hst.content z l → Off n T h2 hused hst.content z l := ep.other
    subst hE
    clear ep ku o r
    dsimp only
    obtain ⟨L1, p1⟩ := r2.push ku1.has
    have o3 := o2.push ku1 p1
    have kec3 := kec.kept (Kept.of_arrays (n := h2.arrays.length) p1.arrays)
    have ku13 := ku1.kept (Kept.of_arrays (n := h2.arrays.length) p1.arrays)
    have hT := p1.run.scene.text
    have hsz := p1.run.scene.size
    refine (hExclude_rel sim excludes p1.run).bind fun ⟨rx, s4⟩ ⟨hrx, h4⟩ xp => ?_
    have r4 : Run n T L1 (h2.newPre cs hu1).1 (h2.newPre cs hu1).2 h4 s4 := xp.run
    have k4 : Kept (h2.newPre cs hu1).2.arrays.length (h2.newPre cs hu1).2 h4 := xp.kept
    have o4 := o3.kept k4
    have kec4 := kec3.kept k4
    have ku14 := ku13.kept k4
    have fr4 : ∀ z l, Off n T h1 hst.used hst.content z l → Off n T h4 hused hst.content z l :=
      fun z l k => ((fr2 z l k).kept (Kept.of_arrays p1.arrays)).kept k4
    -- no excluded text was found
    have rest : ∀ (u2 : List Rune) (hu2 : Slice), Off n T h4 hused hst.content hu2 u2 →
        Rel (fun (v : BlockEnd × Stream) (a : HBlockEnd × Heap) => Run n T L cs h0 a.2 v.2 ∧ EndShows n T L a.2 a.1 v.1 ∧
            ∀ z l, Off n T h4 hused hst.content z l → EndOff n T a.2 a.1 z l)
          (ev close NOT_SKIP (s4.pushBack u2) >>= fun x =>
            match x with
            | (rc, cs2) =>
              match rc.node with
              | some _ => do
                let c ← rc.charsUsed
                if hesc then do
                  let (out, cs2) ← blockLoop ev close escape excludes fuel
                    { used := used ++ c, unused := rc.unused, content := st.content ++ c } cs2
                  .ok (out, (cs2.popBack u2).popBack u1)
                else
                  .ok (.closed (used ++ st.content ++ c) rc.unused rc st.content,
                       (cs2.popBack u2).popBack u1)
              | none => do
                if (cs2.pushBack rc.unused).peek = EOFChar then
                  .ok (.eof (used ++ (st.content ++ ec)) rc.unused, (cs2.popBack u2).popBack u1)
                else do
                  let (out, cs3) ← blockLoop ev close escape excludes fuel
                    { used := used, unused := [], content := st.content ++ ec ++ ec ++ [(cs2.pushBack rc.unused).next.1] } (cs2.pushBack rc.unused).next.2
                  .ok (out, ((cs3.popBack rc.unused).popBack u2).popBack u1))
          (hev close NOT_SKIP (h4.newPre (h2.newPre cs hu1).1 hu2).1 (h4.newPre (h2.newPre cs hu1).1 hu2).2 >>= fun x =>
            match x with
            | (rc, h) =>
              match rc.node with
              | some _ => do
                let c ← rc.charsUsed
                if hesc then
                  hBlockLoop grow hev close escape excludes fuel
                    { used := (h.append grow hused (h.read c)).1, unused := rc.unused,
                      content := ((h.append grow hused (h.read c)).2.append grow hst.content ((h.append grow hused (h.read c)).2.read c)).1 }
                    (h4.newPre (h2.newPre cs hu1).1 hu2).1
                    ((h.append grow hused (h.read c)).2.append grow hst.content ((h.append grow hused (h.read c)).2.read c)).2
                else
                  .ok (.closed ((h.append grow hused (h.read hst.content)).2.append grow (h.append grow hused (h.read hst.content)).1
                      ((h.append grow hused (h.read hst.content)).2.read c)).1 rc.unused rc hst.content,
                    ((h.append grow hused (h.read hst.content)).2.append grow (h.append grow hused (h.read hst.content)).1
                      ((h.append grow hused (h.read hst.content)).2.read c)).2)
              | none =>
                let a := h.append grow hst.content (h.read hec)
                let c3 := a.2.newPre (h4.newPre (h2.newPre cs hu1).1 hu2).1 rc.unused
                if c3.2.peek c3.1 = EOFChar then
                  let b := c3.2.append grow hused (c3.2.read a.1)
                  .ok (.eof b.1 rc.unused, b.2)
                else
                  let r := c3.2.next c3.1
                  let a := r.2.append grow a.1 (r.2.read hec)
                  let b := a.2.append grow a.1 [r.1]
                  hBlockLoop grow hev close escape excludes fuel { used := hused, unused := {}, content := b.1 } c3.1 b.2) := by
      intro u2 hu2 ku2
      obtain ⟨L2, p2⟩ := r4.push ku2.has
      have o5 := o4.push ku2 p2
      have kec5 := kec4.kept (Kept.of_arrays (n := h4.arrays.length) p2.arrays)
      refine (sim.call close NOT_SKIP p2.run).bind fun ⟨rc, s6⟩ ⟨hrc, h6⟩ post => ?_
      have sh : Shows _ T h6 hrc rc := post.shows
      have k6 := post.run.kept
      obtain ⟨f1, f2⟩ := sh.off o5 hT p2.run.scene.size
      obtain ⟨d1, _, d3⟩ := sh.apart o5.ownUsed o5.used.ok hT
      have sh' := sh.mono p2.run.scene.size
      have r6 : Run n T L2 _ _ h6 s6 := Run.mono p2.run.scene post.run p2.run.scene.size
      have o6 := o5.kept k6
      have kec6 := kec5.kept k6
      dsimp only at o6 kec6
      have fr6 : ∀ z l, Off n T h4 hused hst.content z l → Off n T h6 hused hst.content z l :=
        fun z l k => (k.kept (Kept.of_arrays p2.arrays)).kept k6
      have pop : ∀ {h3 s3}, Run n T L2 (h4.newPre (h2.newPre cs hu1).1 hu2).1 (h4.newPre (h2.newPre cs hu1).1 hu2).2 h3 s3 →
          Run n T L cs h0 h3 ((s3.popBack u2).popBack u1) := fun rr => p1.pop (Nat.le_refl _) (p2.pop (Nat.le_refl _) rr)
      have below : ∀ z ∈ L, z ∈ L2 := fun z hz => p2.below z (p1.below z hz)
      clear post
      rcases node_cases sh'.node with ⟨e1, e2⟩ | ⟨x, y, e1, e2, tt⟩
      · simp only [e1, e2]
        have mc := o6.moreContent (grow := grow) r6 (h6.read hec)
        rw [kec6.has.read] at mc ⊢
        have f2' := f2.moreContent mc.frame
        have kec7 := kec6.moreContent mc.frame
        obtain ⟨L3, p3⟩ := mc.run.push f2'.has
        have o8 := mc.owns.push f2' p3
        have kec8 := kec7.kept (Kept.of_arrays (n := (h6.append grow hst.content ec).2.arrays.length) p3.arrays)
        have f28 := f2'.kept (Kept.of_arrays (n := (h6.append grow hst.content ec).2.arrays.length) p3.arrays)
        rw [p3.run.peek]
        by_cases hp : (s6.pushBack rc.unused).peek = EOFChar
        · rw [if_pos hp, if_pos hp]
          rw [o8.content.read]
          have o8' : Owns n T L2 _ hused (h6.append grow hst.content ec).1 used (st.content ++ ec) := o8.layers p3.below
          have mu := o8'.moreUsed (grow := grow) p3.old (st.content ++ ec)
          exact ⟨pop mu.run, .eof (mu.owns.layers below) (f28.moreUsed mu.frame), fun _ _ _ => trivial⟩
        · rw [if_neg hp, if_neg hp]
          obtain ⟨n1, n2, n3⟩ := p3.run.next
          have kn : Kept ((h6.append grow hst.content ec).2.newPre (h4.newPre (h2.newPre cs hu1).1 hu2).1 hrc.unused).2.arrays.length _ _ := Kept.of_arrays n3
          have o9 := o8.kept kn
          have kec9 := kec8.kept kn
          rw [kec9.has.read, n1]
          have mc2 := o9.moreContent (grow := grow) n2 ec
          have mc3 := mc2.owns.moreContent (grow := grow) mc2.run [(s6.pushBack rc.unused).next.1]
          refine (ih (st := { used := used, unused := [], content := st.content ++ ec ++ ec ++ [(s6.pushBack rc.unused).next.1] })
            (hst := { used := hused, unused := {}, content := _ }) mc3.run mc3.owns Off.nil).bind_left fun ⟨out, s7⟩ ⟨ho, h7⟩ ⟨q1, q2, q3⟩ => ?_
          exact ⟨pop (p3.pop (Nat.le_refl _) q1), q2.layers fun z hz => p3.below z (below z hz), fun z l k =>
            q3 z l ((((((fr6 z l k).moreContent mc.frame).kept (Kept.of_arrays p3.arrays)).kept kn).moreContent mc2.frame).moreContent mc3.frame)⟩
      · simp only [e1, e2]
        refine (charsUsed_off sh' f1).bind fun c z kz => ?_
        cases hesc with
        | true =>
          simp only [if_true]
          rw [kz.has.read]
          have mu := o6.moreUsed (grow := grow) r6 c
          have kz' := kz.moreUsed mu.frame
          rw [kz'.has.read]
          have mc := mu.owns.moreContent (grow := grow) mu.run c
          refine (ih (st := { used := used ++ c, unused := rc.unused, content := st.content ++ c })
            (hst := { used := _, unused := hrc.unused, content := _ }) mc.run mc.owns ((f2.moreUsed mu.frame).moreContent mc.frame)).bind_left
            fun ⟨out, s7⟩ ⟨ho, h7⟩ ⟨q1, q2, q3⟩ => ?_
          exact ⟨pop q1, q2.layers below, fun z l k => q3 z l (((fr6 z l k).moreUsed mu.frame).moreContent mc.frame)⟩
        | false =>
          simp only [Bool.false_eq_true, if_false]
          rw [o6.content.read]
          have mu := o6.moreUsed (grow := grow) r6 st.content
          have kz' := kz.moreUsed mu.frame
          rw [kz'.has.read]
          have mu2 := mu.owns.moreUsed (grow := grow) mu.run c
          have fr := mu.frame.trans mu2.frame
          have tn := sh'.node.frame fr d3
          have tr := fr _ _ sh'.read d1
          have tu := f2.moreUsed fr
          refine ⟨pop mu2.run, .closed (mu2.owns.layers below) tu ⟨tr.1, tu.has, tn.1, sh'.error, sh'.errIdx, sh'.sticky⟩ tr.2
              (fun w hw => ⟨tn.2 w hw, fresh_apart o5.content.ok (sh.node.all w hw).2⟩),
            fun z l k => ⟨(fr6 z l k).moreUsed fr, fun w hw => fresh_apart (k.kept (Kept.of_arrays (n := h4.arrays.length) p2.arrays)).has.ok (sh.node.all w hw).2⟩⟩
    have xs := xp.shows
    dsimp only at xs
    clear xp
    rcases xs with ⟨e1, e2⟩ | ⟨x, y, e1, e2, sh⟩
    · subst e1 e2
      exact (rest u1 hu1 ku14).mono fun _ _ q => ⟨q.1, q.2.1, fun z l k => q.2.2 z l (fr4 z l k)⟩
    · subst e1 e2
      obtain ⟨f1, f2⟩ := sh.off o3 hT hsz
      have sh' := sh.mono hsz
      rcases node_cases sh'.node with ⟨e1, e2⟩ | ⟨x', y', e1, e2, tt⟩
      · simp only [e1, e2, Option.bind_some, Option.map_none]
        exact (rest y.read x.read f1).mono fun _ _ q => ⟨q.1, q.2.1, fun z l k => q.2.2 z l (fr4 z l k)⟩
      · simp only [e1, e2, Option.bind_some, Option.map_some]
        refine (charsUsed_off sh' f1).bind fun c z kz => ?_
        cases hesc with
        | true =>
          simp only [if_true]
          rw [kz.has.read]
          have mu := o4.moreUsed (grow := grow) r4 c
          have kz' := kz.moreUsed mu.frame
          rw [kz'.has.read]
          have mc := mu.owns.moreContent (grow := grow) mu.run c
          refine (ih (st := { used := used ++ c, unused := y.unused, content := st.content ++ c })
            (hst := { used := _, unused := x.unused, content := _ }) mc.run mc.owns ((f2.moreUsed mu.frame).moreContent mc.frame)).bind_left
            fun ⟨out, s7⟩ ⟨ho, h7⟩ ⟨q1, q2, q3⟩ => ?_
          exact ⟨p1.pop (Nat.le_refl _) q1, q2.layers p1.below, fun z l k => q3 z l (((fr4 z l k).moreUsed mu.frame).moreContent mc.frame)⟩
        | false =>
          simp only [Bool.false_eq_true, if_false]
          rw [o4.content.read, kz.has.read]
          have mu := o4.moreUsed (grow := grow) r4 st.content
          have f1' := f1.moreUsed mu.frame
          rw [f1'.has.read]
          have mu2 := mu.owns.moreUsed (grow := grow) mu.run y.read
          exact ⟨p1.pop (Nat.le_refl _) mu2.run, .excluded mu2.owns.used, fun _ _ _ => trivial⟩

theorem hBlock_rel {ev : Evaluator} {hev : HEvaluator} (sim : Sim ev hev) (fuel : Nat) (b : RuleBase) (opn : Rule) (vc : Bool) (close : Rule)
    (escape : Option Rule) (excludes : List Rule) (flag : Int) (r : Run n T L cs h1 h1 s) :
    Rel (Post n T L cs h1) (evalBlock ev fuel b opn vc close escape excludes flag s) (hBlock grow hev fuel b opn vc close escape excludes flag cs h1) := by
  unfold evalBlock hBlock
  refine (sim.call opn flag r).bind fun ⟨ro, s2⟩ ⟨hro, h2⟩ post => ?_
  have sh : Shows n T h2 hro ro := post.shows.mono r.scene.size
  have r2 : Run n T L cs h1 h2 s2 := Run.mono r.scene post.run r.scene.size
  clear post
  dsimp only
  rcases node_cases sh.node with ⟨e1, e2⟩ | ⟨x, y, e1, e2, tt⟩
  · simp only [e1, e2, r2.cursor]
    exact ⟨r2, sh.read, sh.unused, Tree.nil _ _ _, sh.error, rfl, rfl⟩
  · simp only [e1, e2]
    refine (charsUsed_rel sh).bind fun c z ⟨kz, _⟩ => ?_
    rw [kz.read]
    have m := r2.made (grow := grow) c
    have ku := m.other _ _ sh.unused
    have tt' : Tree n T (h2.append grow {} c).2 [x] [y] ∧ ∀ w ∈ slicesL [x], Apart (h2.append grow {} c).1 w :=
      tt.frame (o := {}) (fun w l k _ => m.other w l k) (fun w _ => Apart.nil_left w)
    obtain ⟨L', p⟩ := m.run.push ku.1
    obtain ⟨q1, q2, q3⟩ := p.run.position
    have kp : Kept (h2.append grow {} c).2.arrays.length (h2.append grow {} c).2
        (((h2.append grow {} c).2.newPre cs hro.unused).2.position ((h2.append grow {} c).2.newPre cs hro.unused).1).2 :=
      Kept.of_arrays (q3.trans p.arrays)
    rw [q1]
    have o : Owns n T L' (((h2.append grow {} c).2.newPre cs hro.unused).2.position ((h2.append grow {} c).2.newPre cs hro.unused).1).2
        (h2.append grow {} c).1 {} c [] :=
      ⟨m.has.kept kp, m.own, fun w hw => (p.layers w hw).elim (fun e => e ▸ ku.2) (m.layers w), Has.nil, Own.nil n, fun w _ => Apart.nil_left w,
       Apart.nil_right _⟩
    have kx := tt'.1.kept kp
    have hoff : ∀ w ∈ slicesL [x], Off n T (((h2.append grow {} c).2.newPre cs hro.unused).2.position ((h2.append grow {} c).2.newPre cs hro.unused).1).2
        (h2.append grow {} c).1 {} w
        ((((h2.append grow {} c).2.newPre cs hro.unused).2.position ((h2.append grow {} c).2.newPre cs hro.unused).1).2.read w) :=
      fun w hw => ⟨⟨(kx.all w hw).1, (kx.all w hw).2.born T, rfl⟩, tt'.2 w hw, Apart.nil_left w⟩
    refine (hBlockLoop_rel (grow := grow) sim close escape excludes fuel (st := { used := c, unused := ro.unused })
      (hst := { used := (h2.append grow {} c).1, unused := hro.unused }) q2 o ⟨ku.1.kept kp, ku.2, Apart.nil_left _⟩).bind
      fun ⟨e, s5⟩ ⟨he, h5⟩ ⟨r5, es, eo⟩ => ?_
    have r6 : Run n T L cs h1 h5 (s5.popBack ro.unused) := p.pop (Nat.le_refl _) r5
    have es' : EndShows n T L h5 he e := EndShows.layers es p.below
    have eo' : ∀ w ∈ slicesL [x], EndOff n T h5 he w _ := fun w hw => eo w _ (hoff w hw)
    clear es eo
    dsimp only
    cases es' with
    | excluded k =>
      dsimp only
      rw [r6.cursor]
      exact ⟨r6, k, k, Tree.nil _ _ _, rfl, rfl, rfl⟩
    | @eof a1 a2 a3 v1 v2 v3 o5 k5 =>
      dsimp only
      rw [k5.has.read]
      have mu := o5.moreUsed (grow := grow) r6 v3
      rw [r6.cursor]
      exact ⟨mu.run, mu.owns.used, mu.owns.used, Tree.nil _ _ _, rfl, rfl, rfl⟩
    | @closed a1 a2 a3 v1 v2 v3 hrc rc o5 k5 t5 d5 dn5 =>
      dsimp only
      rw [k5.has.read]
      have mu := o5.moreUsed (grow := grow) r6 v3
      have trc := t5.node.frame mu.frame fun w hw => (dn5 w hw).1
      have trr := mu.frame _ _ t5.read d5
      have tx : Tree n T (h5.append grow a1 v3).2 [x] [y] := by
        have hx : ∀ w ∈ slicesL [x], Has n T (h5.append grow a1 v3).2 w _ := fun w hw => ((eo' w hw).1.moreUsed mu.frame).has
        exact ⟨fun w hw => ⟨(hx w hw).ok, (kx.all w hw).2⟩, (viewL_congr [x] fun w hw => (hx w hw).read).trans kx.view, kx.apart⟩
      have tc : Tree n T (h5.append grow a1 v3).2 [({ ruleType := .chars, chars := a2, pos := (s2.pushBack ro.unused).position.1, sticky := true } : HNode)]
          [{ ruleType := .chars, chars := v2, pos := (s2.pushBack ro.unused).position.1, sticky := true }] := by
        refine ⟨fun w hw => ?_, ?_, ?_⟩
        · simp only [slicesL, HNode.slices, List.append_nil, List.mem_cons, List.not_mem_nil, or_false] at hw
          subst hw
          exact ⟨mu.owns.content.ok, mu.owns.ownContent⟩
        · simp only [viewL, HNode.view, mu.owns.content.read]
        · simp [slicesL, HNode.slices]
      refine ⟨mu.run, mu.owns.used, ?_, ?_, rfl, rfl, rfl⟩
      · cases vc with
        | true => exact trr.1
        | false => exact (k5.moreUsed mu.frame).has
      · simp only [Option.toList]
        rw [(node_fields tt).1]
        refine branch_tree ?_
        have c1 : ∀ w ∈ slicesL [x], ∀ u ∈ slicesL [({ ruleType := .chars, chars := a2, pos := (s2.pushBack ro.unused).position.1, sticky := true } : HNode)],
            Apart w u := by
          intro w hw u hu
          simp only [slicesL, HNode.slices, List.append_nil, List.mem_cons, List.not_mem_nil, or_false] at hu
          subst hu
          exact (eo' w hw).1.fromContent.symm
        have c2 : ∀ w ∈ slicesL ([x] ++ [({ ruleType := .chars, chars := a2, pos := (s2.pushBack ro.unused).position.1, sticky := true } : HNode)]),
            ∀ u ∈ slicesL hrc.node.toList, Apart w u := by
          intro w hw u hu
          rw [slicesL_append] at hw
          rcases List.mem_append.1 hw with hw | hw
          · exact (eo' w hw).2 u hu
          · simp only [slicesL, HNode.slices, List.append_nil, List.mem_cons, List.not_mem_nil, or_false] at hw
            subst hw
            exact (dn5 u hu).2
        cases vc with
        | true => exact (tx.append tc c1).append (Tree.nil _ _ _) (fun w _ u hu => absurd hu List.not_mem_nil)
        | false => exact (tx.append tc c1).append trc.1 c2

/-! ### All rules -/

theorem hGroup_shows (b : RuleBase) {r : HRes} {v : Res} (t : Shows n T h r v) : Shows n T h (hGroup b r) (groupRes b v) := by
  unfold hGroup groupRes
  rcases node_cases t.node with ⟨e1, e2⟩ | ⟨x, y, e1, e2, tt⟩
  · simp only [e1, e2]
    exact ⟨t.read, t.read, by simpa [e1, e2] using Tree.nil n T h, t.error, t.errIdx, t.sticky⟩
  · simp only [e1, e2]
    refine ⟨t.read, t.unused, ?_, t.error, t.errIdx, t.sticky⟩
    rw [t.sticky]
    exact branch_tree tt

theorem hOption_shows (b : RuleBase) {r : HRes} {v : Res} (t : Shows n T h r v) : Shows n T h (hOption b r) (optionRes b v) := by
  unfold hOption optionRes
  rcases node_cases t.node with ⟨e1, e2⟩ | ⟨x, y, e1, e2, tt⟩
  · simp only [e1, e2]
    refine ⟨t.read, t.unused, ?_, t.error, t.errIdx, t.sticky⟩
    rw [t.sticky]
    exact branch_tree (Tree.nil n T h)
  · simp only [e1, e2]
    refine ⟨t.read, t.unused, ?_, t.error, t.errIdx, t.sticky⟩
    rw [t.sticky, (node_fields tt).1]
    exact branch_tree tt

theorem hRef_shows (b : RuleBase) {r : HRes} {v : Res} (t : Shows n T h r v) : Shows n T h (hRef b r) (refRes b v) := by
  unfold hRef refRes
  rcases node_cases t.node with ⟨e1, e2⟩ | ⟨x, y, e1, e2, tt⟩
  · simp only [e1, e2]
    exact t
  · simp only [e1, e2]
    refine ⟨t.read, t.unused, ?_, t.error, t.errIdx, t.sticky⟩
    have hv := tt.view
    have ha := tt.all
    obtain ⟨a1, a2, a3, a4, a5, a6, a7, a8, a9⟩ := x
    simp only [viewL, HNode.view, List.cons.injEq, and_true] at hv
    subst hv
    exact ⟨fun w hw => ha w (by simpa [slicesL, HNode.slices] using hw), by simp [viewL, HNode.view],
      by simpa [slicesL, HNode.slices] using tt.apart⟩

end

/-- What the evaluators on the heap do, seen from outside, is what the evaluators on values do. -/
theorem hEval_sim (grow : Growth) (env : Env) (fuel : Nat) : Sim (eval env fuel) (hEval grow env fuel) := by
  induction fuel with
  | zero => intro rule flag cs h L T sc; trivial
  | succ fuel ih =>
    intro rule flag cs h L T sc
    have r := Run.refl sc
    cases rule with
    | eof b => exact hEOF_spec b flag sc
    | char b text u => exact hChar_spec b text flag sc
    | range b f u l w => exact hRange_spec b f l flag sc
    | chars b text => exact hChars_spec b text flag sc
    | str b text => exact hString_spec b text flag sc
    | group b x => exact (ih x flag cs h L T sc).bind fun _ _ p => ⟨p.run, hGroup_shows b p.shows⟩
    | option b x => exact (ih x flag cs h L T sc).bind fun _ _ p => ⟨p.run, hOption_shows b p.shows⟩
    | rep b x mn mx => exact hRep_rel ih fuel b x mn mx flag r
    | choice b gs => exact hChoiceLoop_rel ih _ flag gs r ⟨Has.nil, rfl, rfl, rfl⟩
    | concat b rs => exact hConcat_rel ih _ rs r (SeqShows.start _ T L h flag)
    | block b opn v close escape excludes => exact hBlock_rel ih fuel b opn v close escape excludes flag r
    | ref b name =>
      simp only [eval, hEval]
      cases env name with
      | none => exact ⟨r, Has.nil, Has.nil, Tree.nil _ _ _, rfl, rfl, rfl⟩
      | some x => exact (ih x flag cs h L T sc).bind fun _ _ p => ⟨p.run, hRef_shows b p.shows⟩

end Xbnf.Mem
