import Verif.Lemmas.HeapSeq
/-
Memory: choices.
-/
namespace Xbnf.Mem

section
variable {n : Nat} {T : Slice} {L : List Slice} {cs : Nat} {h h0 h1 : Heap} {s : Stream} {grow : Growth}

/-- Results, and what they show. -/
inductive ShowsL (n : Nat) (T : Slice) (h : Heap) : List HRes → List Res → Prop
  | nil : ShowsL n T h [] []
  | cons {r v rs vs} : Shows n T h r v → ShowsL n T h rs vs → ShowsL n T h (r :: rs) (v :: vs)

/-- What was picked. -/
inductive PickShows (n : Nat) (T : Slice) (h : Heap) : HPick → Pick → Prop
  | found {r v} : Shows n T h r v → PickShows n T h (.found r) (.found v)
  | none : PickShows n T h .none .none
  | ambiguous {x y v w} : Shows n T h x v → Shows n T h y w → PickShows n T h (.ambiguous x y) (.ambiguous v w)

theorem hPickLoop_rel {rs : List HRes} {vs : List Res} (k : ShowsL n T h rs vs) : ∀ (i : Int) (b : Option HRes) (c : Option Res),
    (b = none ∧ c = none ∨ ∃ x y, b = some x ∧ c = some y ∧ Shows n T h x y) → PickShows n T h (hPickLoop i b rs) (pickLoop i c vs) := by
  induction k with
  | nil =>
    intro i b c hb
    rcases hb with ⟨rfl, rfl⟩ | ⟨x, y, rfl, rfl, t⟩
    · exact .none
    · exact .found t
  | @cons r v rs vs t _ ih =>
    intro i b c hb
    have e : (b.isSome = true) ↔ (c.isSome = true) := by rcases hb with ⟨rfl, rfl⟩ | ⟨x, y, rfl, rfl, _⟩ <;> simp
    simp only [hPickLoop, pickLoop, t.countUsed, e]
    by_cases h1 : v.countUsed < i
    · rw [if_pos h1, if_pos h1]
      exact ih i b c hb
    · rw [if_neg h1, if_neg h1]
      by_cases h2 : v.countUsed = i ∧ c.isSome = true
      · rw [if_pos h2, if_pos h2]
        rcases hb with ⟨rfl, rfl⟩ | ⟨x, y, rfl, rfl, t'⟩
        · cases h2.2
        · exact .ambiguous t' t
      · rw [if_neg h2, if_neg h2]
        exact ih _ _ _ (.inr ⟨r, v, rfl, rfl, t⟩)

theorem hPick_rel {rs : List HRes} {vs : List Res} (k : ShowsL n T h rs vs) : PickShows n T h (hPick rs) (pick vs) := by
  cases k with
  | nil => exact .none
  | cons t k' =>
    cases k' with
    | nil => exact .found t
    | cons t' k'' =>
      rw [hPick.eq_3 _ (by simp) (by simp), pick.eq_3 _ (by simp) (by simp)]
      exact hPickLoop_rel (.cons t (.cons t' k'')) 0 none none (.inl ⟨rfl, rfl⟩)

/-- A call on a layer that is gone afterwards. -/
structure Called (n : Nat) (T : Slice) (L : List Slice) (cs : Nat) (h0 h1 : Heap) (u : List Rune) (v : Res × Stream) (a : HRes × Heap) : Prop where
  run : Run n T L cs h0 a.2 (v.2.popBack u)
  shows : Shows n T a.2 a.1 v.1
  kept : Kept h1.arrays.length h1 a.2

theorem Sim.layer {ev : Evaluator} {hev : HEvaluator} (sim : Sim ev hev) (rule : Rule) (flag : Int) (r : Run n T L cs h0 h1 s) {x : Slice} {u : List Rune}
    (k : Has n T h1 x u) :
    Rel (Called n T L cs h0 h1 u) (ev rule flag (s.pushBack u)) (hev rule flag (h1.newPre cs x).1 (h1.newPre cs x).2) := by
  obtain ⟨L', p⟩ := r.push k
  refine (sim.call rule flag p.run).mono fun v a post => ?_
  have hk : Kept h1.arrays.length h1 (h1.newPre cs x).2 := Kept.of_arrays p.arrays
  have hk' : Kept h1.arrays.length (h1.newPre cs x).2 a.2 := by
    have := post.run.kept
    rwa [p.arrays] at this
  exact ⟨p.pop p.run.scene.size post.run, post.shows.mono p.run.scene.size, hk.trans hk'⟩

/-- The variables of a choice. -/
structure ChoiceShows (n : Nat) (T : Slice) (h : Heap) (a : HChoice) (v : ChoiceState) : Prop where
  read : Has n T h a.read v.read
  sticky : a.sticky = v.sticky
  maxErr : a.maxErr = v.maxErr
  cursor : a.maxErrCursor = v.maxErrCursor

theorem longer_has {x y : Slice} {l m : List Rune} (kx : Has n T h x l) (ky : Has n T h y m) :
    Has n T h (if x.len < y.len then y else x) (if l.length < m.length then m else l) := by
  rw [kx.len, ky.len]
  split
  · exact ky
  · exact kx

/-- What the loop over a group leaves. -/
structure GroupPost (n : Nat) (T : Slice) (L : List Slice) (cs : Nat) (h0 h1 : Heap) (v : List Res × ChoiceState × Stream) (a : List HRes × HChoice × Heap) :
    Prop where
  run : Run n T L cs h0 a.2.2 v.2.2
  shows : ShowsL n T a.2.2 a.1 v.1
  state : ChoiceShows n T a.2.2 a.2.1 v.2.1
  kept : Kept h1.arrays.length h1 a.2.2

theorem GroupPost.after {h2 : Heap} {v : List Res × ChoiceState × Stream} {a : List HRes × HChoice × Heap} (p : GroupPost n T L cs h0 h2 v a)
    (k : Kept h1.arrays.length h1 h2) : GroupPost n T L cs h0 h1 v a :=
  ⟨p.run, p.shows, p.state, k.trans (p.kept.mono k.size)⟩

theorem hGroupLoop_rel {ev : Evaluator} {hev : HEvaluator} (sim : Sim ev hev) (flag : Int) (rs : List Rule) :
    ∀ {h1 : Heap} {s : Stream} {st : ChoiceState} {hst : HChoice}, Run n T L cs h0 h1 s → ChoiceShows n T h1 hst st →
    Rel (GroupPost n T L cs h0 h1) (choiceGroup ev flag rs st s) (hGroupLoop hev flag cs rs hst h1) := by
  induction rs with
  | nil =>
    intro h1 s st hst r ss
    exact ⟨r, .nil, ss, Kept.refl _ _⟩
  | cons rule rs ih =>
    intro h1 s st hst r ss
    simp only [choiceGroup, hGroupLoop]
    refine (sim.layer rule flag r ss.read).bind fun ⟨res, s'⟩ ⟨hres, h'⟩ c => ?_
    have hread : Has n T h' (if hst.read.len < hres.read.len then hres.read else hst.read) (if st.read.length < res.read.length then res.read else st.read) :=
      longer_has (ss.read.kept c.kept) c.shows.read
    have sh : Shows n T h' hres res := c.shows
    have hst' : (hst.sticky && hres.sticky) = (st.sticky && res.sticky) := by rw [sh.sticky, ss.sticky]
    have ss2 : ChoiceShows n T h'
        { hst with read := if hst.read.len < hres.read.len then hres.read else hst.read, sticky := hst.sticky && hres.sticky }
        { st with read := if st.read.length < res.read.length then res.read else st.read, sticky := st.sticky && res.sticky } :=
      ⟨hread, hst', ss.maxErr, ss.cursor⟩
    rcases node_cases sh.node with ⟨e1, e2⟩ | ⟨x, y, e1, e2, tt⟩
    · simp only [e1, e2]
      by_cases hc : res.errIdx > st.maxErrCursor
      · rw [if_pos (show hres.errIdx > hst.maxErrCursor by rw [sh.errIdx, ss.cursor]; exact hc), if_pos hc]
        have ss2 : ChoiceShows n T h'
            { read := if hst.read.len < hres.read.len then hres.read else hst.read, sticky := hst.sticky && hres.sticky, maxErr := hres.error,
              maxErrCursor := hres.errIdx }
            { read := if st.read.length < res.read.length then res.read else st.read, sticky := st.sticky && res.sticky, maxErr := res.error,
              maxErrCursor := res.errIdx } := ⟨hread, hst', sh.error, sh.errIdx⟩
        exact (ih c.run ss2).mono fun v a p => p.after c.kept
      · rw [if_neg (show ¬ hres.errIdx > hst.maxErrCursor by rw [sh.errIdx, ss.cursor]; exact hc), if_neg hc]
        exact (ih c.run ss2).mono fun v a p => p.after c.kept
    · simp only [e1, e2]
      refine (ih c.run ss2).bind fun ⟨ms, st2, s2⟩ ⟨hms, hst2, h2⟩ p => ?_
      exact ⟨p.run, .cons (c.shows.kept p.kept) p.shows, p.state, c.kept.trans (p.kept.mono c.kept.size)⟩

theorem Shows.named {r : HRes} {v : Res} (t : Shows n T h r v) : (r.view h).named = v.named := by rw [t.view]

theorem hChoiceLoop_rel {ev : Evaluator} {hev : HEvaluator} (sim : Sim ev hev) (self : Rule) (flag : Int) (gs : List (List Rule)) :
    ∀ {h1 : Heap} {s : Stream} {st : ChoiceState} {hst : HChoice}, Run n T L cs h0 h1 s → ChoiceShows n T h1 hst st →
    Rel (Post n T L cs h0) (choiceLoop ev self flag gs st s) (hChoiceLoop hev self flag cs gs hst h1) := by
  induction gs with
  | nil =>
    intro h1 s st hst r ss
    refine ⟨r, ss.read, ss.read, Tree.nil _ _ _, ?_, ss.cursor, ss.sticky⟩
    show some (Err.inChoice self (hst.maxErr.getD .nil)) = some (Err.inChoice self (st.maxErr.getD .nil))
    rw [ss.maxErr]
  | cons g gs ih =>
    intro h1 s st hst r ss
    simp only [choiceLoop, hChoiceLoop]
    refine (hGroupLoop_rel sim flag g r ss).bind fun ⟨ms, st2, s2⟩ ⟨hms, hst2, h2⟩ p => ?_
    dsimp only
    have hp := hPick_rel p.shows
    dsimp only at hp
    generalize pick ms = vp at hp
    generalize hPick hms = ap at hp
    cases hp with
    | none => exact ih p.run p.state
    | ambiguous t1 t2 =>
      dsimp only
      rw [t1.named, t2.named]
      exact ⟨p.run, p.state.read, Has.nil, Tree.nil _ _ _, rfl, rfl, rfl⟩
    | @found hr v t =>
      dsimp only
      rw [t.countUsed]
      refine (fromIdx_rel p.state.read _).bind fun l x ⟨kx, _⟩ => ?_
      refine ⟨p.run, p.state.read, kx, ?_, rfl, rfl, p.state.sticky⟩
      rcases node_cases t.node with ⟨e1, e2⟩ | ⟨x, y, e1, e2, tt⟩
      · simp only [e1, e2]
        exact Tree.nil _ _ _
      · simp only [e1, e2, Option.map_some, Option.toList]
        rw [p.state.sticky, (node_fields tt).1]
        exact branch_tree tt

/-- What the loop of `mostGreedy` leaves. -/
structure GreedyPost (n : Nat) (T : Slice) (L : List Slice) (cs : Nat) (h0 h1 : Heap) (v : List Res × List Rune × Stream) (a : List HRes × Slice × Heap) :
    Prop where
  run : Run n T L cs h0 a.2.2 v.2.2
  shows : ShowsL n T a.2.2 a.1 v.1
  read : Has n T a.2.2 a.2.1 v.2.1
  kept : Kept h1.arrays.length h1 a.2.2

theorem hGreedyLoop_rel {ev : Evaluator} {hev : HEvaluator} (sim : Sim ev hev) (flag : Int) (rs : List Rule) :
    ∀ {h1 : Heap} {s : Stream} {x : Slice} {l : List Rune}, Run n T L cs h0 h1 s → Has n T h1 x l →
    Rel (GreedyPost n T L cs h0 h1) (greedyLoop ev flag rs l s) (hGreedyLoop hev flag cs rs x h1) := by
  induction rs with
  | nil =>
    intro h1 s x l r kx
    exact ⟨r, .nil, kx, Kept.refl _ _⟩
  | cons rule rs ih =>
    intro h1 s x l r kx
    simp only [greedyLoop, hGreedyLoop]
    refine (sim.layer rule flag r kx).bind fun ⟨res, s'⟩ ⟨hres, h'⟩ c => ?_
    refine (ih c.run (longer_has (kx.kept c.kept) c.shows.read)).bind fun ⟨ms, l2, s2⟩ ⟨hms, x2, h2⟩ p => ?_
    have hk := c.kept.trans (p.kept.mono c.kept.size)
    have sh : Shows n T h' hres res := c.shows
    rcases node_cases sh.node with ⟨e1, e2⟩ | ⟨x, y, e1, e2, tt⟩
    · simp only [e1, e2, Option.isSome_none, Bool.false_eq_true, if_false]
      exact ⟨p.run, p.shows, p.read, hk⟩
    · simp only [e1, e2, Option.isSome_some, if_true]
      exact ⟨p.run, .cons (c.shows.kept p.kept) p.shows, p.read, hk⟩

theorem hMostGreedy_rel {ev : Evaluator} {hev : HEvaluator} (sim : Sim ev hev) (flag : Int) (rs : List Rule) (r : Run n T L cs h0 h1 s) :
    Rel (Post n T L cs h0) (mostGreedy ev flag rs s) (hMostGreedy hev flag rs cs h1) := by
  unfold mostGreedy hMostGreedy
  refine (hGreedyLoop_rel sim flag rs r Has.nil).bind fun ⟨ms, l2, s2⟩ ⟨hms, x2, h2⟩ p => ?_
  dsimp only
  have hp := hPick_rel p.shows
  dsimp only at hp
  generalize pick ms = vp at hp
  generalize hPick hms = ap at hp
  cases hp with
  | none => exact ⟨p.run, p.read, p.read, Tree.nil _ _ _, rfl, rfl, rfl⟩
  | ambiguous t1 t2 =>
    dsimp only
    rw [t1.named, t2.named]
    exact ⟨p.run, Has.nil, Has.nil, Tree.nil _ _ _, rfl, rfl, rfl⟩
  | @found hr v t =>
    dsimp only
    rw [t.countUsed]
    refine (fromIdx_rel p.read _).bind fun l x ⟨kx, _⟩ => ?_
    exact ⟨p.run, p.read, kx, t.node, rfl, rfl, t.sticky⟩

end

end Xbnf.Mem
