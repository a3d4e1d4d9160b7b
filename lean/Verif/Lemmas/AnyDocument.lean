import Verif.Lemmas.AnySim
import Verif.Lemmas.Unplaced
/-
Evaluation over an implementation of `ICharstream` that spells a text against evaluation of the text:
rules, and whole texts with the order in which Go visits its maps.
-/
namespace Xbnf
namespace G

open Spec (Spells)
open Grammar (Sched RawErr simplify)
open Props (simplify_erase)

variable {σ : Type} {I : Impl σ} {w : Nat} {ok : σ → Prop} {rest : σ → List Rune}

/-- Both streams were advanced by the same number of characters. -/
def Both (w : Nat) (ok : σ → Prop) (rest : σ → List Rune) (gs : GStream σ) (s : Stream)
    (gs' : GStream σ) (s' : Stream) : Prop :=
  ∃ k, Adv w ok rest k gs gs' ∧ Xbnf.Adv k s s'

/-- Both streams are good and have the same characters left. -/
def Par (w : Nat) (ok : σ → Prop) (rest : σ → List Rune) (gs : GStream σ) (s : Stream) : Prop :=
  WF w ok rest gs ∧ s.WF ∧ rem rest gs = s.rem

theorem Both.par {gs s gs' s'} (h : Both w ok rest gs s gs' s') (hp : Par w ok rest gs s) :
    Par w ok rest gs' s' := by
  obtain ⟨k, h1, h2⟩ := h
  exact ⟨h1.wf.2, h2.wf.2, by rw [h1.rem, h2.rem, hp.2.2]⟩

theorem Both.refl {gs s} (hp : Par w ok rest gs s) : Both w ok rest gs s gs s :=
  ⟨0, Adv.refl hp.1, Xbnf.Adv.refl hp.2.1⟩

theorem Both.trans {gs s gs' s' gs'' s''} (h : Both w ok rest gs s gs' s')
    (h' : Both w ok rest gs' s' gs'' s'') : Both w ok rest gs s gs'' s'' := by
  obtain ⟨k, h1, h2⟩ := h
  obtain ⟨j, g1, g2⟩ := h'
  exact ⟨k + j, h1.trans g1, h2.trans g2⟩

theorem Both.popBack {gs s gs' s' p} (h : Both w ok rest (gs.pushBack p) (s.pushBack p) gs' s') :
    Both w ok rest gs s (gs'.popBack p) (s'.popBack p) := by
  obtain ⟨k, h1, h2⟩ := h
  exact ⟨_, h1.popBack, h2.popBack⟩

theorem Par.pushBack {gs s} (h : Par w ok rest gs s) (p : List Rune) :
    Par w ok rest (gs.pushBack p) (s.pushBack p) :=
  ⟨wf_pushBack h.1 p, Stream.wf_pushBack h.2.1 p, by rw [rem_pushBack, Stream.rem_pushBack, h.2.2]⟩

theorem Par.peek (hs : Spells I ok rest) {gs s} (h : Par w ok rest gs s) :
    (gs.peek I).1 = s.peek ∧ Both w ok rest gs s (gs.peek I).2 s := by
  obtain ⟨h1, h2⟩ := peek_adv hs h.1
  exact ⟨by rw [h1, L.peek_eq h.2.1, h.2.2], 0, h2, Xbnf.Adv.refl h.2.1⟩

theorem eval_both (hs : Spells I ok rest) (env : Env) (fuel : Nat) (r : Rule) (flag : Int)
    {gs : GStream σ} {s : Stream} (h : Par w ok rest gs s) :
    SimG (fun x y => x.1.core = y.1.core ∧ Both w ok rest gs s x.2 y.2)
      (eval I w env fuel r flag gs) (Xbnf.eval env fuel r flag s) := by
  have h1 := eval_sim hs env fuel r flag gs h.1
  have h2 := Xbnf.eval_sim env fuel r flag s h.2.1
  rw [h.2.2] at h1
  generalize eval I w env fuel r flag gs = x at *
  generalize Xbnf.eval env fuel r flag s = y at *
  generalize L.eval env fuel r flag s.rem = z at *
  match x, z, y, h1, h2 with
  | .ok x, .ok z, .ok y, h1, h2 => exact ⟨h1.1.trans h2.1.symm, z.2, h1.2, h2.2⟩
  | .panic, .panic, .panic, _, _ => trivial
  | .oof, .oof, .oof, _, _ => trivial

theorem core_read {r r' : Res} (h : r.core = r'.core) : r.read = r'.read := by
  have := congrArg Res.read h; exact this

theorem core_some {r r' : Res} (h : r.core = r'.core) : r.node.isSome = r'.node.isSome := by
  have := congrArg (fun r => r.node.isSome) h
  simpa [Res.core] using this

theorem rootsLoop_both (hs : Spells I ok rest) (env : Env) (fuel : Nat) (flag : Int)
    (rs : List Record) : ∀ (maxRead : List Rune) {gs : GStream σ} {s : Stream}, Par w ok rest gs s →
    SimG (fun x y => x.1.map Res.core = y.1.map Res.core ∧ x.2.1 = y.2.1 ∧
        Both w ok rest gs s x.2.2 y.2.2)
      (rootsLoop I w env fuel flag rs maxRead gs) (Grammar.rootsLoop env fuel flag rs maxRead s) := by
  induction rs with
  | nil => intro maxRead gs s h; exact ⟨rfl, rfl, Both.refl h⟩
  | cons r rs ih =>
    intro maxRead gs s h
    unfold rootsLoop Grammar.rootsLoop
    refine SimG.bind (eval_both hs env fuel r.rule flag (h.pushBack maxRead)) ?_
    rintro ⟨res, cs⟩ ⟨res', cs'⟩ ⟨hc, hb⟩
    simp only at hc hb
    simp only
    rw [core_read hc, core_some hc]
    refine SimG.bind (ih _ (hb.par (h.pushBack maxRead))) ?_
    rintro ⟨ms, m, c⟩ ⟨ms', m', c'⟩ ⟨e1, rfl, hb'⟩
    refine ⟨?_, rfl, (hb.trans hb').popBack⟩
    simp only
    cases res'.node.isSome
    · exact e1
    · simp only [if_true, List.map_cons]; rw [hc]; exact congrArg _ e1

/-! ### The order of maps -/

/-- A permutation of one list is one of every list that is the same up to `f`. -/
theorem perm_lift {α β : Type} (f : α → β) {a a' : List α} (h : a.Perm a') :
    ∀ {b : List α}, a.map f = b.map f → ∃ b', b.Perm b' ∧ a'.map f = b'.map f := by
  induction h with
  | nil => intro b hb; exact ⟨b, .refl _, hb⟩
  | cons x _ ih =>
    intro b hb
    cases b with
    | nil => simp at hb
    | cons y b =>
      simp only [List.map_cons, List.cons.injEq] at hb
      obtain ⟨b', h1, h2⟩ := ih hb.2
      exact ⟨y :: b', h1.cons y, by simp [hb.1, h2]⟩
  | swap x y l =>
    intro b hb
    match b, hb with
    | u :: v :: b, hb =>
      simp only [List.map_cons, List.cons.injEq] at hb
      exact ⟨v :: u :: b, .swap _ _ _, by simp [hb]⟩
    | [], hb => simp at hb
    | [u], hb => simp at hb
  | trans _ _ ih1 ih2 =>
    intro b hb
    obtain ⟨b', h1, h2⟩ := ih1 hb
    obtain ⟨b'', h3, h4⟩ := ih2 h2
    exact ⟨b'', h1.trans h3, h4⟩

/-- The schedule `sch`, but in round `i` the matches are visited as `ms` says if they are these. -/
noncomputable def visiting (sch : Sched) (i : Nat) (a b : List Res) : Sched where
  roots := sch.roots
  matched j l := if j = i then (open Classical in if l = a then b else l) else sch.matched j l

theorem visiting_fair {sch : Sched} (h : sch.Fair) (i : Nat) {a b : List Res} (hp : a.Perm b) :
    (visiting sch i a b).Fair := by
  refine ⟨h.1, fun j l => ?_⟩
  simp only [visiting]
  split
  · split
    · next e => subst e; exact hp.symm
    · exact .refl _
  · exact h.2 j l

theorem visiting_here (sch : Sched) (i : Nat) (a b : List Res) : (visiting sch i a b).matched i a = b := by
  simp [visiting]

theorem visiting_other (sch : Sched) {i j : Nat} (a b : List Res) (h : j ≠ i) :
    (visiting sch i a b).matched j = sch.matched j := by
  funext l; simp [visiting, h]

/-- The rounds that follow look at the schedule only from there on. -/
theorem rawLoop_congr {env : Env} {fuel : Nat} {roots : List Record} {sch sch' : Sched}
    (hr : sch.roots = sch'.roots) (n : Nat) : ∀ (i : Nat) (nodes : List Node) (flag : Int)
    (unused : List Rune) (s : Stream), (∀ j, i ≤ j → sch.matched j = sch'.matched j) →
    Grammar.rawLoop env fuel roots sch n i nodes flag unused s =
      Grammar.rawLoop env fuel roots sch' n i nodes flag unused s := by
  induction n with
  | zero => intros; rfl
  | succ n ih =>
    intro i nodes flag unused s h
    unfold Grammar.rawLoop
    rw [hr]
    simp only
    split
    · rfl
    · cases Grammar.rootsLoop env fuel flag (sch'.roots i roots) [] (s.pushBack unused) with
      | panic => rfl
      | oof => rfl
      | ok x =>
        obtain ⟨ms, m, cs⟩ := x
        simp only [bind, Exec.bind]
        rw [h i (Nat.le_refl i)]
        cases pick (sch'.matched i ms) with
        | none => rfl
        | ambiguous => rfl
        | found r =>
          simp only
          cases sliceFrom m r.countUsed with
          | panic => rfl
          | oof => rfl
          | ok u => exact ih _ _ _ _ _ fun j hj => h j (by omega)

theorem rawLoopG_congr {env : Env} {fuel : Nat} {roots : List Record} {sch sch' : Sched}
    (hr : sch.roots = sch'.roots) (n : Nat) : ∀ (i : Nat) (nodes : List Node) (flag : Int)
    (unused : List Rune) (s : GStream σ), (∀ j, i ≤ j → sch.matched j = sch'.matched j) →
    rawLoop I w env fuel roots sch n i nodes flag unused s =
      rawLoop I w env fuel roots sch' n i nodes flag unused s := by
  induction n with
  | zero => intros; rfl
  | succ n ih =>
    intro i nodes flag unused s h
    unfold rawLoop
    rw [hr]
    simp only
    split
    · rfl
    · cases rootsLoop I w env fuel flag (sch'.roots i roots) [] ((s.pushBack unused).peek I).2 with
      | panic => rfl
      | oof => rfl
      | ok x =>
        obtain ⟨ms, m, cs⟩ := x
        simp only [bind, Exec.bind]
        rw [h i (Nat.le_refl i)]
        cases pick (sch'.matched i ms) with
        | none => rfl
        | ambiguous => rfl
        | found r =>
          simp only
          cases sliceFrom m r.countUsed with
          | panic => rfl
          | oof => rfl
          | ok u => exact ih _ _ _ _ _ fun j hj => h j (by omega)

/-- The same trees but for positions, or the same error; both streams advanced alike. -/
def Same (w : Nat) (ok : σ → Prop) (rest : σ → List Rune) (gs : GStream σ) (s : Stream)
    (x : Except RawErr (List Node) × GStream σ) (y : Except RawErr (List Node) × Stream) : Prop :=
  x.1.map (List.map Node.erase) = y.1.map (List.map Node.erase) ∧ Both w ok rest gs s x.2 y.2

theorem Same.trans {gs s gs' s' x y} (h : Both w ok rest gs s gs' s') (h' : Same w ok rest gs' s' x y) :
    Same w ok rest gs s x y := ⟨h'.1, h.trans h'.2⟩

theorem SimG.mono {α β : Type} {P Q : α → β → Prop} {x : Exec α} {y : Exec β} (h : SimG P x y)
    (hpq : ∀ a b, P a b → Q a b) : SimG Q x y := by
  cases x <;> cases y <;> first | exact h.elim | exact hpq _ _ h | trivial

/-- A round of the loop of `EvalRaw` after the root rules were tried. -/
theorem rawLoop_round {env : Env} {fuel : Nat} {roots : List Record} {sch : Sched} {n i : Nat}
    {nodes : List Node} {flag : Int} {unused m : List Rune} {s cs : Stream} {ms : List Res}
    (hp : (s.pushBack unused).peek ≠ EOFChar)
    (hx : Grammar.rootsLoop env fuel flag (sch.roots i roots) [] (s.pushBack unused) = .ok (ms, m, cs)) :
    Grammar.rawLoop env fuel roots sch (n + 1) i nodes flag unused s =
      match pick (sch.matched i ms) with
      | .none => .ok (.error .noMatch, cs.popBack unused)
      | .ambiguous _ _ => .ok (.error .ambiguity, cs.popBack unused)
      | .found r => sliceFrom m r.countUsed >>= fun unused' =>
        Grammar.rawLoop env fuel roots sch n (i + 1) (nodes ++ r.node.toList)
          (if r.sticky then SUGGEST_NOT_SKIP else SUGGEST_SKIP) unused' (cs.popBack unused) := by
  rw [Grammar.rawLoop]
  simp only
  rw [if_neg hp, hx]
  rfl

theorem rawLoopG_round {env : Env} {fuel : Nat} {roots : List Record} {sch : Sched} {n i : Nat}
    {nodes : List Node} {flag : Int} {unused m : List Rune} {s cs : GStream σ} {ms : List Res}
    (hp : ((s.pushBack unused).peek I).1 ≠ EOFChar)
    (hx : rootsLoop I w env fuel flag (sch.roots i roots) [] ((s.pushBack unused).peek I).2 = .ok (ms, m, cs)) :
    rawLoop I w env fuel roots sch (n + 1) i nodes flag unused s =
      match pick (sch.matched i ms) with
      | .none => .ok (.error .noMatch, cs.popBack unused)
      | .ambiguous _ _ => .ok (.error .ambiguity, cs.popBack unused)
      | .found r => sliceFrom m r.countUsed >>= fun unused' =>
        rawLoop I w env fuel roots sch n (i + 1) (nodes ++ r.node.toList)
          (if r.sticky then SUGGEST_NOT_SKIP else SUGGEST_SKIP) unused' (cs.popBack unused) := by
  rw [rawLoop]
  simp only
  rw [if_neg hp, hx]
  rfl

theorem pick_alike {a b : List Res} (h : a.map Res.core = b.map Res.core) :
    (pick a).core = (pick b).core := by
  rw [← pick_core, ← pick_core, h]

theorem next_nodes {nodes nodes' : List Node} {x y : Res} (hn : nodes.map Node.erase = nodes'.map Node.erase)
    (hc : x.core = y.core) :
    (nodes ++ x.node.toList).map Node.erase = (nodes' ++ y.node.toList).map Node.erase := by
  have h1 : x.node.map Node.erase = y.node.map Node.erase := congrArg Res.node hc
  rw [List.map_append, List.map_append, hn]
  congr 1
  cases hx : x.node <;> cases hy : y.node <;> simp_all

/-- Whatever order the maps are visited in over the caller's stream, there is an order in which the
text gives the same. -/
theorem rawLoop_forth (hs : Spells I ok rest) {env : Env} {fuel : Nat} {roots : List Record}
    {sch : Sched} (hf : sch.Fair) (n : Nat) : ∀ (i : Nat) {nodes nodes' : List Node} (flag : Int)
    (unused : List Rune) {gs : GStream σ} {s : Stream}, Par w ok rest gs s →
    nodes.map Node.erase = nodes'.map Node.erase →
    ∃ sch' : Sched, sch'.Fair ∧ sch'.roots = sch.roots ∧
      SimG (Same w ok rest gs s) (rawLoop I w env fuel roots sch n i nodes flag unused gs)
        (Grammar.rawLoop env fuel roots sch' n i nodes' flag unused s) := by
  induction n with
  | zero => intro i nodes nodes' flag unused gs s _ _; exact ⟨sch, hf, rfl, trivial⟩
  | succ n ih =>
    intro i nodes nodes' flag unused gs s hp hn
    obtain ⟨q1, q2⟩ := (hp.pushBack unused).peek hs
    have hl : nodes.length = nodes'.length := by simpa using congrArg List.length hn
    by_cases hpk : (s.pushBack unused).peek = EOFChar
    · refine ⟨sch, hf, rfl, ?_⟩
      rw [rawLoop, Grammar.rawLoop]
      simp only
      rw [if_pos hpk, if_pos (by rw [q1]; exact hpk), hl]
      have hb : Both w ok rest gs s (((gs.pushBack unused).peek I).2.popBack unused) s := by
        obtain ⟨k, h1, h2⟩ := q2
        have : k = 0 := by
          have := h2.rem_length
          have := h2.le
          omega
        subst this
        exact ⟨0, by simpa using h1.popBack, Xbnf.Adv.refl hp.2.1⟩
      refine ⟨?_, hb⟩
      simp only
      split
      · rfl
      · exact congrArg Except.ok hn
    · have hpk' : ((gs.pushBack unused).peek I).1 ≠ EOFChar := by rw [q1]; exact hpk
      have hr := rootsLoop_both hs env fuel flag (sch.roots i roots) [] (q2.par (hp.pushBack unused))
      cases hx : rootsLoop I w env fuel flag (sch.roots i roots) [] ((gs.pushBack unused).peek I).2 with
      | panic =>
        cases hy : Grammar.rootsLoop env fuel flag (sch.roots i roots) [] (s.pushBack unused) with
        | panic =>
          refine ⟨sch, hf, rfl, ?_⟩
          rw [rawLoop, Grammar.rawLoop]
          simp only
          rw [if_neg hpk, if_neg hpk', hx, hy]
          trivial
        | oof => rw [hx, hy] at hr; exact hr.elim
        | ok y => rw [hx, hy] at hr; exact hr.elim
      | oof =>
        cases hy : Grammar.rootsLoop env fuel flag (sch.roots i roots) [] (s.pushBack unused) with
        | oof =>
          refine ⟨sch, hf, rfl, ?_⟩
          rw [rawLoop, Grammar.rawLoop]
          simp only
          rw [if_neg hpk, if_neg hpk', hx, hy]
          trivial
        | panic => rw [hx, hy] at hr; exact hr.elim
        | ok y => rw [hx, hy] at hr; exact hr.elim
      | ok x =>
        cases hy : Grammar.rootsLoop env fuel flag (sch.roots i roots) [] (s.pushBack unused) with
        | panic => rw [hx, hy] at hr; exact hr.elim
        | oof => rw [hx, hy] at hr; exact hr.elim
        | ok y =>
          rw [hx, hy] at hr
          obtain ⟨ms, m, cs⟩ := x
          obtain ⟨ms', m', cs'⟩ := y
          obtain ⟨h1, h2, h3⟩ := hr
          simp only at h1 h2 h3
          subst h2
          have hb := (q2.trans h3).popBack
          obtain ⟨b, hb1, hb2⟩ := perm_lift Res.core (hf.2 i ms).symm h1
          have hpick := pick_alike hb2
          rw [rawLoopG_round hpk' hx]
          cases hpa : pick (sch.matched i ms) with
          | none =>
            cases hpb : pick b with
            | none =>
              refine ⟨visiting sch i ms' b, visiting_fair hf i hb1, rfl, ?_⟩
              rw [rawLoop_round (sch := visiting sch i ms' b) hpk hy, visiting_here, hpb]
              exact ⟨rfl, hb⟩
            | _ => rw [hpa, hpb] at hpick; cases hpick
          | ambiguous =>
            cases hpb : pick b with
            | ambiguous =>
              refine ⟨visiting sch i ms' b, visiting_fair hf i hb1, rfl, ?_⟩
              rw [rawLoop_round (sch := visiting sch i ms' b) hpk hy, visiting_here, hpb]
              exact ⟨rfl, hb⟩
            | _ => rw [hpa, hpb] at hpick; cases hpick
          | found x =>
            cases hpb : pick b with
            | none => rw [hpa, hpb] at hpick; cases hpick
            | ambiguous => rw [hpa, hpb] at hpick; cases hpick
            | found y =>
              rw [hpa, hpb] at hpick
              have hxy : x.core = y.core := by simpa [Pick.core] using hpick
              have hcu : x.countUsed = y.countUsed := by
                rw [← Res.core_count, hxy, Res.core_count]
              have hst : x.sticky = y.sticky := by rw [← Res.core_sticky, hxy, Res.core_sticky]
              cases hsl : sliceFrom m y.countUsed with
              | panic =>
                refine ⟨visiting sch i ms' b, visiting_fair hf i hb1, rfl, ?_⟩
                rw [rawLoop_round (sch := visiting sch i ms' b) hpk hy, visiting_here, hpb]
                simp only
                rw [hcu, hsl]
                trivial
              | oof =>
                refine ⟨visiting sch i ms' b, visiting_fair hf i hb1, rfl, ?_⟩
                rw [rawLoop_round (sch := visiting sch i ms' b) hpk hy, visiting_here, hpb]
                simp only
                rw [hcu, hsl]
                trivial
              | ok u =>
                obtain ⟨sch2, g1, g2, g3⟩ := ih (i + 1)
                  (if x.sticky then SUGGEST_NOT_SKIP else SUGGEST_SKIP) u (hb.par hp)
                  (next_nodes hn hxy)
                refine ⟨visiting sch2 i ms' b, visiting_fair g1 i hb1, g2, ?_⟩
                have hy' : Grammar.rootsLoop env fuel flag ((visiting sch2 i ms' b).roots i roots) []
                    (s.pushBack unused) = .ok (ms', m, cs') := by
                  have : (visiting sch2 i ms' b).roots = sch.roots := g2
                  rw [this]; exact hy
                rw [rawLoop_round hpk hy', visiting_here, hpb]
                simp only
                rw [hcu, hsl]
                have e : Grammar.rawLoop env fuel roots sch2 n (i + 1) (nodes' ++ y.node.toList)
                    (if x.sticky then SUGGEST_NOT_SKIP else SUGGEST_SKIP) u (cs'.popBack unused) =
                  Grammar.rawLoop env fuel roots (visiting sch2 i ms' b) n (i + 1) (nodes' ++ y.node.toList)
                    (if y.sticky then SUGGEST_NOT_SKIP else SUGGEST_SKIP) u (cs'.popBack unused) := by
                  rw [hst]
                  exact rawLoop_congr (sch := sch2) (sch' := visiting sch2 i ms' b) rfl n (i + 1) _ _ _ _
                    fun j hj => (visiting_other sch2 ms' b (by omega)).symm
                rw [e] at g3
                exact SimG.mono g3 fun _ _ h => Same.trans hb h

/-- The other way round: for every order over the text there is one over the caller's stream. -/
theorem rawLoop_back (hs : Spells I ok rest) {env : Env} {fuel : Nat} {roots : List Record}
    {sch : Sched} (hf : sch.Fair) (n : Nat) : ∀ (i : Nat) {nodes nodes' : List Node} (flag : Int)
    (unused : List Rune) {gs : GStream σ} {s : Stream}, Par w ok rest gs s →
    nodes.map Node.erase = nodes'.map Node.erase →
    ∃ sch' : Sched, sch'.Fair ∧ sch'.roots = sch.roots ∧
      SimG (Same w ok rest gs s) (rawLoop I w env fuel roots sch' n i nodes flag unused gs)
        (Grammar.rawLoop env fuel roots sch n i nodes' flag unused s) := by
  induction n with
  | zero => intro i nodes nodes' flag unused gs s _ _; exact ⟨sch, hf, rfl, trivial⟩
  | succ n ih =>
    intro i nodes nodes' flag unused gs s hp hn
    obtain ⟨q1, q2⟩ := (hp.pushBack unused).peek hs
    have hl : nodes.length = nodes'.length := by simpa using congrArg List.length hn
    by_cases hpk : (s.pushBack unused).peek = EOFChar
    · refine ⟨sch, hf, rfl, ?_⟩
      rw [rawLoop, Grammar.rawLoop]
      simp only
      rw [if_pos hpk, if_pos (by rw [q1]; exact hpk), hl]
      have hb : Both w ok rest gs s (((gs.pushBack unused).peek I).2.popBack unused) s := by
        obtain ⟨k, h1, h2⟩ := q2
        have : k = 0 := by
          have := h2.rem_length
          have := h2.le
          omega
        subst this
        exact ⟨0, by simpa using h1.popBack, Xbnf.Adv.refl hp.2.1⟩
      refine ⟨?_, hb⟩
      simp only
      split
      · rfl
      · exact congrArg Except.ok hn
    · have hpk' : ((gs.pushBack unused).peek I).1 ≠ EOFChar := by rw [q1]; exact hpk
      have hr := rootsLoop_both hs env fuel flag (sch.roots i roots) [] (q2.par (hp.pushBack unused))
      cases hx : rootsLoop I w env fuel flag (sch.roots i roots) [] ((gs.pushBack unused).peek I).2 with
      | panic =>
        cases hy : Grammar.rootsLoop env fuel flag (sch.roots i roots) [] (s.pushBack unused) with
        | panic =>
          refine ⟨sch, hf, rfl, ?_⟩
          rw [rawLoop, Grammar.rawLoop]
          simp only
          rw [if_neg hpk, if_neg hpk', hx, hy]
          trivial
        | oof => rw [hx, hy] at hr; exact hr.elim
        | ok y => rw [hx, hy] at hr; exact hr.elim
      | oof =>
        cases hy : Grammar.rootsLoop env fuel flag (sch.roots i roots) [] (s.pushBack unused) with
        | oof =>
          refine ⟨sch, hf, rfl, ?_⟩
          rw [rawLoop, Grammar.rawLoop]
          simp only
          rw [if_neg hpk, if_neg hpk', hx, hy]
          trivial
        | panic => rw [hx, hy] at hr; exact hr.elim
        | ok y => rw [hx, hy] at hr; exact hr.elim
      | ok x =>
        cases hy : Grammar.rootsLoop env fuel flag (sch.roots i roots) [] (s.pushBack unused) with
        | panic => rw [hx, hy] at hr; exact hr.elim
        | oof => rw [hx, hy] at hr; exact hr.elim
        | ok y =>
          rw [hx, hy] at hr
          obtain ⟨ms, m, cs⟩ := x
          obtain ⟨ms', m', cs'⟩ := y
          obtain ⟨h1, h2, h3⟩ := hr
          simp only at h1 h2 h3
          subst h2
          have hb := (q2.trans h3).popBack
          obtain ⟨b, hb1, hb2⟩ := perm_lift Res.core (hf.2 i ms').symm h1.symm
          have hpick := pick_alike hb2
          rw [rawLoop_round hpk hy]
          cases hpa : pick (sch.matched i ms') with
          | none =>
            cases hpb : pick b with
            | none =>
              refine ⟨visiting sch i ms b, visiting_fair hf i hb1, rfl, ?_⟩
              rw [rawLoopG_round (sch := visiting sch i ms b) hpk' hx, visiting_here, hpb]
              exact ⟨rfl, hb⟩
            | _ => rw [hpa, hpb] at hpick; cases hpick
          | ambiguous =>
            cases hpb : pick b with
            | ambiguous =>
              refine ⟨visiting sch i ms b, visiting_fair hf i hb1, rfl, ?_⟩
              rw [rawLoopG_round (sch := visiting sch i ms b) hpk' hx, visiting_here, hpb]
              exact ⟨rfl, hb⟩
            | _ => rw [hpa, hpb] at hpick; cases hpick
          | found y =>
            cases hpb : pick b with
            | none => rw [hpa, hpb] at hpick; cases hpick
            | ambiguous => rw [hpa, hpb] at hpick; cases hpick
            | found x =>
              rw [hpa, hpb] at hpick
              have hxy : x.core = y.core := by simpa [Pick.core] using hpick.symm
              have hcu : x.countUsed = y.countUsed := by
                rw [← Res.core_count, hxy, Res.core_count]
              have hst : x.sticky = y.sticky := by rw [← Res.core_sticky, hxy, Res.core_sticky]
              cases hsl : sliceFrom m y.countUsed with
              | panic =>
                refine ⟨visiting sch i ms b, visiting_fair hf i hb1, rfl, ?_⟩
                rw [rawLoopG_round (sch := visiting sch i ms b) hpk' hx, visiting_here, hpb]
                simp only
                rw [hcu, hsl]
                trivial
              | oof =>
                refine ⟨visiting sch i ms b, visiting_fair hf i hb1, rfl, ?_⟩
                rw [rawLoopG_round (sch := visiting sch i ms b) hpk' hx, visiting_here, hpb]
                simp only
                rw [hcu, hsl]
                trivial
              | ok u =>
                obtain ⟨sch2, g1, g2, g3⟩ := ih (i + 1)
                  (if x.sticky then SUGGEST_NOT_SKIP else SUGGEST_SKIP) u (hb.par hp)
                  (next_nodes hn hxy)
                refine ⟨visiting sch2 i ms b, visiting_fair g1 i hb1, g2, ?_⟩
                have hx' : rootsLoop I w env fuel flag ((visiting sch2 i ms b).roots i roots) []
                    ((gs.pushBack unused).peek I).2 = .ok (ms, m, cs) := by
                  have : (visiting sch2 i ms b).roots = sch.roots := g2
                  rw [this]; exact hx
                rw [rawLoopG_round hpk' hx', visiting_here, hpb]
                simp only
                rw [hcu, hsl]
                have e : rawLoop I w env fuel roots sch2 n (i + 1) (nodes ++ x.node.toList)
                    (if x.sticky then SUGGEST_NOT_SKIP else SUGGEST_SKIP) u (cs.popBack unused) =
                  rawLoop I w env fuel roots (visiting sch2 i ms b) n (i + 1) (nodes ++ x.node.toList)
                    (if x.sticky then SUGGEST_NOT_SKIP else SUGGEST_SKIP) u (cs.popBack unused) :=
                  rawLoopG_congr (sch := sch2) (sch' := visiting sch2 i ms b) rfl n (i + 1) _ _ _ _
                    fun j hj => (visiting_other sch2 ms b (by omega)).symm
                rw [e] at g3
                rw [← hst]
                exact SimG.mono g3 fun _ _ h => Same.trans hb h

theorem evalRaw_forth (hs : Spells I ok rest) {g : Grammar} {fuel : Nat} {sch : Sched} (hf : sch.Fair)
    {gs : GStream σ} {s : Stream} (h : Par w ok rest gs s) :
    ∃ sch' : Sched, sch'.Fair ∧
      SimG (Same w ok rest gs s) (evalRaw I w g fuel sch gs) (g.evalRaw fuel sch' s) := by
  obtain ⟨q1, q2⟩ := h.peek hs
  unfold evalRaw Grammar.evalRaw
  simp only
  rw [q1]
  by_cases hp : s.peek = EOFChar
  · exact ⟨sch, hf, by rw [if_pos hp, if_pos hp]; exact ⟨rfl, q2⟩⟩
  · obtain ⟨sch', h1, _, h2⟩ := rawLoop_forth (w := w) hs (env := g.env) (fuel := fuel)
      (roots := g.roots) hf fuel 0 (nodes := []) (nodes' := []) SUGGEST_SKIP [] (q2.par h) rfl
    refine ⟨sch', h1, ?_⟩
    rw [if_neg hp, if_neg hp]
    exact SimG.mono h2 fun _ _ h => Same.trans q2 h

theorem evalRaw_back (hs : Spells I ok rest) {g : Grammar} {fuel : Nat} {sch : Sched} (hf : sch.Fair)
    {gs : GStream σ} {s : Stream} (h : Par w ok rest gs s) :
    ∃ sch' : Sched, sch'.Fair ∧
      SimG (Same w ok rest gs s) (evalRaw I w g fuel sch' gs) (g.evalRaw fuel sch s) := by
  obtain ⟨q1, q2⟩ := h.peek hs
  unfold evalRaw Grammar.evalRaw
  simp only
  rw [q1]
  by_cases hp : s.peek = EOFChar
  · exact ⟨sch, hf, by rw [if_pos hp, if_pos hp]; exact ⟨rfl, q2⟩⟩
  · obtain ⟨sch', h1, _, h2⟩ := rawLoop_back (w := w) hs (env := g.env) (fuel := fuel)
      (roots := g.roots) hf fuel 0 (nodes := []) (nodes' := []) SUGGEST_SKIP [] (q2.par h) rfl
    refine ⟨sch', h1, ?_⟩
    rw [if_neg hp, if_neg hp]
    exact SimG.mono h2 fun _ _ h => Same.trans q2 h

theorem simplify_same {level : Int} {gs : GStream σ} {s : Stream}
    {x : Exec (Except RawErr (List Node) × GStream σ)} {y : Exec (Except RawErr (List Node) × Stream)}
    (h : SimG (Same w ok rest gs s) x y) :
    SimG (Same w ok rest gs s) (x >>= fun r => .ok (r.1.map (simplify level), r.2))
      (y >>= fun r => .ok (r.1.map (simplify level), r.2)) := by
  refine SimG.bind h ?_
  rintro ⟨a, gs'⟩ ⟨b, s'⟩ ⟨h1, h2⟩
  refine ⟨?_, h2⟩
  simp only at h1 ⊢
  cases a <;> cases b <;> simp only [Except.map, Except.ok.injEq, Except.error.injEq, reduceCtorEq] at h1 ⊢
  · exact h1
  · rw [← simplify_erase, ← simplify_erase, h1]

end G
end Xbnf
