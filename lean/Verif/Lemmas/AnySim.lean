import Verif.Lemmas.AnyStream
/-
Evaluation over an implementation of `ICharstream` that spells a text is `L.eval` on the characters
left, up to positions and error messages.  The proofs follow `Verif/Lemmas/Sim.lean`.
-/
namespace Xbnf
namespace G

open Spec (Spells)

variable {σ : Type} {I : Impl σ} {w : Nat} {ok : σ → Prop} {rest : σ → List Rune}

/-- Result and stream against result and number of characters consumed from `s`. -/
def RS (w : Nat) (ok : σ → Prop) (rest : σ → List Rune) (s : GStream σ) (x : Res × GStream σ)
    (y : Res × Nat) : Prop :=
  x.1.core = y.1 ∧ Adv w ok rest y.2 s x.2

theorem SimG.of_ok {α β γ : Type} {P : α → β → Prop} {x : Exec γ} {c : γ} {f : γ → Exec α} {y : Exec β}
    (hx : x = .ok c) (h : SimG P (f c) y) : SimG P (x >>= f) y := by
  subst hx; exact h

theorem skip_adv (hs : Spells I ok rest) (flag : Int) {s : GStream σ} (h : WF w ok rest s) :
    ∃ s', skip I w flag s = .ok (L.spaces (decide (flag = SUGGEST_SKIP)) (rem rest s), s') ∧
      Adv w ok rest (L.spaces (decide (flag = SUGGEST_SKIP)) (rem rest s)).length s s' := by
  unfold skip
  by_cases hf : flag = SUGGEST_SKIP
  · simp only [hf, if_true, L.spaces, decide_true]
    exact skipSpaces_adv hs h
  · simp only [hf, if_false, L.spaces, decide_false]
    exact ⟨s, rfl, Adv.refl h⟩

theorem failed_sim (hs : Spells I ok rest) (e : Err) (read unused : List Rune) (sticky : Bool)
    {s s' : GStream σ} {k : Nat} (h : Adv w ok rest k s s') :
    SimG (RS w ok rest s) (failed I e read unused sticky s')
      (.ok ({ read := read, unused := unused, sticky := sticky }, k)) :=
  ⟨by simp [Res.core], h.trans (cursor_adv hs h.wf.2)⟩

theorem Adv.rem0 {s s' : GStream σ} (h : Adv w ok rest 0 s s') : G.rem rest s' = G.rem rest s := by
  simpa using h.rem

theorem evalEOF_sim (hs : Spells I ok rest) (b : RuleBase) (flag : Int) {s : GStream σ}
    (h : WF w ok rest s) :
    SimG (RS w ok rest s) (evalEOF I w b flag s) (.ok (L.evalEOF b flag (rem rest s))) := by
  obtain ⟨s1, e1, h1⟩ := skip_adv hs flag h
  unfold evalEOF L.evalEOF
  refine SimG.of_ok e1 ?_
  obtain ⟨p1, p2⟩ := peek_adv hs h1.wf.2
  have h2 := h1.trans p2
  simp only
  rw [p1, h1.rem]
  split
  · exact ⟨by simp [Res.core, Node.erase, eraseL], by simpa using h2.trans (position_adv hs h2.wf.2)⟩
  · exact failed_sim hs _ _ _ _ h2

theorem evalChar_sim (hs : Spells I ok rest) (b : RuleBase) (t : Rune) (flag : Int) {s : GStream σ}
    (h : WF w ok rest s) :
    SimG (RS w ok rest s) (evalChar I w b t flag s) (.ok (L.evalChar b t flag (rem rest s))) := by
  obtain ⟨p1, p2⟩ := peek_adv hs h
  unfold evalChar L.evalChar
  simp only
  rw [p1]
  split
  · exact failed_sim hs _ _ _ _ p2
  · have h1 := p2.trans (position_adv hs p2.wf.2)
    obtain ⟨s2, e2, h2⟩ := skip_adv hs flag h1.wf.2
    refine SimG.of_ok e2 ?_
    rw [h1.rem0] at h2 ⊢
    have h2 := h1.trans h2
    rw [Nat.zero_add] at h2
    generalize hl : L.spaces (decide (flag = SUGGEST_SKIP)) (rem rest s) = l at *
    simp only
    split
    · cases l.findIdx? (· == t)
      · exact failed_sim hs _ _ _ _ h2
      · have h3 := h2.trans (cursor_adv hs h2.wf.2)
        exact ⟨by simp [Res.core, Node.erase_leaf], h3.trans (lookup_adv hs _ h3.wf.2)⟩
    · obtain ⟨q1, q2⟩ := peek_adv hs h2.wf.2
      have h3 := h2.trans q2
      rw [q1, h2.rem]
      split
      · exact failed_sim hs _ _ _ _ h3
      · have h4 := h3.trans (position_adv hs h3.wf.2)
        obtain ⟨n1, n2⟩ := next_adv hs h4.wf.2
        have e4 := h4.rem
        simp only [Nat.add_zero] at h4 e4
        rw [e4] at n1 n2
        exact ⟨by simp [Res.core, Node.erase_leaf, n1], h4.trans n2⟩

theorem evalRange_sim (hs : Spells I ok rest) (b : RuleBase) (x y : Rune) (flag : Int) {s : GStream σ}
    (h : WF w ok rest s) :
    SimG (RS w ok rest s) (evalRange I w b x y flag s) (.ok (L.evalRange b x y flag (rem rest s))) := by
  obtain ⟨p1, p2⟩ := peek_adv hs h
  unfold evalRange L.evalRange
  simp only
  rw [p1]
  split
  · exact failed_sim hs _ _ _ _ p2
  · have h0 := p2.trans (cursor_adv hs p2.wf.2)
    have h1 := h0.trans (lookup_adv hs (((s.peek I).2.cursor I).1 - 1) h0.wf.2)
    obtain ⟨s2, e2, h2⟩ := skip_adv hs flag h1.wf.2
    refine SimG.of_ok e2 ?_
    rw [h1.rem0] at h2 ⊢
    have h2 := h1.trans h2
    rw [Nat.add_zero, Nat.zero_add] at h2
    generalize hl : L.spaces (decide (flag = SUGGEST_SKIP)) (rem rest s) = l at *
    simp only
    cases l.findIdx? (fun c => decide (x ≤ c) && decide (c ≥ y)) with
    | some i => exact ⟨by simp [Res.core, Node.erase_leaf], h2⟩
    | none =>
      have h3 := h2.trans (position_adv hs h2.wf.2)
      obtain ⟨q1, q2⟩ := peek_adv hs h3.wf.2
      have h4 := h3.trans q2
      have e3 := h3.rem
      have e4 := h4.rem
      simp only [Nat.add_zero] at h3 h4 e3 e4
      simp only
      rw [q1, e3]
      split
      · obtain ⟨n1, n2⟩ := next_adv hs h4.wf.2
        rw [e4] at n1 n2
        exact ⟨by simp [Res.core, Node.erase_leaf, n1], h4.trans n2⟩
      · exact failed_sim hs _ _ _ _ h4

theorem matchText_adv (hs : Spells I ok rest) (t : List Rune) (skip : Bool) {s : GStream σ}
    (h : WF w ok rest s) :
    ∃ sk s', matchText I w t skip s =
        .ok (sk, (L.matchText t skip (rem rest s)).1, (L.matchText t skip (rem rest s)).2.1, s') ∧
      Adv w ok rest (L.matchText t skip (rem rest s)).2.2 s s' := by
  unfold matchText L.matchText
  cases skip with
  | false =>
    obtain ⟨h1, h2, h3⟩ := matchRunes_adv hs t h
    exact ⟨[], _, by simp [h1, h2], h3⟩
  | true =>
    obtain ⟨s1, e1, h1⟩ := skipSpaces_adv hs h
    simp only [if_true]
    rw [e1]
    simp only [bind, Exec.bind]
    split
    · exact ⟨_, _, rfl, h1⟩
    · split
      · exact ⟨_, _, rfl, h1⟩
      · obtain ⟨g1, g2, g3⟩ := matchRunes_adv hs (t.drop (leadingWhiteSpace t).length) h1.wf.2
        rw [h1.rem] at g1 g2 g3
        exact ⟨_, _, by rw [g1, g2], h1.trans g3⟩

theorem evalChars_sim (hs : Spells I ok rest) (b : RuleBase) (t : List Rune) (flag : Int)
    {s : GStream σ} (h : WF w ok rest s) :
    SimG (RS w ok rest s) (evalChars I w b t flag s)
      (.ok (L.evalText .chars b true (decide (flag = SUGGEST_SKIP)) t (rem rest s))) := by
  obtain ⟨p1, p2⟩ := peek_adv hs h
  unfold evalChars L.evalText
  simp only
  rw [p1]
  split
  · exact failed_sim hs _ _ _ _ p2
  · have h0 := p2.trans (position_adv hs p2.wf.2)
    have h1 := h0.trans (cursor_adv hs h0.wf.2)
    obtain ⟨sk, s2, e2, h2⟩ := matchText_adv hs t (decide (flag = SUGGEST_SKIP)) h1.wf.2
    refine SimG.of_ok e2 ?_
    rw [h1.rem0] at h2 ⊢
    have h2 := h1.trans h2
    simp only [Nat.add_zero, Nat.zero_add] at h2
    simp only
    split
    · exact ⟨by simp [Res.core, Node.erase_leaf], h2.trans (lookup_adv hs _ h2.wf.2)⟩
    · exact failed_sim hs _ _ _ _ h2

theorem evalString_sim (hs : Spells I ok rest) (b : RuleBase) (t : List Rune) (flag : Int)
    {s : GStream σ} (h : WF w ok rest s) :
    SimG (RS w ok rest s) (evalString I w b t flag s)
      (.ok (L.evalText .string b false (decide (flag = SUGGEST_SKIP ∨ flag = SUGGEST_NOT_SKIP)) t
        (rem rest s))) := by
  obtain ⟨p1, p2⟩ := peek_adv hs h
  unfold evalString L.evalText
  simp only
  rw [p1]
  split
  · exact failed_sim hs _ _ _ _ p2
  · have h1 := p2.trans (position_adv hs p2.wf.2)
    obtain ⟨sk, s2, e2, h2⟩ :=
      matchText_adv hs t (decide (flag = SUGGEST_SKIP ∨ flag = SUGGEST_NOT_SKIP)) h1.wf.2
    refine SimG.of_ok e2 ?_
    rw [h1.rem0] at h2 ⊢
    have h2 := h1.trans h2
    simp only [Nat.add_zero, Nat.zero_add] at h2
    simp only
    split
    · have h3 := h2.trans (cursor_adv hs h2.wf.2)
      exact ⟨by simp [Res.core, Node.erase_leaf], h3.trans (lookup_adv hs _ h3.wf.2)⟩
    · exact failed_sim hs _ _ _ _ h2

/-! ### Composite rules -/

/-- The two evaluators agree. -/
def EvSim (w : Nat) (ok : σ → Prop) (rest : σ → List Rune) (ev : Evaluator σ) (evL : L.Ev) : Prop :=
  ∀ r flag s, WF w ok rest s → SimG (RS w ok rest s) (ev r flag s) (evL r flag (rem rest s))

theorem repFinish_sim (hs : Spells I ok rest) (b : Rule) (mn : Nat) (st : SeqState)
    (why : Option Res) {s : GStream σ} (h : WF w ok rest s) :
    (repFinish I b mn st why s).1.core = L.repFinish b.base mn st.core ∧
      Adv w ok rest 0 s (repFinish I b mn st why s).2 := by
  have hc := cursor_adv hs h
  have hk : Adv w ok rest 0 s (if why.isSome then s.cursor I else (0, s)).2 := by
    split
    · exact hc
    · exact Adv.refl h
  unfold repFinish L.repFinish
  have hl : st.core.nodes.length = st.nodes.length := by simp [SeqState.core, eraseL_eq_map]
  rw [hl]
  simp only
  by_cases hm : st.nodes.length < mn
  · simp only [if_pos hm, Res.core, SeqState.core, Option.map_none]
    refine ⟨trivial, ?_⟩
    generalize (if why.isSome then s.cursor I else (0, s)) = k at *
    split
    · exact hk
    · exact hk.trans (cursor_adv hs hk.wf.2)
  · simp only [if_neg hm, Res.core, SeqState.core, Option.map_some, Node.erase_branch]
    exact ⟨trivial, hk⟩

theorem concatLoop_sim {ev evL} (hev : EvSim w ok rest ev evL) (b : Rule) (rs : List Rule) (st : SeqState)
    (s : GStream σ) (h : WF w ok rest s) :
    SimG (RS w ok rest s) (concatLoop ev b rs st s) (L.concatLoop evL b.base rs st.core (rem rest s)) := by
  induction rs generalizing st s with
  | nil =>
    unfold concatLoop L.concatLoop
    exact ⟨by simp [Res.core, Node.erase_branch, SeqState.core], Adv.refl h⟩
  | cons r rs ih =>
    unfold concatLoop L.concatLoop
    have h0 := hev r st.flag (s.pushBack st.unused) (wf_pushBack h _)
    rw [rem_pushBack] at h0
    refine SimG.bind h0 ?_
    rintro ⟨res, cs⟩ ⟨res', k⟩ ⟨e, hadv⟩
    simp only at e hadv
    subst e
    simp only [account_core, Res.core_sticky, Res.core_node]
    have e1 : st.core.unused = st.unused := rfl
    have e2 : st.core.read = st.read := rfl
    rw [e1, e2]
    refine SimG.same ?_
    rintro ⟨read, unused⟩
    simp only
    cases hn : res.node with
    | none =>
      exact ⟨by simp [Res.core, SeqState.core], hadv.popBack⟩
    | some n =>
      simp only [Option.map_some]
      have := ih { read := read, unused := unused, sticky := st.sticky && res.sticky,
                   pos := firstPos st.pos n.pos, flag := nextFlag st.flag n res.sticky,
                   nodes := st.nodes ++ [n] } cs hadv.wf.2
      rw [hadv.rem, rem_pushBack] at this
      refine SimG.bind (P := RS w ok rest cs) ?_ ?_
      · have hst : ({ read := read, unused := unused, sticky := st.sticky && res.sticky,
                      pos := firstPos st.pos n.pos, flag := nextFlag st.flag n res.sticky,
                      nodes := st.nodes ++ [n] } : SeqState).core =
            { read := read, unused := unused, sticky := st.core.sticky && res.sticky,
              flag := nextFlag st.core.flag n.erase res.sticky,
              nodes := st.core.nodes ++ [n.erase] } := by
          simp [SeqState.core, eraseL_append, eraseL, nextFlag_erase]
        rw [hst] at this
        exact this
      · rintro ⟨out, cs'⟩ ⟨out', k2⟩ ⟨e, hadv2⟩
        exact ⟨e, (hadv.trans hadv2).popBack⟩

theorem repLoop_sim (hs : Spells I ok rest) {ev evL} (hev : EvSim w ok rest ev evL) (r : Rule) (max fuel : Nat) (st : SeqState)
    (s : GStream σ) (h : WF w ok rest s) :
    SimG (fun (x : SeqState × Option Res × GStream σ) y => x.1.core = y.1 ∧ Adv w ok rest y.2 s x.2.2)
      (repLoop I ev r max fuel st s) (L.repLoop evL r max fuel st.core (rem rest s)) := by
  induction fuel generalizing st s with
  | zero => trivial
  | succ fuel ih =>
    unfold repLoop L.repLoop
    have e1 : st.core.unused = st.unused := rfl
    have e2 : st.core.read = st.read := rfl
    simp only [e1, e2]
    obtain ⟨p1, p2⟩ := peek_adv hs (wf_pushBack h st.unused)
    have p3 := p2.popBack
    rw [Nat.zero_sub] at p3
    have hpr : rem rest ((s.pushBack st.unused).peek I).2 = st.unused ++ rem rest s := by
      rw [← rem_pushBack]; simpa using p2.rem
    rw [rem_pushBack] at p1
    rw [p1]
    split
    · exact ⟨rfl, p3⟩
    · have h0 := hev r st.flag _ p2.wf.2
      rw [hpr] at h0
      refine SimG.bind h0 ?_
      rintro ⟨res, cs⟩ ⟨res', k⟩ ⟨e, hadv⟩
      simp only at e hadv
      subst e
      have hadv := p2.trans hadv
      rw [Nat.zero_add] at hadv
      simp only [account_core, Res.core_sticky, Res.core_node]
      refine SimG.same ?_
      rintro ⟨read, unused⟩
      simp only
      cases hn : res.node with
      | none => exact ⟨rfl, hadv.popBack⟩
      | some n =>
        simp only [Option.map_some]
        have hl : (st.core.nodes ++ [n.erase]).length = (st.nodes ++ [n]).length := by
          simp [SeqState.core, eraseL_eq_map]
        rw [hl]
        have hst : ({ st with read := read, unused := unused, sticky := st.sticky && res.sticky, pos := firstPos st.pos n.pos, nodes := st.nodes ++ [n] } : SeqState).core =
            { st.core with read := read, unused := unused, sticky := st.core.sticky && res.sticky, pos := none, nodes := st.core.nodes ++ [n.erase] } := by
          simp [SeqState.core, eraseL_append, eraseL]
        split
        · exact ⟨hst, hadv.popBack⟩
        · have := ih { st with read := read, unused := unused, sticky := st.sticky && res.sticky, pos := firstPos st.pos n.pos, nodes := st.nodes ++ [n] } cs hadv.wf.2
          rw [hadv.rem, rem_pushBack, hst] at this
          refine SimG.bind this ?_
          rintro ⟨out, why, cs'⟩ ⟨out', k2⟩ ⟨e, hadv2⟩
          exact ⟨e, (hadv.trans hadv2).popBack⟩

theorem evalRep_sim (hs : Spells I ok rest) {ev evL} (hev : EvSim w ok rest ev evL) (fuel : Nat) (b : RuleBase) (r : Rule)
    (mn mx : Nat) (flag : Int) (s : GStream σ) (h : WF w ok rest s) :
    SimG (RS w ok rest s) (evalRep I ev fuel b r mn mx flag s) (L.evalRep evL fuel b r mn mx flag (rem rest s)) := by
  unfold evalRep L.evalRep
  refine SimG.bind (repLoop_sim hs hev r mx fuel { flag := flag } s h) ?_
  rintro ⟨st, why, s'⟩ ⟨st', k⟩ ⟨e, hadv⟩
  simp only at e hadv
  subst e
  obtain ⟨f1, f2⟩ := repFinish_sim hs (.rep b r mn mx) mn st why hadv.wf.2
  exact ⟨f1, hadv.trans f2⟩

theorem choiceGroup_sim {ev evL} (hev : EvSim w ok rest ev evL) (flag : Int) (rs : List Rule)
    (st : ChoiceState) (s : GStream σ) (h : WF w ok rest s) :
    SimG (fun (x : List Res × ChoiceState × GStream σ) y =>
        x.1.map Res.core = y.1 ∧ x.2.1.read = y.2.1 ∧ x.2.1.sticky = y.2.2.1 ∧ Adv w ok rest y.2.2.2 s x.2.2)
      (choiceGroup ev flag rs st s) (L.choiceGroup evL flag rs st.read st.sticky (rem rest s)) := by
  induction rs generalizing st s with
  | nil => exact ⟨rfl, rfl, rfl, Adv.refl h⟩
  | cons r rs ih =>
    unfold choiceGroup L.choiceGroup
    have h0 := hev r flag (s.pushBack st.read) (wf_pushBack h _)
    rw [rem_pushBack] at h0
    refine SimG.bind h0 ?_
    rintro ⟨res, cs⟩ ⟨res', k⟩ ⟨e, hadv⟩
    simp only at e hadv
    subst e
    have hpop := hadv.popBack
    simp only [Res.core_sticky, Res.core_node, Res.core_read, Option.isSome_map]
    rw [← hpop.rem]
    have hg : ∀ st' : ChoiceState, st'.sticky = (st.sticky && res.sticky) →
        st'.read = (if st.read.length < res.read.length then res.read else st.read) →
        SimG (fun (x : List Res × ChoiceState × GStream σ) y =>
          x.1.map Res.core = y.1 ∧ x.2.1.read = y.2.1 ∧ x.2.1.sticky = y.2.2.1 ∧
            Adv w ok rest y.2.2.2 (cs.popBack st.read) x.2.2)
          (choiceGroup ev flag rs st' (cs.popBack st.read))
          (L.choiceGroup evL flag rs (if st.read.length < res.read.length then res.read else st.read)
            (st.sticky && res.sticky) (rem rest (cs.popBack st.read))) := by
      intro st' h1 h2
      have := ih st' (cs.popBack st.read) hpop.wf.2
      rwa [h1, h2] at this
    cases hn : res.node with
    | some n =>
      simp only
      refine SimG.bind (hg _ rfl rfl) ?_
      rintro ⟨ms, st', s'⟩ ⟨ms', read', sticky', k2⟩ ⟨e1, e2, e3, hadv2⟩
      refine ⟨?_, e2, e3, hpop.trans hadv2⟩
      simp only [Option.isSome_some, if_true, List.map_cons]
      exact congrArg _ e1
    | none =>
      simp only
      have key : ∀ st' : ChoiceState, st'.sticky = (st.sticky && res.sticky) →
        st'.read = (if st.read.length < res.read.length then res.read else st.read) → 
        SimG (fun (x : List Res × ChoiceState × GStream σ) y =>
          x.1.map Res.core = y.1 ∧ x.2.1.read = y.2.1 ∧ x.2.1.sticky = y.2.2.1 ∧
            Adv w ok rest y.2.2.2 s x.2.2)
          (choiceGroup ev flag rs st' (cs.popBack st.read))
          ((L.choiceGroup evL flag rs (if st.read.length < res.read.length then res.read else st.read)
            (st.sticky && res.sticky) (rem rest (cs.popBack st.read))) >>= fun x =>
            match x with
            | (ms, read'', sticky'', k2) =>
              Exec.ok (if (none : Option Node).isSome = true then res.core :: ms else ms,
                read'', sticky'', k - st.read.length + k2)) := by
        intro st' h1 h2
        have := hg st' h1 h2
        generalize choiceGroup ev flag rs st' (cs.popBack st.read) = x at *
        generalize L.choiceGroup evL flag rs _ _ _ = y at *
        match x, y, this with
        | .ok (ms, st', s'), .ok (ms', read', sticky', k2), ⟨e1, e2, e3, hadv2⟩ =>
          exact ⟨e1, e2, e3, hpop.trans hadv2⟩
        | .panic, .panic, _ => trivial
        | .oof, .oof, _ => trivial
      split
      · exact key _ rfl rfl
      · exact key _ rfl rfl

theorem choiceLoop_sim {ev evL} (hev : EvSim w ok rest ev evL) (b : Rule) (flag : Int)
    (gs : List (List Rule)) (st : ChoiceState) (s : GStream σ) (h : WF w ok rest s) :
    SimG (RS w ok rest s) (choiceLoop ev b flag gs st s) (L.choiceLoop evL b.base flag gs st.read st.sticky (rem rest s)) := by
  induction gs generalizing st s with
  | nil => exact ⟨by simp [Res.core], Adv.refl h⟩
  | cons g gs ih =>
    unfold choiceLoop L.choiceLoop
    refine SimG.bind (choiceGroup_sim hev flag g st s h) ?_
    rintro ⟨ms, st', s'⟩ ⟨ms', read', sticky', k⟩ ⟨e1, e2, e3, hadv⟩
    simp only at e1 e2 e3 hadv
    subst e1; subst e2; subst e3
    simp only [pick_core]
    cases hp : pick ms with
    | none =>
      simp only [Pick.core]
      rw [← hadv.rem]
      have := ih st' s' hadv.wf.2
      generalize choiceLoop ev b flag gs st' s' = x at *
      generalize L.choiceLoop evL b.base flag gs _ _ _ = y at *
      match x, y, this with
      | .ok (r, s2), .ok (r', k2), ⟨e1, hadv2⟩ => exact ⟨e1, hadv.trans hadv2⟩
      | .panic, .panic, _ => trivial
      | .oof, .oof, _ => trivial
    | ambiguous => exact ⟨by simp [Res.core], hadv⟩
    | found r =>
      simp only [Pick.core, Res.core_count]
      refine SimG.same ?_
      intro unused
      refine ⟨?_, hadv⟩
      simp only [Res.core]
      cases r.node <;> simp [Node.erase_branch, eraseL]

theorem greedyLoop_sim {ev evL} (hev : EvSim w ok rest ev evL) (flag : Int) (rs : List Rule)
    (maxRead : List Rune) (s : GStream σ) (h : WF w ok rest s) :
    SimG (fun (x : List Res × List Rune × GStream σ) y =>
        x.1.map Res.core = y.1 ∧ x.2.1 = y.2.1 ∧ Adv w ok rest y.2.2 s x.2.2)
      (greedyLoop ev flag rs maxRead s) (L.greedyLoop evL flag rs maxRead (rem rest s)) := by
  induction rs generalizing maxRead s with
  | nil => exact ⟨rfl, rfl, Adv.refl h⟩
  | cons r rs ih =>
    unfold greedyLoop L.greedyLoop
    have h0 := hev r flag (s.pushBack maxRead) (wf_pushBack h _)
    rw [rem_pushBack] at h0
    refine SimG.bind h0 ?_
    rintro ⟨res, cs⟩ ⟨res', k⟩ ⟨e, hadv⟩
    simp only at e hadv
    subst e
    have hpop := hadv.popBack
    simp only [Res.core_read, Res.core_node]
    rw [← hpop.rem]
    refine SimG.bind (ih _ _ hpop.wf.2) ?_
    rintro ⟨ms, m, s'⟩ ⟨ms', m', k2⟩ ⟨e1, e2, hadv2⟩
    simp only at e1 e2 hadv2
    subst e1; subst e2
    simp only [Option.isSome_map]
    cases res.node.isSome
    · exact ⟨rfl, rfl, hpop.trans hadv2⟩
    · exact ⟨rfl, rfl, hpop.trans hadv2⟩

theorem mostGreedy_sim {ev evL} (hev : EvSim w ok rest ev evL) (flag : Int) (rs : List Rule) (s : GStream σ)
    (h : WF w ok rest s) : SimG (RS w ok rest s) (mostGreedy ev flag rs s) (L.mostGreedy evL flag rs (rem rest s)) := by
  unfold mostGreedy L.mostGreedy
  refine SimG.bind (greedyLoop_sim hev flag rs [] s h) ?_
  rintro ⟨ms, m, s'⟩ ⟨ms', m', k⟩ ⟨e1, e2, hadv⟩
  simp only at e1 e2 hadv
  subst e1; subst e2
  simp only [pick_core]
  cases pick ms with
  | none => exact ⟨by simp [Res.core], hadv⟩
  | ambiguous => exact ⟨by simp [Res.core], hadv⟩
  | found r =>
    simp only [Pick.core, Res.core_count]
    refine SimG.same ?_
    intro unused
    exact ⟨by simp [Res.core], hadv⟩

theorem blockLoop_sim (hs : Spells I ok rest) {ev evL} (hev : EvSim w ok rest ev evL) (close : Rule) (escape : Option Rule)
    (excludes : List Rule) (fuel : Nat) (st : BlockState) (s : GStream σ) (h : WF w ok rest s) :
    SimG (fun (x : BlockEnd × GStream σ) y => x.1.core = y.1 ∧ Adv w ok rest y.2 s x.2)
      (blockLoop I ev close escape excludes fuel st s)
      (L.blockLoop evL close escape excludes fuel st (rem rest s)) := by
  induction fuel generalizing st s with
  | zero => trivial
  | succ fuel ih =>
    unfold blockLoop L.blockLoop
    -- escape
    refine SimG.bind (P := fun (x : Bool × List Rune × List Rune × List Rune × GStream σ)
        (y : Bool × List Rune × List Rune × List Rune × Nat) =>
        x.1 = y.1 ∧ x.2.1 = y.2.1 ∧ x.2.2.1 = y.2.2.1 ∧ x.2.2.2.1 = y.2.2.2.1 ∧
          Adv w ok rest y.2.2.2.2 s x.2.2.2.2) ?_ ?_
    · unfold L.blockEscape
      cases escape with
      | none => exact ⟨rfl, rfl, rfl, rfl, Adv.refl h⟩
      | some e =>
        refine SimG.bind (hev e NOT_SKIP s h) ?_
        rintro ⟨res, s'⟩ ⟨res', k⟩ ⟨e, hadv⟩
        simp only at e hadv
        subst e
        simp only [Res.core_node, Option.isSome_map, Res.core_charsUsed]
        split
        · refine SimG.same ?_
          intro c
          exact ⟨rfl, rfl, rfl, rfl, hadv⟩
        · exact ⟨rfl, rfl, rfl, rfl, hadv⟩
    · rintro ⟨escaped, escapeChars, used, u1, s1⟩ ⟨_, _, _, _, k0⟩ ⟨rfl, rfl, rfl, rfl, hadv0⟩
      simp only at hadv0
      simp only
      rw [← hadv0.rem, ← rem_pushBack]
      have hw1 : WF w ok rest (s1.pushBack u1) := wf_pushBack hadv0.wf.2 _
      -- excludes
      refine SimG.bind (P := fun (x : Option Res × GStream σ) (y : Option Res × Nat) =>
          x.1.map Res.core = y.1 ∧ Adv w ok rest y.2 (s1.pushBack u1) x.2) ?_ ?_
      · unfold L.blockExclude
        split
        · refine SimG.bind (mostGreedy_sim hev NOT_SKIP excludes _ hw1) ?_
          rintro ⟨res, cs⟩ ⟨res', k⟩ ⟨e, hadv⟩
          exact ⟨by simpa using e, hadv⟩
        · exact ⟨rfl, Adv.refl hw1⟩
      · rintro ⟨rx, cs1⟩ ⟨_, k1⟩ ⟨rfl, hadv1⟩
        simp only at hadv1
        have hpop1 := hadv1.popBack
        simp only
        have hbind : (rx.map Res.core).bind (fun r => r.node.map (fun _ => r)) =
            (rx.bind (fun r => r.node.map (fun _ => r))).map Res.core := by
          cases rx with
          | none => rfl
          | some r => cases hn : r.node <;> simp [Res.core, hn]
        rw [hbind]
        cases hrx : rx.bind (fun r => r.node.map (fun _ => r)) with
        | some r =>
          simp only [Option.map_some, Res.core_charsUsed]
          refine SimG.same ?_
          intro c
          cases escaped with
          | true =>
            simp only [if_true]
            rw [← hadv1.rem]
            refine SimG.bind (ih _ cs1 hadv1.wf.2) ?_
            rintro ⟨out, cs'⟩ ⟨_, k2⟩ ⟨rfl, hadv2⟩
            exact ⟨rfl, hadv0.trans (hadv1.trans hadv2).popBack⟩
          | false =>
            exact ⟨rfl, hadv0.trans hpop1⟩
        | none =>
          simp only [Option.map_none]
          have hw2 : ∀ u2, WF w ok rest (cs1.pushBack u2) := fun u2 => wf_pushBack hadv1.wf.2 u2
          rcases rx with _ | r0
          all_goals
            simp only [exclRead_none, exclRead_some]
            rw [← hadv1.rem, ← rem_pushBack]
            refine SimG.bind (hev close NOT_SKIP _ (hw2 _)) ?_
            rintro ⟨rc, cs2⟩ ⟨_, k2⟩ ⟨rfl, hadv2⟩
            simp only at hadv2
            simp only [Res.core_node, Res.core_unused]
            cases hn : rc.node with
            | some n =>
              simp only [Option.map_some, Res.core_charsUsed]
              refine SimG.same ?_
              intro c
              cases escaped with
              | true =>
                simp only [if_true]
                rw [← hadv2.rem]
                refine SimG.bind (ih _ cs2 hadv2.wf.2) ?_
                rintro ⟨out, cs'⟩ ⟨_, k3⟩ ⟨rfl, hadv3⟩
                exact ⟨rfl, hadv0.trans (hadv1.trans (hadv2.trans hadv3).popBack).popBack⟩
              | false =>
                exact ⟨rfl, hadv0.trans (hadv1.trans hadv2.popBack).popBack⟩
            | none =>
              simp only [Option.map_none]
              have hw3 : WF w ok rest (cs2.pushBack rc.unused) := wf_pushBack hadv2.wf.2 _
              obtain ⟨q1, q2⟩ := peek_adv hs hw3
              rw [← hadv2.rem, ← rem_pushBack, q1]
              split
              · have q3 := q2.popBack
                rw [Nat.zero_sub] at q3
                exact ⟨rfl, hadv0.trans (hadv1.trans (hadv2.trans q3).popBack).popBack⟩
              · have hn := next_adv hs q2.wf.2
                have hqr : rem rest ((cs2.pushBack rc.unused).peek I).2 = rem rest (cs2.pushBack rc.unused) := by
                  simpa using q2.rem
                rw [hqr] at hn
                have hq := q2.trans hn.2
                rw [Nat.zero_add] at hq
                rw [← hq.rem, hn.1]
                refine SimG.bind (ih _ _ hn.2.wf.2) ?_
                rintro ⟨out, cs'⟩ ⟨_, k3⟩ ⟨rfl, hadv3⟩
                exact ⟨rfl, hadv0.trans
                  (hadv1.trans (hadv2.trans (hq.trans hadv3).popBack).popBack).popBack⟩

theorem evalBlock_sim (hs : Spells I ok rest) {ev evL} (hev : EvSim w ok rest ev evL) (fuel : Nat) (b : RuleBase) (opn : Rule)
    (v : Bool) (close : Rule) (escape : Option Rule) (excludes : List Rule) (flag : Int)
    (s : GStream σ) (h : WF w ok rest s) :
    SimG (RS w ok rest s) (evalBlock I ev fuel b opn v close escape excludes flag s)
      (L.evalBlock evL fuel b opn v close escape excludes flag (rem rest s)) := by
  unfold evalBlock L.evalBlock
  refine SimG.bind (hev opn flag s h) ?_
  rintro ⟨ro, s1⟩ ⟨_, k⟩ ⟨rfl, hadv⟩
  simp only at hadv
  simp only [Res.core_node, Res.core_read, Res.core_unused, Res.core_count]
  cases hn : ro.node with
  | none => exact ⟨by simp [Res.core], hadv.trans (cursor_adv hs hadv.wf.2)⟩
  | some n =>
    simp only [Option.map_some]
    refine SimG.same ?_
    intro used
    have hw : WF w ok rest (s1.pushBack ro.unused) := wf_pushBack hadv.wf.2 _
    have hp := position_adv hs hw
    have hb := blockLoop_sim hs hev close escape excludes fuel { used := used, unused := ro.unused } _ hp.wf.2
    rw [show rem rest ((s1.pushBack ro.unused).position I).2 = _ by simpa using hp.rem, rem_pushBack, hadv.rem] at hb
    refine SimG.bind hb ?_
    rintro ⟨e, cs⟩ ⟨_, k2⟩ ⟨rfl, hadv2⟩
    simp only at hadv2
    have hadv3 := hp.trans hadv2
    rw [Nat.zero_add] at hadv3
    have hfin := hadv.trans hadv3.popBack
    cases e with
    | excluded t read => exact failed_sim hs _ _ _ _ hfin
    | eof a c => exact failed_sim hs _ _ _ _ hfin
    | closed a c rc content =>
      refine ⟨?_, hfin⟩
      simp only [Res.core, Option.map_some, Node.erase_branch]
      congr 3
      cases v
      · cases hrc : rc.node <;> simp [eraseL, Node.erase]
      · simp [eraseL, Node.erase]

theorem eval_sim (hs : Spells I ok rest) (env : Env) (fuel : Nat) :
    EvSim w ok rest (eval I w env fuel) (L.eval env fuel) := by
  induction fuel with
  | zero => intro r flag s h; trivial
  | succ fuel ih =>
    intro r flag s h
    cases r with
    | eof b => exact evalEOF_sim hs b flag h
    | char b t u => exact evalChar_sim hs b t flag h
    | range b x xu y yu => exact evalRange_sim hs b x y flag h
    | chars b t => exact evalChars_sim hs b t flag h
    | str b t => exact evalString_sim hs b t flag h
    | group b r =>
      refine SimG.bind (ih r flag s h) ?_
      rintro ⟨res, s'⟩ ⟨_, k⟩ ⟨rfl, hadv⟩
      exact ⟨groupRes_core b res, hadv⟩
    | option b r =>
      refine SimG.bind (ih r flag s h) ?_
      rintro ⟨res, s'⟩ ⟨_, k⟩ ⟨rfl, hadv⟩
      exact ⟨optionRes_core b res, hadv⟩
    | rep b r mn mx => exact evalRep_sim hs ih fuel b r mn mx flag s h
    | choice b gs => exact choiceLoop_sim ih (.choice b _) flag gs {} s h
    | concat b rs => exact concatLoop_sim ih (.concat b _) rs { flag := flag } s h
    | block b o v c e x => exact evalBlock_sim hs ih fuel b o v c e x flag s h
    | ref b name =>
      simp only [eval, L.eval]
      cases hn : env name with
      | none => exact ⟨by simp [Res.core], Adv.refl h⟩
      | some r =>
        refine SimG.bind (ih r flag s h) ?_
        rintro ⟨res, s'⟩ ⟨_, k⟩ ⟨rfl, hadv⟩
        exact ⟨refRes_core b res, hadv⟩

end G
end Xbnf
