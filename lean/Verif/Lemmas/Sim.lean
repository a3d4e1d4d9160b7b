import Verif.Lemmas.ListEval
/-
`eval` on a stream is `L.eval` on the characters left, up to positions and error messages, and it
leaves the stream advanced by the number of characters `L.eval` reports.
-/
namespace Xbnf

/-- Two executions with related outcomes. -/
def SimG {α β : Type} (P : α → β → Prop) : Exec α → Exec β → Prop
  | .ok a, .ok b => P a b
  | .panic, .panic => True
  | .oof, .oof => True
  | _, _ => False

theorem SimG.bind {α β γ δ : Type} {P : α → β → Prop} {Q : γ → δ → Prop} {x : Exec α} {y : Exec β}
    {f : α → Exec γ} {g : β → Exec δ} (h : SimG P x y)
    (hf : ∀ a b, P a b → SimG Q (f a) (g b)) : SimG Q (x >>= f) (y >>= g) := by
  cases x <;> cases y <;> first | exact h.elim | exact hf _ _ h | trivial

theorem SimG.same {α γ δ : Type} {Q : γ → δ → Prop} {x : Exec α}
    {f : α → Exec γ} {g : α → Exec δ} (hf : ∀ a, SimG Q (f a) (g a)) :
    SimG Q (x >>= f) (x >>= g) := by
  cases x <;> first | exact hf _ | trivial

/-- Result and stream against result and number of characters consumed from `s`. -/
def RS (s : Stream) (x : Res × Stream) (y : Res × Nat) : Prop :=
  x.1.core = y.1 ∧ Adv y.2 s x.2

theorem Node.erase_leaf (rt b st ch p) :
    (leafNode rt b st ch p).erase = leafNode rt b st ch none := by
  simp [leafNode, Node.erase, eraseL]

theorem Node.erase_branch (rt b st cs p) :
    (branchNode rt b st cs p).erase = branchNode rt b st (eraseL cs) none := by
  simp [branchNode, Node.erase]

theorem skip_spec (flag : Int) {s : Stream} (h : s.WF) :
    (if flag = SUGGEST_SKIP then s.skipSpaces else ([], s)).1 =
        L.spaces (decide (flag = SUGGEST_SKIP)) s.rem ∧
      Adv (L.spaces (decide (flag = SUGGEST_SKIP)) s.rem).length s
        (if flag = SUGGEST_SKIP then s.skipSpaces else ([], s)).2 := by
  by_cases hf : flag = SUGGEST_SKIP
  · simp only [hf, if_true, L.spaces, decide_true]
    exact s.skipSpaces_spec h
  · simp only [hf, if_false, L.spaces, decide_false]
    exact ⟨rfl, Adv.refl h⟩

theorem L.peek_eq {s : Stream} (h : s.WF) : s.peek = L.peek s.rem := Stream.peek_rem h

theorem matchRunes_sim (t : List Rune) {s : Stream} (h : s.WF) :
    (s.matchRunes t).1 = (L.matchK t s.rem).1 ∧ (s.matchRunes t).2.1 = (L.matchK t s.rem).2.1 ∧
      Adv (L.matchK t s.rem).2.2 s (s.matchRunes t).2.2 := by
  induction t generalizing s with
  | nil => exact ⟨rfl, rfl, Adv.refl h⟩
  | cons w ws ih =>
    simp only [Stream.matchRunes]
    cases hr : s.rem with
    | nil =>
      obtain ⟨h1, h2, _⟩ := Stream.next_nil h hr
      rw [if_pos h1]
      exact ⟨rfl, rfl, h2⟩
    | cons c l =>
      obtain ⟨h1, h2, h3⟩ := Stream.next_cons h hr
      rw [h1]
      simp only [L.matchK]
      by_cases hc : c = EOFChar
      · rw [if_pos hc, if_pos hc]
        exact ⟨rfl, rfl, h2⟩
      · rw [if_neg hc, if_neg hc]
        by_cases hw : c = w
        · rw [if_neg (by simpa using hw), if_neg (by simpa using hw)]
          have := ih h2.wf.2
          rw [h3] at this
          refine ⟨by rw [this.1], this.2.1, ?_⟩
          rw [Nat.add_comm]
          exact h2.trans this.2.2
        · rw [if_pos hw, if_pos hw]
          exact ⟨rfl, rfl, h2⟩

theorem evalEOF_sim (b : RuleBase) (flag : Int) {s : Stream} (h : s.WF) :
    RS s (evalEOF b flag s) (L.evalEOF b flag s.rem) := by
  obtain ⟨h1, h2⟩ := skip_spec flag h
  unfold evalEOF L.evalEOF
  generalize hsk : (if flag = SUGGEST_SKIP then s.skipSpaces else ([], s)) = sk at *
  simp only
  rw [L.peek_eq h2.wf.2, h2.rem]
  split
  · refine ⟨?_, ?_⟩
    · simp [Res.core, Node.erase, eraseL, h1]
    · simpa using h2.trans (Stream.position_adv h2.wf.2)
  · exact ⟨by simp [Res.core, h1], h2⟩

theorem next_one {s : Stream} (h : s.WF) :
    s.next.1 = L.peek s.rem ∧ Adv (L.one s.rem) s s.next.2 := s.next_spec h

theorem evalChar_sim (b : RuleBase) (t : Rune) (flag : Int) {s : Stream} (h : s.WF) :
    RS s (evalChar b t flag s) (L.evalChar b t flag s.rem) := by
  unfold evalChar L.evalChar
  rw [L.peek_eq h]
  split
  · exact ⟨by simp [Res.core], Adv.refl h⟩
  · have hp := Stream.position_adv h
    have hpr := Stream.position_rem h
    obtain ⟨h1, h2⟩ := skip_spec flag hp.wf.2
    rw [hpr] at h1 h2
    have h2' := hp.trans h2
    rw [Nat.zero_add] at h2'
    simp only
    generalize hsk : (if flag = SUGGEST_SKIP then s.position.2.skipSpaces else ([], s.position.2)) = sk at *
    rw [h1]
    generalize L.spaces (decide (flag = SUGGEST_SKIP)) s.rem = l at *
    split
    · cases l.findIdx? (· == t)
      · exact ⟨by simp [Res.core], h2'⟩
      · exact ⟨by simp [Res.core, Node.erase_leaf], h2'⟩
    · rw [L.peek_eq h2.wf.2, h2'.rem]
      split
      · exact ⟨by simp [Res.core], h2'⟩
      · have hp2 := Stream.position_adv h2.wf.2
        have hn := next_one hp2.wf.2
        rw [Stream.position_rem h2.wf.2, h2'.rem] at hn
        refine ⟨by simp [Res.core, Node.erase_leaf, hn.1], ?_⟩
        have := h2'.trans (hp2.trans hn.2)
        simpa using this

theorem evalRange_sim (b : RuleBase) (x y : Rune) (flag : Int) {s : Stream} (h : s.WF) :
    RS s (evalRange b x y flag s) (L.evalRange b x y flag s.rem) := by
  unfold evalRange L.evalRange
  rw [L.peek_eq h]
  split
  · exact ⟨by simp [Res.core], Adv.refl h⟩
  · obtain ⟨h1, h2⟩ := skip_spec flag h
    simp only
    generalize hsk : (if flag = SUGGEST_SKIP then s.skipSpaces else ([], s)) = sk at *
    rw [h1]
    generalize L.spaces (decide (flag = SUGGEST_SKIP)) s.rem = l at *
    cases l.findIdx? (fun c => decide (x ≤ c) && decide (c ≥ y)) with
    | some i => exact ⟨by simp [Res.core, Node.erase_leaf], h2⟩
    | none =>
      have hp2 := Stream.position_adv h2.wf.2
      have hp3 := h2.trans hp2
      rw [Nat.add_zero] at hp3
      simp only
      rw [L.peek_eq hp2.wf.2, hp3.rem]
      split
      · have hn := next_one hp2.wf.2
        rw [hp3.rem] at hn
        exact ⟨by simp [Res.core, Node.erase_leaf, hn.1], hp3.trans hn.2⟩
      · exact ⟨by simp [Res.core], hp3⟩

theorem matchText_sim (t : List Rune) (skip : Bool) {s : Stream} (h : s.WF) :
    (matchText t skip s).2.1 = (L.matchText t skip s.rem).1 ∧
      (matchText t skip s).2.2.1 = (L.matchText t skip s.rem).2.1 ∧
      Adv (L.matchText t skip s.rem).2.2 s (matchText t skip s).2.2.2 := by
  unfold matchText L.matchText
  cases skip with
  | false =>
    obtain ⟨h1, h2, h3⟩ := matchRunes_sim t h
    exact ⟨h1, h2, h3⟩
  | true =>
    obtain ⟨h1, h2⟩ := s.skipSpaces_spec h
    simp only [if_true]
    rw [h1]
    split
    · exact ⟨rfl, rfl, h2⟩
    · split
      · exact ⟨rfl, rfl, h2⟩
      · obtain ⟨g1, g2, g3⟩ := matchRunes_sim (t.drop (leadingWhiteSpace t).length) h2.wf.2
        rw [h2.rem] at g1 g2 g3
        exact ⟨by rw [g1], g2, h2.trans g3⟩

theorem evalChars_sim (b : RuleBase) (t : List Rune) (flag : Int) {s : Stream} (h : s.WF) :
    RS s (evalChars b t flag s) (L.evalText .chars b true (decide (flag = SUGGEST_SKIP)) t s.rem) := by
  unfold evalChars L.evalText
  rw [L.peek_eq h]
  split
  · exact ⟨by simp [Res.core], Adv.refl h⟩
  · have hp := Stream.position_adv h
    obtain ⟨h1, h2, h3⟩ := matchText_sim t (decide (flag = SUGGEST_SKIP)) hp.wf.2
    rw [Stream.position_rem h] at h1 h2 h3
    have h3' := hp.trans h3
    rw [Nat.zero_add] at h3'
    simp only
    rw [h1, h2]
    split
    · exact ⟨by simp [Res.core, Node.erase_leaf], h3'⟩
    · exact ⟨by simp [Res.core], h3'⟩

theorem evalString_sim (b : RuleBase) (t : List Rune) (flag : Int) {s : Stream} (h : s.WF) :
    RS s (evalString b t flag s)
      (L.evalText .string b false (decide (flag = SUGGEST_SKIP ∨ flag = SUGGEST_NOT_SKIP)) t s.rem) := by
  unfold evalString L.evalText
  rw [L.peek_eq h]
  split
  · exact ⟨by simp [Res.core], Adv.refl h⟩
  · have hp := Stream.position_adv h
    obtain ⟨h1, h2, h3⟩ := matchText_sim t (decide (flag = SUGGEST_SKIP ∨ flag = SUGGEST_NOT_SKIP)) hp.wf.2
    rw [Stream.position_rem h] at h1 h2 h3
    have h3' := hp.trans h3
    rw [Nat.zero_add] at h3'
    simp only
    rw [h1, h2]
    split
    · exact ⟨by simp [Res.core, Node.erase_leaf], h3'⟩
    · exact ⟨by simp [Res.core], h3'⟩

/-! ### Composite rules -/

/-- The two evaluators agree. -/
def EvSim (ev : Evaluator) (evL : L.Ev) : Prop :=
  ∀ r flag s, s.WF → SimG (RS s) (ev r flag s) (evL r flag s.rem)

theorem Res.core_read (r : Res) : r.core.read = r.read := by cases r; rfl
theorem Res.core_unused (r : Res) : r.core.unused = r.unused := by cases r; rfl
theorem Res.core_sticky (r : Res) : r.core.sticky = r.sticky := rfl
theorem Res.core_count (r : Res) : r.core.countUsed = r.countUsed := rfl
theorem Res.core_charsUsed (r : Res) : r.core.charsUsed = r.charsUsed := rfl
theorem Res.core_node (r : Res) : r.core.node = r.node.map Node.erase := rfl
theorem account_core (a b : List Rune) (r : Res) : account a b r.core = account a b r := rfl

theorem nextFlag_erase (flag : Int) (n : Node) (st : Bool) :
    nextFlag flag n.erase st = nextFlag flag n st := by
  cases n with
  | mk rt nm ch cs p st' v nd tk =>
    simp [nextFlag, Node.erase, eraseL_eq_map]

/-- The variables of a sequence loop without positions. -/
def SeqState.core (st : SeqState) : SeqState :=
  { st with pos := none, nodes := eraseL st.nodes }

theorem eraseL_append (a b : List Node) : eraseL (a ++ b) = eraseL a ++ eraseL b := by
  simp [eraseL_eq_map]

theorem concatLoop_sim {ev evL} (hev : EvSim ev evL) (b : Rule) (rs : List Rule) (st : SeqState)
    (s : Stream) (h : s.WF) :
    SimG (RS s) (concatLoop ev b rs st s) (L.concatLoop evL b.base rs st.core s.rem) := by
  induction rs generalizing st s with
  | nil =>
    unfold concatLoop L.concatLoop
    exact ⟨by simp [Res.core, Node.erase_branch, SeqState.core], Adv.refl h⟩
  | cons r rs ih =>
    unfold concatLoop L.concatLoop
    have h0 := hev r st.flag (s.pushBack st.unused) (Stream.wf_pushBack h _)
    rw [Stream.rem_pushBack] at h0
    refine SimG.bind h0 ?_
    rintro ⟨res, cs⟩ ⟨res', k⟩ ⟨e, hadv⟩
    simp only at e hadv
    subst e
    simp only [account_core, Res.core_sticky, Res.core_node]
    have e1 : st.core.unused = st.unused := rfl
    have e2 : st.core.read = st.read := rfl
    rw [e1, e2]
    refine SimG.same ?_
    rintro ⟨read, unused⟩
    simp only
    cases hn : res.node with
    | none =>
      exact ⟨by simp [Res.core, SeqState.core], hadv.popBack⟩
    | some n =>
      simp only [Option.map_some]
      have := ih { read := read, unused := unused, sticky := st.sticky && res.sticky,
                   pos := firstPos st.pos n.pos, flag := nextFlag st.flag n res.sticky,
                   nodes := st.nodes ++ [n] } cs hadv.wf.2
      rw [hadv.rem, Stream.rem_pushBack] at this
      refine SimG.bind (P := RS cs) ?_ ?_
      · have hst : ({ read := read, unused := unused, sticky := st.sticky && res.sticky,
                      pos := firstPos st.pos n.pos, flag := nextFlag st.flag n res.sticky,
                      nodes := st.nodes ++ [n] } : SeqState).core =
            { read := read, unused := unused, sticky := st.core.sticky && res.sticky,
              flag := nextFlag st.core.flag n.erase res.sticky,
              nodes := st.core.nodes ++ [n.erase] } := by
          simp [SeqState.core, eraseL_append, eraseL, nextFlag_erase]
        rw [hst] at this
        exact this
      · rintro ⟨out, cs'⟩ ⟨out', k2⟩ ⟨e, hadv2⟩
        exact ⟨e, (hadv.trans hadv2).popBack⟩

theorem repLoop_sim {ev evL} (hev : EvSim ev evL) (r : Rule) (max fuel : Nat) (st : SeqState)
    (s : Stream) (h : s.WF) :
    SimG (fun (x : SeqState × Option Res × Stream) y => x.1.core = y.1 ∧ Adv y.2 s x.2.2)
      (repLoop ev r max fuel st s) (L.repLoop evL r max fuel st.core s.rem) := by
  induction fuel generalizing st s with
  | zero => trivial
  | succ fuel ih =>
    unfold repLoop L.repLoop
    have e1 : st.core.unused = st.unused := rfl
    have e2 : st.core.read = st.read := rfl
    simp only [e1, e2]
    rw [L.peek_eq (Stream.wf_pushBack h _), Stream.rem_pushBack]
    split
    · exact ⟨rfl, Adv.refl h⟩
    · have h0 := hev r st.flag (s.pushBack st.unused) (Stream.wf_pushBack h _)
      rw [Stream.rem_pushBack] at h0
      refine SimG.bind h0 ?_
      rintro ⟨res, cs⟩ ⟨res', k⟩ ⟨e, hadv⟩
      simp only at e hadv
      subst e
      simp only [account_core, Res.core_sticky, Res.core_node]
      refine SimG.same ?_
      rintro ⟨read, unused⟩
      simp only
      cases hn : res.node with
      | none => exact ⟨rfl, hadv.popBack⟩
      | some n =>
        simp only [Option.map_some]
        have hl : (st.core.nodes ++ [n.erase]).length = (st.nodes ++ [n]).length := by
          simp [SeqState.core, eraseL_eq_map]
        rw [hl]
        have hst : ({ st with read := read, unused := unused, sticky := st.sticky && res.sticky, pos := firstPos st.pos n.pos, nodes := st.nodes ++ [n] } : SeqState).core =
            { st.core with read := read, unused := unused, sticky := st.core.sticky && res.sticky, pos := none, nodes := st.core.nodes ++ [n.erase] } := by
          simp [SeqState.core, eraseL_append, eraseL]
        split
        · exact ⟨hst, hadv.popBack⟩
        · have := ih { st with read := read, unused := unused, sticky := st.sticky && res.sticky, pos := firstPos st.pos n.pos, nodes := st.nodes ++ [n] } cs hadv.wf.2
          rw [hadv.rem, Stream.rem_pushBack, hst] at this
          refine SimG.bind this ?_
          rintro ⟨out, why, cs'⟩ ⟨out', k2⟩ ⟨e, hadv2⟩
          exact ⟨e, (hadv.trans hadv2).popBack⟩

theorem repFinish_core (b : Rule) (mn : Nat) (st : SeqState) (why : Option Res) (s : Stream) :
    (repFinish b mn st why s).core = L.repFinish b.base mn st.core := by
  unfold repFinish L.repFinish
  have hl : st.core.nodes.length = st.nodes.length := by simp [SeqState.core, eraseL_eq_map]
  rw [hl]
  simp only
  by_cases hm : st.nodes.length < mn
  · simp only [if_pos hm, Res.core, SeqState.core, Option.map_none]
  · simp only [if_neg hm, Res.core, SeqState.core, Option.map_some, Node.erase_branch]

theorem evalRep_sim {ev evL} (hev : EvSim ev evL) (fuel : Nat) (b : RuleBase) (r : Rule)
    (mn mx : Nat) (flag : Int) (s : Stream) (h : s.WF) :
    SimG (RS s) (evalRep ev fuel b r mn mx flag s) (L.evalRep evL fuel b r mn mx flag s.rem) := by
  unfold evalRep L.evalRep
  refine SimG.bind (repLoop_sim hev r mx fuel { flag := flag } s h) ?_
  rintro ⟨st, why, s'⟩ ⟨st', k⟩ ⟨e, hadv⟩
  simp only at e hadv
  subst e
  exact ⟨repFinish_core _ _ _ _ _, hadv⟩

/-- The outcome of choosing without positions. -/
def Pick.core : Pick → Pick
  | .found r => .found r.core
  | .none => .none
  | .ambiguous x y => .ambiguous x.core y.core

theorem pickLoop_core (m : Int) (best : Option Res) (rs : List Res) :
    pickLoop m (best.map Res.core) (rs.map Res.core) = (pickLoop m best rs).core := by
  induction rs generalizing m best with
  | nil => cases best <;> simp [pickLoop, Pick.core]
  | cons r rs ih =>
    have e : ∀ b : Option Res, pickLoop m b (r :: rs) =
      if r.countUsed < m then pickLoop m b rs
      else if r.countUsed = m ∧ b.isSome then .ambiguous (b.getD {}) r
      else pickLoop r.countUsed (some r) rs := by intro b; cases b <;> rfl
    have e' : ∀ b : Option Res, pickLoop m b (r.core :: rs.map Res.core) =
      if r.core.countUsed < m then pickLoop m b (rs.map Res.core)
      else if r.core.countUsed = m ∧ b.isSome then .ambiguous (b.getD {}) r.core
      else pickLoop r.core.countUsed (some r.core) (rs.map Res.core) := by intro b; cases b <;> rfl
    rw [List.map_cons, e, e', Res.core_count]
    have hb : (best.map Res.core).isSome = best.isSome := by cases best <;> rfl
    rw [hb]
    split
    · exact ih m best
    · split
      · cases best <;> rfl
      · exact ih r.countUsed (some r)

theorem pick_core (rs : List Res) : pick (rs.map Res.core) = (pick rs).core := by
  match rs with
  | [] => rfl
  | [r] => rfl
  | r :: r' :: rs => exact pickLoop_core 0 none (r :: r' :: rs)

theorem choiceGroup_sim {ev evL} (hev : EvSim ev evL) (flag : Int) (rs : List Rule)
    (st : ChoiceState) (s : Stream) (h : s.WF) :
    SimG (fun (x : List Res × ChoiceState × Stream) y =>
        x.1.map Res.core = y.1 ∧ x.2.1.read = y.2.1 ∧ x.2.1.sticky = y.2.2.1 ∧ Adv y.2.2.2 s x.2.2)
      (choiceGroup ev flag rs st s) (L.choiceGroup evL flag rs st.read st.sticky s.rem) := by
  induction rs generalizing st s with
  | nil => exact ⟨rfl, rfl, rfl, Adv.refl h⟩
  | cons r rs ih =>
    unfold choiceGroup L.choiceGroup
    have h0 := hev r flag (s.pushBack st.read) (Stream.wf_pushBack h _)
    rw [Stream.rem_pushBack] at h0
    refine SimG.bind h0 ?_
    rintro ⟨res, cs⟩ ⟨res', k⟩ ⟨e, hadv⟩
    simp only at e hadv
    subst e
    have hpop := hadv.popBack
    simp only [Res.core_sticky, Res.core_node, Res.core_read, Option.isSome_map]
    rw [← hpop.rem]
    have hg : ∀ st' : ChoiceState, st'.sticky = (st.sticky && res.sticky) →
        st'.read = (if st.read.length < res.read.length then res.read else st.read) →
        SimG (fun (x : List Res × ChoiceState × Stream) y =>
          x.1.map Res.core = y.1 ∧ x.2.1.read = y.2.1 ∧ x.2.1.sticky = y.2.2.1 ∧
            Adv y.2.2.2 (cs.popBack st.read) x.2.2)
          (choiceGroup ev flag rs st' (cs.popBack st.read))
          (L.choiceGroup evL flag rs (if st.read.length < res.read.length then res.read else st.read)
            (st.sticky && res.sticky) (cs.popBack st.read).rem) := by
      intro st' h1 h2
      have := ih st' (cs.popBack st.read) hpop.wf.2
      rwa [h1, h2] at this
    cases hn : res.node with
    | some n =>
      simp only
      refine SimG.bind (hg _ rfl rfl) ?_
      rintro ⟨ms, st', s'⟩ ⟨ms', read', sticky', k2⟩ ⟨e1, e2, e3, hadv2⟩
      refine ⟨?_, e2, e3, hpop.trans hadv2⟩
      simp only [Option.isSome_some, if_true, List.map_cons]
      exact congrArg _ e1
    | none =>
      simp only
      have key : ∀ st' : ChoiceState, st'.sticky = (st.sticky && res.sticky) →
        st'.read = (if st.read.length < res.read.length then res.read else st.read) → 
        SimG (fun (x : List Res × ChoiceState × Stream) y =>
          x.1.map Res.core = y.1 ∧ x.2.1.read = y.2.1 ∧ x.2.1.sticky = y.2.2.1 ∧
            Adv y.2.2.2 s x.2.2)
          (choiceGroup ev flag rs st' (cs.popBack st.read))
          ((L.choiceGroup evL flag rs (if st.read.length < res.read.length then res.read else st.read)
            (st.sticky && res.sticky) (cs.popBack st.read).rem) >>= fun x =>
            match x with
            | (ms, read'', sticky'', k2) =>
              Exec.ok (if (none : Option Node).isSome = true then res.core :: ms else ms,
                read'', sticky'', k - st.read.length + k2)) := by
        intro st' h1 h2
        have := hg st' h1 h2
        generalize choiceGroup ev flag rs st' (cs.popBack st.read) = x at *
        generalize L.choiceGroup evL flag rs _ _ _ = y at *
        match x, y, this with
        | .ok (ms, st', s'), .ok (ms', read', sticky', k2), ⟨e1, e2, e3, hadv2⟩ =>
          exact ⟨e1, e2, e3, hpop.trans hadv2⟩
        | .panic, .panic, _ => trivial
        | .oof, .oof, _ => trivial
      split
      · exact key _ rfl rfl
      · exact key _ rfl rfl

theorem choiceLoop_sim {ev evL} (hev : EvSim ev evL) (b : Rule) (flag : Int)
    (gs : List (List Rule)) (st : ChoiceState) (s : Stream) (h : s.WF) :
    SimG (RS s) (choiceLoop ev b flag gs st s) (L.choiceLoop evL b.base flag gs st.read st.sticky s.rem) := by
  induction gs generalizing st s with
  | nil => exact ⟨by simp [Res.core], Adv.refl h⟩
  | cons g gs ih =>
    unfold choiceLoop L.choiceLoop
    refine SimG.bind (choiceGroup_sim hev flag g st s h) ?_
    rintro ⟨ms, st', s'⟩ ⟨ms', read', sticky', k⟩ ⟨e1, e2, e3, hadv⟩
    simp only at e1 e2 e3 hadv
    subst e1; subst e2; subst e3
    simp only [pick_core]
    cases hp : pick ms with
    | none =>
      simp only [Pick.core]
      rw [← hadv.rem]
      have := ih st' s' hadv.wf.2
      generalize choiceLoop ev b flag gs st' s' = x at *
      generalize L.choiceLoop evL b.base flag gs _ _ _ = y at *
      match x, y, this with
      | .ok (r, s2), .ok (r', k2), ⟨e1, hadv2⟩ => exact ⟨e1, hadv.trans hadv2⟩
      | .panic, .panic, _ => trivial
      | .oof, .oof, _ => trivial
    | ambiguous => exact ⟨by simp [Res.core], hadv⟩
    | found r =>
      simp only [Pick.core, Res.core_count]
      refine SimG.same ?_
      intro unused
      refine ⟨?_, hadv⟩
      simp only [Res.core]
      cases r.node <;> simp [Node.erase_branch, eraseL]

theorem greedyLoop_sim {ev evL} (hev : EvSim ev evL) (flag : Int) (rs : List Rule)
    (maxRead : List Rune) (s : Stream) (h : s.WF) :
    SimG (fun (x : List Res × List Rune × Stream) y =>
        x.1.map Res.core = y.1 ∧ x.2.1 = y.2.1 ∧ Adv y.2.2 s x.2.2)
      (greedyLoop ev flag rs maxRead s) (L.greedyLoop evL flag rs maxRead s.rem) := by
  induction rs generalizing maxRead s with
  | nil => exact ⟨rfl, rfl, Adv.refl h⟩
  | cons r rs ih =>
    unfold greedyLoop L.greedyLoop
    have h0 := hev r flag (s.pushBack maxRead) (Stream.wf_pushBack h _)
    rw [Stream.rem_pushBack] at h0
    refine SimG.bind h0 ?_
    rintro ⟨res, cs⟩ ⟨res', k⟩ ⟨e, hadv⟩
    simp only at e hadv
    subst e
    have hpop := hadv.popBack
    simp only [Res.core_read, Res.core_node]
    rw [← hpop.rem]
    refine SimG.bind (ih _ _ hpop.wf.2) ?_
    rintro ⟨ms, m, s'⟩ ⟨ms', m', k2⟩ ⟨e1, e2, hadv2⟩
    simp only at e1 e2 hadv2
    subst e1; subst e2
    simp only [Option.isSome_map]
    cases res.node.isSome
    · exact ⟨rfl, rfl, hpop.trans hadv2⟩
    · exact ⟨rfl, rfl, hpop.trans hadv2⟩

theorem mostGreedy_sim {ev evL} (hev : EvSim ev evL) (flag : Int) (rs : List Rule) (s : Stream)
    (h : s.WF) : SimG (RS s) (mostGreedy ev flag rs s) (L.mostGreedy evL flag rs s.rem) := by
  unfold mostGreedy L.mostGreedy
  refine SimG.bind (greedyLoop_sim hev flag rs [] s h) ?_
  rintro ⟨ms, m, s'⟩ ⟨ms', m', k⟩ ⟨e1, e2, hadv⟩
  simp only at e1 e2 hadv
  subst e1; subst e2
  simp only [pick_core]
  cases pick ms with
  | none => exact ⟨by simp [Res.core], hadv⟩
  | ambiguous => exact ⟨by simp [Res.core], hadv⟩
  | found r =>
    simp only [Pick.core, Res.core_count]
    refine SimG.same ?_
    intro unused
    exact ⟨by simp [Res.core], hadv⟩

/-- The end of a block loop without positions. -/
def BlockEnd.core : BlockEnd → BlockEnd
  | .excluded t r => .excluded t r
  | .closed a b c d => .closed a b c.core d
  | .eof a b => .eof a b

theorem exclRead_none (u1 : List Rune) : L.exclRead ((none : Option Res).map Res.core) u1 = u1 := by
  cases u1 <;> rfl

theorem exclRead_some (r : Res) (u1 : List Rune) :
    L.exclRead ((some r).map Res.core) u1 = r.read := by
  cases r; rfl

theorem blockLoop_sim {ev evL} (hev : EvSim ev evL) (close : Rule) (escape : Option Rule)
    (excludes : List Rule) (fuel : Nat) (st : BlockState) (s : Stream) (h : s.WF) :
    SimG (fun (x : BlockEnd × Stream) y => x.1.core = y.1 ∧ Adv y.2 s x.2)
      (blockLoop ev close escape excludes fuel st s)
      (L.blockLoop evL close escape excludes fuel st s.rem) := by
  induction fuel generalizing st s with
  | zero => trivial
  | succ fuel ih =>
    unfold blockLoop L.blockLoop
    -- escape
    refine SimG.bind (P := fun (x : Bool × List Rune × List Rune × List Rune × Stream)
        (y : Bool × List Rune × List Rune × List Rune × Nat) =>
        x.1 = y.1 ∧ x.2.1 = y.2.1 ∧ x.2.2.1 = y.2.2.1 ∧ x.2.2.2.1 = y.2.2.2.1 ∧
          Adv y.2.2.2.2 s x.2.2.2.2) ?_ ?_
    · unfold L.blockEscape
      cases escape with
      | none => exact ⟨rfl, rfl, rfl, rfl, Adv.refl h⟩
      | some e =>
        refine SimG.bind (hev e NOT_SKIP s h) ?_
        rintro ⟨res, s'⟩ ⟨res', k⟩ ⟨e, hadv⟩
        simp only at e hadv
        subst e
        simp only [Res.core_node, Option.isSome_map, Res.core_charsUsed]
        split
        · refine SimG.same ?_
          intro c
          exact ⟨rfl, rfl, rfl, rfl, hadv⟩
        · exact ⟨rfl, rfl, rfl, rfl, hadv⟩
    · rintro ⟨escaped, escapeChars, used, u1, s1⟩ ⟨_, _, _, _, k0⟩ ⟨rfl, rfl, rfl, rfl, hadv0⟩
      simp only at hadv0
      simp only
      rw [← hadv0.rem, ← Stream.rem_pushBack]
      have hw1 : (s1.pushBack u1).WF := Stream.wf_pushBack hadv0.wf.2 _
      -- excludes
      refine SimG.bind (P := fun (x : Option Res × Stream) (y : Option Res × Nat) =>
          x.1.map Res.core = y.1 ∧ Adv y.2 (s1.pushBack u1) x.2) ?_ ?_
      · unfold L.blockExclude
        split
        · refine SimG.bind (mostGreedy_sim hev NOT_SKIP excludes _ hw1) ?_
          rintro ⟨res, cs⟩ ⟨res', k⟩ ⟨e, hadv⟩
          exact ⟨by simpa using e, hadv⟩
        · exact ⟨rfl, Adv.refl hw1⟩
      · rintro ⟨rx, cs1⟩ ⟨_, k1⟩ ⟨rfl, hadv1⟩
        simp only at hadv1
        have hpop1 := hadv1.popBack
        simp only
        have hbind : (rx.map Res.core).bind (fun r => r.node.map (fun _ => r)) =
            (rx.bind (fun r => r.node.map (fun _ => r))).map Res.core := by
          cases rx with
          | none => rfl
          | some r => cases hn : r.node <;> simp [Res.core, hn]
        rw [hbind]
        cases hrx : rx.bind (fun r => r.node.map (fun _ => r)) with
        | some r =>
          simp only [Option.map_some, Res.core_charsUsed]
          refine SimG.same ?_
          intro c
          cases escaped with
          | true =>
            simp only [if_true]
            rw [← hadv1.rem]
            refine SimG.bind (ih _ cs1 hadv1.wf.2) ?_
            rintro ⟨out, cs'⟩ ⟨_, k2⟩ ⟨rfl, hadv2⟩
            exact ⟨rfl, hadv0.trans (hadv1.trans hadv2).popBack⟩
          | false =>
            exact ⟨rfl, hadv0.trans hpop1⟩
        | none =>
          simp only [Option.map_none]
          have hw2 : ∀ u2, (cs1.pushBack u2).WF := fun u2 => Stream.wf_pushBack hadv1.wf.2 u2
          rcases rx with _ | r0
          all_goals
            simp only [exclRead_none, exclRead_some]
            rw [← hadv1.rem, ← Stream.rem_pushBack]
            refine SimG.bind (hev close NOT_SKIP _ (hw2 _)) ?_
            rintro ⟨rc, cs2⟩ ⟨_, k2⟩ ⟨rfl, hadv2⟩
            simp only at hadv2
            simp only [Res.core_node, Res.core_unused]
            cases hn : rc.node with
            | some n =>
              simp only [Option.map_some, Res.core_charsUsed]
              refine SimG.same ?_
              intro c
              cases escaped with
              | true =>
                simp only [if_true]
                rw [← hadv2.rem]
                refine SimG.bind (ih _ cs2 hadv2.wf.2) ?_
                rintro ⟨out, cs'⟩ ⟨_, k3⟩ ⟨rfl, hadv3⟩
                exact ⟨rfl, hadv0.trans (hadv1.trans (hadv2.trans hadv3).popBack).popBack⟩
              | false =>
                exact ⟨rfl, hadv0.trans (hadv1.trans hadv2.popBack).popBack⟩
            | none =>
              simp only [Option.map_none]
              have hw3 : (cs2.pushBack rc.unused).WF := Stream.wf_pushBack hadv2.wf.2 _
              rw [← hadv2.rem, ← Stream.rem_pushBack, L.peek_eq hw3]
              split
              · exact ⟨rfl, hadv0.trans (hadv1.trans hadv2.popBack).popBack⟩
              · have hn := next_one hw3
                rw [← hn.2.rem, hn.1]
                refine SimG.bind (ih _ _ hn.2.wf.2) ?_
                rintro ⟨out, cs'⟩ ⟨_, k3⟩ ⟨rfl, hadv3⟩
                exact ⟨rfl, hadv0.trans
                  (hadv1.trans (hadv2.trans (hn.2.trans hadv3).popBack).popBack).popBack⟩

theorem evalBlock_sim {ev evL} (hev : EvSim ev evL) (fuel : Nat) (b : RuleBase) (opn : Rule)
    (v : Bool) (close : Rule) (escape : Option Rule) (excludes : List Rule) (flag : Int)
    (s : Stream) (h : s.WF) :
    SimG (RS s) (evalBlock ev fuel b opn v close escape excludes flag s)
      (L.evalBlock evL fuel b opn v close escape excludes flag s.rem) := by
  unfold evalBlock L.evalBlock
  refine SimG.bind (hev opn flag s h) ?_
  rintro ⟨ro, s1⟩ ⟨_, k⟩ ⟨rfl, hadv⟩
  simp only at hadv
  simp only [Res.core_node, Res.core_read, Res.core_unused, Res.core_count]
  cases hn : ro.node with
  | none => exact ⟨by simp [Res.core], hadv⟩
  | some n =>
    simp only [Option.map_some]
    refine SimG.same ?_
    intro used
    have hw : (s1.pushBack ro.unused).WF := Stream.wf_pushBack hadv.wf.2 _
    have hp := Stream.position_adv hw
    have hb := blockLoop_sim hev close escape excludes fuel { used := used, unused := ro.unused } _ hp.wf.2
    rw [Stream.position_rem hw, Stream.rem_pushBack, hadv.rem] at hb
    refine SimG.bind hb ?_
    rintro ⟨e, cs⟩ ⟨_, k2⟩ ⟨rfl, hadv2⟩
    simp only at hadv2
    have hadv3 := hp.trans hadv2
    rw [Nat.zero_add] at hadv3
    have hfin := hadv.trans hadv3.popBack
    cases e with
    | excluded read => exact ⟨by simp [Res.core], hfin⟩
    | eof a c => exact ⟨by simp [Res.core], hfin⟩
    | closed a c rc content =>
      refine ⟨?_, hfin⟩
      simp only [Res.core, Option.map_some, Node.erase_branch]
      congr 3
      cases v
      · cases hrc : rc.node <;> simp [eraseL, Node.erase]
      · simp [eraseL, Node.erase]

theorem groupRes_core (b : RuleBase) (r : Res) : (groupRes b r).core = groupRes b r.core := by
  unfold groupRes
  cases hn : r.node <;> simp [Res.core, hn, Node.erase_branch, eraseL]

theorem Node.erase_pos (n : Node) : n.erase.pos = none := by cases n; simp [Node.erase]

theorem optionRes_core (b : RuleBase) (r : Res) : (optionRes b r).core = optionRes b r.core := by
  unfold optionRes
  cases hn : r.node <;> simp [Res.core, hn, Node.erase_branch, eraseL, Node.erase_pos]

theorem refRes_core (b : RuleBase) (r : Res) : (refRes b r).core = refRes b r.core := by
  unfold refRes
  cases hn : r.node with
  | none => simp [Res.core, hn]
  | some n => cases n; simp [Res.core, hn, Node.erase]

theorem eval_sim (env : Env) (fuel : Nat) : EvSim (eval env fuel) (L.eval env fuel) := by
  induction fuel with
  | zero => intro r flag s h; trivial
  | succ fuel ih =>
    intro r flag s h
    cases r with
    | eof b => exact evalEOF_sim b flag h
    | char b t u => exact evalChar_sim b t flag h
    | range b x xu y yu => exact evalRange_sim b x y flag h
    | chars b t => exact evalChars_sim b t flag h
    | str b t => exact evalString_sim b t flag h
    | group b r =>
      refine SimG.bind (ih r flag s h) ?_
      rintro ⟨res, s'⟩ ⟨_, k⟩ ⟨rfl, hadv⟩
      exact ⟨groupRes_core b res, hadv⟩
    | option b r =>
      refine SimG.bind (ih r flag s h) ?_
      rintro ⟨res, s'⟩ ⟨_, k⟩ ⟨rfl, hadv⟩
      exact ⟨optionRes_core b res, hadv⟩
    | rep b r mn mx => exact evalRep_sim ih fuel b r mn mx flag s h
    | choice b gs => exact choiceLoop_sim ih (.choice b _) flag gs {} s h
    | concat b rs => exact concatLoop_sim ih (.concat b _) rs { flag := flag } s h
    | block b o v c e x => exact evalBlock_sim ih fuel b o v c e x flag s h
    | ref b name =>
      simp only [eval, L.eval]
      cases hn : env name with
      | none => exact ⟨by simp [Res.core], Adv.refl h⟩
      | some r =>
        refine SimG.bind (ih r flag s h) ?_
        rintro ⟨res, s'⟩ ⟨_, k⟩ ⟨rfl, hadv⟩
        exact ⟨refRes_core b res, hadv⟩

end Xbnf
