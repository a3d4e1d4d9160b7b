import Verif.Lemmas.Sim
import Verif.Lemmas.Places
import Verif.Spec.Error
/-
Two streams with the same characters left and the same cursor: rules report the same errors at the
same places on both.
-/
namespace Xbnf
open Spec Props

/-- The same characters left and the same cursor. -/
structure Twin (s t : Stream) : Prop where
  left : s.WF
  right : t.WF
  rem : s.rem = t.rem
  cursor : s.cursor = t.cursor

theorem Twin.adv {s t s' t' : Stream} {k : Nat} (h : Twin s t) (h1 : Adv k s s') (h2 : Adv k t t') : Twin s' t' :=
  ⟨h1.wf.2, h2.wf.2, by rw [h1.rem, h2.rem, h.rem], by rw [h1.cursor, h2.cursor, h.cursor]⟩

theorem Twin.push {s t : Stream} (h : Twin s t) (p : List Rune) : Twin (s.pushBack p) (t.pushBack p) :=
  ⟨Stream.wf_pushBack h.left _, Stream.wf_pushBack h.right _, by rw [Stream.rem_pushBack, Stream.rem_pushBack, h.rem],
    by rw [cursor_pushBack, cursor_pushBack, h.cursor]⟩

theorem Twin.pos {s t : Stream} (h : Twin s t) : Twin s.position.2 t.position.2 :=
  h.adv (Stream.position_adv h.left) (Stream.position_adv h.right)

theorem Twin.peek {s t : Stream} (h : Twin s t) : s.peek = t.peek := by
  rw [L.peek_eq h.left, L.peek_eq h.right, h.rem]

/-- The same result, apart from positions. -/
def Res.Same (x y : Res) : Prop := x.core = y.core ∧ SameErr x.error y.error ∧ x.errIdx = y.errIdx

/-- Result and stream of the two evaluations. -/
def RT (s t : Stream) (x y : Res × Stream) : Prop :=
  x.1.Same y.1 ∧ ∃ k, Adv k s x.2 ∧ Adv k t y.2

def EvTwin (ev : Evaluator) : Prop :=
  ∀ r flag s t, Twin s t → SimG (RT s t) (ev r flag s) (ev r flag t)

theorem Res.Same.node {x y : Res} (h : x.Same y) : x.node.map Node.erase = y.node.map Node.erase := congrArg Res.node h.1
theorem Res.Same.read {x y : Res} (h : x.Same y) : x.read = y.read := by
  have := congrArg Res.read h.1; rwa [Res.core_read, Res.core_read] at this
theorem Res.Same.unused {x y : Res} (h : x.Same y) : x.unused = y.unused := by
  have := congrArg Res.unused h.1; rwa [Res.core_unused, Res.core_unused] at this
theorem Res.Same.sticky {x y : Res} (h : x.Same y) : x.sticky = y.sticky := (congrArg Res.sticky h.1 :)
theorem Res.Same.count {x y : Res} (h : x.Same y) : x.countUsed = y.countUsed := (congrArg Res.countUsed h.1 :)
theorem Res.Same.charsUsed {x y : Res} (h : x.Same y) : x.charsUsed = y.charsUsed := (congrArg Res.charsUsed h.1 :)
theorem Res.Same.account {x y : Res} (h : x.Same y) (a b : List Rune) : Xbnf.account a b x = Xbnf.account a b y := by
  rw [← account_core, h.1, account_core]

theorem Res.Same.isSome {x y : Res} (h : x.Same y) : x.node.isSome = y.node.isSome := by
  have := congrArg Option.isSome h.node
  simpa using this

/-- Both have a node or both have none. -/
theorem Res.Same.cases {x y : Res} (h : x.Same y) :
    (x.node = none ∧ y.node = none) ∨ ∃ n m, x.node = some n ∧ y.node = some m ∧ n.erase = m.erase := by
  have := h.node
  cases hx : x.node with
  | none => rw [hx] at this; cases hy : y.node with
    | none => exact .inl ⟨rfl, rfl⟩
    | some m => rw [hy] at this; cases this
  | some n => rw [hx] at this; cases hy : y.node with
    | none => rw [hy] at this; cases this
    | some m => rw [hy] at this; exact .inr ⟨n, m, rfl, rfl, Option.some.inj this⟩

mutual
theorem text_erase : (n : Node) → n.erase.text = n.text
  | { ruleType := rt, chars := chars, children := cs, .. } => by
    unfold Node.erase Node.text
    simp only [textLoop_erase]
theorem textLoop_erase : (ns : List Node) → (inBlock : Bool) → (acc : List Rune) → (ps : Bool) →
    textLoop inBlock acc ps (eraseL ns) = textLoop inBlock acc ps ns
  | [], _, _, _ => rfl
  | n :: ns, inBlock, acc, ps => by
    have hs : n.erase.sticky = n.sticky := by cases n; rfl
    simp only [eraseL, textLoop, text_erase n, hs, textLoop_erase ns]
end

theorem named_core (r : Res) : r.core.named = r.named := by
  unfold Res.named
  cases h : r.node with
  | none => simp [Res.core, h]
  | some n =>
    have hn : n.erase.name = n.name := by cases n; rfl
    simp [Res.core, h, text_erase, hn]

theorem named_same {x y : Res} (h : x.core = y.core) : x.named = y.named := by
  rw [← named_core x, h, named_core]

/-! ### Terminals -/

/-- The error of a terminal: none with a node; otherwise at the place where it stopped reading. -/
def LeafErr (s : Stream) (x : Res × Stream) (e e' : Err) : Prop :=
  if x.1.node.isSome then x.1.error = none ∧ x.1.errIdx = 0
  else x.1.errIdx = x.2.cursor ∧ x.1.error.map Err.erase = some (if s.peek = EOFChar then e else e')

theorem leaf_twin {s t : Stream} (h : Twin s t) {x y : Res × Stream} {z : Res × Nat} {e e' : Err} (hx : RS s x z) (hy : RS t y z)
    (h1 : LeafErr s x e e') (h2 : LeafErr t y e e') : RT s t x y := by
  have hcore : x.1.core = y.1.core := hx.1.trans hy.1.symm
  have hsome : x.1.node.isSome = y.1.node.isSome := by
    have := congrArg (fun r : Res => r.node.isSome) hcore
    simpa [Res.core] using this
  refine ⟨⟨hcore, ?_⟩, z.2, hx.2, hy.2⟩
  have hc := (h.adv hx.2 hy.2).cursor
  unfold LeafErr at h1 h2
  rw [← hsome, ← h.peek] at h2
  split at h1
  · rename_i hs
    rw [if_pos hs] at h2
    exact ⟨by rw [h1.1, h2.1]; rfl, h1.2.trans h2.2.symm⟩
  · rename_i hs
    rw [if_neg hs] at h2
    exact ⟨h1.2.trans h2.2.symm, by rw [h1.1, h2.1, hc]⟩

theorem evalEOF_err (b flag s) : LeafErr s (evalEOF b flag s) .missingEOF .missingEOF := by
  unfold evalEOF LeafErr
  simp only
  split <;> split <;> simp_all [Err.erase]

theorem evalChar_err (b t flag s) : LeafErr s (evalChar b t flag s) (.missingAtEOF (.char b t false)) (.missing (.char b t false) none) := by
  unfold evalChar LeafErr
  simp only
  repeat' split
  all_goals simp_all [Err.erase]

theorem evalRange_err (b x y flag s) : LeafErr s (evalRange b x y flag s) (.missingAtEOF (.range b x false y false)) (.missing (.range b x false y false) none) := by
  unfold evalRange LeafErr
  simp only
  repeat' split
  all_goals simp_all [Err.erase]

theorem evalChars_err (b t flag s) : LeafErr s (evalChars b t flag s) (.missingAtEOF (.chars b t)) (.missing (.chars b t) none) := by
  unfold evalChars LeafErr
  simp only
  repeat' split
  all_goals simp_all [Err.erase]

theorem evalString_err (b t flag s) : LeafErr s (evalString b t flag s) (.missingAtEOF (.str b t)) (.missing (.str b t) none) := by
  unfold evalString LeafErr
  simp only
  repeat' split
  all_goals simp_all [Err.erase]

/-! ### Sequences -/

theorem sameErr_getD {x y : Option Err} (h : SameErr x y) : (x.getD .nil).erase = (y.getD .nil).erase := by
  unfold SameErr at h
  cases x <;> cases y <;> first | rfl | (cases h; done) | exact Option.some.inj h

theorem concatLoop_twin {ev : Evaluator} (hev : EvTwin ev) (b : Rule) (rs : List Rule) (st st' : SeqState) (hst : st.core = st'.core)
    (s t : Stream) (h : Twin s t) : SimG (RT s t) (concatLoop ev b rs st s) (concatLoop ev b rs st' t) := by
  induction rs generalizing st st' s t with
  | nil =>
    unfold concatLoop
    refine ⟨⟨?_, rfl, rfl⟩, 0, Adv.refl h.left, Adv.refl h.right⟩
    have h1 := congrArg SeqState.read hst
    have h2 := congrArg SeqState.unused hst
    have h3 := congrArg SeqState.sticky hst
    have h4 := congrArg SeqState.nodes hst
    simp only [SeqState.core] at h1 h2 h3 h4
    simp [Res.core, Node.erase_branch, *]
  | cons r rs ih =>
    have h1 := congrArg SeqState.read hst
    have h2 := congrArg SeqState.unused hst
    have h3 := congrArg SeqState.sticky hst
    have h4 := congrArg SeqState.nodes hst
    have h5 := congrArg SeqState.flag hst
    simp only [SeqState.core] at h1 h2 h3 h4 h5
    unfold concatLoop
    rw [← h1, ← h2, ← h3, ← h5]
    refine SimG.bind (hev r st.flag _ _ (h.push st.unused)) ?_
    rintro ⟨res, cs⟩ ⟨res', ct⟩ ⟨hsame, k, ha, hb⟩
    simp only at hsame ha hb
    simp only [hsame.account]
    refine SimG.same ?_
    rintro ⟨read, unused⟩
    have htw := (h.push st.unused).adv ha hb
    rcases hsame.cases with ⟨e1, e2⟩ | ⟨n, m, e1, e2, e3⟩
    · simp only [e1, e2]
      refine ⟨⟨by simp [Res.core, hsame.sticky], by simp [SameErr, Err.erase, sameErr_getD hsame.2.1], hsame.2.2⟩, _, ha.popBack, hb.popBack⟩
    · simp only [e1, e2]
      refine SimG.bind (ih _ _ ?_ cs ct htw) ?_
      · simp only [SeqState.core, eraseL_append, h4, hsame.sticky]
        simp only [eraseL, e3]
        congr 1
        rw [← nextFlag_erase, e3, nextFlag_erase]
      · rintro ⟨out, cs1⟩ ⟨out', ct1⟩ ⟨hs1, k1, ha1, hb1⟩
        exact ⟨hs1, _, (ha.trans ha1).popBack, (hb.trans hb1).popBack⟩

/-- Both loops ended for the same reason. -/
def WhySame : Option Res → Option Res → Prop
  | none, none => True
  | some x, some y => x.Same y
  | _, _ => False

theorem repLoop_twin {ev : Evaluator} (hev : EvTwin ev) (r : Rule) (mx fuel : Nat) (st st' : SeqState) (hst : st.core = st'.core)
    (s t : Stream) (h : Twin s t) :
    SimG (fun (x y : SeqState × Option Res × Stream) => x.1.core = y.1.core ∧ WhySame x.2.1 y.2.1 ∧ ∃ k, Adv k s x.2.2 ∧ Adv k t y.2.2)
      (repLoop ev r mx fuel st s) (repLoop ev r mx fuel st' t) := by
  induction fuel generalizing st st' s t with
  | zero => trivial
  | succ fuel ih =>
    have h1 := congrArg SeqState.read hst
    have h2 := congrArg SeqState.unused hst
    have h3 := congrArg SeqState.sticky hst
    have h4 := congrArg SeqState.nodes hst
    have h5 := congrArg SeqState.flag hst
    simp only [SeqState.core] at h1 h2 h3 h4 h5
    have hlen : st.nodes.length = st'.nodes.length := by
      have := congrArg List.length h4
      simpa [eraseL_eq_map] using this
    unfold repLoop
    have hp := h.push st.unused
    simp only
    rw [← h1, ← h2, ← h3, ← h5, ← hp.peek]
    split
    · exact ⟨hst, trivial, 0, Adv.refl h.left, Adv.refl h.right⟩
    · refine SimG.bind (hev r st.flag _ _ hp) ?_
      rintro ⟨res, cs⟩ ⟨res', ct⟩ ⟨hsame, k, ha, hb⟩
      simp only at hsame ha hb
      simp only [hsame.account]
      refine SimG.same ?_
      rintro ⟨read, unused⟩
      have htw := hp.adv ha hb
      rcases hsame.cases with ⟨e1, e2⟩ | ⟨n, m, e1, e2, e3⟩
      · simp only [e1, e2]
        exact ⟨by simp [SeqState.core, hsame.sticky, h4, h5], hsame, _, ha.popBack, hb.popBack⟩
      · simp only [e1, e2]
        have hcore : SeqState.core { st with read := read, unused := unused, sticky := st.sticky && res.sticky, pos := firstPos st.pos n.pos, nodes := st.nodes ++ [n] } =
            SeqState.core { st' with read := read, unused := unused, sticky := st.sticky && res'.sticky, pos := firstPos st'.pos m.pos, nodes := st'.nodes ++ [m] } := by
          simp only [SeqState.core, eraseL_append, h4, hsame.sticky, eraseL, e3, h5]
        simp only [List.length_append, List.length_cons, List.length_nil, hlen]
        rw [h5] at hcore
        rw [h5]
        split
        · exact ⟨hcore, trivial, _, ha.popBack, hb.popBack⟩
        · refine SimG.bind (ih _ _ hcore cs ct htw) ?_
          rintro ⟨out, why, cs1⟩ ⟨out', why', ct1⟩ ⟨q1, q2, k1, ha1, hb1⟩
          exact ⟨q1, q2, _, (ha.trans ha1).popBack, (hb.trans hb1).popBack⟩

theorem evalRep_twin {ev : Evaluator} (hev : EvTwin ev) (fuel : Nat) (b : RuleBase) (r : Rule) (mn mx : Nat) (flag : Int)
    (s t : Stream) (h : Twin s t) : SimG (RT s t) (evalRep ev fuel b r mn mx flag s) (evalRep ev fuel b r mn mx flag t) := by
  unfold evalRep
  refine SimG.bind (repLoop_twin hev r mx fuel _ _ rfl s t h) ?_
  rintro ⟨st, why, s'⟩ ⟨st', why', t'⟩ ⟨q1, q2, k, ha, hb⟩
  simp only at q1 q2 ha hb
  refine ⟨⟨?_, ?_⟩, k, ha, hb⟩
  · simp only [repFinish_core, q1]
  · have hc := (h.adv ha hb).cursor
    have hlen : st.nodes.length = st'.nodes.length := by
      have := congrArg (fun x : SeqState => x.nodes.length) q1
      simpa [SeqState.core, eraseL_eq_map] using this
    have he : SameErr (why.bind (·.error)) (why'.bind (·.error)) := by
      cases why <;> cases why' <;> first | exact q2.elim | rfl | exact q2.2.1
    have hs : why.isSome = why'.isSome := by
      cases why <;> cases why' <;> first | exact q2.elim | rfl
    have hes : (why.bind (·.error)).isSome = (why'.bind (·.error)).isSome := by
      have := congrArg Option.isSome he
      rwa [Option.isSome_map, Option.isSome_map] at this
    unfold repFinish
    simp only [hlen, hes, hs, hc]
    split
    · refine ⟨?_, rfl⟩
      generalize why.bind (·.error) = e1 at *
      generalize why'.bind (·.error) = e2 at *
      cases e1 <;> cases e2 <;> first | rfl | (cases he; done) | exact he
    · exact ⟨he, rfl⟩

/-! ### Choices -/

theorem pick_same {ms ms' : List Res} (h : ms.map Res.core = ms'.map Res.core) : (pick ms).core = (pick ms').core := by
  rw [← pick_core, ← pick_core, h]

/-- The variables of a choice without positions. -/
def ChoiceState.erase (st : ChoiceState) : ChoiceState := { st with maxErr := st.maxErr.map Err.erase }

theorem choiceGroup_twin {ev : Evaluator} (hev : EvTwin ev) (flag : Int) (rs : List Rule) (st st' : ChoiceState) (hst : st.erase = st'.erase)
    (s t : Stream) (h : Twin s t) :
    SimG (fun (x y : List Res × ChoiceState × Stream) => x.1.map Res.core = y.1.map Res.core ∧ x.2.1.erase = y.2.1.erase ∧
        ∃ k, Adv k s x.2.2 ∧ Adv k t y.2.2)
      (choiceGroup ev flag rs st s) (choiceGroup ev flag rs st' t) := by
  induction rs generalizing st st' s t with
  | nil => exact ⟨rfl, hst, 0, Adv.refl h.left, Adv.refl h.right⟩
  | cons r rs ih =>
    have h1 := congrArg ChoiceState.read hst
    have h2 := congrArg ChoiceState.sticky hst
    have h3 := congrArg ChoiceState.maxErrCursor hst
    have h4 := congrArg ChoiceState.maxErr hst
    simp only [ChoiceState.erase] at h1 h2 h3 h4
    unfold choiceGroup
    rw [← h1, ← h2, ← h3]
    refine SimG.bind (hev r flag _ _ (h.push st.read)) ?_
    rintro ⟨res, cs⟩ ⟨res', ct⟩ ⟨hsame, k, ha, hb⟩
    simp only at hsame ha hb
    have ha := ha.popBack
    have hb := hb.popBack
    have htw := h.adv ha hb
    simp only [hsame.sticky, hsame.read]
    have hgo : ∀ st1 st2 : ChoiceState, st1.erase = st2.erase → SimG (fun (x y : List Res × ChoiceState × Stream) =>
        x.1.map Res.core = y.1.map Res.core ∧ x.2.1.erase = y.2.1.erase ∧ ∃ k, Adv k s x.2.2 ∧ Adv k t y.2.2)
        (choiceGroup ev flag rs st1 (cs.popBack st.read)) (choiceGroup ev flag rs st2 (ct.popBack st.read)) := by
      intro st1 st2 h12
      have := ih st1 st2 h12 _ _ htw
      generalize choiceGroup ev flag rs st1 (cs.popBack st.read) = x at *
      generalize choiceGroup ev flag rs st2 (ct.popBack st.read) = y at *
      match x, y, this with
      | .ok (ms, st1, s1), .ok (ms', st1', t1), ⟨q1, q2, k1, ha1, hb1⟩ => exact ⟨q1, q2, _, ha.trans ha1, hb.trans hb1⟩
      | .panic, .panic, _ => trivial
      | .oof, .oof, _ => trivial
    rcases hsame.cases with ⟨e1, e2⟩ | ⟨n, m, e1, e2, e3⟩
    · simp only [e1, e2, hsame.2.2]
      split
      · refine hgo _ _ ?_
        simp only [ChoiceState.erase, ChoiceState.mk.injEq, true_and, and_true]
        exact hsame.2.1
      · refine hgo _ _ ?_
        simp only [ChoiceState.erase, h4, h3]
    · simp only [e1, e2]
      refine SimG.bind (hgo _ _ ?_) ?_
      · simp only [ChoiceState.erase, h4, h3]
      rintro ⟨ms, st1, s1⟩ ⟨ms', st1', t1⟩ ⟨q1, q2, k1, ha1, hb1⟩
      refine ⟨?_, q2, k1, ha1, hb1⟩
      simp only at q1
      simp only [List.map_cons, q1, hsame.1]

theorem choiceLoop_twin {ev : Evaluator} (hev : EvTwin ev) (b : Rule) (flag : Int) (gs : List (List Rule)) (st st' : ChoiceState)
    (hst : st.erase = st'.erase) (s t : Stream) (h : Twin s t) :
    SimG (RT s t) (choiceLoop ev b flag gs st s) (choiceLoop ev b flag gs st' t) := by
  induction gs generalizing st st' s t with
  | nil =>
    have h1 := congrArg ChoiceState.read hst
    have h2 := congrArg ChoiceState.sticky hst
    have h3 := congrArg ChoiceState.maxErrCursor hst
    have h4 := congrArg ChoiceState.maxErr hst
    simp only [ChoiceState.erase] at h1 h2 h3 h4
    refine ⟨⟨?_, ?_, h3⟩, 0, Adv.refl h.left, Adv.refl h.right⟩
    · simp [Res.core, h1, h2]
    · simp [SameErr, Err.erase, sameErr_getD h4]
  | cons g gs ih =>
    unfold choiceLoop
    refine SimG.bind (choiceGroup_twin hev flag g st st' hst s t h) ?_
    rintro ⟨ms, st1, s1⟩ ⟨ms', st1', t1⟩ ⟨q1, q2, k, ha, hb⟩
    simp only at q1 q2 ha hb
    have h1 := congrArg ChoiceState.read q2
    have h2 := congrArg ChoiceState.sticky q2
    simp only [ChoiceState.erase] at h1 h2
    have hp := pick_same q1
    have htw := h.adv ha hb
    simp only
    cases hq : pick ms with
    | none =>
      rw [hq] at hp
      cases hq' : pick ms' with
      | found r => rw [hq'] at hp; cases hp
      | ambiguous => rw [hq'] at hp; cases hp
      | none =>
        have := ih st1 st1' q2 _ _ htw
        simp only
        generalize choiceLoop ev b flag gs st1 s1 = x at *
        generalize choiceLoop ev b flag gs st1' t1 = y at *
        match x, y, this with
        | .ok (ms, s1), .ok (ms', t1), ⟨q1, k1, ha1, hb1⟩ => exact ⟨q1, _, ha.trans ha1, hb.trans hb1⟩
        | .panic, .panic, _ => trivial
        | .oof, .oof, _ => trivial
    | ambiguous x y =>
      rw [hq] at hp
      cases hq' : pick ms' with
      | found r => rw [hq'] at hp; cases hp
      | none => rw [hq'] at hp; cases hp
      | ambiguous x' y' =>
        rw [hq'] at hp
        simp only [Pick.core, Pick.ambiguous.injEq] at hp
        exact ⟨⟨by simp [Res.core, h1], by simp [SameErr, named_same hp.1, named_same hp.2], rfl⟩, k, ha, hb⟩
    | found r =>
      rw [hq] at hp
      cases hq' : pick ms' with
      | ambiguous => rw [hq'] at hp; cases hp
      | none => rw [hq'] at hp; cases hp
      | found r' =>
        rw [hq'] at hp
        simp only [Pick.core, Pick.found.injEq] at hp
        have hc : r.countUsed = r'.countUsed := (congrArg Res.countUsed hp :)
        have hn : r.node.map Node.erase = r'.node.map Node.erase := congrArg Res.node hp
        simp only [hc, h1, h2]
        refine SimG.same ?_
        intro unused
        refine ⟨⟨?_, rfl, rfl⟩, k, ha, hb⟩
        simp only [Res.core]
        congr 1
        cases h1 : r.node <;> cases h2 : r'.node <;> rw [h1, h2] at hn <;>
          first
          | (cases hn; done)
          | rfl
          | (simp only [Option.map_some, Option.some.injEq] at hn
             simp [Node.erase_branch, eraseL, hn])

theorem greedyLoop_twin {ev : Evaluator} (hev : EvTwin ev) (flag : Int) (rs : List Rule) (maxRead : List Rune)
    (s t : Stream) (h : Twin s t) :
    SimG (fun (x y : List Res × List Rune × Stream) => x.1.map Res.core = y.1.map Res.core ∧ x.2.1 = y.2.1 ∧ ∃ k, Adv k s x.2.2 ∧ Adv k t y.2.2)
      (greedyLoop ev flag rs maxRead s) (greedyLoop ev flag rs maxRead t) := by
  induction rs generalizing maxRead s t with
  | nil => exact ⟨rfl, rfl, 0, Adv.refl h.left, Adv.refl h.right⟩
  | cons r rs ih =>
    unfold greedyLoop
    refine SimG.bind (hev r flag _ _ (h.push maxRead)) ?_
    rintro ⟨res, cs⟩ ⟨res', ct⟩ ⟨hsame, k, ha, hb⟩
    simp only at hsame ha hb
    have ha := ha.popBack
    have hb := hb.popBack
    simp only [hsame.read, hsame.isSome]
    refine SimG.bind (ih _ _ _ (h.adv ha hb)) ?_
    rintro ⟨ms, m, s1⟩ ⟨ms', m', t1⟩ ⟨q1, q2, k1, ha1, hb1⟩
    simp only at q1 q2 ha1 hb1
    subst q2
    cases res'.node.isSome
    · exact ⟨q1, rfl, _, ha.trans ha1, hb.trans hb1⟩
    · exact ⟨by simp [q1, hsame.1], rfl, _, ha.trans ha1, hb.trans hb1⟩

theorem mostGreedy_twin {ev : Evaluator} (hev : EvTwin ev) (flag : Int) (rs : List Rule)
    (s t : Stream) (h : Twin s t) : SimG (RT s t) (mostGreedy ev flag rs s) (mostGreedy ev flag rs t) := by
  unfold mostGreedy
  refine SimG.bind (greedyLoop_twin hev flag rs [] s t h) ?_
  rintro ⟨ms, m, s1⟩ ⟨ms', m', t1⟩ ⟨q1, q2, k, ha, hb⟩
  simp only at q1 q2 ha hb
  subst q2
  have hp := pick_same q1
  simp only
  cases hq : pick ms with
  | none =>
    rw [hq] at hp
    cases hq' : pick ms' with
    | found r => rw [hq'] at hp; cases hp
    | ambiguous => rw [hq'] at hp; cases hp
    | none => exact ⟨⟨rfl, rfl, rfl⟩, k, ha, hb⟩
  | ambiguous x y =>
    rw [hq] at hp
    cases hq' : pick ms' with
    | found r => rw [hq'] at hp; cases hp
    | none => rw [hq'] at hp; cases hp
    | ambiguous x' y' =>
      rw [hq'] at hp
      simp only [Pick.core, Pick.ambiguous.injEq] at hp
      exact ⟨⟨rfl, by simp [SameErr, named_same hp.1, named_same hp.2], rfl⟩, k, ha, hb⟩
  | found r =>
    rw [hq] at hp
    cases hq' : pick ms' with
    | ambiguous => rw [hq'] at hp; cases hp
    | none => rw [hq'] at hp; cases hp
    | found r' =>
      rw [hq'] at hp
      simp only [Pick.core, Pick.found.injEq] at hp
      have hc : r.countUsed = r'.countUsed := (congrArg Res.countUsed hp :)
      have hn : r.node.map Node.erase = r'.node.map Node.erase := congrArg Res.node hp
      have hst : r.sticky = r'.sticky := (congrArg Res.sticky hp :)
      simp only [hc]
      refine SimG.same ?_
      intro unused
      exact ⟨⟨by simp [Res.core, hn, hst], rfl, rfl⟩, k, ha, hb⟩

/-! ### Blocks -/

theorem blockLoop_twin {ev : Evaluator} (hev : EvTwin ev) (close : Rule) (escape : Option Rule)
    (excludes : List Rule) (fuel : Nat) (st : BlockState) (s t : Stream) (h : Twin s t) :
    SimG (fun (x y : BlockEnd × Stream) => x.1.core = y.1.core ∧ ∃ k, Adv k s x.2 ∧ Adv k t y.2)
      (blockLoop ev close escape excludes fuel st s) (blockLoop ev close escape excludes fuel st t) := by
  induction fuel generalizing st s t with
  | zero => trivial
  | succ fuel ih =>
    unfold blockLoop
    refine SimG.bind (P := fun (x y : Bool × List Rune × List Rune × List Rune × Stream) =>
        x.1 = y.1 ∧ x.2.1 = y.2.1 ∧ x.2.2.1 = y.2.2.1 ∧ x.2.2.2.1 = y.2.2.2.1 ∧
          ∃ k, Adv k s x.2.2.2.2 ∧ Adv k t y.2.2.2.2) ?_ ?_
    · cases escape with
      | none => exact ⟨rfl, rfl, rfl, rfl, 0, Adv.refl h.left, Adv.refl h.right⟩
      | some e =>
        refine SimG.bind (hev e NOT_SKIP s t h) ?_
        rintro ⟨res, s'⟩ ⟨res', t'⟩ ⟨hsame, k, ha, hb⟩
        simp only at hsame ha hb
        simp only [hsame.isSome, hsame.charsUsed, hsame.read, hsame.unused]
        split
        · refine SimG.same ?_
          intro c
          exact ⟨rfl, rfl, rfl, rfl, k, ha, hb⟩
        · exact ⟨rfl, rfl, rfl, rfl, k, ha, hb⟩
    · rintro ⟨escaped, escapeChars, used, u1, s1⟩ ⟨_, _, _, _, t1⟩ ⟨rfl, rfl, rfl, rfl, k0, ha0, hb0⟩
      simp only at ha0 hb0
      have h1 := (h.adv ha0 hb0).push u1
      simp only
      refine SimG.bind (P := fun (x y : Option Res × Stream) => x.1.map Res.core = y.1.map Res.core ∧
          ∃ k, Adv k (s1.pushBack u1) x.2 ∧ Adv k (t1.pushBack u1) y.2) ?_ ?_
      · split
        · refine SimG.bind (mostGreedy_twin hev NOT_SKIP excludes _ _ h1) ?_
          rintro ⟨res, cs⟩ ⟨res', ct⟩ ⟨hsame, k, ha, hb⟩
          exact ⟨by simpa using hsame.1, k, ha, hb⟩
        · exact ⟨rfl, 0, Adv.refl h1.left, Adv.refl h1.right⟩
      · rintro ⟨rx, cs1⟩ ⟨rx', ct1⟩ ⟨hrx, k1, ha1, hb1⟩
        simp only at hrx ha1 hb1
        have h2 := h1.adv ha1 hb1
        have hn : ∀ r r' : Res, r.core = r'.core → r.node.isSome = r'.node.isSome := by
          intro r r' he
          have := congrArg (fun r : Res => r.node.isSome) he
          simpa [Res.core] using this
        -- the close rule, after the excludes did not match
        have hclose : ∀ u2, SimG (fun (x y : BlockEnd × Stream) => x.1.core = y.1.core ∧ ∃ k, Adv k s x.2 ∧ Adv k t y.2)
            (ev close NOT_SKIP (cs1.pushBack u2) >>= fun x => match x with
              | (rc, cs2) => match rc.node with
                | some _ => rc.charsUsed >>= fun c =>
                  if escaped then
                    blockLoop ev close escape excludes fuel
                      { used := used ++ c, unused := rc.unused, content := st.content ++ c } cs2 >>= fun x => match x with
                      | (out, cs2) => .ok (out, (cs2.popBack u2).popBack u1)
                  else .ok (.closed (used ++ st.content ++ c) rc.unused rc st.content, (cs2.popBack u2).popBack u1)
                | none =>
                  if (cs2.pushBack rc.unused).peek = EOFChar then
                    .ok (.eof (used ++ (st.content ++ escapeChars)) rc.unused, (cs2.popBack u2).popBack u1)
                  else
                    blockLoop ev close escape excludes fuel
                      { used := used, unused := [], content := st.content ++ escapeChars ++ escapeChars ++ [(cs2.pushBack rc.unused).next.1] }
                      (cs2.pushBack rc.unused).next.2 >>= fun x => match x with
                      | (out, cs3) => .ok (out, ((cs3.popBack rc.unused).popBack u2).popBack u1))
            (ev close NOT_SKIP (ct1.pushBack u2) >>= fun x => match x with
              | (rc, cs2) => match rc.node with
                | some _ => rc.charsUsed >>= fun c =>
                  if escaped then
                    blockLoop ev close escape excludes fuel
                      { used := used ++ c, unused := rc.unused, content := st.content ++ c } cs2 >>= fun x => match x with
                      | (out, cs2) => .ok (out, (cs2.popBack u2).popBack u1)
                  else .ok (.closed (used ++ st.content ++ c) rc.unused rc st.content, (cs2.popBack u2).popBack u1)
                | none =>
                  if (cs2.pushBack rc.unused).peek = EOFChar then
                    .ok (.eof (used ++ (st.content ++ escapeChars)) rc.unused, (cs2.popBack u2).popBack u1)
                  else
                    blockLoop ev close escape excludes fuel
                      { used := used, unused := [], content := st.content ++ escapeChars ++ escapeChars ++ [(cs2.pushBack rc.unused).next.1] }
                      (cs2.pushBack rc.unused).next.2 >>= fun x => match x with
                      | (out, cs3) => .ok (out, ((cs3.popBack rc.unused).popBack u2).popBack u1)) := by
          intro u2
          have h3 := h2.push u2
          refine SimG.bind (hev close NOT_SKIP _ _ h3) ?_
          rintro ⟨rc, cs2⟩ ⟨rc', ct2⟩ ⟨hsame, k2, ha2, hb2⟩
          simp only at hsame ha2 hb2
          have h4 := h3.adv ha2 hb2
          rcases hsame.cases with ⟨e1, e2⟩ | ⟨n, m, e1, e2, e3⟩
          · have h5 := h4.push rc.unused
            simp only [e1, e2]
            rw [← hsame.unused, ← h5.peek]
            split
            · exact ⟨rfl, _, ha0.trans (ha1.trans ha2.popBack).popBack, hb0.trans (hb1.trans hb2.popBack).popBack⟩
            · have hna := next_one h5.left
              have hnb := next_one h5.right
              rw [← h5.rem] at hnb
              rw [hna.1, hnb.1]
              refine SimG.bind (ih _ _ _ (h5.adv hna.2 hnb.2)) ?_
              rintro ⟨out, cs'⟩ ⟨out', ct'⟩ ⟨q, k3, ha3, hb3⟩
              refine ⟨q, _, ha0.trans (ha1.trans (ha2.trans (hna.2.trans ha3).popBack).popBack).popBack, ?_⟩
              exact hb0.trans (hb1.trans (hb2.trans (hnb.2.trans hb3).popBack).popBack).popBack
          · simp only [e1, e2, hsame.charsUsed, hsame.unused]
            refine SimG.same ?_
            intro c
            cases escaped with
            | true =>
              simp only [if_true]
              refine SimG.bind (ih _ _ _ h4) ?_
              rintro ⟨out, cs'⟩ ⟨out', ct'⟩ ⟨q, k3, ha3, hb3⟩
              exact ⟨q, _, ha0.trans (ha1.trans (ha2.trans ha3).popBack).popBack, hb0.trans (hb1.trans (hb2.trans hb3).popBack).popBack⟩
            | false =>
              exact ⟨by simp [BlockEnd.core, hsame.1], _, ha0.trans (ha1.trans ha2.popBack).popBack, hb0.trans (hb1.trans hb2.popBack).popBack⟩
        cases rx with
        | none =>
          cases rx' with
          | some r' => cases hrx
          | none =>
            simp only [Option.bind_none]
            exact hclose u1
        | some r =>
          cases rx' with
          | none => cases hrx
          | some r' =>
            simp only [Option.map_some, Option.some.injEq] at hrx
            have hsame : r.read = r'.read ∧ r.unused = r'.unused ∧ r.charsUsed = r'.charsUsed :=
              ⟨by have := congrArg Res.read hrx; rwa [Res.core_read, Res.core_read] at this,
               by have := congrArg Res.unused hrx; rwa [Res.core_unused, Res.core_unused] at this, (congrArg Res.charsUsed hrx :)⟩
            have hso := hn r r' hrx
            simp only [Option.bind_some]
            cases hr : r.node with
            | none =>
              cases hr' : r'.node with
              | some m => rw [hr, hr'] at hso; cases hso
              | none =>
                simp only [Option.map_none]
                rw [← hsame.1]
                exact hclose r.read
            | some n =>
              cases hr' : r'.node with
              | none => rw [hr, hr'] at hso; cases hso
              | some m =>
                simp only [Option.map_some, hsame.2.2]
                refine SimG.same ?_
                intro c
                rw [hsame.1, hsame.2.1]
                cases escaped with
                | true =>
                  simp only [if_true]
                  refine SimG.bind (ih _ _ _ h2) ?_
                  rintro ⟨out, cs'⟩ ⟨out', ct'⟩ ⟨q, k3, ha3, hb3⟩
                  exact ⟨q, _, ha0.trans (ha1.trans ha3).popBack, hb0.trans (hb1.trans hb3).popBack⟩
                | false => exact ⟨rfl, _, ha0.trans ha1.popBack, hb0.trans hb1.popBack⟩

theorem evalBlock_twin {ev : Evaluator} (hev : EvTwin ev) (fuel : Nat) (b : RuleBase) (opn : Rule)
    (v : Bool) (close : Rule) (escape : Option Rule) (excludes : List Rule) (flag : Int) (s t : Stream) (h : Twin s t) :
    SimG (RT s t) (evalBlock ev fuel b opn v close escape excludes flag s) (evalBlock ev fuel b opn v close escape excludes flag t) := by
  unfold evalBlock
  refine SimG.bind (hev opn flag s t h) ?_
  rintro ⟨ro, s1⟩ ⟨ro', t1⟩ ⟨hsame, k, ha, hb⟩
  simp only at hsame ha hb
  have h1 := h.adv ha hb
  rcases hsame.cases with ⟨e1, e2⟩ | ⟨n, m, e1, e2, e3⟩
  · simp only [e1, e2]
    exact ⟨⟨by simp [Res.core, hsame.read, hsame.unused], hsame.2.1, h1.cursor⟩, k, ha, hb⟩
  · simp only [e1, e2, hsame.read, hsame.unused, hsame.count]
    refine SimG.same ?_
    intro used
    have h2 := h1.push ro'.unused
    have hpa := Stream.position_adv h2.left
    have hpb := Stream.position_adv h2.right
    refine SimG.bind (blockLoop_twin hev close escape excludes fuel _ _ _ h2.pos) ?_
    rintro ⟨e, cs⟩ ⟨e', ct⟩ ⟨q, k2, ha2, hb2⟩
    simp only at q ha2 hb2
    have ha3 := ha.trans (hpa.trans ha2).popBack
    have hb3 := hb.trans (hpb.trans hb2).popBack
    have hc := (h.adv ha3 hb3).cursor
    cases e with
    | excluded text read =>
      cases e' with
      | excluded text' read' => cases q; exact ⟨⟨rfl, rfl, hc⟩, _, ha3, hb3⟩
      | eof _ _ => cases q
      | closed _ _ _ _ => cases q
    | eof a c =>
      cases e' with
      | eof _ _ => cases q; exact ⟨⟨rfl, rfl, hc⟩, _, ha3, hb3⟩
      | excluded _ _ => cases q
      | closed _ _ _ _ => cases q
    | closed a c rc content =>
      cases e' with
      | eof _ _ => cases q
      | excluded _ _ => cases q
      | closed a' c' rc' content' =>
        simp only [BlockEnd.core, BlockEnd.closed.injEq] at q
        obtain ⟨rfl, rfl, hrc, rfl⟩ := q
        have hrd : rc.read = rc'.read := by have := congrArg Res.read hrc; rwa [Res.core_read, Res.core_read] at this
        have hn : rc.node.map Node.erase = rc'.node.map Node.erase := congrArg Res.node hrc
        refine ⟨⟨?_, rfl, rfl⟩, _, ha3, hb3⟩
        simp only [Res.core, Option.map_some, Node.erase_branch, hrd]
        congr 3
        cases v with
        | true => simp [eraseL, Node.erase, e3]
        | false =>
          cases h1 : rc.node <;> cases h2 : rc'.node <;> rw [h1, h2] at hn <;>
            first
            | (cases hn; done)
            | (simp [eraseL, Node.erase, e3]; done)
            | (simp only [Option.map_some, Option.some.injEq] at hn
               simp [eraseL, Node.erase, e3, hn])

theorem eval_twin (env : Env) (fuel : Nat) : EvTwin (eval env fuel) := by
  induction fuel with
  | zero => intro r flag s t h; trivial
  | succ fuel ih =>
    intro r flag s t h
    cases r with
    | eof b =>
      have hb := evalEOF_sim b flag h.right
      rw [← h.rem] at hb
      exact leaf_twin h (evalEOF_sim b flag h.left) hb (evalEOF_err ..) (evalEOF_err ..)
    | char b c u =>
      have hb := evalChar_sim b c flag h.right
      rw [← h.rem] at hb
      exact leaf_twin h (evalChar_sim b c flag h.left) hb (evalChar_err ..) (evalChar_err ..)
    | range b x xu y yu =>
      have hb := evalRange_sim b x y flag h.right
      rw [← h.rem] at hb
      exact leaf_twin h (evalRange_sim b x y flag h.left) hb (evalRange_err ..) (evalRange_err ..)
    | chars b c =>
      have hb := evalChars_sim b c flag h.right
      rw [← h.rem] at hb
      exact leaf_twin h (evalChars_sim b c flag h.left) hb (evalChars_err ..) (evalChars_err ..)
    | str b c =>
      have hb := evalString_sim b c flag h.right
      rw [← h.rem] at hb
      exact leaf_twin h (evalString_sim b c flag h.left) hb (evalString_err ..) (evalString_err ..)
    | group b r =>
      refine SimG.bind (ih r flag s t h) ?_
      rintro ⟨res, s'⟩ ⟨res', t'⟩ ⟨hsame, hk⟩
      refine ⟨⟨by simp only [groupRes_core, hsame.1], ?_⟩, hk⟩
      simp only at hsame ⊢
      unfold groupRes
      rcases hsame.cases with ⟨e1, e2⟩ | ⟨n, m, e1, e2, e3⟩ <;> simp only [e1, e2] <;> exact hsame.2
    | option b r =>
      refine SimG.bind (ih r flag s t h) ?_
      rintro ⟨res, s'⟩ ⟨res', t'⟩ ⟨hsame, hk⟩
      refine ⟨⟨by simp only [optionRes_core, hsame.1], ?_⟩, hk⟩
      simp only at hsame ⊢
      unfold optionRes
      rcases hsame.cases with ⟨e1, e2⟩ | ⟨n, m, e1, e2, e3⟩ <;> simp only [e1, e2] <;> exact hsame.2
    | rep b r mn mx => exact evalRep_twin ih fuel b r mn mx flag s t h
    | choice b gs => exact choiceLoop_twin ih _ flag gs {} {} rfl s t h
    | concat b rs => exact concatLoop_twin ih _ rs _ _ rfl s t h
    | block b o v c e x => exact evalBlock_twin ih fuel b o v c e x flag s t h
    | ref b name =>
      simp only [eval]
      cases hn : env name with
      | none => exact ⟨⟨rfl, rfl, rfl⟩, 0, Adv.refl h.left, Adv.refl h.right⟩
      | some r =>
        refine SimG.bind (ih r flag s t h) ?_
        rintro ⟨res, s'⟩ ⟨res', t'⟩ ⟨hsame, hk⟩
        refine ⟨⟨by simp only [refRes_core, hsame.1], ?_⟩, hk⟩
        simp only at hsame ⊢
        unfold refRes
        rcases hsame.cases with ⟨e1, e2⟩ | ⟨n, m, e1, e2, e3⟩ <;> simp only [e1, e2] <;> exact hsame.2

end Xbnf
