import Verif.Model.Work
import Verif.Spec.Work
import Verif.Lemmas.Outcome
import Verif.Props.Rules
import Verif.Props.Terminate
/-
The calls of `Eval` are those of the reference: `work` on a stream is `tries` on the characters left.
-/
namespace Xbnf.Props
open Spec L

/-- The counters agree where the reference answers. -/
def SameCount (run : Runner) (cnt : Counter) (cntL : Tries) : Prop :=
  ∀ r flag s, s.WF → Valid s.rem → run r flag s.rem ≠ .oof → run r flag s.rem ≠ .risky → cnt r flag s = cntL r flag s.rem

section
variable {ev : Evaluator} {evL : L.Ev} {run : Runner} {cnt : Counter} {cntL : Tries}

/-- An evaluation on which the reference answers. -/
theorem call_ref (hsim : EvSim ev evL) (hev : EvRef run evL) {r : Rule} {flag : Int} {s : Stream} (hw : s.WF) (hv : Valid s.rem)
    (h1 : run r flag s.rem ≠ .oof) (h2 : run r flag s.rem ≠ .risky) :
    ∃ res s' k, ev r flag s = .ok (res, s') ∧ Adv k s s' ∧ Ref s.rem (run r flag s.rem) (.ok (res.core, k)) := by
  have hr := hev r flag s.rem hv
  have hs := hsim r flag s hw
  have key : ∃ x, evL r flag s.rem = .ok x := by
    revert hr h1 h2
    cases run r flag s.rem with
    | oof => intro h1; exact absurd rfl h1
    | risky => intro _ h2; exact absurd rfl h2
    | fail n st => intro _ _ hr; exact ⟨_, hr.2⟩
    | ambiguous n => intro _ _ hr; exact ⟨_, hr.2⟩
    | hit nd u n st => intro _ _ hr; exact ⟨_, hr.2.2⟩
  obtain ⟨⟨x, k⟩, hx⟩ := key
  rw [hx] at hs hr
  cases he : ev r flag s with
  | panic => rw [he] at hs; exact hs.elim
  | oof => rw [he] at hs; exact hs.elim
  | ok y =>
    obtain ⟨res, s'⟩ := y
    rw [he] at hs
    obtain ⟨e, hadv⟩ := hs
    simp only at e hadv
    subst e
    exact ⟨res, s', k, rfl, hadv, hr⟩

theorem ref_sticky {l : List Rune} {res : Res} {k : Nat} {nd u n st} (h : Ref l (.hit nd u n st) (.ok (res.core, k))) :
    res.sticky = st := by
  obtain ⟨h1, h2, h3⟩ := h
  simp only [Exec.ok.injEq, Prod.mk.injEq] at h3
  exact congrArg Res.sticky h3.1

/-! ### Concatenations -/

theorem workConcat_eq (hsim : EvSim ev evL) (hev : EvRef run evL) (hc : SameCount run cnt cntL) {b : RuleBase} {l : List Rune}
    (hv : Valid l) (rs : List Rule) :
    ∀ {pos look : Nat} {st : SeqState} {s : Stream} {stk : Bool} {nodes : List Node}, At l pos look st → s.WF →
      s.rem = l.drop look → seqAt run b l rs pos look stk st.flag nodes ≠ .oof →
      seqAt run b l rs pos look stk st.flag nodes ≠ .risky → workConcat ev cnt rs st s = seqTries run cntL l rs pos st.flag := by
  induction rs with
  | nil => intros; rfl
  | cons r rs ih =>
    intro pos look st s stk nodes h hw hs hn1 hn2
    have h1 := h.le
    have h2 := h.len
    have hin : (s.pushBack st.unused).rem = l.drop pos := by
      rw [Stream.rem_pushBack, hs, h.unused, sl_append_drop h1]
    have hw' := Stream.wf_pushBack hw st.unused
    have hv' : Valid (s.pushBack st.unused).rem := by rw [hin]; exact hv.drop _
    rw [seqAt] at hn1 hn2
    have hr1 : run r st.flag (l.drop pos) ≠ .oof := by intro e; rw [e] at hn1; exact hn1 rfl
    have hr2 : run r st.flag (l.drop pos) ≠ .risky := by intro e; rw [e] at hn2; exact hn2 rfl
    obtain ⟨res, cs, k, e, hadv, href⟩ := call_ref hsim hev (r := r) (flag := st.flag) hw' hv' (by rw [hin]; exact hr1)
      (by rw [hin]; exact hr2)
    have hcount := hc r st.flag _ hw' hv' (by rw [hin]; exact hr1) (by rw [hin]; exact hr2)
    rw [hin] at href hcount
    simp only [workConcat, seqTries, e, hcount]
    congr 1
    cases hr : run r st.flag (l.drop pos) with
    | oof => exact absurd hr hr1
    | risky => exact absurd hr hr2
    | fail n st' =>
      rw [hr] at href
      rw [(ref_fail href).1]
      split
      · rename_i hc; cases hc
      · rfl
    | ambiguous n =>
      rw [hr] at href
      rw [(ref_ambiguous href).1]
      split
      · rename_i hc; cases hc
      · rfl
    | hit nd u n st' =>
      rw [hr] at href hn1 hn2
      have hst := ref_sticky href
      obtain ⟨g1, g2, g3, g4, g5, g6, rfl⟩ := ref_hit href
      rw [List.length_drop] at g6
      obtain ⟨un, e1, e2⟩ := account_ref (r := res) h1 h2 (by omega) g5 g3 g4
      simp only [Option.map_eq_some_iff] at g1
      obtain ⟨nd', g1, rfl⟩ := g1
      rw [h.read, h.unused, e1, g1, hst]
      simp only at hn1 hn2 ⊢
      split at hn2
      · exact absurd rfl hn2
      rename_i hnr
      simp only [if_neg hnr] at hn1
      rw [e2 (fun hc => hnr ⟨hc.1, .inr hc.2⟩)]
      have hfl : nextFlag st.flag nd' st' = flagAfter st.flag nd'.erase st' := by
        rw [← L.flagAfter_eq, nextFlag_erase]
      by_cases hlt : pos + k < look
      · have hrs : rs = [] := Classical.byContradiction (fun hc => hnr ⟨hlt, .inl hc⟩)
        subst hrs
        rfl
      · have hm : max look (pos + k) = pos + k := by omega
        rw [hm] at hn1 hn2 ⊢
        have := ih (pos := pos + u) (look := pos + k)
          (st := { read := l.take (pos + k), unused := sl l (pos + u) (pos + k), sticky := st.sticky && st',
                   pos := firstPos st.pos nd'.pos, flag := nextFlag st.flag nd' st', nodes := st.nodes ++ [nd'] })
          (s := cs) (stk := stk && st') (nodes := nodes ++ [nd'.erase]) ⟨by omega, by omega, rfl, rfl⟩ hadv.wf.2
          (by rw [hadv.rem, hin, List.drop_drop])
        simp only [hfl] at this ⊢
        exact this hn1 hn2

/-! ### Repetitions -/

theorem workRep_eq (hsim : EvSim ev evL) (hev : EvRef run evL) (hc : SameCount run cnt cntL) {b : RuleBase} {r : Rule} {mn mx : Nat}
    {l : List Rune} (hv : Valid l) (fuel : Nat) :
    ∀ {pos look : Nat} {st : SeqState} {s : Stream} {stk : Bool} {nodes : List Node}, At l pos look st → s.WF →
      s.rem = l.drop look → st.nodes.length = nodes.length → repAt run b r mn mx st.flag l fuel pos look stk nodes ≠ .oof →
      repAt run b r mn mx st.flag l fuel pos look stk nodes ≠ .risky →
      workRep ev cnt r mx fuel st s = repTries run cntL r mx st.flag l fuel pos nodes.length := by
  induction fuel with
  | zero => intros; rfl
  | succ fuel ih =>
    intro pos look st s stk nodes h hw hs hlen hn1 hn2
    have h1 := h.le
    have h2 := h.len
    have hin : (s.pushBack st.unused).rem = l.drop pos := by
      rw [Stream.rem_pushBack, hs, h.unused, sl_append_drop h1]
    have hw' := Stream.wf_pushBack hw st.unused
    have hv' : Valid (s.pushBack st.unused).rem := by rw [hin]; exact hv.drop _
    have hpk : (s.pushBack st.unused).peek = EOFChar ↔ l.drop pos = [] := by
      rw [L.peek_eq hw', hin, peek_eof (hv.drop pos)]
    rw [repAt] at hn1 hn2
    simp only [workRep, repTries]
    by_cases hnil : l.drop pos = []
    · rw [if_pos (hpk.2 hnil), if_pos hnil]
    rw [if_neg (fun hc => hnil (hpk.1 hc)), if_neg hnil]
    rw [if_neg hnil] at hn1 hn2
    have hr1 : run r st.flag (l.drop pos) ≠ .oof := by intro e; rw [e] at hn1; exact hn1 rfl
    have hr2 : run r st.flag (l.drop pos) ≠ .risky := by intro e; rw [e] at hn2; exact hn2 rfl
    obtain ⟨res, cs, k, e, hadv, href⟩ := call_ref hsim hev (r := r) (flag := st.flag) hw' hv' (by rw [hin]; exact hr1)
      (by rw [hin]; exact hr2)
    have hcount := hc r st.flag _ hw' hv' (by rw [hin]; exact hr1) (by rw [hin]; exact hr2)
    rw [hin] at href hcount
    simp only [e, hcount]
    congr 1
    cases hr : run r st.flag (l.drop pos) with
    | oof => exact absurd hr hr1
    | risky => exact absurd hr hr2
    | fail n st' =>
      rw [hr] at href
      rw [(ref_fail href).1]
      split
      · rename_i hc; cases hc
      · rfl
    | ambiguous n =>
      rw [hr] at href
      rw [(ref_ambiguous href).1]
      split
      · rename_i hc; cases hc
      · rfl
    | hit nd u n st' =>
      rw [hr] at href hn1 hn2
      obtain ⟨g1, g2, g3, g4, g5, g6, rfl⟩ := ref_hit href
      rw [List.length_drop] at g6
      obtain ⟨un, e1, e2⟩ := account_ref (r := res) h1 h2 (by omega) g5 g3 g4
      simp only [Option.map_eq_some_iff] at g1
      obtain ⟨nd', g1, rfl⟩ := g1
      rw [h.read, h.unused, e1, g1]
      simp only [List.length_append, List.length_singleton, hlen]
      by_cases hmax : mx > 0 ∧ nodes.length + 1 = mx
      · rw [if_pos hmax, if_pos hmax]
      · simp only [if_neg hmax] at hn1 hn2 ⊢
        split at hn2
        · exact absurd rfl hn2
        rename_i hnr
        simp only [if_neg hnr] at hn1
        rw [e2 (fun hc => hnr hc.1)]
        have hm : max look (pos + k) = pos + k := by omega
        rw [hm] at hn1 hn2 ⊢
        have := ih (pos := pos + u) (look := pos + k)
          (st := { st with read := l.take (pos + k), unused := sl l (pos + u) (pos + k), sticky := st.sticky && res.sticky,
                           pos := firstPos st.pos nd'.pos, nodes := st.nodes ++ [nd'] })
          (s := cs) (stk := stk && st') (nodes := nodes ++ [nd'.erase]) ⟨by omega, by omega, rfl, rfl⟩ hadv.wf.2
          (by rw [hadv.rem, hin, List.drop_drop]) (by simp [hlen]) hn1 hn2
        simp only [List.length_append, List.length_singleton] at this
        exact this

/-! ### Choices -/

theorem workGroup_eq (hsim : EvSim ev evL) (hev : EvRef run evL) (hc : SameCount run cnt cntL) {flag : Int} {l : List Rune}
    (hv : Valid l) (rs : List Rule) :
    ∀ {look : Nat} {s : Stream} {stk : Bool} {hits : List (Node × Nat × Bool)} {look' : Nat} {stk' : Bool},
      look ≤ l.length → s.WF → s.rem = l.drop look → altsAt run flag l rs look stk = .ok hits look' stk' →
      workGroup ev cnt flag rs (l.take look) s = allTries cntL flag l rs ∧
        rs.any (fun r => (run r flag l).isHit) = !hits.isEmpty := by
  induction rs with
  | nil =>
    intro look s stk hits look' stk' _ _ _ h
    simp only [altsAt, Alts.ok.injEq] at h
    obtain ⟨rfl, _, _⟩ := h
    exact ⟨rfl, rfl⟩
  | cons r rs ih =>
    intro look s stk hits look' stk' hl hw hs h
    have hin : (s.pushBack (l.take look)).rem = l := by rw [Stream.rem_pushBack, hs, List.take_append_drop]
    have hw' := Stream.wf_pushBack hw (l.take look)
    have hv' : Valid (s.pushBack (l.take look)).rem := by rw [hin]; exact hv
    rw [altsAt] at h
    have hr1 : run r flag l ≠ .oof := by intro e; rw [e] at h; cases h
    have hr2 : run r flag l ≠ .risky := by intro e; rw [e] at h; cases h
    obtain ⟨res, cs, k, e, hadv, href⟩ := call_ref hsim hev (r := r) (flag := flag) hw' hv' (by rw [hin]; exact hr1)
      (by rw [hin]; exact hr2)
    have hcount := hc r flag _ hw' hv' (by rw [hin]; exact hr1) (by rw [hin]; exact hr2)
    rw [hin] at href hcount
    have hpop := hadv.popBack
    have hread : ∀ n, n ≤ l.length → k = n → res.read = l.take n →
        (if (l.take look).length < res.read.length then res.read else l.take look) = l.take (max look n) ∧
        (cs.popBack (l.take look)).rem = l.drop (max look n) := by
      rintro n hn rfl hr
      refine ⟨?_, ?_⟩
      · rw [hr, List.length_take, List.length_take]
        split <;> (congr 1; omega)
      · rw [hpop.rem, hs, List.drop_drop, List.length_take]; congr 1; omega
    simp only [workGroup, allTries, List.map_cons, List.sum_cons, List.any_cons, e, hcount]
    cases hr : run r flag l with
    | oof => exact absurd hr hr1
    | risky => exact absurd hr hr2
    | fail n st' =>
      rw [hr] at href h
      obtain ⟨g1, g2, g3, g4, g5⟩ := ref_fail href
      obtain ⟨q1, q2⟩ := hread n g4 g5 g2
      obtain ⟨i1, i2⟩ := ih (by omega) hpop.wf.2 q2 h
      rw [q1, i1]
      exact ⟨rfl, by rw [i2]; rfl⟩
    | ambiguous n =>
      rw [hr] at href h
      obtain ⟨g1, g2, g3, g4, g5⟩ := ref_ambiguous href
      obtain ⟨q1, q2⟩ := hread n g4 g5 g2
      obtain ⟨i1, i2⟩ := ih (by omega) hpop.wf.2 q2 h
      rw [q1, i1]
      exact ⟨rfl, by rw [i2]; rfl⟩
    | hit nd u n st' =>
      rw [hr] at href h
      obtain ⟨g1, g2, g3, g4, g5, g6, g7⟩ := ref_hit href
      obtain ⟨q1, q2⟩ := hread n g6 g7 g3
      simp only at h
      split at h
      · rename_i hits1 look1 sticky1 ha
        simp only [Alts.ok.injEq] at h
        obtain ⟨rfl, rfl, rfl⟩ := h
        obtain ⟨i1, i2⟩ := ih (by omega) hpop.wf.2 q2 ha
        rw [q1, i1]
        exact ⟨rfl, by simp [Ans.isHit]⟩
      · rename_i hne
        exact absurd h (hne _ _ _)

theorem workChoice_eq (hsim : EvSim ev evL) (hev : EvRef run evL) (hc : SameCount run cnt cntL) {b : RuleBase} {flag : Int}
    {l : List Rune} (hv : Valid l) (gs : List (List Rule)) :
    ∀ {look : Nat} {st : ChoiceState} {s : Stream}, look ≤ l.length → st.read = l.take look → s.WF → s.rem = l.drop look →
      choiceAt run b flag l gs look st.sticky ≠ .oof → choiceAt run b flag l gs look st.sticky ≠ .risky →
      workChoice ev cnt flag gs st s = choiceTries run cntL flag l gs := by
  induction gs with
  | nil => intros; rfl
  | cons g gs ih =>
    intro look st s hl hst hw hs hn1 hn2
    rw [choiceAt] at hn1 hn2
    cases ha : altsAt run flag l g look st.sticky with
    | oof => rw [ha] at hn1; exact absurd rfl hn1
    | risky => rw [ha] at hn2; exact absurd rfl hn2
    | ok hits look1 sticky1 =>
      rw [ha] at hn1 hn2
      obtain ⟨h1, h2, h3, ms, h4, h5⟩ := L.choiceGroup_ref hev flag l hv g look hl st.sticky ha
      have hp := L.pick_best h4
      have hg := choiceGroup_sim hsim flag g st s hw
      rw [hst, hs, h5] at hg
      obtain ⟨w1, w2⟩ := workGroup_eq hsim hev hc hv g hl hw hs ha
      simp only [workChoice, choiceTries, hst, w1, w2]
      congr 1
      cases hcg : choiceGroup ev flag g st s with
      | panic => rw [hcg] at hg; exact hg.elim
      | oof => rw [hcg] at hg; exact hg.elim
      | ok x =>
        obtain ⟨ms', st', s1⟩ := x
        rw [hcg] at hg
        obtain ⟨g1, g2, g3, g4⟩ := hg
        simp only at g1 g2 g3 g4
        have hpc : pick ms = (pick ms').core := by rw [← g1, pick_core]
        simp only at hn1 hn2 ⊢
        cases hb : best hits with
        | none =>
          rw [hb] at hp hn1 hn2
          rw [hp.1] at hpc
          have hnone : pick ms' = .none := by
            revert hpc; cases pick ms' <;> simp [Pick.core]
          have hits0 : hits = [] := best_none hb
          subst hits0
          rw [hnone]
          simp only [List.isEmpty_nil, Bool.not_true, Bool.false_eq_true, if_false]
          have hr1 : s1.rem = l.drop look1 := by
            rw [g4.rem, hs, List.drop_drop]; congr 1; omega
          exact ih h2 g2 g4.wf.2 hr1 (by rw [g3]; exact hn1) (by rw [g3]; exact hn2)
        | tie =>
          rw [hb] at hp
          obtain ⟨_, _, hp⟩ := hp
          rw [hp] at hpc
          have : ∃ x y, pick ms' = .ambiguous x y := by
            revert hpc; cases pick ms' <;> simp [Pick.core]
          obtain ⟨_, _, this⟩ := this
          have hne : hits.isEmpty = false := by
            cases hits with
            | nil => simp [best, longest] at hb
            | cons => rfl
          rw [this, hne]; rfl
        | order => rw [hb] at hn2; exact absurd rfl hn2
        | one nd u st'' =>
          rw [hb] at hp
          obtain ⟨q1, r, q2, _⟩ := hp
          rw [q2] at hpc
          have : ∃ x, pick ms' = .found x := by
            revert hpc; cases pick ms' <;> simp [Pick.core]
          obtain ⟨_, this⟩ := this
          have hne : hits.isEmpty = false := by
            cases hits with
            | nil => cases q1
            | cons => rfl
          rw [this, hne]; rfl

/-! ### Blocks -/

theorem escapeStep_sim (hsim : EvSim ev evL) (escape : Option Rule) (st : BlockState) (s : Stream) (h : s.WF) :
    SimG (fun (x : Bool × List Rune × List Rune × List Rune × Stream) (y : Bool × List Rune × List Rune × List Rune × Nat) =>
      x.1 = y.1 ∧ x.2.1 = y.2.1 ∧ x.2.2.1 = y.2.2.1 ∧ x.2.2.2.1 = y.2.2.2.1 ∧ Adv y.2.2.2.2 s x.2.2.2.2)
      (escapeStep ev escape st s) (blockEscape evL escape st s.rem) := by
  unfold escapeStep blockEscape
  cases escape with
  | none => exact ⟨rfl, rfl, rfl, rfl, Adv.refl h⟩
  | some e =>
    refine SimG.bind (hsim e NOT_SKIP s h) ?_
    rintro ⟨res, s'⟩ ⟨res', k⟩ ⟨e, hadv⟩
    simp only at e hadv
    subst e
    simp only [Res.core_node, Option.isSome_map, Res.core_charsUsed]
    split
    · refine SimG.same ?_
      intro c
      exact ⟨rfl, rfl, rfl, rfl, hadv⟩
    · exact ⟨rfl, rfl, rfl, rfl, hadv⟩

theorem excludeStep_sim (hsim : EvSim ev evL) (excludes : List Rule) (s : Stream) (h : s.WF) :
    SimG (fun (x : Option Res × Stream) (y : Option Res × Nat) => x.1.map Res.core = y.1 ∧ Adv y.2 s x.2)
      (excludeStep ev excludes s) (blockExclude evL excludes s.rem) := by
  unfold excludeStep blockExclude
  split
  · refine SimG.bind (mostGreedy_sim hsim NOT_SKIP excludes _ h) ?_
    rintro ⟨res, cs⟩ ⟨res', k⟩ ⟨e, hadv⟩
    exact ⟨by simpa using e, hadv⟩
  · exact ⟨rfl, Adv.refl h⟩

theorem workBlock_eq (hsim : EvSim ev evL) (hev : EvRef run evL) (hc : SameCount run cnt cntL) {b : RuleBase} {v : Bool}
    {close : Rule} {escape : Option Rule} {excludes : List Rule} {opn : Node} {start : Nat} {l : List Rune} (hv : Valid l)
    (fuel : Nat) :
    ∀ {pos look : Nat} {bs : BlockState} {s : Stream}, s.WF → s.rem = l.drop pos → (escape = none → bs.unused = []) →
      blockAt run b v close escape excludes opn start l fuel pos look ≠ .oof →
      blockAt run b v close escape excludes opn start l fuel pos look ≠ .risky →
      workBlock ev cnt close escape excludes fuel bs s = blockTries run cntL close escape excludes l fuel pos := by
  induction fuel with
  | zero => intros; rfl
  | succ fuel ih =>
    intro pos look bs s hw hs hbs hn1 hn2
    have hvd : Valid (l.drop pos) := hv.drop _
    rw [blockAt] at hn1 hn2
    cases he : escapeAt run escape excludes.isEmpty (l.drop pos) with
    | oof => rw [he] at hn1; exact absurd rfl hn1
    | risky => rw [he] at hn2; exact absurd rfl hn2
    | ambiguous => rw [he] at hn2; exact absurd rfl hn2
    | hit => rw [he] at hn2; exact absurd rfl hn2
    | fail ne ste =>
      rw [he] at hn1 hn2
      obtain ⟨e1, e2, e3⟩ := blockEscape_ref hev escape excludes.isEmpty bs hbs _ hvd he
      have hes := escapeStep_sim hsim escape bs s hw
      rw [hs, e3] at hes
      rw [workBlock.eq_def, blockTries.eq_def]
      simp only
      rw [Nat.add_assoc]
      refine congr (congrArg HAdd.hAdd ?_) ?_
      · cases escape with
        | none => rfl
        | some e =>
          have := hc e NOT_SKIP s hw (by rw [hs]; exact hvd)
          rw [hs] at this
          refine this ?_ ?_
          · intro hr; simp only [escapeAt, hr] at he; cases he
          · intro hr; simp only [escapeAt, hr] at he; cases he
      cases hx : escapeStep ev escape bs s with
      | panic => rw [hx] at hes; exact hes.elim
      | oof => rw [hx] at hes; exact hes.elim
      | ok x =>
        obtain ⟨escaped, escapeChars, used, u1, s1⟩ := x
        rw [hx] at hes
        obtain ⟨q1, q2, q3, q4, q5⟩ := hes
        simp only at q1 q2 q3 q4 q5
        subst q1; subst q2; subst q3; subst q4
        simp only at hn1 hn2 ⊢
        have hin : (s1.pushBack ((l.drop pos).take ne)).rem = l.drop pos := by
          rw [Stream.rem_pushBack, q5.rem, hs, List.take_append_drop]
        have hw1 := Stream.wf_pushBack q5.wf.2 ((l.drop pos).take ne)
        generalize s1.pushBack ((l.drop pos).take ne) = s2 at hin hw1 ⊢
        have hxr := blockExclude_ref hev excludes (l.drop pos) hvd
        have hxs := excludeStep_sim hsim excludes s2 hw1
        rw [hin] at hxs
        cases ha : altsAt run NOT_SKIP (l.drop pos) excludes 0 true with
        | oof => simp only [excludeAt, ha] at hn1; exact absurd rfl hn1
        | risky => simp only [excludeAt, ha] at hn2; exact absurd rfl hn2
        | ok hits lk stk =>
          obtain ⟨w1, w2⟩ := workGroup_eq hsim hev hc hvd excludes (Nat.zero_le _) hw1 (by rw [hin]; rfl) ha
          simp only [List.take_zero] at w1
          rw [w1, w2]
          congr 1
          have hex : excludeAt run excludes (l.drop pos) = match best hits with
            | .none => .fail lk stk
            | .one nd u st => .hit nd u lk st
            | _ => .risky := by rw [excludeAt, ha]; rfl
          cases hb : best hits with
          | tie => rw [hb] at hex; rw [hex] at hn2; exact absurd rfl hn2
          | order => rw [hb] at hex; rw [hex] at hn2; exact absurd rfl hn2
          | one nd u st =>
            rw [hb] at hex
            simp only at hex
            rw [hex] at hxr
            obtain ⟨x1, x2, x3⟩ := hxr
            rw [x3] at hxs
            have hne : hits.isEmpty = false := by
              cases hits with
              | nil => simp [best, longest] at hb
              | cons => rfl
            rw [hne]
            cases hxx : excludeStep ev excludes s2 with
            | panic => rw [hxx] at hxs; exact hxs.elim
            | oof => rw [hxx] at hxs; exact hxs.elim
            | ok y =>
              obtain ⟨rx, cs1⟩ := y
              rw [hxx] at hxs
              obtain ⟨y1, y2⟩ := hxs
              simp only at y1
              cases rx with
              | none => cases y1
              | some r0 =>
              simp only [Option.map_some, Option.some.injEq] at y1
              have hnode : ∃ nd, r0.node = some nd := by
                have := congrArg Res.node y1
                simp only [Res.core_node, Option.map_eq_some_iff] at this
                obtain ⟨nd, h, _⟩ := this
                exact ⟨nd, h⟩
              obtain ⟨nd0, hnode⟩ := hnode
              simp only [Option.bind_some, hnode, Option.map_some, Bool.not_false, if_true]
              cases r0.charsUsed with
              | ok => rfl
              | panic => rfl
              | oof => rfl
          | none =>
            rw [hb] at hex
            simp only at hex
            rw [hex] at hxr hn1 hn2
            obtain ⟨x1, rx, x2, x3, x4⟩ := hxr
            have x4 := x4 ne e2
            rw [x2] at hxs
            have hits0 : hits = [] := best_none hb
            subst hits0
            simp only [List.isEmpty_nil, Bool.not_true, Bool.false_eq_true, if_false]
            cases hxx : excludeStep ev excludes s2 with
            | panic => rw [hxx] at hxs; exact hxs.elim
            | oof => rw [hxx] at hxs; exact hxs.elim
            | ok y =>
              obtain ⟨rx', cs1⟩ := y
              rw [hxx] at hxs
              obtain ⟨y1, y2⟩ := hxs
              simp only at y1 y2
              subst y1
              have hnone : rx'.bind (fun r => r.node.map (fun _ => r)) = none := by
                cases rx' with
                | none => rfl
                | some r =>
                  cases hn : r.node with
                  | none => simp [hn]
                  | some n => simp [Res.core, hn] at x3
              simp only [hnone]
              rcases rx' with _ | r0
              all_goals
                first
                | rw [exclRead_none] at x4
                | rw [exclRead_some] at x4
                simp only [x4]
                have hin2 : (cs1.pushBack ((l.drop pos).take lk)).rem = l.drop pos := by
                  rw [Stream.rem_pushBack, y2.rem, hin, List.take_append_drop]
                have hw2 := Stream.wf_pushBack y2.wf.2 ((l.drop pos).take lk)
                generalize cs1.pushBack ((l.drop pos).take lk) = s3 at hin2 hw2 ⊢
                have hr1 : run close NOT_SKIP (l.drop pos) ≠ .oof := by intro e; rw [e] at hn1; exact hn1 rfl
                have hr2 : run close NOT_SKIP (l.drop pos) ≠ .risky := by intro e; rw [e] at hn2; exact hn2 rfl
                obtain ⟨res, cs, k, e, hadv, href⟩ := call_ref hsim hev (r := close) (flag := NOT_SKIP) hw2
                  (by rw [hin2]; exact hvd) (by rw [hin2]; exact hr1) (by rw [hin2]; exact hr2)
                have hcount := hc close NOT_SKIP s3 hw2 (by rw [hin2]; exact hvd) (by rw [hin2]; exact hr1)
                  (by rw [hin2]; exact hr2)
                rw [hin2] at hcount href
                rw [hcount, e]
                congr 1
                cases hr : run close NOT_SKIP (l.drop pos) with
                | oof => exact absurd hr hr1
                | risky => exact absurd hr hr2
                | ambiguous n => rw [hr] at hn2; exact absurd rfl hn2
                | hit nd u n st' =>
                  rw [hr] at href
                  obtain ⟨g1, _⟩ := ref_hit href
                  simp only [Option.map_eq_some_iff] at g1
                  obtain ⟨nd', g1, _⟩ := g1
                  simp only [g1, Ans.isHit, true_or, if_true]
                  cases res.charsUsed with
                  | ok => rfl
                  | panic => rfl
                  | oof => rfl
                | fail n st' =>
                  rw [hr] at href hn1 hn2
                  obtain ⟨g1, g2, g3, g4, g5⟩ := ref_fail href
                  subst g5
                  simp only [g1, Ans.isHit, Bool.false_eq_true, false_or]
                  have hin3 : (cs.pushBack res.unused).rem = l.drop pos := by
                    rw [Stream.rem_pushBack, hadv.rem, hin2, g3, List.take_append_drop]
                  have hw3 := Stream.wf_pushBack hadv.wf.2 res.unused
                  generalize cs.pushBack res.unused = s4 at hin3 hw3 ⊢
                  have hpk : s4.peek = EOFChar ↔ l.drop pos = [] := by
                    rw [L.peek_eq hw3, hin3, peek_eof hvd]
                  by_cases hnil : l.drop pos = []
                  · rw [if_pos (hpk.2 hnil), if_pos hnil]
                  · rw [if_neg (fun hc => hnil (hpk.1 hc)), if_neg hnil]
                    simp only [if_neg hnil] at hn1 hn2
                    have hnx := (next_one hw3).2
                    refine ih hnx.wf.2 ?_ (fun _ => rfl) hn1 hn2
                    rw [hnx.rem, hin3, List.drop_drop]
                    cases hd : l.drop pos with
                    | nil => exact absurd hd hnil
                    | cons => rfl

/-! ### All rules -/

end

/-- The calls of `Eval` for a rule, wherever the reference answers. -/
theorem work_eq (env : Env) (fuel : Nat) : SameCount (Spec.run env fuel) (work env fuel) (tries env fuel) := by
  induction fuel with
  | zero => intro r flag s _ _ h; exact absurd rfl h
  | succ fuel ih =>
    intro r flag s hw hv hn1 hn2
    have hsim := eval_sim env fuel
    have hev := L.eval_ref env fuel
    have ih' : ∀ {r : Rule} {fl : Int}, Spec.run env fuel r fl s.rem ≠ .oof → Spec.run env fuel r fl s.rem ≠ .risky →
        work env fuel r fl s = tries env fuel r fl s.rem := fun h1 h2 => ih _ _ s hw hv h1 h2
    rw [work.eq_def, tries.eq_def]
    simp only
    congr 1
    cases r with
    | group b r =>
      refine ih' ?_ ?_ <;> (intro e; simp only [Spec.run, e] at hn1 hn2; first | exact hn1 rfl | exact hn2 rfl)
    | option b r =>
      refine ih' ?_ ?_ <;> (intro e; simp only [Spec.run, e] at hn1 hn2; first | exact hn1 rfl | exact hn2 rfl)
    | rep b r mn mx =>
      simp only [Spec.run] at hn1 hn2
      exact workRep_eq hsim hev ih hv fuel (st := { flag := flag }) (L.at_zero _ _) hw rfl rfl hn1 hn2
    | choice b gs =>
      simp only [Spec.run] at hn1 hn2
      exact workChoice_eq hsim hev ih hv gs (look := 0) (st := {}) (Nat.zero_le _) rfl hw rfl hn1 hn2
    | concat b rs =>
      simp only [Spec.run] at hn1 hn2
      exact workConcat_eq hsim hev ih hv rs (st := { flag := flag }) (L.at_zero _ _) hw rfl hn1 hn2
    | block b o v c e xs =>
      simp only [Spec.run] at hn1 hn2
      have hr1 : Spec.run env fuel o flag s.rem ≠ .oof := by intro e; rw [e] at hn1; exact hn1 rfl
      have hr2 : Spec.run env fuel o flag s.rem ≠ .risky := by intro e; rw [e] at hn2; exact hn2 rfl
      simp only
      rw [ih' hr1 hr2]
      congr 1
      obtain ⟨res, cs, k, e', hadv, href⟩ := call_ref hsim hev hw hv hr1 hr2
      rw [e']
      cases hr : Spec.run env fuel o flag s.rem with
      | oof => exact absurd hr hr1
      | risky => exact absurd hr hr2
      | fail n st' =>
        rw [hr] at href
        simp only [(ref_fail href).1]
      | ambiguous n =>
        rw [hr] at href
        simp only [(ref_ambiguous href).1]
      | hit nd u n st' =>
        rw [hr] at href hn1 hn2
        obtain ⟨g1, g2, g3, g4, g5, g6, rfl⟩ := ref_hit href
        simp only [Option.map_eq_some_iff] at g1
        obtain ⟨nd', g1, rfl⟩ := g1
        simp only at hn1 hn2 ⊢
        split at hn2
        · exact absurd rfl hn2
        rename_i hnr
        rw [if_neg hnr] at hn1
        rw [g1, g2, sliceTo_all _ _ (by rw [g3, List.length_take]; omega)]
        have hw1 := Stream.wf_pushBack hadv.wf.2 res.unused
        have hp := Stream.position_adv hw1
        refine workBlock_eq hsim hev ih hv fuel hp.wf.2 ?_ ?_ hn1 hn2
        · rw [hp.rem, Stream.rem_pushBack, hadv.rem, g4, List.drop_zero]
          exact sl_append_drop g5
        · intro he
          have : ¬ u < k := fun hlt => hnr ⟨hlt, he⟩
          show res.unused = []
          rw [g4, List.drop_eq_nil_of_le]
          rw [List.length_take]; omega
    | ref b name =>
      simp only [Spec.run] at hn1 hn2 ⊢
      cases he : env name with
      | none => rfl
      | some r =>
        rw [he] at hn1 hn2
        refine ih' ?_ ?_ <;> (intro e; simp only [e] at hn1 hn2; first | exact hn1 rfl | exact hn2 rfl)
    | _ => rfl

end Xbnf.Props
