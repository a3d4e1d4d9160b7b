import Verif.Lemmas.Safe
import Verif.Model.AnyStream
/-
Over any implementation of `ICharstream` whatever, the slice expressions of the evaluators are within their bounds: the lengths alone see to it.
-/
namespace Xbnf
namespace G

variable {σ : Type} (I : Impl σ) (w : Nat)

/-- No panic, and no more left over than read. -/
def Kept (x : Exec (Res × GStream σ)) : Prop := x.All (fun y => y.1.unused.length ≤ y.1.read.length)

def EvKept (ev : Evaluator σ) : Prop := ∀ r flag s, Kept (ev r flag s)

theorem true_safe {r : Res} (h : r.unused.length ≤ r.read.length) : r.Safe (fun _ => True) := ⟨h, fun _ _ => trivial, fun _ _ => trivial⟩

theorem account_kept {read unused : List Rune} {r : Res} (h : r.unused.length ≤ r.read.length) (hl : unused.length ≤ read.length) :
    (account read unused r).All (fun x => x.2.length ≤ x.1.length) :=
  Exec.All.mono (account_safe (true_safe h) hl (fun _ _ => trivial) (fun _ _ => trivial)) fun _ h => h.1

theorem skipLoop_kept : ∀ (n : Nat) (s : GStream σ), (GStream.skipLoop I n s).All (fun _ => True)
  | 0, _ => trivial
  | n + 1, s => by
    unfold GStream.skipLoop
    simp only
    split
    · trivial
    · split
      · trivial
      · exact Exec.All.bind (skipLoop_kept n _) fun _ _ => trivial

theorem skipSpaces_kept (s : GStream σ) : (s.skipSpaces I w).All (fun _ => True) := by
  cases s with
  | base b => trivial
  | pre p c u => exact skipLoop_kept I _ _

theorem skip_kept (flag : Int) (s : GStream σ) : (skip I w flag s).All (fun _ => True) := by
  unfold skip
  split
  · exact skipSpaces_kept I w s
  · trivial

theorem failed_kept (e : Err) (read : List Rune) (st : Bool) (s : GStream σ) : Kept (failed I e read read st s) := Nat.le_refl _

theorem evalEOF_kept (b : RuleBase) (flag : Int) (s : GStream σ) : Kept (evalEOF I w b flag s) := by
  unfold evalEOF
  refine Exec.All.bind (skip_kept I w flag s) ?_
  rintro ⟨skipped, s⟩ -
  simp only
  split
  · exact Nat.zero_le _
  · exact failed_kept I _ _ _ _

theorem evalChar_kept (b : RuleBase) (t : Rune) (flag : Int) (s : GStream σ) : Kept (evalChar I w b t flag s) := by
  unfold evalChar
  simp only
  split
  · exact failed_kept I _ _ _ _
  · refine Exec.All.bind (skip_kept I w flag _) ?_
    rintro ⟨skipped, s⟩ -
    simp only
    split
    · split
      · change (List.drop _ _).length ≤ _
        rw [List.length_drop]; exact Nat.sub_le _ _
      · exact failed_kept I _ _ _ _
    · split
      · exact failed_kept I _ _ _ _
      · exact Nat.zero_le _

theorem evalRange_kept (b : RuleBase) (x y : Rune) (flag : Int) (s : GStream σ) : Kept (evalRange I w b x y flag s) := by
  unfold evalRange
  simp only
  split
  · exact failed_kept I _ _ _ _
  · refine Exec.All.bind (skip_kept I w flag _) ?_
    rintro ⟨skipped, s⟩ -
    simp only
    split
    · change (List.drop _ _).length ≤ _
      rw [List.length_drop]; exact Nat.sub_le _ _
    · split
      · exact Nat.zero_le _
      · exact failed_kept I _ _ _ _

theorem matchText_kept (t : List Rune) (b : Bool) (s : GStream σ) : (matchText I w t b s).All (fun _ => True) := by
  unfold matchText
  split
  · refine Exec.All.bind (skipSpaces_kept I w s) ?_
    rintro ⟨skipped, s⟩ -
    simp only
    split
    · trivial
    · split <;> trivial
  · trivial

theorem evalChars_kept (b : RuleBase) (t : List Rune) (flag : Int) (s : GStream σ) : Kept (evalChars I w b t flag s) := by
  unfold evalChars
  simp only
  split
  · exact failed_kept I _ _ _ _
  · refine Exec.All.bind (matchText_kept I w t _ _) ?_
    rintro ⟨skipped, read, found, s⟩ -
    simp only
    split
    · exact Nat.zero_le _
    · exact failed_kept I _ _ _ _

theorem evalString_kept (b : RuleBase) (t : List Rune) (flag : Int) (s : GStream σ) : Kept (evalString I w b t flag s) := by
  unfold evalString
  simp only
  split
  · exact failed_kept I _ _ _ _
  · refine Exec.All.bind (matchText_kept I w t _ _) ?_
    rintro ⟨skipped, read, found, s⟩ -
    simp only
    split
    · exact Nat.zero_le _
    · exact failed_kept I _ _ _ _

variable {I w}

theorem concatLoop_kept {ev : Evaluator σ} (hev : EvKept ev) (self : Rule) (rs : List Rule) (st : SeqState)
    (hst : st.unused.length ≤ st.read.length) (s : GStream σ) : Kept (concatLoop ev self rs st s) := by
  induction rs generalizing st s with
  | nil => exact hst
  | cons r rs ih =>
    unfold concatLoop
    refine Exec.All.bind (hev r st.flag _) ?_
    rintro ⟨res, cs⟩ hs
    refine Exec.All.bind (account_kept hs hst) ?_
    rintro ⟨read, unused⟩ h1
    simp only
    cases hn : res.node with
    | none => exact Nat.le_refl _
    | some n => exact Exec.All.bind (ih _ h1 _) fun _ h => h

theorem repLoop_kept {ev : Evaluator σ} (hev : EvKept ev) (r : Rule) (mx fuel : Nat) (st : SeqState)
    (hst : st.unused.length ≤ st.read.length) (s : GStream σ) :
    (repLoop I ev r mx fuel st s).All (fun x => x.1.unused.length ≤ x.1.read.length) := by
  induction fuel generalizing st s with
  | zero => trivial
  | succ fuel ih =>
    unfold repLoop
    simp only
    split
    · exact hst
    · refine Exec.All.bind (hev r st.flag _) ?_
      rintro ⟨res, cs⟩ hs
      refine Exec.All.bind (account_kept hs hst) ?_
      rintro ⟨read, unused⟩ h1
      simp only
      cases hn : res.node with
      | none => exact h1
      | some n =>
        simp only
        split
        · exact h1
        · exact Exec.All.bind (ih _ (by exact h1) _) fun _ h => h

theorem evalRep_kept {ev : Evaluator σ} (hev : EvKept ev) (fuel : Nat) (b : RuleBase) (r : Rule) (mn mx : Nat) (flag : Int) (s : GStream σ) :
    Kept (evalRep I ev fuel b r mn mx flag s) := by
  unfold evalRep
  refine Exec.All.bind (repLoop_kept hev r mx fuel { flag := flag } (Nat.le_refl _) s) ?_
  rintro ⟨st, why, s'⟩ h
  simp only
  unfold repFinish
  simp only
  split
  · exact Nat.le_refl _
  · exact h

theorem choiceGroup_kept {ev : Evaluator σ} (hev : EvKept ev) (flag : Int) (rs : List Rule) (st : ChoiceState) (s : GStream σ) :
    (choiceGroup ev flag rs st s).All (fun x => st.read.length ≤ x.2.1.read.length ∧
      ∀ m ∈ x.1, m.unused.length ≤ m.read.length ∧ m.read.length ≤ x.2.1.read.length) := by
  induction rs generalizing st s with
  | nil => exact ⟨Nat.le_refl _, by simp⟩
  | cons r rs ih =>
    unfold choiceGroup
    refine Exec.All.bind (hev r flag _) ?_
    rintro ⟨res, cs⟩ hs
    simp only at hs
    have hle : st.read.length ≤ (if st.read.length < res.read.length then res.read else st.read).length ∧
        res.read.length ≤ (if st.read.length < res.read.length then res.read else st.read).length := by
      split <;> omega
    simp only
    cases hn : res.node with
    | none =>
      simp only
      split
      · exact Exec.All.mono (ih _ _) fun _ h => ⟨Nat.le_trans hle.1 h.1, h.2⟩
      · exact Exec.All.mono (ih _ _) fun _ h => ⟨Nat.le_trans hle.1 h.1, h.2⟩
    | some n =>
      simp only
      refine Exec.All.bind (ih _ _) ?_
      rintro ⟨ms, st', s'⟩ ⟨h1, h2⟩
      refine ⟨Nat.le_trans hle.1 h1, ?_⟩
      intro m hm
      rcases List.mem_cons.1 hm with rfl | hm
      · exact ⟨hs, Nat.le_trans hle.2 h1⟩
      · exact h2 m hm

theorem choiceLoop_kept {ev : Evaluator σ} (hev : EvKept ev) (self : Rule) (flag : Int) (gs : List (List Rule)) (st : ChoiceState) (s : GStream σ) :
    Kept (choiceLoop ev self flag gs st s) := by
  induction gs generalizing st s with
  | nil => exact Nat.le_refl _
  | cons g gs ih =>
    unfold choiceLoop
    refine Exec.All.bind (choiceGroup_kept hev flag g st s) ?_
    rintro ⟨ms, st', s'⟩ ⟨-, h2⟩
    simp only at h2
    simp only
    cases hp : pick ms with
    | none => exact ih _ _
    | ambiguous => exact Nat.zero_le _
    | found r =>
      obtain ⟨hs, hlen⟩ := h2 r (L.pick_mem hp)
      simp only
      rw [Res.countUsed_eq hs, sliceFrom_all _ _ (by simp only [Res.used]; omega)]
      change (List.drop _ _).length ≤ _
      rw [List.length_drop]; exact Nat.sub_le _ _

theorem greedyLoop_kept {ev : Evaluator σ} (hev : EvKept ev) (flag : Int) (rs : List Rule) (read : List Rune) (s : GStream σ) :
    (greedyLoop ev flag rs read s).All (fun x => read.length ≤ x.2.1.length ∧
      ∀ m ∈ x.1, m.unused.length ≤ m.read.length ∧ m.read.length ≤ x.2.1.length) := by
  induction rs generalizing read s with
  | nil => exact ⟨Nat.le_refl _, by simp⟩
  | cons r rs ih =>
    unfold greedyLoop
    refine Exec.All.bind (hev r flag _) ?_
    rintro ⟨res, cs⟩ hs
    simp only at hs
    have hle : read.length ≤ (if read.length < res.read.length then res.read else read).length ∧
        res.read.length ≤ (if read.length < res.read.length then res.read else read).length := by
      split <;> omega
    simp only
    refine Exec.All.bind (ih _ _) ?_
    rintro ⟨ms, m, s'⟩ ⟨h1, h2⟩
    simp only at h1 h2
    simp only
    split
    · refine ⟨Nat.le_trans hle.1 h1, ?_⟩
      intro x hx
      rcases List.mem_cons.1 hx with rfl | hx
      · exact ⟨hs, Nat.le_trans hle.2 h1⟩
      · exact h2 x hx
    · exact ⟨Nat.le_trans hle.1 h1, h2⟩

theorem mostGreedy_kept {ev : Evaluator σ} (hev : EvKept ev) (flag : Int) (rs : List Rule) (s : GStream σ) : Kept (mostGreedy ev flag rs s) := by
  unfold mostGreedy
  refine Exec.All.bind (greedyLoop_kept hev flag rs [] s) ?_
  rintro ⟨ms, m, s'⟩ ⟨-, h2⟩
  simp only at h2
  simp only
  cases hp : pick ms with
  | none => exact Nat.le_refl _
  | ambiguous => exact Nat.le_refl _
  | found r =>
    obtain ⟨hs, hlen⟩ := h2 r (L.pick_mem hp)
    simp only
    rw [Res.countUsed_eq hs, sliceFrom_all _ _ (by simp only [Res.used]; omega)]
    change (List.drop _ _).length ≤ _
    rw [List.length_drop]; exact Nat.sub_le _ _

/-- When the block is closed, the used characters include those of the close rule. -/
def EndKept : BlockEnd → Prop
  | .closed used unused rc _ => rc.unused.length ≤ rc.read.length ∧ rc.used ≤ used.length ∧ unused = rc.unused
  | _ => True

theorem blockLoop_kept {ev : Evaluator σ} (hev : EvKept ev) (close : Rule) (escape : Option Rule) (excludes : List Rule) (fuel : Nat)
    (st : BlockState) (s : GStream σ) : (blockLoop I ev close escape excludes fuel st s).All (fun x => EndKept x.1) := by
  induction fuel generalizing st s with
  | zero => trivial
  | succ fuel ih =>
    unfold blockLoop
    refine Exec.All.bind (P := fun _ => True) ?_ ?_
    · cases escape with
      | none => trivial
      | some e =>
        refine Exec.All.bind (hev e NOT_SKIP s) ?_
        rintro ⟨res, s1⟩ hs
        simp only
        split
        · rw [Res.charsUsed_eq hs]; trivial
        · trivial
    rintro ⟨escaped, escapeChars, used, u1, s1⟩ -
    simp only
    refine Exec.All.bind (P := fun x => ∀ r, x.1 = some r → r.unused.length ≤ r.read.length) ?_ ?_
    · split
      · refine Exec.All.bind (mostGreedy_kept hev NOT_SKIP excludes _) ?_
        rintro ⟨res, cs⟩ hs r hr
        cases hr
        exact hs
      · intro r hr; cases hr
    rintro ⟨rx, cs1⟩ hx
    simp only at hx
    simp only
    cases hrx : rx.bind (fun r => r.node.map (fun _ => r)) with
    | some r =>
      have hr : rx = some r := by
        cases rx with
        | none => simp at hrx
        | some r' =>
          simp only [Option.bind_some, Option.map_eq_some_iff] at hrx
          obtain ⟨_, _, rfl⟩ := hrx
          rfl
      simp only
      rw [Res.charsUsed_eq (hx r hr), Exec.ok_bind]
      cases escaped with
      | true => exact Exec.All.bind (ih _ _) fun _ h => h
      | false => trivial
    | none =>
      simp only
      refine Exec.All.bind (hev close NOT_SKIP _) ?_
      rintro ⟨rc, cs2⟩ hs
      simp only at hs
      simp only
      cases hn : rc.node with
      | some n =>
        simp only
        rw [Res.charsUsed_eq hs, Exec.ok_bind]
        cases escaped with
        | true => exact Exec.All.bind (ih _ _) fun _ h => h
        | false =>
          refine ⟨hs, ?_, rfl⟩
          simp only [List.length_append, List.length_take, Res.used]
          omega
      | none =>
        simp only
        split
        · trivial
        · exact Exec.All.bind (ih _ _) fun _ h => h

theorem evalBlock_kept {ev : Evaluator σ} (hev : EvKept ev) (fuel : Nat) (b : RuleBase) (opn : Rule) (v : Bool) (close : Rule)
    (escape : Option Rule) (excludes : List Rule) (flag : Int) (s : GStream σ) :
    Kept (evalBlock I ev fuel b opn v close escape excludes flag s) := by
  unfold evalBlock
  refine Exec.All.bind (hev opn flag s) ?_
  rintro ⟨ro, s1⟩ hs
  simp only at hs
  simp only
  cases hn : ro.node with
  | none => exact hs
  | some n =>
    simp only
    rw [Res.countUsed_eq hs, sliceTo_all _ _ (by simp only [Res.used]; omega), Exec.ok_bind]
    refine Exec.All.bind (blockLoop_kept hev close escape excludes fuel _ _) ?_
    rintro ⟨e, cs⟩ he
    cases e with
    | excluded text read => exact Nat.le_refl _
    | eof used unused => exact Nat.le_refl _
    | closed used unused rc content =>
      obtain ⟨c1, c2, rfl⟩ := he
      change (if v = true then rc.read else rc.unused).length ≤ (used ++ rc.unused).length
      simp only [List.length_append, Res.used] at c2 ⊢
      split <;> omega

theorem eval_kept (I : Impl σ) (w : Nat) (env : Env) (fuel : Nat) : EvKept (eval I w env fuel) := by
  induction fuel with
  | zero => intro r flag s; trivial
  | succ fuel ih =>
    intro r flag s
    cases r with
    | eof b => exact evalEOF_kept I w b flag s
    | char b t u => exact evalChar_kept I w b t flag s
    | range b x xu y yu => exact evalRange_kept I w b x y flag s
    | chars b t => exact evalChars_kept I w b t flag s
    | str b t => exact evalString_kept I w b t flag s
    | group b r =>
      refine Exec.All.bind (ih r flag s) ?_
      rintro ⟨res, s'⟩ h
      exact (L.groupRes_safe (true_safe h) b).le
    | option b r =>
      refine Exec.All.bind (ih r flag s) ?_
      rintro ⟨res, s'⟩ h
      exact (L.optionRes_safe (true_safe h) b).le
    | rep b r mn mx => exact evalRep_kept ih fuel b r mn mx flag s
    | choice b gs => exact choiceLoop_kept ih _ flag gs {} s
    | concat b rs => exact concatLoop_kept ih _ rs { flag := flag } (Nat.le_refl _) s
    | block b o v c e x => exact evalBlock_kept ih fuel b o v c e x flag s
    | ref b name =>
      simp only [eval]
      cases env name with
      | none => exact Nat.le_refl _
      | some r =>
        refine Exec.All.bind (ih r flag s) ?_
        rintro ⟨res, s'⟩ h
        exact (L.refRes_safe (true_safe h) b).le

open Grammar (Sched RawErr simplify)

theorem rootsLoop_kept (env : Env) (fuel : Nat) (flag : Int) (rs : List Record) (read : List Rune) (s : GStream σ) :
    (rootsLoop I w env fuel flag rs read s).All (fun x => read.length ≤ x.2.1.length ∧
      ∀ m ∈ x.1, m.unused.length ≤ m.read.length ∧ m.read.length ≤ x.2.1.length) := by
  induction rs generalizing read s with
  | nil => exact ⟨Nat.le_refl _, by simp⟩
  | cons r rs ih =>
    unfold rootsLoop
    refine Exec.All.bind (eval_kept I w env fuel r.rule flag _) ?_
    rintro ⟨res, cs⟩ hs
    simp only at hs
    have hle : read.length ≤ (if read.length < res.read.length then res.read else read).length ∧
        res.read.length ≤ (if read.length < res.read.length then res.read else read).length := by
      split <;> omega
    simp only
    refine Exec.All.bind (ih _ _) ?_
    rintro ⟨ms, m, s'⟩ ⟨h1, h2⟩
    simp only at h1 h2
    refine ⟨Nat.le_trans hle.1 h1, ?_⟩
    intro x hx
    simp only at hx
    split at hx
    · rcases List.mem_cons.1 hx with rfl | hx
      · exact ⟨hs, Nat.le_trans hle.2 h1⟩
      · exact h2 x hx
    · exact h2 x hx

theorem rawLoop_kept (env : Env) (fuel : Nat) (roots : List Record) {sch : Sched} (hf : sch.Fair) (n i : Nat) (nodes : List Node) (flag : Int)
    (unused : List Rune) (s : GStream σ) : (rawLoop I w env fuel roots sch n i nodes flag unused s).All (fun _ => True) := by
  induction n generalizing i nodes flag unused s with
  | zero => trivial
  | succ n ih =>
    unfold rawLoop
    simp only
    split
    · trivial
    · refine Exec.All.bind (rootsLoop_kept env fuel flag _ [] _) ?_
      rintro ⟨ms, m, cs⟩ ⟨-, h2⟩
      simp only at h2
      simp only
      cases hp : pick (sch.matched i ms) with
      | none => trivial
      | ambiguous => trivial
      | found r =>
        obtain ⟨hs, hlen⟩ := h2 r ((hf.2 i ms).mem_iff.1 (L.pick_mem hp))
        simp only
        rw [Res.countUsed_eq hs, sliceFrom_all _ _ (by simp only [Res.used]; omega), Exec.ok_bind]
        exact ih _ _ _ _ _

theorem evalRaw_kept (I : Impl σ) (w : Nat) (g : Grammar) (fuel : Nat) {sch : Sched} (hf : sch.Fair) (s : GStream σ) :
    (evalRaw I w g fuel sch s).All (fun _ => True) := by
  unfold evalRaw
  simp only
  split
  · trivial
  · exact rawLoop_kept _ _ _ hf _ _ _ _ _ _

end G
end Xbnf
