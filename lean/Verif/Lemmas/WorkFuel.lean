import Verif.Model.Work
import Verif.Lemmas.Fuel
import Verif.Lemmas.Safe
/-
The number of calls of `Eval` belongs to the evaluation: once an evaluation ends, more fuel does not
change it.
-/
namespace Xbnf.Props

/-- More fuel changes nothing where the evaluation ends. -/
def SteadyCount (ev ev' : Evaluator) (cnt cnt' : Counter) : Prop :=
  ∀ r flag s, ev r flag s ≠ .oof → ev' r flag s = ev r flag s ∧ cnt' r flag s = cnt r flag s

section
variable {ev ev' : Evaluator} {cnt cnt' : Counter}

theorem bind_oof {α β : Type} {x : Exec α} {f : α → Exec β} (h : (x >>= f) ≠ .oof) : x ≠ .oof := by
  rintro rfl; exact h rfl

theorem workConcat_steady (hs : SteadyCount ev ev' cnt cnt') (self : Rule) (rs : List Rule) :
    ∀ {st : SeqState} {s : Stream}, concatLoop ev self rs st s ≠ .oof → workConcat ev' cnt' rs st s = workConcat ev cnt rs st s := by
  induction rs with
  | nil => intros; rfl
  | cons r rs ih =>
    intro st s h
    rw [concatLoop] at h
    obtain ⟨e1, e2⟩ := hs r st.flag (s.pushBack st.unused) (bind_oof h)
    simp only [workConcat, e1, e2]
    congr 1
    cases he : ev r st.flag (s.pushBack st.unused) with
    | panic => rfl
    | oof => rfl
    | ok x =>
      obtain ⟨res, cs⟩ := x
      rw [he, Exec.ok_bind] at h
      cases ha : account st.read st.unused res with
      | panic => simp only [ha]
      | oof => simp only [ha]
      | ok y =>
        obtain ⟨read, unused⟩ := y
        simp only [ha, Exec.ok_bind] at h
        cases hn : res.node with
        | none => simp only [ha, hn]
        | some n =>
          simp only [ha, hn] at h ⊢
          exact ih (bind_oof h)

theorem workRep_steady (hs : SteadyCount ev ev' cnt cnt') (r : Rule) (mx : Nat) (fuel : Nat) :
    ∀ {fuel' : Nat} {st : SeqState} {s : Stream}, fuel ≤ fuel' → repLoop ev r mx fuel st s ≠ .oof →
      workRep ev' cnt' r mx fuel' st s = workRep ev cnt r mx fuel st s := by
  induction fuel with
  | zero => intro _ _ _ _ h; exact absurd rfl h
  | succ fuel ih =>
    intro fuel' st s hf h
    cases fuel' with
    | zero => omega
    | succ fuel' =>
    rw [repLoop] at h
    simp only [workRep]
    split
    · rfl
    rename_i hp
    simp only [if_neg hp] at h
    obtain ⟨e1, e2⟩ := hs r st.flag (s.pushBack st.unused) (bind_oof h)
    simp only [e1, e2]
    congr 1
    cases he : ev r st.flag (s.pushBack st.unused) with
    | panic => rfl
    | oof => rfl
    | ok x =>
      obtain ⟨res, cs⟩ := x
      rw [he, Exec.ok_bind] at h
      cases ha : account st.read st.unused res with
      | panic => simp only [ha]
      | oof => simp only [ha]
      | ok y =>
        obtain ⟨read, unused⟩ := y
        simp only [ha, Exec.ok_bind] at h
        cases hn : res.node with
        | none => simp only [ha, hn]
        | some n =>
          simp only [ha, hn] at h ⊢
          split
          · rfl
          rename_i hm
          rw [if_neg hm] at h
          exact ih (by omega) (bind_oof h)

theorem workGroup_steady (hs : SteadyCount ev ev' cnt cnt') (flag : Int) (rs : List Rule) :
    ∀ {st : ChoiceState} {s : Stream}, choiceGroup ev flag rs st s ≠ .oof →
      choiceGroup ev' flag rs st s = choiceGroup ev flag rs st s ∧
      workGroup ev' cnt' flag rs st.read s = workGroup ev cnt flag rs st.read s := by
  induction rs with
  | nil => intros; exact ⟨rfl, rfl⟩
  | cons r rs ih =>
    intro st s h
    rw [choiceGroup] at h
    obtain ⟨e1, e2⟩ := hs r flag (s.pushBack st.read) (bind_oof h)
    simp only [choiceGroup, workGroup, e1, e2]
    cases he : ev r flag (s.pushBack st.read) with
    | panic => exact ⟨rfl, rfl⟩
    | oof => exact ⟨rfl, rfl⟩
    | ok x =>
      obtain ⟨res, cs⟩ := x
      rw [he, Exec.ok_bind] at h
      simp only [Exec.ok_bind]
      cases hn : res.node with
      | some n =>
        simp only [hn] at h ⊢
        obtain ⟨i1, i2⟩ := ih (bind_oof h)
        simp only at i2
        rw [i1, i2]
        exact ⟨rfl, rfl⟩
      | none =>
        simp only [hn] at h ⊢
        split
        · rename_i hm
          rw [if_pos hm] at h
          obtain ⟨i1, i2⟩ := ih h
          simp only at i2
          rw [i1, i2]
          exact ⟨rfl, rfl⟩
        · rename_i hm
          rw [if_neg hm] at h
          obtain ⟨i1, i2⟩ := ih h
          simp only at i2
          rw [i1, i2]
          exact ⟨rfl, rfl⟩

theorem workChoice_steady (hs : SteadyCount ev ev' cnt cnt') (self : Rule) (flag : Int) (gs : List (List Rule)) :
    ∀ {st : ChoiceState} {s : Stream}, choiceLoop ev self flag gs st s ≠ .oof →
      workChoice ev' cnt' flag gs st s = workChoice ev cnt flag gs st s := by
  induction gs with
  | nil => intros; rfl
  | cons g gs ih =>
    intro st s h
    rw [choiceLoop] at h
    obtain ⟨e1, e2⟩ := workGroup_steady hs flag g (bind_oof h)
    simp only [workChoice, e1, e2]
    congr 1
    cases he : choiceGroup ev flag g st s with
    | panic => rfl
    | oof => rfl
    | ok x =>
      obtain ⟨ms, st', s'⟩ := x
      rw [he, Exec.ok_bind] at h
      simp only at h ⊢
      cases hp : pick ms with
      | none =>
        rw [hp] at h
        exact ih h
      | ambiguous => rfl
      | found => rfl

theorem greedy_steady (hs : SteadyCount ev ev' cnt cnt') (flag : Int) (rs : List Rule) :
    ∀ {read : List Rune} {s : Stream}, greedyLoop ev flag rs read s ≠ .oof →
      greedyLoop ev' flag rs read s = greedyLoop ev flag rs read s ∧
      workGroup ev' cnt' flag rs read s = workGroup ev cnt flag rs read s := by
  induction rs with
  | nil => intros; exact ⟨rfl, rfl⟩
  | cons r rs ih =>
    intro read s h
    rw [greedyLoop] at h
    obtain ⟨e1, e2⟩ := hs r flag (s.pushBack read) (bind_oof h)
    simp only [greedyLoop, workGroup, e1, e2]
    cases he : ev r flag (s.pushBack read) with
    | panic => exact ⟨rfl, rfl⟩
    | oof => exact ⟨rfl, rfl⟩
    | ok x =>
      obtain ⟨res, cs⟩ := x
      rw [he, Exec.ok_bind] at h
      simp only [Exec.ok_bind]
      obtain ⟨i1, i2⟩ := ih (bind_oof h)
      rw [i1, i2]
      exact ⟨rfl, rfl⟩

theorem escapeStep_steady (hs : SteadyCount ev ev' cnt cnt') (escape : Option Rule) {st : BlockState} {s : Stream}
    (h : escapeStep ev escape st s ≠ .oof) : escapeStep ev' escape st s = escapeStep ev escape st s ∧
      ∀ e, escape = some e → cnt' e NOT_SKIP s = cnt e NOT_SKIP s := by
  cases escape with
  | none => exact ⟨rfl, fun _ h => by cases h⟩
  | some e =>
    obtain ⟨e1, e2⟩ := hs e NOT_SKIP s (bind_oof h)
    refine ⟨by simp only [escapeStep, e1], ?_⟩
    rintro _ h
    cases h
    exact e2

theorem excludeStep_steady (hs : SteadyCount ev ev' cnt cnt') (excludes : List Rule) {s : Stream}
    (h : excludeStep ev excludes s ≠ .oof) : excludeStep ev' excludes s = excludeStep ev excludes s ∧
      workGroup ev' cnt' NOT_SKIP excludes [] s = workGroup ev cnt NOT_SKIP excludes [] s := by
  unfold excludeStep at h ⊢
  split
  · rename_i hl
    rw [if_pos hl] at h
    obtain ⟨e1, e2⟩ := greedy_steady hs NOT_SKIP excludes (bind_oof (bind_oof h))
    refine ⟨?_, e2⟩
    unfold mostGreedy
    rw [e1]
  · rename_i hl
    have : excludes = [] := by
      cases excludes with
      | nil => rfl
      | cons => simp at hl
    subst this
    exact ⟨rfl, rfl⟩

/-- The loop of a block, in its three steps. -/
theorem blockLoop_steps (close : Rule) (escape : Option Rule) (excludes : List Rule) (fuel : Nat) (st : BlockState) (s : Stream) :
    blockLoop ev close escape excludes (fuel + 1) st s = (do
      let (escaped, escapeChars, used, u1, s) ← escapeStep ev escape st s
      let (rx, cs1) ← excludeStep ev excludes (s.pushBack u1)
      match rx.bind (fun r => r.node.map (fun _ => r)) with
      | some rx => do
        let c ← rx.charsUsed
        if escaped then do
          let (out, cs1) ← blockLoop ev close escape excludes fuel
            { used := used ++ c, unused := rx.unused, content := st.content ++ c } cs1
          .ok (out, cs1.popBack u1)
        else .ok (.excluded c (used ++ st.content ++ rx.read), cs1.popBack u1)
      | none => do
        let u2 := match rx with
          | some rx => rx.read
          | none => u1
        let (rc, cs2) ← ev close NOT_SKIP (cs1.pushBack u2)
        match rc.node with
        | some _ => do
          let c ← rc.charsUsed
          if escaped then do
            let (out, cs2) ← blockLoop ev close escape excludes fuel
              { used := used ++ c, unused := rc.unused, content := st.content ++ c } cs2
            .ok (out, (cs2.popBack u2).popBack u1)
          else
            .ok (.closed (used ++ st.content ++ c) rc.unused rc st.content,
                 (cs2.popBack u2).popBack u1)
        | none => do
          let content := st.content ++ escapeChars
          let cs3 := cs2.pushBack rc.unused
          if cs3.peek = EOFChar then
            .ok (.eof (used ++ content) rc.unused, (cs2.popBack u2).popBack u1)
          else do
            let r := cs3.next
            let (out, cs3) ← blockLoop ev close escape excludes fuel
              { used := used, unused := [], content := content ++ escapeChars ++ [r.1] } r.2
            .ok (out, ((cs3.popBack rc.unused).popBack u2).popBack u1)) := by
  rw [blockLoop.eq_def]
  cases escape <;> rfl

theorem workBlock_steady (hs : SteadyCount ev ev' cnt cnt') (close : Rule) (escape : Option Rule) (excludes : List Rule) (fuel : Nat) :
    ∀ {fuel' : Nat} {st : BlockState} {s : Stream}, fuel ≤ fuel' → blockLoop ev close escape excludes fuel st s ≠ .oof →
      workBlock ev' cnt' close escape excludes fuel' st s = workBlock ev cnt close escape excludes fuel st s := by
  induction fuel with
  | zero => intro _ _ _ _ h; exact absurd rfl h
  | succ fuel ih =>
    intro fuel' st s hf h
    cases fuel' with
    | zero => omega
    | succ fuel' =>
    rw [blockLoop_steps] at h
    rw [workBlock.eq_def, workBlock.eq_def ev]
    simp only
    obtain ⟨e1, e2⟩ := escapeStep_steady hs escape (bind_oof h)
    rw [e1]
    refine congr (congrArg HAdd.hAdd ?_) ?_
    · cases escape with
      | none => rfl
      | some e => exact e2 e rfl
    cases he : escapeStep ev escape st s with
    | panic => rfl
    | oof => rfl
    | ok x =>
      obtain ⟨escaped, escapeChars, used, u1, s1⟩ := x
      rw [he, Exec.ok_bind] at h
      simp only at h ⊢
      obtain ⟨x1, x2⟩ := excludeStep_steady hs excludes (bind_oof h)
      rw [x1, x2]
      congr 1
      cases hx : excludeStep ev excludes (s1.pushBack u1) with
      | panic => rfl
      | oof => rfl
      | ok y =>
        obtain ⟨rx, cs1⟩ := y
        rw [hx, Exec.ok_bind] at h
        simp only at h ⊢
        cases hb : rx.bind (fun r => r.node.map (fun _ => r)) with
        | some r =>
          simp only [hb] at h ⊢
          cases hc : r.charsUsed with
          | panic => rfl
          | oof => rfl
          | ok c =>
            rw [hc, Exec.ok_bind] at h
            simp only
            cases escaped with
            | false => rfl
            | true => exact ih (by omega) (bind_oof h)
        | none =>
          simp only [hb] at h ⊢
          cases rx
          all_goals
            simp only at h ⊢
            obtain ⟨c1, c2⟩ := hs close NOT_SKIP _ (bind_oof h)
            rw [c1, c2]
            congr 1
            generalize hev : ev close NOT_SKIP _ = z at h ⊢
            cases z with
            | panic => rfl
            | oof => rfl
            | ok z =>
              obtain ⟨rc, cs2⟩ := z
              rw [Exec.ok_bind] at h
              simp only at h ⊢
              cases hn : rc.node with
              | some n =>
                simp only [hn] at h ⊢
                cases hc : rc.charsUsed with
                | panic => rfl
                | oof => rfl
                | ok c =>
                  rw [hc, Exec.ok_bind] at h
                  simp only
                  cases escaped with
                  | false => rfl
                  | true => exact ih (by omega) (bind_oof h)
              | none =>
                simp only [hn] at h ⊢
                split
                · rfl
                · rename_i hp
                  rw [if_neg hp] at h
                  exact ih (by omega) (bind_oof h)

end

/-- More fuel does not change the number of calls of an evaluation that ends. -/
theorem work_fuel (env : Env) (fuel : Nat) :
    ∀ {fuel' : Nat}, fuel ≤ fuel' → SteadyCount (eval env fuel) (eval env fuel') (work env fuel) (work env fuel') := by
  induction fuel with
  | zero => intro _ _ r flag s h; exact absurd rfl h
  | succ fuel ih =>
    intro fuel' hf r flag s h
    refine ⟨((eval_le env hf r flag s).resolve_left h).symm, ?_⟩
    cases fuel' with
    | zero => omega
    | succ fuel' =>
    have ih := ih (show fuel ≤ fuel' by omega)
    rw [work.eq_def, work.eq_def env (fuel + 1)]
    simp only
    congr 1
    cases r with
    | group b r => exact (ih _ _ _ (bind_oof h)).2
    | option b r => exact (ih _ _ _ (bind_oof h)).2
    | rep b r mn mx => exact workRep_steady ih _ _ _ (by omega) (bind_oof h)
    | choice b gs => exact workChoice_steady ih _ _ _ h
    | concat b rs => exact workConcat_steady ih _ _ h
    | block b o v c e xs =>
      obtain ⟨e1, e2⟩ := ih o flag s (bind_oof h)
      simp only [e1, e2]
      congr 1
      have h : evalBlock (eval env fuel) fuel b o v c e xs flag s ≠ .oof := h
      unfold evalBlock at h
      cases ho : eval env fuel o flag s with
      | panic => rfl
      | oof => rfl
      | ok x =>
        obtain ⟨ro, s1⟩ := x
        rw [ho, Exec.ok_bind] at h
        simp only at h ⊢
        cases hn : ro.node with
        | none => rfl
        | some n =>
          simp only [hn] at h ⊢
          cases hsl : sliceTo ro.read ro.countUsed with
          | panic => rfl
          | oof => rfl
          | ok used =>
            rw [hsl, Exec.ok_bind] at h
            exact workBlock_steady ih _ _ _ _ (by omega) (bind_oof h)
    | ref b name =>
      have h : (match env name with
        | none => _
        | some r => _) ≠ Exec.oof := h
      simp only
      cases he : env name with
      | none => rfl
      | some r =>
        rw [he] at h
        exact (ih _ _ _ (bind_oof h)).2
    | _ => rfl

end Xbnf.Props
