import Verif.Spec.Peg
/-
More fuel does not change what the reference semantics `Spec.run` answers.
-/
namespace Xbnf.Spec

/-- No answer, or the same answer. -/
def Ans.Le (x y : Ans) : Prop := x = .oof ∨ y = x

/-- The second runner answers what the first answers. -/
def Runner.Le (run run' : Runner) : Prop := ∀ r flag l, (run r flag l).Le (run' r flag l)

variable {run run' : Runner}

theorem seqAt_le (h : Runner.Le run run') (b : RuleBase) (l : List Rune) (rs : List Rule) :
    ∀ pos look st flag nodes, (seqAt run b l rs pos look st flag nodes).Le (seqAt run' b l rs pos look st flag nodes) := by
  induction rs with
  | nil => intros; exact .inr rfl
  | cons r rs ih =>
    intro pos look st flag nodes
    simp only [seqAt]
    rcases h r flag (l.drop pos) with h | h
    · rw [h]; exact .inl rfl
    · rw [h]
      cases run r flag (l.drop pos) with
      | hit nd u n s =>
        simp only
        split
        · exact .inr rfl
        · exact ih _ _ _ _ _
      | _ => exact .inr rfl

theorem repAt_le (h : Runner.Le run run') (b : RuleBase) (r : Rule) (mn mx : Nat) (flag : Int) (l : List Rune) (fuel : Nat) :
    ∀ fuel', fuel ≤ fuel' → ∀ pos look st nodes,
      (repAt run b r mn mx flag l fuel pos look st nodes).Le (repAt run' b r mn mx flag l fuel' pos look st nodes) := by
  induction fuel with
  | zero => intros; exact .inl rfl
  | succ fuel ih =>
    intro fuel' hf pos look st nodes
    obtain ⟨fuel', rfl⟩ : ∃ k, fuel' = k + 1 := ⟨fuel' - 1, by omega⟩
    simp only [repAt]
    split
    · exact .inr rfl
    · rcases h r flag (l.drop pos) with h | h
      · rw [h]; exact .inl rfl
      · rw [h]
        cases run r flag (l.drop pos) with
        | hit nd u n s =>
          simp only
          split
          · exact .inr rfl
          · split
            · exact .inr rfl
            · exact ih _ (by omega) _ _ _ _
        | _ => exact .inr rfl

theorem altsAt_le (h : Runner.Le run run') (flag : Int) (l : List Rune) (rs : List Rule) :
    ∀ look st, altsAt run flag l rs look st = .oof ∨ altsAt run' flag l rs look st = altsAt run flag l rs look st := by
  induction rs with
  | nil => intros; exact .inr rfl
  | cons r rs ih =>
    intro look st
    simp only [altsAt]
    rcases h r flag l with h | h
    · rw [h]; exact .inl rfl
    · rw [h]
      cases run r flag l with
      | hit nd u n s =>
        simp only
        rcases ih (max look n) (st && s) with h | h
        · rw [h]; exact .inl rfl
        · rw [h]; exact .inr rfl
      | fail n s => exact ih _ _
      | ambiguous n => exact ih _ _
      | _ => exact .inr rfl

theorem choiceAt_le (h : Runner.Le run run') (b : RuleBase) (flag : Int) (l : List Rune) (gs : List (List Rule)) :
    ∀ look st, (choiceAt run b flag l gs look st).Le (choiceAt run' b flag l gs look st) := by
  induction gs with
  | nil => intros; exact .inr rfl
  | cons g gs ih =>
    intro look st
    simp only [choiceAt]
    rcases altsAt_le h flag l g look st with h | h
    · rw [h]; exact .inl rfl
    · rw [h]
      cases altsAt run flag l g look st with
      | ok hits look st =>
        simp only
        cases best hits with
        | none => exact ih _ _
        | _ => exact .inr rfl
      | _ => exact .inr rfl

theorem escapeAt_le (h : Runner.Le run run') (e : Option Rule) (ne : Bool) (l : List Rune) :
    (escapeAt run e ne l).Le (escapeAt run' e ne l) := by
  cases e with
  | none => exact .inr rfl
  | some e =>
    simp only [escapeAt]
    rcases h e NOT_SKIP l with h | h
    · rw [h]; exact .inl rfl
    · rw [h]; exact .inr rfl

theorem excludeAt_le (h : Runner.Le run run') (xs : List Rule) (l : List Rune) :
    (excludeAt run xs l).Le (excludeAt run' xs l) := by
  simp only [excludeAt]
  rcases altsAt_le h NOT_SKIP l xs 0 true with h | h
  · rw [h]; exact .inl rfl
  · rw [h]; exact .inr rfl

theorem blockAt_le (h : Runner.Le run run') (b : RuleBase) (v : Bool) (c : Rule) (e : Option Rule) (xs : List Rule) (o : Node)
    (start : Nat) (l : List Rune) (fuel : Nat) : ∀ fuel', fuel ≤ fuel' → ∀ pos look,
      (blockAt run b v c e xs o start l fuel pos look).Le (blockAt run' b v c e xs o start l fuel' pos look) := by
  induction fuel with
  | zero => intros; exact .inl rfl
  | succ fuel ih =>
    intro fuel' hf pos look
    obtain ⟨fuel', rfl⟩ : ∃ k, fuel' = k + 1 := ⟨fuel' - 1, by omega⟩
    simp only [blockAt]
    rcases escapeAt_le h e xs.isEmpty (l.drop pos) with he | he
    · rw [he]; exact .inl rfl
    · rw [he]
      cases escapeAt run e xs.isEmpty (l.drop pos) with
      | fail ne s =>
        simp only
        rcases excludeAt_le h xs (l.drop pos) with hx | hx
        · rw [hx]; exact .inl rfl
        · rw [hx]
          cases excludeAt run xs (l.drop pos) with
          | fail nx s =>
            simp only
            rcases h c NOT_SKIP (l.drop pos) with hc | hc
            · rw [hc]; exact .inl rfl
            · rw [hc]
              cases run c NOT_SKIP (l.drop pos) with
              | fail n s =>
                simp only
                split
                · exact .inr rfl
                · exact ih _ (by omega) _ _
              | _ => exact .inr rfl
          | _ => exact .inr rfl
      | _ => exact .inr rfl

theorem run_le (env : Name → Option Rule) (fuel : Nat) : ∀ fuel', fuel ≤ fuel' → Runner.Le (Spec.run env fuel) (Spec.run env fuel') := by
  induction fuel with
  | zero => intros _ _ _ _ _; exact .inl rfl
  | succ fuel ih =>
    intro fuel' hf rule flag l
    obtain ⟨fuel', rfl⟩ : ∃ k, fuel' = k + 1 := ⟨fuel' - 1, by omega⟩
    have hf : fuel ≤ fuel' := by omega
    have h := ih fuel' hf
    cases rule with
    | group b r =>
      simp only [Spec.run]
      rcases h r flag l with h | h
      · rw [h]; exact .inl rfl
      · rw [h]; exact .inr rfl
    | option b r =>
      simp only [Spec.run]
      rcases h r flag l with h | h
      · rw [h]; exact .inl rfl
      · rw [h]; exact .inr rfl
    | rep b r mn mx => exact repAt_le h b r mn mx flag l fuel fuel' hf _ _ _ _
    | choice b gs => exact choiceAt_le h b flag l gs _ _
    | concat b rs => exact seqAt_le h b l rs _ _ _ _ _
    | block b o v c e xs =>
      simp only [Spec.run]
      rcases h o flag l with h' | h'
      · rw [h']; exact .inl rfl
      · rw [h']
        cases Spec.run env fuel o flag l with
        | hit nd u n st =>
          simp only
          split
          · exact .inr rfl
          · exact blockAt_le h b v c e xs nd u l fuel fuel' hf _ _
        | _ => exact .inr rfl
    | ref b name =>
      simp only [Spec.run]
      cases env name with
      | none => exact .inr rfl
      | some r =>
        simp only
        rcases h r flag l with h | h
        · rw [h]; exact .inl rfl
        · rw [h]; exact .inr rfl
    | _ => exact .inr rfl

theorem run_mono {env : Name → Option Rule} {fuel fuel' : Nat} (hf : fuel ≤ fuel') {r : Rule} {flag : Int} {l : List Rune} {nd u n st}
    (h : Spec.run env fuel r flag l = .hit nd u n st) : Spec.run env fuel' r flag l = .hit nd u n st := by
  rcases run_le env fuel fuel' hf r flag l with h' | h'
  · rw [h] at h'; cases h'
  · rw [h', h]

end Xbnf.Spec
