import Verif.Spec.Terminate
import Verif.Props.Rules
/-
C22: parsing terminates.
-/
namespace Xbnf.Props
open Spec

variable {env : Env}

/-! ## What can match nothing -/

theorem oneAt_used {rt b skip p l nd u n st} (h : oneAt rt b skip p l = .hit nd u n st) : 0 < u := by
  simp only [oneAt] at h
  repeat' split at h
  all_goals first
    | (cases h; done)
    | (simp only [Ans.hit.injEq] at h; omega)

theorem textAt_used {rt b sticky skip t l nd n st} (h : textAt rt b sticky skip t l = .hit nd 0 n st) :
    t = [] := by
  simp only [textAt] at h
  generalize hlead : (if skip = true then t.takeWhile isWhiteSpace else []) = lead at h
  repeat' split at h
  all_goals first
    | (cases h; done)
    | skip
  rename_i h1 h2
  simp only [Ans.hit.injEq] at h
  have h0 : (blank skip l).length = 0 := by omega
  have h3 : (t.drop lead.length).length = 0 := by omega
  have h4 : blank skip l = [] := List.eq_nil_of_length_eq_zero h0
  rw [h4] at h1
  have h5 : lead = [] := by
    have := List.isSuffixOf_iff_suffix.1 h1
    exact List.suffix_nil.1 this
  rw [h5] at h3
  exact List.eq_nil_of_length_eq_zero (by simpa using h3)

theorem seqAt_used {run : Runner} {b l rs pos look st flag nodes nd u n s}
    (h : seqAt run b l rs pos look st flag nodes = .hit nd u n s) :
    pos ≤ u ∧ (u = pos → ∀ r ∈ rs, ∃ f l nd n st, run r f l = .hit nd 0 n st) := by
  induction rs generalizing pos look st flag nodes with
  | nil =>
    simp only [seqAt, Ans.hit.injEq] at h
    exact ⟨by omega, by simp⟩
  | cons r rs ih =>
    simp only [seqAt] at h
    split at h
    all_goals first
      | (cases h; done)
      | skip
    rename_i nd0 u0 n0 st0 hr
    split at h
    · cases h
    · obtain ⟨h1, h2⟩ := ih h
      refine ⟨by omega, fun hu r' hr' => ?_⟩
      have hz : u0 = 0 := by omega
      rcases List.mem_cons.1 hr' with rfl | hm
      · rw [hz] at hr; exact ⟨_, _, _, _, _, hr⟩
      · exact h2 (by omega) r' hm

theorem repAt_used {run : Runner} {b r mn mx flag l fuel pos look st nodes nd u n s}
    (h : repAt run b r mn mx flag l fuel pos look st nodes = .hit nd u n s) :
    pos ≤ u ∧ (u = pos → mn ≤ nodes.length ∨ ∃ f l nd n st, run r f l = .hit nd 0 n st) := by
  induction fuel generalizing pos look st nodes flag with
  | zero => cases h
  | succ fuel ih =>
    simp only [repAt, repEnd] at h
    repeat' split at h
    all_goals first
      | (cases h; done)
      | (simp only [Ans.hit.injEq] at h
         refine ⟨by omega, fun _ => Or.inl (by omega)⟩)
      | skip
    · rename_i nd0 u0 n0 st0 hr _ _ _
      simp only [Ans.hit.injEq] at h
      refine ⟨by omega, fun hu => Or.inr ⟨flag, l.drop pos, nd0, n0, st0, ?_⟩⟩
      rw [hr, show u0 = 0 by omega]
    · rename_i nd0 u0 n0 st0 hr _ _
      obtain ⟨h1, h2⟩ := ih h
      refine ⟨by omega, fun hu => Or.inr ⟨flag, l.drop pos, nd0, n0, st0, ?_⟩⟩
      rw [hr, show u0 = 0 by omega]

theorem altsAt_mem {run : Runner} {flag l rs look st hits look' st'}
    (h : altsAt run flag l rs look st = .ok hits look' st') {x} (hx : x ∈ hits) :
    ∃ r ∈ rs, ∃ n, run r flag l = .hit x.1 x.2.1 n x.2.2 := by
  induction rs generalizing look st hits look' st' with
  | nil =>
    simp only [altsAt, Alts.ok.injEq] at h
    rw [← h.1] at hx; cases hx
  | cons r rs ih =>
    simp only [altsAt] at h
    split at h
    · cases h
    · cases h
    · obtain ⟨r', h1, h2⟩ := ih h hx
      exact ⟨r', List.mem_cons_of_mem _ h1, h2⟩
    · obtain ⟨r', h1, h2⟩ := ih h hx
      exact ⟨r', List.mem_cons_of_mem _ h1, h2⟩
    · rename_i nd u n s0 hr
      split at h
      · rename_i hits' look'' st'' ha
        simp only [Alts.ok.injEq] at h
        rw [← h.1] at hx
        rcases List.mem_cons.1 hx with rfl | hm
        · exact ⟨r, List.mem_cons_self, n, hr⟩
        · obtain ⟨r', h1, h2⟩ := ih ha hm
          exact ⟨r', List.mem_cons_of_mem _ h1, h2⟩
      · rename_i hc
        exact absurd h (hc _ _ _)

theorem choiceAt_used {run : Runner} {b flag l gs look st nd u n s}
    (h : choiceAt run b flag l gs look st = .hit nd u n s) :
    ∃ g ∈ gs, ∃ r ∈ g, ∃ nd n st, run r flag l = .hit nd u n st := by
  induction gs generalizing look st with
  | nil => cases h
  | cons g gs ih =>
    simp only [choiceAt] at h
    split at h
    · cases h
    · cases h
    · rename_i hits look' st' ha
      split at h
      · obtain ⟨g', h1, h2⟩ := ih h
        exact ⟨g', List.mem_cons_of_mem _ h1, h2⟩
      · cases h
      · cases h
      · rename_i nd0 u0 s0 hb
        simp only [Ans.hit.injEq] at h
        obtain ⟨r, hr, m, hm⟩ := altsAt_mem ha (best_mem hb)
        rw [← h.2.1]
        exact ⟨g, List.mem_cons_self, r, hr, _, _, _, hm⟩

theorem blockAt_used {run : Runner} {b v c e xs o start l fuel pos look nd u n s}
    (h : blockAt run b v c e xs o start l fuel pos look = .hit nd u n s) : pos ≤ u := by
  induction fuel generalizing pos look with
  | zero => cases h
  | succ fuel ih =>
    simp only [blockAt] at h
    repeat' split at h
    all_goals first
      | (cases h; done)
      | (simp only [Ans.hit.injEq] at h; omega)
      | (have := ih h; omega)

/-- A rule that matches without using a character is one that can match nothing. -/
theorem run_nullable {fuel r flag l nd n st} (h : Spec.run env fuel r flag l = .hit nd 0 n st) :
    Nullable env r := by
  induction fuel generalizing r nd n st flag l with
  | zero => cases h
  | succ fuel ih =>
    cases r with
    | eof b => exact .eof
    | char b t q =>
      simp only [Spec.run] at h
      split at h
      · cases h
      · exact absurd (oneAt_used h) (by omega)
    | range b x q y q' =>
      simp only [Spec.run] at h
      split at h
      · cases h
      · exact absurd (oneAt_used h) (by omega)
    | chars b t => rw [textAt_used h]; exact .chars
    | str b t => rw [textAt_used h]; exact .str
    | group b r =>
      simp only [Spec.run] at h
      split at h
      · cases h
      · rename_i nd' u' n' st' hr
        simp only [Ans.hit.injEq] at h
        rw [h.2.1] at hr
        exact .group (ih hr)
      · exact .group (ih h)
    | option b r => exact .option
    | rep b r mn mx =>
      obtain ⟨_, h2⟩ := repAt_used h
      rcases h2 rfl with h | ⟨f, l, nd, n, st, h⟩
      · have : mn = 0 := by simpa using h
        subst this; exact .repZero
      · exact .rep (ih h)
    | choice b gs =>
      obtain ⟨g, hg, r, hr, nd, n, st, h⟩ := choiceAt_used h
      exact .choice hg hr (ih h)
    | concat b rs =>
      obtain ⟨_, h2⟩ := seqAt_used h
      refine .concat fun r hr => ?_
      obtain ⟨f, l, nd, n, st, h⟩ := h2 rfl r hr
      exact ih h
    | block b o v c e xs =>
      simp only [Spec.run] at h
      split at h
      · cases h
      · rename_i nd' u' n' st' hr
        split at h
        · cases h
        · have := blockAt_used h
          rw [show u' = 0 by omega] at hr
          exact .block (ih hr)
      · exact .block (ih h)
    | ref b name =>
      simp only [Spec.run] at h
      split at h
      · cases h
      · rename_i r hn
        split at h
        · rename_i nd' u' n' st' hr
          simp only [Ans.hit.injEq] at h
          rw [h.2.1] at hr
          exact .ref hn (ih hr)
        · exact .ref hn (ih h)

theorem run_used_le {fuel r flag} {l : List Rune} (hv : Valid l) {nd u n st}
    (h : Spec.run env fuel r flag l = .hit nd u n st) : u ≤ l.length := by
  have := L.eval_ref env fuel r flag l hv
  rw [h] at this
  exact Nat.le_trans this.1 this.2.1

/-! ## The loops end -/

/-- With enough fuel the rule is answered on all texts up to the length. -/
def Ends (env : Env) (n : Nat) (r : Rule) : Prop :=
  ∃ F, ∀ fuel, F ≤ fuel → ∀ flag l, Valid l → l.length ≤ n → Spec.run env fuel r flag l ≠ .oof

/-- The same for a given fuel. -/
def EndsAt (env : Env) (n : Nat) (r : Rule) (fuel : Nat) : Prop :=
  ∀ flag l, Valid l → l.length ≤ n → Spec.run env fuel r flag l ≠ .oof

theorem finite_max {α : Type} {Q : α → Nat → Prop} (xs : List α)
    (h : ∀ x ∈ xs, ∃ F, ∀ fuel, F ≤ fuel → Q x fuel) :
    ∃ F, ∀ fuel, F ≤ fuel → ∀ x ∈ xs, Q x fuel := by
  induction xs with
  | nil => exact ⟨0, fun _ _ x hx => by cases hx⟩
  | cons x xs ih =>
    obtain ⟨F1, h1⟩ := h x List.mem_cons_self
    obtain ⟨F2, h2⟩ := ih fun y hy => h y (List.mem_cons_of_mem _ hy)
    refine ⟨max F1 F2, fun fuel hf y hy => ?_⟩
    rcases List.mem_cons.1 hy with rfl | hm
    · exact h1 fuel (by omega)
    · exact h2 fuel (by omega) y hm

theorem seqAt_ends {n fuel b} {l : List Rune} (hv : Valid l) (hl : l.length ≤ n) {rs0 rs : List Rule}
    {pos look st flag nodes}
    (hleft : ∀ rs1 r rs2, rs0 ++ rs = rs1 ++ r :: rs2 → (∀ r' ∈ rs1, Nullable env r') →
      EndsAt env n r fuel)
    (hlater : ∀ m, m < n → ∀ r ∈ rs, EndsAt env m r fuel)
    (hp : (pos = 0 ∧ ∀ r ∈ rs0, Nullable env r) ∨ (0 < pos ∧ pos ≤ l.length)) :
    seqAt (Spec.run env fuel) b l rs pos look st flag nodes ≠ .oof := by
  induction rs generalizing rs0 pos look st flag nodes with
  | nil => intro h; cases h
  | cons r rs ih =>
    have hr : Spec.run env fuel r flag (l.drop pos) ≠ .oof := by
      rcases hp with ⟨rfl, hn⟩ | ⟨h1, h2⟩
      · exact hleft rs0 r rs rfl hn flag _ (hv.drop _) (by simpa using hl)
      · exact hlater (n - 1) (by omega) r List.mem_cons_self flag _ (hv.drop _)
          (by rw [List.length_drop]; omega)
    simp only [seqAt]
    cases hx : Spec.run env fuel r flag (l.drop pos) with
    | oof => exact absurd hx hr
    | risky => intro h; cases h
    | fail m s => intro h; cases h
    | ambiguous m => intro h; cases h
    | hit nd u m s =>
      simp only
      split
      · intro h; cases h
      · refine ih (rs0 := rs0 ++ [r]) ?_ (fun m hm r hr => hlater m hm r (List.mem_cons_of_mem _ hr)) ?_
        · intro rs1 r' rs2 he hn
          exact hleft rs1 r' rs2 (by rw [← he]; simp) hn
        · have hle := run_used_le (hv.drop _) hx
          rw [List.length_drop] at hle
          rcases hp with ⟨rfl, hn⟩ | ⟨h1, h2⟩
          · cases u with
            | zero =>
              refine Or.inl ⟨rfl, fun r' hr' => ?_⟩
              rcases List.mem_append.1 hr' with h | h
              · exact hn r' h
              · rw [List.mem_singleton.1 h]; exact run_nullable hx
            | succ u => exact Or.inr ⟨by omega, by omega⟩
          · exact Or.inr ⟨by omega, by omega⟩

theorem repAt_ends {n fuel b r mn mx flag} {l : List Rune} (hv : Valid l) (hl : l.length ≤ n)
    (hr : EndsAt env n r fuel) (hnn : mx = 0 → ¬ Nullable env r) {F pos look st nodes}
    (hF : (if mx = 0 then l.length - pos else mx - nodes.length) < F)
    (hmx : mx ≠ 0 → nodes.length < mx) :
    repAt (Spec.run env fuel) b r mn mx flag l F pos look st nodes ≠ .oof := by
  induction F generalizing pos look st nodes with
  | zero => omega
  | succ F ih =>
    simp only [repAt, repEnd]
    split
    · split <;> intro h <;> cases h
    · rename_i hd
      have hlt : pos < l.length := by
        rw [List.drop_eq_nil_iff] at hd; omega
      cases hx : Spec.run env fuel r flag (l.drop pos) with
      | oof => exact absurd hx (hr flag _ (hv.drop _) (by rw [List.length_drop]; omega))
      | risky => intro h; cases h
      | fail m s => simp only; split <;> intro h <;> cases h
      | ambiguous m => intro h; cases h
      | hit nd u m s =>
        simp only
        split
        · split
          · intro h; cases h
          · split <;> intro h <;> cases h
        · split
          · intro h; cases h
          · rename_i hnm _
            by_cases hm : mx = 0
            · have hu : 0 < u := by
                cases u with
                | zero => exact absurd (run_nullable hx) (hnn hm)
                | succ u => omega
              refine ih ?_ (fun h => absurd hm h)
              rw [if_pos hm] at hF ⊢
              omega
            · have h1 := hmx hm
              have hne : nodes.length + 1 ≠ mx := fun h => hnm ⟨by omega, h⟩
              refine ih ?_ (fun _ => ?_)
              · rw [if_neg hm] at hF ⊢
                rw [List.length_append, List.length_singleton]
                omega
              · rw [List.length_append, List.length_singleton]; omega

theorem altsAt_ends {run : Runner} {flag l} {rs : List Rule} (h : ∀ r ∈ rs, run r flag l ≠ .oof)
    {look st} : altsAt run flag l rs look st ≠ .oof := by
  induction rs generalizing look st with
  | nil => intro h; cases h
  | cons r rs ih =>
    have hr := h r List.mem_cons_self
    have ih' := fun {look st} => ih (fun r hr => h r (List.mem_cons_of_mem _ hr)) (look := look) (st := st)
    simp only [altsAt]
    cases hx : run r flag l with
    | oof => exact absurd hx hr
    | risky => intro h; cases h
    | fail m s => exact ih'
    | ambiguous m => exact ih'
    | hit nd u m s =>
      simp only
      split
      · intro h; cases h
      · exact ih'

theorem choiceAt_ends {run : Runner} {b flag l} {gs : List (List Rule)}
    (h : ∀ g ∈ gs, ∀ r ∈ g, run r flag l ≠ .oof) {look st} :
    choiceAt run b flag l gs look st ≠ .oof := by
  induction gs generalizing look st with
  | nil => intro h; cases h
  | cons g gs ih =>
    simp only [choiceAt]
    have ha := fun {look st} => altsAt_ends (h g List.mem_cons_self) (look := look) (st := st)
    split
    · rename_i hx; exact absurd hx ha
    · intro h; cases h
    · split
      · exact ih (fun g hg => h g (List.mem_cons_of_mem _ hg))
      · intro h; cases h
      · intro h; cases h
      · intro h; cases h

theorem excludeAt_ends {run : Runner} {xs : List Rule} {l} (h : ∀ r ∈ xs, run r NOT_SKIP l ≠ .oof) :
    excludeAt run xs l ≠ .oof := by
  unfold excludeAt
  have ha := altsAt_ends h (look := 0) (st := true)
  split
  · rename_i hx; exact absurd hx ha
  · intro h; cases h
  · split <;> intro h <;> cases h

theorem escapeAt_ends {run : Runner} {e : Option Rule} {ne l} (h : ∀ r ∈ e, run r NOT_SKIP l ≠ .oof) :
    escapeAt run e ne l ≠ .oof := by
  cases e with
  | none => intro h; cases h
  | some e =>
    have := h e rfl
    simp only [escapeAt]
    cases hx : run e NOT_SKIP l with
    | oof => exact absurd hx this
    | risky => intro h; cases h
    | fail m s => simp only; split <;> intro h <;> cases h
    | ambiguous m => simp only; split <;> intro h <;> cases h
    | hit nd u m s => intro h; cases h

theorem blockAt_ends {fuel b v c e xs o start m} {l : List Rune} (hv : Valid l)
    (h : ∀ r, r = c ∨ r ∈ e ∨ r ∈ xs → EndsAt env m r fuel) {F pos look}
    (hm : l.length - pos ≤ m) (hF : l.length - pos < F) :
    blockAt (Spec.run env fuel) b v c e xs o start l F pos look ≠ .oof := by
  induction F generalizing pos look with
  | zero => omega
  | succ F ih =>
    have hrun : ∀ r, r = c ∨ r ∈ e ∨ r ∈ xs → Spec.run env fuel r NOT_SKIP (l.drop pos) ≠ .oof :=
      fun r hr => h r hr NOT_SKIP _ (hv.drop _) (by rw [List.length_drop]; exact hm)
    have h1 := escapeAt_ends (run := Spec.run env fuel) (e := e) (ne := xs.isEmpty) (l := l.drop pos)
      fun r hr => hrun r (Or.inr (Or.inl hr))
    have h2 := excludeAt_ends (run := Spec.run env fuel) (xs := xs) (l := l.drop pos)
      fun r hr => hrun r (Or.inr (Or.inr hr))
    have h3 := hrun c (Or.inl rfl)
    simp only [blockAt]
    cases he : escapeAt (Spec.run env fuel) e xs.isEmpty (l.drop pos) with
    | oof => exact absurd he h1
    | risky => intro h; cases h
    | ambiguous k => intro h; cases h
    | hit nd u k s => intro h; cases h
    | fail ne s =>
      simp only
      cases hx : excludeAt (Spec.run env fuel) xs (l.drop pos) with
      | oof => exact absurd hx h2
      | risky => intro h; cases h
      | ambiguous k => intro h; cases h
      | hit nd u k s => simp only; split <;> intro h <;> cases h
      | fail nx s =>
        simp only
        cases hc : Spec.run env fuel c NOT_SKIP (l.drop pos) with
        | oof => exact absurd hc h3
        | risky => intro h; cases h
        | ambiguous k => intro h; cases h
        | hit nd u k s => simp only; split <;> intro h <;> cases h
        | fail k s =>
          simp only
          split
          · intro h; cases h
          · rename_i hd
            have hlt : pos < l.length := by
              rw [List.drop_eq_nil_iff] at hd; omega
            exact ih (by omega) (by omega)

/-! ## C22 -/

theorem _root_.Xbnf.Spec.SoundReps.part {r r' : Rule} (h : SoundReps env r) (hp : Part r r') :
    SoundReps env r' := fun b x mn hi => h b x mn (.step hp hi)

theorem ends (hl : NoLeftRecursion env) (hs : ∀ name r, env name = some r → SoundReps env r) (n : Nat) :
    ∀ r, SoundReps env r → Ends env n r := by
  induction n using Nat.strongRecOn with
  | ind n ihn =>
    intro r
    induction r using hl.induction with
    | h r ihr =>
    intro hr
    -- all given rules, at this length for those called here, at smaller lengths for all parts
    have later : ∀ rs : List Rule, (∀ r' ∈ rs, SoundReps env r') →
        ∃ F, ∀ fuel, F ≤ fuel → ∀ r' ∈ rs, ∀ m, m < n → EndsAt env m r' fuel := by
      intro rs hrs
      refine finite_max rs fun r' hr' => ?_
      cases n with
      | zero => exact ⟨0, fun _ _ m hm => by omega⟩
      | succ n =>
        obtain ⟨F, hF⟩ := ihn n (by omega) r' (hrs r' hr')
        exact ⟨F, fun fuel hf m hm flag l hv hlen => hF fuel hf flag l hv (by omega)⟩
    cases r with
    | eof b =>
      refine ⟨1, fun fuel hf flag l hv hlen => ?_⟩
      obtain ⟨k, rfl⟩ : ∃ k, fuel = k + 1 := ⟨fuel - 1, by omega⟩
      simp only [Spec.run, eofAt]
      split <;> intro h <;> cases h
    | char b t q =>
      refine ⟨1, fun fuel hf flag l hv hlen => ?_⟩
      obtain ⟨k, rfl⟩ : ∃ k, fuel = k + 1 := ⟨fuel - 1, by omega⟩
      simp only [Spec.run, oneAt]
      repeat' split
      all_goals (intro h; cases h)
    | range b x q y q' =>
      refine ⟨1, fun fuel hf flag l hv hlen => ?_⟩
      obtain ⟨k, rfl⟩ : ∃ k, fuel = k + 1 := ⟨fuel - 1, by omega⟩
      simp only [Spec.run, oneAt]
      repeat' split
      all_goals (intro h; cases h)
    | chars b t =>
      refine ⟨1, fun fuel hf flag l hv hlen => ?_⟩
      obtain ⟨k, rfl⟩ : ∃ k, fuel = k + 1 := ⟨fuel - 1, by omega⟩
      simp only [Spec.run, textAt]
      repeat' split
      all_goals (intro h; cases h)
    | str b t =>
      refine ⟨1, fun fuel hf flag l hv hlen => ?_⟩
      obtain ⟨k, rfl⟩ : ∃ k, fuel = k + 1 := ⟨fuel - 1, by omega⟩
      simp only [Spec.run, textAt]
      repeat' split
      all_goals (intro h; cases h)
    | group b r =>
      obtain ⟨F, hF⟩ := ihr r .group (hr.part .group)
      refine ⟨F + 1, fun fuel hf flag l hv hlen => ?_⟩
      obtain ⟨k, rfl⟩ : ∃ k, fuel = k + 1 := ⟨fuel - 1, by omega⟩
      have := hF k (by omega) flag l hv hlen
      simp only [Spec.run]
      split
      · intro h; cases h
      · intro h; cases h
      · exact this
    | option b r =>
      obtain ⟨F, hF⟩ := ihr r .option (hr.part .option)
      refine ⟨F + 1, fun fuel hf flag l hv hlen => ?_⟩
      obtain ⟨k, rfl⟩ : ∃ k, fuel = k + 1 := ⟨fuel - 1, by omega⟩
      have := hF k (by omega) flag l hv hlen
      simp only [Spec.run]
      split
      · intro h; cases h
      · intro h; cases h
      · intro h; cases h
      · exact this
    | ref b name =>
      cases hn : env name with
      | none =>
        refine ⟨1, fun fuel hf flag l hv hlen => ?_⟩
        obtain ⟨k, rfl⟩ : ∃ k, fuel = k + 1 := ⟨fuel - 1, by omega⟩
        simp only [Spec.run, hn]
        intro h; cases h
      | some r =>
        obtain ⟨F, hF⟩ := ihr r (.ref hn) (hs name r hn)
        refine ⟨F + 1, fun fuel hf flag l hv hlen => ?_⟩
        obtain ⟨k, rfl⟩ : ∃ k, fuel = k + 1 := ⟨fuel - 1, by omega⟩
        have := hF k (by omega) flag l hv hlen
        simp only [Spec.run, hn]
        split
        · intro h; cases h
        · exact this
    | rep b r mn mx =>
      obtain ⟨F, hF⟩ := ihr r .rep (hr.part .rep)
      refine ⟨max F (max n mx + 1) + 1, fun fuel hf flag l hv hlen => ?_⟩
      obtain ⟨k, rfl⟩ : ∃ k, fuel = k + 1 := ⟨fuel - 1, by omega⟩
      simp only [Spec.run]
      refine repAt_ends hv hlen (hF k (by omega)) (fun hm => ?_) ?_ (fun h => ?_)
      · subst hm; exact hr b r mn .refl
      · split
        · omega
        · simp only [List.length_nil]; omega
      · simp only [List.length_nil]; omega
    | choice b gs =>
      have hall : ∀ r ∈ gs.flatten, ∃ F, ∀ fuel, F ≤ fuel → EndsAt env n r fuel := by
        intro r hm
        obtain ⟨g, hg, hrg⟩ := List.mem_flatten.1 hm
        exact ihr r (.choice hg hrg) (hr.part (.choice hg hrg))
      obtain ⟨F, hF⟩ := finite_max _ hall
      refine ⟨F + 1, fun fuel hf flag l hv hlen => ?_⟩
      obtain ⟨k, rfl⟩ : ∃ k, fuel = k + 1 := ⟨fuel - 1, by omega⟩
      simp only [Spec.run]
      exact choiceAt_ends fun g hg r hrg =>
        hF k (by omega) r (List.mem_flatten.2 ⟨g, hg, hrg⟩) flag l hv hlen
    | concat b rs =>
      have hparts : ∀ r ∈ rs, SoundReps env r := fun r hm => hr.part (.concat hm)
      obtain ⟨F1, hF1⟩ := later rs hparts
      have hleft : ∀ r ∈ rs, ∃ F, ∀ fuel, F ≤ fuel →
          ((∃ rs1 rs2, rs = rs1 ++ r :: rs2 ∧ ∀ r' ∈ rs1, Nullable env r') → EndsAt env n r fuel) := by
        intro r hm
        by_cases hc : ∃ rs1 rs2, rs = rs1 ++ r :: rs2 ∧ ∀ r' ∈ rs1, Nullable env r'
        · obtain ⟨rs1, rs2, he, hn⟩ := hc
          obtain ⟨F, hF⟩ := ihr r (by rw [he]; exact .concat hn) (hparts r hm)
          exact ⟨F, fun fuel hf _ => hF fuel hf⟩
        · exact ⟨0, fun _ _ h => absurd h hc⟩
      obtain ⟨F2, hF2⟩ := finite_max rs hleft
      refine ⟨max F1 F2 + 1, fun fuel hf flag l hv hlen => ?_⟩
      obtain ⟨k, rfl⟩ : ∃ k, fuel = k + 1 := ⟨fuel - 1, by omega⟩
      simp only [Spec.run]
      refine seqAt_ends (rs0 := []) hv hlen ?_ ?_ (Or.inl ⟨rfl, by simp⟩)
      · intro rs1 r rs2 he hn
        simp only [List.nil_append] at he
        exact hF2 k (by omega) r (by rw [he]; simp) ⟨rs1, rs2, he, hn⟩
      · intro m hm r hrm
        exact hF1 k (by omega) r hrm m hm
    | block b o v c e xs =>
      obtain ⟨F0, hF0⟩ := ihr o .opn (hr.part .opn)
      have hmem : ∀ r, r = c ∨ r ∈ e ∨ r ∈ xs → r ∈ c :: e.toList ++ xs := by
        rintro r (rfl | h | h)
        · simp
        · simp only [Option.mem_def] at h; simp [h]
        · simp [h]
      have hmem' : ∀ r ∈ c :: e.toList ++ xs, r = c ∨ r ∈ e ∨ r ∈ xs := by
        intro r h
        simp only [List.cons_append, List.mem_cons, List.mem_append, Option.mem_toList] at h
        exact h
      have hparts : ∀ r ∈ c :: e.toList ++ xs, SoundReps env r := by
        intro r h
        rcases hmem' r h with rfl | h | h
        · exact hr.part .close
        · simp only [Option.mem_def] at h; subst h; exact hr.part .escape
        · exact hr.part (.exclude h)
      obtain ⟨F1, hF1⟩ := later _ hparts
      have hleft : ∀ r ∈ c :: e.toList ++ xs, ∃ F, ∀ fuel, F ≤ fuel →
          (Nullable env o → EndsAt env n r fuel) := by
        intro r hm
        by_cases hc : Nullable env o
        · obtain ⟨F, hF⟩ := ihr r (by
            rcases hmem' r hm with rfl | h | h
            · exact .close hc
            · simp only [Option.mem_def] at h; subst h; exact .escape hc
            · exact .exclude hc h) (hparts r hm)
          exact ⟨F, fun fuel hf _ => hF fuel hf⟩
        · exact ⟨0, fun _ _ h => absurd h hc⟩
      obtain ⟨F2, hF2⟩ := finite_max _ hleft
      refine ⟨max F0 (max (max F1 F2) (n + 1)) + 1, fun fuel hf flag l hv hlen => ?_⟩
      obtain ⟨k, rfl⟩ : ∃ k, fuel = k + 1 := ⟨fuel - 1, by omega⟩
      have hopen := hF0 k (by omega) flag l hv hlen
      simp only [Spec.run]
      cases hx : Spec.run env k o flag l with
      | oof => exact absurd hx hopen
      | risky => intro h; cases h
      | fail m s => intro h; cases h
      | ambiguous m => intro h; cases h
      | hit nd u m s =>
        simp only
        split
        · intro h; cases h
        · have hle := run_used_le hv hx
          cases u with
          | zero =>
            refine blockAt_ends (m := n) hv (fun r h => ?_) (by omega) (by omega)
            exact hF2 k (by omega) r (hmem r h) (run_nullable hx)
          | succ u =>
            refine blockAt_ends (m := n - 1) hv (fun r h => ?_) (by omega) (by omega)
            exact hF1 k (by omega) r (hmem r h) (n - 1) (by omega)

/-- In a grammar without left recursion and without repetition of a rule that can match nothing,
evaluation returns on every input, unless that is one of those on which the library is known to go
astray.  Missing for the full claim: those inputs, on some of which evaluation does not end. -/
theorem C22_terminates_partial (hl : NoLeftRecursion env)
    (hs : ∀ name r, env name = some r → SoundReps env r) {r : Rule} (hr : SoundReps env r)
    (flag : Int) {s : Stream} (h : Ready s) :
    ∃ fuel, Spec.run env fuel r flag s.rem = .risky ∨
      ∃ res s', eval env fuel r flag s = .ok (res, s') := by
  obtain ⟨F, hF⟩ := ends hl hs s.rem.length r hr
  have h1 := hF F (Nat.le_refl _) flag s.rem h.valid (Nat.le_refl _)
  refine ⟨F, ?_⟩
  by_cases h2 : Spec.run env F r flag s.rem = .risky
  · exact Or.inl h2
  · obtain ⟨res, s', k, e1, _⟩ := run_eval h h1 h2
    exact Or.inr ⟨res, s', e1⟩

/-! ### Showing that a grammar has no left recursion -/

theorem leftCall_small {r r' : Rule} (h : LeftCall env r r') :
    sizeOf r' < sizeOf r ∨ ∃ b name, r = .ref b name ∧ env name = some r' := by
  cases h with
  | group => left; simp only [Rule.group.sizeOf_spec]; omega
  | option => left; simp only [Rule.option.sizeOf_spec]; omega
  | rep => left; simp only [Rule.rep.sizeOf_spec]; omega
  | choice hg hr =>
    left
    have h1 := List.sizeOf_lt_of_mem hg
    have h2 := List.sizeOf_lt_of_mem hr
    simp only [Rule.choice.sizeOf_spec]; omega
  | @concat b rs1 _ rs2 h =>
    left
    have h1 : sizeOf r' < sizeOf (rs1 ++ r' :: rs2) := List.sizeOf_lt_of_mem (by simp)
    simp only [Rule.concat.sizeOf_spec]; omega
  | opn => left; simp only [Rule.block.sizeOf_spec]; omega
  | close _ => left; simp only [Rule.block.sizeOf_spec]; omega
  | escape _ => left; simp only [Rule.block.sizeOf_spec, Option.some.sizeOf_spec]; omega
  | exclude _ hx =>
    left
    have h1 := List.sizeOf_lt_of_mem hx
    simp only [Rule.block.sizeOf_spec]; omega
  | ref hn => right; exact ⟨_, _, rfl, hn⟩

/-- A grammar has no left recursion if none starts from a rule it defines. -/
theorem noLeftRecursion_of (h : ∀ name r, env name = some r → Acc (fun r' r => LeftCall env r r') r) :
    NoLeftRecursion env := by
  refine ⟨fun r => ?_⟩
  generalize hk : sizeOf r = k
  induction k using Nat.strongRecOn generalizing r with
  | ind k ih =>
    refine ⟨r, fun r' hc => ?_⟩
    rcases leftCall_small hc with hlt | ⟨b, name, rfl, hn⟩
    · exact ih _ (by omega) r' rfl
    · exact h name r' hn

theorem lit_not_nullable {t : String} (h : runes t ≠ []) : ¬ Nullable env (lit t) := by
  intro hn
  unfold lit at hn
  generalize runes t = x at h hn
  cases hn
  exact h rfl

/-- A recursive grammar: `e = '(' e ')' | { 'x' }<1,0>`. -/
def nested : Env := fun name =>
  if name = runes "e" then
    some (.choice {} [[.concat {} [lit "(", .ref {} (runes "e"), lit ")"], .rep {} (lit "x") 1 0]])
  else none

theorem nested_ok : NoLeftRecursion nested ∧ ∀ name r, nested name = some r → SoundReps nested r := by
  have leafAcc : ∀ t, Acc (fun r' r => LeftCall nested r r') (lit t) :=
    fun t => ⟨_, fun r' h => by unfold lit at h; cases h⟩
  constructor
  · apply noLeftRecursion_of
    intro name r h
    unfold nested at h
    split at h
    · simp only [Option.some.injEq] at h
      subst h
      refine ⟨_, fun r' hc => ?_⟩
      cases hc with
      | choice hg hr =>
        simp only [List.mem_singleton] at hg
        subst hg
        simp only [List.mem_cons, List.not_mem_nil, or_false] at hr
        rcases hr with rfl | rfl
        · refine ⟨_, fun r' hc => ?_⟩
          generalize hrs : [lit "(", .ref {} (runes "e"), lit ")"] = rs at hc
          cases hc with
          | @concat b rs1 _ rs2 hn =>
            cases rs1 with
            | nil =>
              simp only [List.nil_append, List.cons.injEq] at hrs
              rw [← hrs.1]; exact leafAcc _
            | cons x rs1 =>
              simp only [List.cons_append, List.cons.injEq] at hrs
              have := hn x List.mem_cons_self
              rw [← hrs.1] at this
              exact absurd this (lit_not_nullable (by decide))
        · refine ⟨_, fun r' hc => ?_⟩
          cases hc
          exact leafAcc _
    · cases h
  · intro name r h b x mn hi
    unfold nested at h
    split at h
    · simp only [Option.some.injEq] at h
      subst h
      cases hi with
      | step hp hi =>
        cases hp with
        | choice hg hr =>
          simp only [List.mem_singleton] at hg
          subst hg
          simp only [List.mem_cons, List.not_mem_nil, or_false] at hr
          rcases hr with rfl | rfl
          · cases hi with
            | step hp hi =>
              cases hp with
              | concat hr =>
                simp only [List.mem_cons, List.not_mem_nil, or_false] at hr
                rcases hr with rfl | rfl | rfl
                · unfold lit at hi
                  cases hi with
                  | step hp hi => cases hp
                · cases hi with
                  | step hp hi => cases hp
                · unfold lit at hi
                  cases hi with
                  | step hp hi => cases hp
          · cases hi with
            | refl => exact lit_not_nullable (by decide)
            | step hp hi =>
              cases hp
              unfold lit at hi
              cases hi with
              | step hp hi => cases hp
    · cases h

/-- Non-vacuity: the recursive grammar ends on every input. -/
example (s : Stream) (h : Ready s) :
    ∃ fuel, Spec.run nested fuel (.ref {} (runes "e")) SUGGEST_SKIP s.rem = .risky ∨
      ∃ res s', eval nested fuel (.ref {} (runes "e")) SUGGEST_SKIP s = .ok (res, s') :=
  C22_terminates_partial nested_ok.1 nested_ok.2
    (fun b x mn hi => by
      cases hi with
      | step hp hi => cases hp) _ h
example : seen (eval nested 30 (.ref {} (runes "e")) SUGGEST_SKIP (Stream.ofChars (runes "((xx))"))) =
    some (some (runes "((xx))", 1), runes "((xx))", [], []) := by decide +kernel

/-! ### Where evaluation does not end -/

/-- `{ 'xbxc' | 'x' | 'b' }`. -/
def xbxc : Rule := .choice {} [[lit "xbxc", lit "x", lit "b"]]

theorem eval_oof_of_list {fuel r flag} {s : Stream} (h : s.WF)
    (hl : L.eval env fuel r flag s.rem = .oof) : eval env fuel r flag s = .oof := by
  have := eval_sim env fuel r flag s h
  rw [hl] at this
  cases he : eval env fuel r flag s with
  | oof => rfl
  | ok x => rw [he] at this; exact this.elim
  | panic => rw [he] at this; exact this.elim

theorem valid_runes (t : String) : Valid (runes t) := by
  intro c hc
  simp only [runes, List.mem_map] at hc
  obtain ⟨c', _, rfl⟩ := hc
  intro he
  have : (0 : Int) ≤ (c'.toNat : Int) := Int.natCast_nonneg _
  rw [he] at this
  exact absurd this (by decide)

theorem xbxc_loop (k fuel : Nat) (st : SeqState) (hf : st.flag = SUGGEST_SKIP) (l : List Rune)
    (h : (st.unused = [] ∧ l = runes "xbxb") ∨ (st.unused = runes "bxb" ∧ l = []) ∨
      (st.unused = runes "xb" ∧ l = runes "xb")) :
    L.repLoop (L.eval noRules k) xbxc 0 fuel st l = .oof := by
  induction fuel generalizing st l with
  | zero => rfl
  | succ fuel ih =>
    match k with
    | 0 => rcases h with ⟨h1, h2⟩ | ⟨h1, h2⟩ | ⟨h1, h2⟩ <;>
      (rw [L.repLoop, h1, h2, if_neg (by decide)]; rfl)
    | 1 => rcases h with ⟨h1, h2⟩ | ⟨h1, h2⟩ | ⟨h1, h2⟩ <;>
      (rw [L.repLoop, h1, h2, if_neg (by decide)]; rfl)
    | k + 2 =>
      have e1 : ∃ res n, L.eval noRules (k + 2) xbxc SUGGEST_SKIP (runes "xbxb") = .ok (res, 4) ∧
          res.read = runes "xbxb" ∧ res.unused = runes "bxb" ∧ res.node = some n :=
        ⟨_, _, rfl, rfl, rfl, rfl⟩
      have e2 : ∃ res n, L.eval noRules (k + 2) xbxc SUGGEST_SKIP (runes "bxb") = .ok (res, 1) ∧
          res.read = runes "b" ∧ res.unused = [] ∧ res.node = some n :=
        ⟨_, _, rfl, rfl, rfl, rfl⟩
      obtain ⟨r1, n1, e1, e1r, e1u, e1n⟩ := e1
      obtain ⟨r2, n2, e2, e2r, e2u, e2n⟩ := e2
      rcases h with ⟨h1, h2⟩ | ⟨h1, h2⟩ | ⟨h1, h2⟩
      · rw [L.repLoop, h1, h2, if_neg (by decide), hf]
        have ha : account st.read [] r1 = .ok (st.read ++ runes "xbxb", runes "bxb") := by
          unfold account; rw [e1r, e1u]; rfl
        rw [show ([] : List Rune) ++ runes "xbxb" = runes "xbxb" from rfl, e1, Exec.ok_bind]
        simp only [ha, Exec.ok_bind, e1n]
        rw [if_neg (by omega), ih]
        · rfl
        · rfl
        · exact Or.inr (Or.inl ⟨rfl, rfl⟩)
      · rw [L.repLoop, h1, h2, if_neg (by decide), hf]
        have ha : account st.read (runes "bxb") r2 = .ok (st.read, runes "xb") := by
          unfold account Res.charsUsed Res.countUsed; rw [e2r, e2u]; rfl
        rw [show runes "bxb" ++ ([] : List Rune) = runes "bxb" from rfl, e2, Exec.ok_bind]
        simp only [ha, Exec.ok_bind, e2n]
        rw [if_neg (by omega), ih]
        · rfl
        · rfl
        · exact Or.inr (Or.inr ⟨rfl, rfl⟩)
      · rw [L.repLoop, h1, h2, if_neg (by decide), hf]
        have ha : account st.read (runes "xb") r1 = .ok (st.read ++ runes "xb", runes "bxb") := by
          unfold account; rw [e1r, e1u]; rfl
        rw [show runes "xb" ++ runes "xb" = runes "xbxb" from rfl, e1, Exec.ok_bind]
        simp only [ha, Exec.ok_bind, e1n]
        rw [if_neg (by omega), ih]
        · rfl
        · rfl
        · exact Or.inr (Or.inl ⟨rfl, rfl⟩)

/-- The full claim is false: `{ 'xbxc' | 'x' | 'b' }`, which is not recursive and repeats nothing
that can match nothing, never ends on "xbxb". -/
theorem C22_counterexample :
    (∀ fuel, eval noRules fuel (.rep {} xbxc 0 0) SUGGEST_SKIP (Stream.ofChars (runes "xbxb")) = .oof) ∧
    NoLeftRecursion noRules ∧ ¬ Nullable noRules xbxc := by
  refine ⟨fun fuel => ?_, noLeftRecursion_of (fun name r h => by cases h), ?_⟩
  · apply eval_oof_of_list (Built.ofChars _ (valid_runes _)).ready.wf
    rw [rem_ofChars]
    cases fuel with
    | zero => rfl
    | succ fuel =>
      simp only [L.eval, L.evalRep]
      rw [xbxc_loop fuel fuel { flag := SUGGEST_SKIP } rfl _ (Or.inl ⟨rfl, rfl⟩)]
      rfl
  · intro h
    unfold xbxc at h
    generalize hgs : [[lit "xbxc", lit "x", lit "b"]] = gs at h
    cases h with
    | choice hg hr h =>
      subst hgs
      simp only [List.mem_singleton] at hg
      subst hg
      simp only [List.mem_cons, List.not_mem_nil, or_false] at hr
      rcases hr with rfl | rfl | rfl <;> exact lit_not_nullable (by decide) h

/-- Both conditions are needed: `{ ['a'] }` never ends on "b". -/
theorem C22_nullable_repetition_diverges (fuel : Nat) :
    eval noRules fuel (.rep {} (.option {} (lit "a")) 0 0) SUGGEST_SKIP
      (Stream.ofChars (runes "b")) = .oof := by
  apply eval_oof_of_list (Built.ofChars _ (valid_runes _)).ready.wf
  rw [rem_ofChars]
  have loop : ∀ k fuel (st : SeqState) (l : List Rune), st.flag = SUGGEST_SKIP →
      (st.unused = [] ∧ l = runes "b" ∨ st.unused = runes "b" ∧ l = []) →
      L.repLoop (L.eval noRules k) (.option {} (lit "a")) 0 fuel st l = .oof := by
    intro k fuel
    induction fuel with
    | zero => intros; rfl
    | succ fuel ih =>
      intro st l hf h
      match k with
      | 0 => rcases h with ⟨h1, h2⟩ | ⟨h1, h2⟩ <;>
        (rw [L.repLoop, h1, h2, if_neg (by decide)]; rfl)
      | 1 => rcases h with ⟨h1, h2⟩ | ⟨h1, h2⟩ <;>
        (rw [L.repLoop, h1, h2, if_neg (by decide)]; rfl)
      | k + 2 =>
        have e1 : ∃ res n, L.eval noRules (k + 2) (.option {} (lit "a")) SUGGEST_SKIP (runes "b") =
            .ok (res, 1) ∧ res.read = runes "b" ∧ res.unused = runes "b" ∧ res.node = some n :=
          ⟨_, _, rfl, rfl, rfl, rfl⟩
        obtain ⟨r1, n1, e1, e1r, e1u, e1n⟩ := e1
        rcases h with ⟨h1, h2⟩ | ⟨h1, h2⟩
        · rw [L.repLoop, h1, h2, if_neg (by decide), hf]
          have ha : account st.read [] r1 = .ok (st.read ++ runes "b", runes "b") := by
            unfold account; rw [e1r, e1u]; rfl
          rw [show ([] : List Rune) ++ runes "b" = runes "b" from rfl, e1, Exec.ok_bind]
          simp only [ha, Exec.ok_bind, e1n]
          rw [if_neg (by omega), ih]
          · rfl
          · rfl
          · exact Or.inr ⟨rfl, rfl⟩
        · rw [L.repLoop, h1, h2, if_neg (by decide), hf]
          have ha : account st.read (runes "b") r1 = .ok (st.read, runes "b") := by
            unfold account Res.charsUsed Res.countUsed; rw [e1r, e1u]; rfl
          rw [show runes "b" ++ ([] : List Rune) = runes "b" from rfl, e1, Exec.ok_bind]
          simp only [ha, Exec.ok_bind, e1n]
          rw [if_neg (by omega), ih]
          · rfl
          · rfl
          · exact Or.inr ⟨rfl, rfl⟩
  cases fuel with
  | zero => rfl
  | succ fuel =>
    simp only [L.eval, L.evalRep]
    rw [loop fuel fuel { flag := SUGGEST_SKIP } _ rfl (Or.inl ⟨rfl, rfl⟩)]
    rfl

/-- And `e = e 'x'` never ends on any input. -/
theorem C22_left_recursion_diverges (s : Stream) (fuel : Nat) :
    let env : Env := fun name =>
      if name = runes "e" then some (.concat {} [.ref {} (runes "e"), lit "x"]) else none
    eval env fuel (.ref {} (runes "e")) SUGGEST_SKIP s = .oof := by
  intro env
  induction fuel using Nat.strongRecOn generalizing s with
  | ind fuel ih =>
    match fuel with
    | 0 => rfl
    | 1 => rfl
    | fuel + 2 =>
      have h := ih fuel (by omega)
      have henv : env (runes "e") = some (.concat {} [.ref {} (runes "e"), lit "x"]) := by
        simp [env]
      simp only [eval, henv, concatLoop, h]
      rfl

end Xbnf.Props
