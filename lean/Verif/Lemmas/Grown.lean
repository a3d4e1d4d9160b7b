import Verif.Lemmas.Added
/-
A grammar with further alternatives that match nowhere in the text, in the reference semantics.
-/
namespace Xbnf.Spec

/-- The answer without how far was looked. -/
def Ans.blind : Ans → Ans
  | .fail _ st => .fail 0 st
  | .ambiguous _ => .ambiguous 0
  | .hit nd u _ st => .hit nd u 0 st
  | a => a

/-- The same answers but for how far was looked, unless one of them says nothing. -/
def Alike86 (x y : Ans) : Prop := x.Bad ∨ y.Bad ∨ x.blind = y.blind

theorem Alike86.bad1 {x y : Ans} (h : x.Bad) : Alike86 x y := .inl h
theorem Alike86.bad2 {x y : Ans} (h : y.Bad) : Alike86 x y := .inr (.inl h)

/-- The cases in which both say something. -/
theorem Alike86.elim {x y : Ans} (h : Alike86 x y) {C : Prop} (h1 : x.Bad → C) (h2 : y.Bad → C)
    (h3 : ∀ n n' st, x = .fail n st → y = .fail n' st → C) (h4 : ∀ n n', x = .ambiguous n → y = .ambiguous n' → C)
    (h5 : ∀ nd u n n' st, x = .hit nd u n st → y = .hit nd u n' st → C) : C := by
  rcases h with h | h | h
  · exact h1 h
  · exact h2 h
  · cases x with
    | oof => exact h1 (.inl rfl)
    | risky => exact h1 (.inr rfl)
    | fail n st =>
      cases y <;> simp only [Ans.blind] at h <;> cases h
      exact h3 _ _ _ rfl rfl
    | ambiguous n =>
      cases y <;> simp only [Ans.blind] at h <;> cases h
      exact h4 _ _ rfl rfl
    | hit nd u n st =>
      cases y <;> simp only [Ans.blind] at h <;> cases h
      exact h5 _ _ _ _ _ rfl rfl

variable {P R : Rule → Prop} {Q : Name → Prop} {run run' : Runner} {text : List Rune}

def Agrees86 (P R : Rule → Prop) (Q : Name → Prop) (text : List Rune) (run run' : Runner) : Prop :=
  ∀ r r' flag l, l <:+ text → Grown P R Q r r' → Alike86 (run r flag l) (run' r' flag l)

def Mute (P : Rule → Prop) (text : List Rune) (run : Runner) : Prop :=
  ∀ r flag l, P r → l <:+ text → (run r flag l).Bad ∨ ∃ n, run r flag l = .fail n true

def MuteX (R : Rule → Prop) (text : List Rune) (run : Runner) : Prop :=
  ∀ r flag l, R r → l <:+ text → (run r flag l).Bad ∨ (∃ n st, run r flag l = .fail n st) ∨ ∃ n, run r flag l = .ambiguous n

def AltsAlike (x y : Alts) : Prop :=
  x.Bad ∨ y.Bad ∨ ∃ hits n n' st, x = .ok hits n st ∧ y = .ok hits n' st

theorem suffix_drop {l : List Rune} (hl : l <:+ text) (pos : Nat) : l.drop pos <:+ text := (List.drop_suffix pos l).trans hl

theorem altsAt_grown (h : Agrees86 P R Q text run run') (hm : Mute P text run') (flag : Int) {l : List Rune} (hl : l <:+ text) {rs rs' : List Rule}
    (hs : GrownA P R Q rs rs') : ∀ look look' st, AltsAlike (altsAt run flag l rs look st) (altsAt run' flag l rs' look' st) := by
  match rs, rs', hs with
  | [], [], .nil => intro k k' st; exact .inr (.inr ⟨_, _, _, _, rfl, rfl⟩)
  | r :: rs, r' :: rs', .keep h0 hs =>
    intro k k' st
    have ih := altsAt_grown h hm flag hl hs
    simp only [altsAt.eq_2]
    refine (h r r' flag l hl h0).elim ?_ ?_ ?_ ?_ ?_
    · intro hb; rcases hb with hb | hb <;> rw [hb] <;> exact .inl (by simp [Alts.Bad])
    · intro hb; rcases hb with hb | hb <;> rw [hb] <;> exact .inr (.inl (by simp [Alts.Bad]))
    · intro n n' s e e'; rw [e, e']; exact ih _ _ _
    · intro n n' e e'; rw [e, e']; exact ih _ _ _
    · intro nd u n n' s e e'
      rw [e, e']
      simp only
      rcases ih (max k n) (max k' n') (st && s) with hb | hb | ⟨hits, m, m', t, e1, e2⟩
      · rcases hb with hb | hb <;> rw [hb] <;> exact .inl (by simp [Alts.Bad])
      · rcases hb with hb | hb <;> rw [hb] <;> exact .inr (.inl (by simp [Alts.Bad]))
      · rw [e1, e2]; exact .inr (.inr ⟨_, _, _, _, rfl, rfl⟩)
  | rs, r' :: rs', .add h0 hs =>
    intro k k' st
    have ih := altsAt_grown h hm flag hl hs
    rcases hm r' flag l h0 hl with hb | ⟨n, e⟩
    · rcases hb with hb | hb <;> simp only [altsAt.eq_2, hb] <;> exact .inr (.inl (by simp [Alts.Bad]))
    · simp only [altsAt.eq_2, e, Bool.and_true]
      exact ih _ _ _
  termination_by rs'.length

/-- The same without what is reported of white space. -/
def AltsLoose (x y : Alts) : Prop :=
  x.Bad ∨ y.Bad ∨ ∃ hits n n' st st', x = .ok hits n st ∧ y = .ok hits n' st'

theorem altsAt_loose (h : Agrees86 P R Q text run run') (hm : MuteX R text run') (flag : Int) {l : List Rune} (hl : l <:+ text) {rs rs' : List Rule}
    (hs : GrownX P R Q rs rs') : ∀ look look' st st', AltsLoose (altsAt run flag l rs look st) (altsAt run' flag l rs' look' st') := by
  match rs, rs', hs with
  | [], [], .nil => intro k k' st st'; exact .inr (.inr ⟨_, _, _, _, _, rfl, rfl⟩)
  | r :: rs, r' :: rs', .keep h0 hs =>
    intro k k' st st'
    have ih := altsAt_loose h hm flag hl hs
    simp only [altsAt.eq_2]
    refine (h r r' flag l hl h0).elim ?_ ?_ ?_ ?_ ?_
    · intro hb; rcases hb with hb | hb <;> rw [hb] <;> exact .inl (by simp [Alts.Bad])
    · intro hb; rcases hb with hb | hb <;> rw [hb] <;> exact .inr (.inl (by simp [Alts.Bad]))
    · intro n n' s e e'; rw [e, e']; exact ih _ _ _ _
    · intro n n' e e'; rw [e, e']; exact ih _ _ _ _
    · intro nd u n n' s e e'
      rw [e, e']
      simp only
      rcases ih (max k n) (max k' n') (st && s) (st' && s) with hb | hb | ⟨hits, m, m', t, t', e1, e2⟩
      · rcases hb with hb | hb <;> rw [hb] <;> exact .inl (by simp [Alts.Bad])
      · rcases hb with hb | hb <;> rw [hb] <;> exact .inr (.inl (by simp [Alts.Bad]))
      · rw [e1, e2]; exact .inr (.inr ⟨_, _, _, _, _, rfl, rfl⟩)
  | rs, r' :: rs', .add h0 hs =>
    intro k k' st st'
    have ih := altsAt_loose h hm flag hl hs
    rcases hm r' flag l h0 hl with hb | ⟨n, s, e⟩ | ⟨n, e⟩
    · rcases hb with hb | hb <;> simp only [altsAt.eq_2, hb] <;> exact .inr (.inl (by simp [Alts.Bad]))
    · simp only [altsAt.eq_2, e]
      exact ih _ _ _ _
    · simp only [altsAt.eq_2, e]
      exact ih _ _ _ _
  termination_by rs'.length

theorem choiceAt_grown (h : Agrees86 P R Q text run run') (hm : Mute P text run') (b : RuleBase) (flag : Int) {l : List Rune} (hl : l <:+ text)
    {gs gs' : List (List Rule)} (hs : GrownG P R Q gs gs') :
    ∀ look look' st, Alike86 (choiceAt run b flag l gs look st) (choiceAt run' b flag l gs' look' st) := by
  match gs, gs', hs with
  | [], [], .nil => intro k k' st; exact .inr (.inr rfl)
  | g :: gs, g' :: gs', .group hg hs =>
    intro k k' st
    have ih := choiceAt_grown h hm b flag hl hs
    simp only [choiceAt.eq_2]
    rcases altsAt_grown h hm flag hl hg k k' st with hb | hb | ⟨hits, m, m', t, e1, e2⟩
    · rcases hb with hb | hb <;> rw [hb] <;> exact .inl (by simp [Ans.Bad])
    · rcases hb with hb | hb <;> rw [hb] <;> exact .inr (.inl (by simp [Ans.Bad]))
    · rw [e1, e2]
      simp only
      cases best hits with
      | none => exact ih _ _ _
      | tie => exact .inr (.inr rfl)
      | order => exact .inl (.inr rfl)
      | one nd u s => exact .inr (.inr rfl)
  | gs, g' :: gs', .new hg hs =>
    intro k k' st
    have ih := choiceAt_grown h hm b flag hl hs
    rcases altsAt_grown h hm flag hl hg k k' st with hb | hb | ⟨hits, m, m', t, e1, e2⟩
    · rcases hb with hb | hb <;> cases hb
    · rcases hb with hb | hb <;> simp only [choiceAt.eq_2, hb] <;> exact .inr (.inl (by simp [Ans.Bad]))
    · simp only [altsAt] at e1
      cases e1
      simp only [choiceAt.eq_2, e2, best, List.filter_nil]
      exact ih _ _ _
  termination_by gs'.length

theorem seqAt_grown (h : Agrees86 P R Q text run run') (b : RuleBase) {l : List Rune} (hl : l <:+ text) {rs rs' : List Rule} (hs : GrownL P R Q rs rs') :
    ∀ pos look look' st flag nodes, Alike86 (seqAt run b l rs pos look st flag nodes) (seqAt run' b l rs' pos look' st flag nodes) := by
  match rs, rs', hs with
  | [], [], .nil => intros; exact .inr (.inr rfl)
  | r :: rs, r' :: rs', .cons h0 hs =>
    intro pos k k' st flag nodes
    have ih := seqAt_grown h b hl hs
    simp only [seqAt]
    refine (h r r' flag _ (suffix_drop hl pos) h0).elim ?_ ?_ ?_ ?_ ?_
    · intro hb; rcases hb with hb | hb <;> rw [hb] <;> exact .inl (by simp [Ans.Bad])
    · intro hb; rcases hb with hb | hb <;> rw [hb] <;> exact .inr (.inl (by simp [Ans.Bad]))
    · intro n n' s e e'; rw [e, e']; exact .inr (.inr rfl)
    · intro n n' e e'; rw [e, e']; exact .inr (.inr rfl)
    · intro nd u n n' s e e'
      rw [e, e']
      simp only
      split
      · exact .bad1 bad_risky
      · split
        · exact .bad2 bad_risky
        · exact ih _ _ _ _ _ _

theorem repEnd_alike (b : RuleBase) (mn pos k k' : Nat) (st : Bool) (nodes : List Node) :
    Alike86 (repEnd b mn pos k st nodes) (repEnd b mn pos k' st nodes) := by
  unfold repEnd
  split <;> exact .inr (.inr rfl)

theorem repAt_grown (h : Agrees86 P R Q text run run') (b : RuleBase) {r r' : Rule} (h0 : Grown P R Q r r') (mn mx : Nat) (flag : Int) {l : List Rune}
    (hl : l <:+ text) (fuel : Nat) :
    ∀ pos look look' st nodes, Alike86 (repAt run b r mn mx flag l fuel pos look st nodes) (repAt run' b r' mn mx flag l fuel pos look' st nodes) := by
  induction fuel with
  | zero => intros; exact .inr (.inr rfl)
  | succ fuel ih =>
    intro pos k k' st nodes
    simp only [repAt]
    split
    · exact repEnd_alike ..
    · refine (h r r' flag _ (suffix_drop hl pos) h0).elim ?_ ?_ ?_ ?_ ?_
      · intro hb; rcases hb with hb | hb <;> rw [hb] <;> exact .inl (by simp [Ans.Bad])
      · intro hb; rcases hb with hb | hb <;> rw [hb] <;> exact .inr (.inl (by simp [Ans.Bad]))
      · intro n n' s e e'; rw [e, e']; exact repEnd_alike ..
      · intro n n' e e'; rw [e, e']; exact .inr (.inr rfl)
      · intro nd u n n' s e e'
        rw [e, e']
        simp only
        split
        · split
          · exact .bad1 bad_risky
          · split
            · exact .bad2 bad_risky
            · exact repEnd_alike ..
        · split
          · exact .bad1 bad_risky
          · split
            · exact .bad2 bad_risky
            · exact ih _ _ _ _ _

theorem escapeAt_grown (h : Agrees86 P R Q text run run') {e e' : Option Rule} (he : GrownO P R Q e e') (ne ne' : Bool) {l : List Rune} (hl : l <:+ text) :
    Alike86 (escapeAt run e ne l) (escapeAt run' e' ne' l) := by
  cases he with
  | none => exact .inr (.inr rfl)
  | @some r r' h0 =>
    simp only [escapeAt]
    refine (h r r' NOT_SKIP l hl h0).elim ?_ ?_ ?_ ?_ ?_
    · intro hb; rcases hb with hb | hb <;> rw [hb] <;> exact .inl (by simp [Ans.Bad])
    · intro hb; rcases hb with hb | hb <;> rw [hb] <;> exact .inr (.inl (by simp [Ans.Bad]))
    · intro n n' s e e'; rw [e, e']; simp only
      split
      · exact .bad1 bad_risky
      · split
        · exact .bad2 bad_risky
        · exact .inr (.inr rfl)
    · intro n n' e e'; rw [e, e']; simp only
      split
      · exact .bad1 bad_risky
      · split
        · exact .bad2 bad_risky
        · exact .inr (.inr rfl)
    · intro nd u n n' s e e'; rw [e, e']; exact .bad1 bad_risky

/-- The same but for what is reported of white space. -/
def ExcludesAlike (x y : Ans) : Prop :=
  x.Bad ∨ y.Bad ∨ (∃ n n' st st', x = .fail n st ∧ y = .fail n' st') ∨ ∃ nd u n n' st, x = .hit nd u n st ∧ y = .hit nd u n' st

theorem excludeAt_grown (h : Agrees86 P R Q text run run') (hm : MuteX R text run') {xs xs' : List Rule} (hx : GrownX P R Q xs xs') {l : List Rune}
    (hl : l <:+ text) : ExcludesAlike (excludeAt run xs l) (excludeAt run' xs' l) := by
  unfold excludeAt
  rcases altsAt_loose h hm NOT_SKIP hl hx 0 0 true true with hb | hb | ⟨hits, m, m', t, t', e1, e2⟩
  · rcases hb with hb | hb <;> rw [hb] <;> exact .inl (by simp [Ans.Bad])
  · rcases hb with hb | hb <;> rw [hb] <;> exact .inr (.inl (by simp [Ans.Bad]))
  · rw [e1, e2]
    simp only
    cases best hits with
    | none => exact .inr (.inr (.inl ⟨_, _, _, _, rfl, rfl⟩))
    | one nd u s => exact .inr (.inr (.inr ⟨_, _, _, _, _, rfl, rfl⟩))
    | _ => exact .inl (.inr rfl)

theorem blockAt_grown (h : Agrees86 P R Q text run run') (hm : MuteX R text run') (b : RuleBase) (v : Bool) {c c' : Rule} (hc : Grown P R Q c c')
    {e e' : Option Rule} (he : GrownO P R Q e e') {xs xs' : List Rule} (hx : GrownX P R Q xs xs') (o : Node) (start : Nat) {l : List Rune}
    (hl : l <:+ text) (fuel : Nat) :
    ∀ pos look look', Alike86 (blockAt run b v c e xs o start l fuel pos look) (blockAt run' b v c' e' xs' o start l fuel pos look') := by
  induction fuel with
  | zero => intros; exact .inr (.inr rfl)
  | succ fuel ih =>
    intro pos k k'
    simp only [blockAt]
    have hd := suffix_drop hl pos
    refine (escapeAt_grown h he xs.isEmpty xs'.isEmpty hd).elim ?_ ?_ ?_ ?_ ?_
    · intro hb; rcases hb with hb | hb <;> rw [hb] <;> exact .inl (by simp [Ans.Bad])
    · intro hb; rcases hb with hb | hb <;> rw [hb] <;> exact .inr (.inl (by simp [Ans.Bad]))
    · intro n1 n1' s e1 e1'
      rw [e1, e1']
      simp only
      rcases excludeAt_grown h hm hx hd with hb | hb | ⟨n2, n2', _, _, e2, e2'⟩ | ⟨nd, u, n2, n2', s, e2, e2'⟩
      · rcases hb with hb | hb <;> rw [hb] <;> exact .inl (by simp [Ans.Bad])
      · rcases hb with hb | hb <;> rw [hb] <;> exact .inr (.inl (by simp [Ans.Bad]))
      · rw [e2, e2']
        simp only
        refine (h c c' NOT_SKIP _ hd hc).elim ?_ ?_ ?_ ?_ ?_
        · intro hb; rcases hb with hb | hb <;> rw [hb] <;> exact .inl (by simp [Ans.Bad])
        · intro hb; rcases hb with hb | hb <;> rw [hb] <;> exact .inr (.inl (by simp [Ans.Bad]))
        · intro n3 n3' s e3 e3'
          rw [e3, e3']
          simp only
          split
          · exact .inr (.inr rfl)
          · exact ih _ _ _
        · intro n3 n3' e3 e3'; rw [e3, e3']; exact .inr (.inr rfl)
        · intro nd u n3 n3' s e3 e3'
          rw [e3, e3']
          simp only
          by_cases h1 : pos + n3 < max (max k (pos + n1)) (pos + n2)
          · rw [if_pos h1]; exact .bad1 bad_risky
          · by_cases h2 : pos + n3' < max (max k' (pos + n1')) (pos + n2')
            · rw [if_pos h2]; exact .bad2 bad_risky
            · rw [if_neg h1, if_neg h2]; exact .inr (.inr rfl)
      · rw [e2, e2']
        simp only
        split
        · exact .bad1 bad_risky
        · split
          · exact .bad2 bad_risky
          · exact .inr (.inr rfl)
    · intro n n' e e'; rw [e, e']; exact .inr (.inr rfl)
    · intro nd u n n' s e e'; rw [e, e']; exact .inr (.inr rfl)

theorem run_grown {env env' : Env} (he : ∀ n, Q n → GrownO P R Q (env n) (env' n)) (hm : ∀ fuel, Mute P text (Spec.run env' fuel))
    (hx : ∀ fuel, MuteX R text (Spec.run env' fuel)) (fuel : Nat) :
    Agrees86 P R Q text (Spec.run env fuel) (Spec.run env' fuel) := by
  induction fuel with
  | zero => intro r r' flag l _ _; exact .inr (.inr rfl)
  | succ fuel ih =>
    intro r r' flag l hl hr
    cases hr with
    | same h hn =>
      cases r with
      | ref b name => exact absurd rfl (hn b name)
      | group => cases h
      | option => cases h
      | rep => cases h
      | choice => cases h
      | concat => cases h
      | block => cases h
      | _ => exact .inr (.inr rfl)
    | @ref b name hq =>
      simp only [Spec.run]
      have h0 := he name hq
      revert h0
      cases env name <;> cases env' name <;> intro h0 <;> cases h0
      · exact .inr (.inr rfl)
      · rename_i r r' h0
        simp only
        refine (ih r r' flag l hl h0).elim ?_ ?_ ?_ ?_ ?_
        · intro hb; rcases hb with hb | hb <;> rw [hb] <;> exact .inl (by simp [Ans.Bad])
        · intro hb; rcases hb with hb | hb <;> rw [hb] <;> exact .inr (.inl (by simp [Ans.Bad]))
        all_goals intros; rename_i e e'; rw [e, e']; exact .inr (.inr rfl)
    | @group b r r' h0 =>
      simp only [Spec.run]
      refine (ih r r' flag l hl h0).elim ?_ ?_ ?_ ?_ ?_
      · intro hb; rcases hb with hb | hb <;> rw [hb] <;> exact .inl (by simp [Ans.Bad])
      · intro hb; rcases hb with hb | hb <;> rw [hb] <;> exact .inr (.inl (by simp [Ans.Bad]))
      all_goals intros; rename_i e e'; rw [e, e']; exact .inr (.inr rfl)
    | @option b r r' h0 =>
      simp only [Spec.run]
      refine (ih r r' flag l hl h0).elim ?_ ?_ ?_ ?_ ?_
      · intro hb; rcases hb with hb | hb <;> rw [hb] <;> exact .inl (by simp [Ans.Bad])
      · intro hb; rcases hb with hb | hb <;> rw [hb] <;> exact .inr (.inl (by simp [Ans.Bad]))
      all_goals intros; rename_i e e'; rw [e, e']; exact .inr (.inr rfl)
    | rep h0 => exact repAt_grown ih _ h0 _ _ flag hl fuel _ _ _ _ _
    | choice h0 => exact choiceAt_grown ih (hm fuel) _ flag hl h0 _ _ _
    | concat h0 => exact seqAt_grown ih _ hl h0 _ _ _ _ _ _
    | @block b o o' v c c' e e' xs xs' ho hc h0 hxs =>
      simp only [Spec.run]
      have hn : e = none ↔ e' = none := by cases h0 <;> simp
      refine (ih o o' flag l hl ho).elim ?_ ?_ ?_ ?_ ?_
      · intro hb; rcases hb with hb | hb <;> rw [hb] <;> exact .inl (by simp [Ans.Bad])
      · intro hb; rcases hb with hb | hb <;> rw [hb] <;> exact .inr (.inl (by simp [Ans.Bad]))
      · intro n n' s e e'; rw [e, e']; exact .inr (.inr rfl)
      · intro n n' e e'; rw [e, e']; exact .inr (.inr rfl)
      · intro nd u n n' s e1 e1'
        rw [e1, e1']
        simp only
        split
        · exact .bad1 bad_risky
        · split
          · exact .bad2 bad_risky
          · exact blockAt_grown ih (hx fuel) b v hc h0 hxs nd u hl fuel _ _ _

/-! ### Documents -/

theorem answers_grown (h : Agrees86 P R Q text run run') (hm : MuteX R text run') (flag : Int) {l : List Rune} (hl : l <:+ text) {rs rs' : List Rule}
    (hs : GrownX P R Q rs rs') :
    (∃ a ∈ rs.map (fun r => run r flag l), a.Bad) ∨ (∃ a ∈ rs'.map (fun r => run' r flag l), a.Bad) ∨
      (rs.map (fun r => run r flag l)).filterMap hitOf = (rs'.map (fun r => run' r flag l)).filterMap hitOf := by
  match rs, rs', hs with
  | [], [], .nil => exact .inr (.inr rfl)
  | r :: rs, r' :: rs', .keep h0 hs =>
    have ih := answers_grown h hm flag hl hs
    rcases ih with ⟨a, h1, h2⟩ | ⟨a, h1, h2⟩ | h1
    · exact .inl ⟨a, List.mem_cons_of_mem _ h1, h2⟩
    · exact .inr (.inl ⟨a, List.mem_cons_of_mem _ h1, h2⟩)
    · refine (h r r' flag l hl h0).elim ?_ ?_ ?_ ?_ ?_
      · intro hb; exact .inl ⟨_, List.mem_cons_self, hb⟩
      · intro hb; exact .inr (.inl ⟨_, List.mem_cons_self, hb⟩)
      all_goals
        intros; rename_i e e'
        refine .inr (.inr ?_)
        simp only [List.map_cons, e, e', List.filterMap_cons, hitOf, h1]
  | rs, r' :: rs', .add h0 hs =>
    have ih := answers_grown h hm flag hl hs
    rcases ih with ⟨a, h1, h2⟩ | ⟨a, h1, h2⟩ | h1
    · exact .inl ⟨a, h1, h2⟩
    · exact .inr (.inl ⟨a, List.mem_cons_of_mem _ h1, h2⟩)
    · rcases hm r' flag l h0 hl with hb | ⟨n, s, e⟩ | ⟨n, e⟩
      · exact .inr (.inl ⟨_, List.mem_cons_self, hb⟩)
      all_goals
        refine .inr (.inr ?_)
        simp only [List.map_cons, e, List.filterMap_cons, hitOf]
        exact h1
  termination_by rs'.length

/-- The same of a place, but for how far was looked, unless one says nothing. -/
def RoundAlike (x y : Round) : Prop :=
  x.Bad ∨ y.Bad ∨ (x = .noMatch ∧ y = .noMatch) ∨ (x = .tie ∧ y = .tie) ∨ ∃ nd u left left' st, x = .step nd u left st ∧ y = .step nd u left' st

/-- What is said of a place, from the hits alone. -/
def RoundSays (hits : List (Node × Nat × Bool)) (x : Round) : Prop :=
  x.Bad ∨ match hits.filter (fun h => h.2.1 == longest hits) with
    | [] => x = .noMatch
    | [h] => ∃ left, x = .step h.1 h.2.1 left h.2.2
    | _ => x = .tie

theorem roundOf_says (pending : Nat) (as : List Ans) : RoundSays (as.filterMap hitOf) (roundOf pending as) := by
  unfold roundOf RoundSays
  simp only
  split
  · exact .inl (.inl rfl)
  · split
    · exact .inl (.inr rfl)
    · split
      · exact .inl (.inr rfl)
      · cases (as.filterMap hitOf).filter (fun x => x.2.1 == longest (as.filterMap hitOf)) with
        | nil => exact .inr rfl
        | cons x xs =>
          cases xs with
          | cons y ys => exact .inr rfl
          | nil =>
            simp only
            split
            · exact .inl (.inr rfl)
            · split
              · exact .inr ⟨_, rfl⟩
              · exact .inl (.inr rfl)

theorem roundOf_alike (pending pending' : Nat) {as bs : List Ans} (h : as.filterMap hitOf = bs.filterMap hitOf) :
    RoundAlike (roundOf pending as) (roundOf pending' bs) := by
  have h1 := roundOf_says pending as
  have h2 := roundOf_says pending' bs
  rw [h] at h1
  unfold RoundSays at h1 h2
  rcases h1 with h1 | h1
  · exact .inl h1
  · rcases h2 with h2 | h2
    · exact .inr (.inl h2)
    · revert h1 h2
      cases (bs.filterMap hitOf).filter (fun x => x.2.1 == longest (bs.filterMap hitOf)) with
      | nil => intro h1 h2; exact .inr (.inr (.inl ⟨h1, h2⟩))
      | cons x xs =>
        cases xs with
        | cons y ys => intro h1 h2; exact .inr (.inr (.inr (.inl ⟨h1, h2⟩)))
        | nil => rintro ⟨k, h1⟩ ⟨k', h2⟩; exact .inr (.inr (.inr (.inr ⟨_, _, _, _, _, h1, h2⟩)))

theorem docAt_grown (h : Agrees86 P R Q text run run') (hm : MuteX R text run') {rs ys rs' : List Rule} (hr : GrownX P R Q rs ys) (hp : ys.Perm rs') (n : Nat) :
    ∀ flag pending pending' l nodes, l <:+ text → (docAt run rs n flag pending l nodes).Bad ∨ (docAt run' rs' n flag pending' l nodes).Bad ∨
      docAt run rs n flag pending l nodes = docAt run' rs' n flag pending' l nodes := by
  induction n with
  | zero => intros; exact .inl (.inl rfl)
  | succ n ih =>
    intro flag p p' l nodes hl
    simp only [docAt]
    split
    · exact .inr (.inr rfl)
    · have key : RoundAlike (roundAt run rs flag p l) (roundAt run' rs' flag p' l) := by
        simp only [roundAt_of]
        rw [← roundOf_perm p' (hp.map (fun r => run' r flag l))]
        rcases answers_grown h hm flag hl hr with ⟨a, h2, h3⟩ | ⟨a, h2, h3⟩ | h2
        · exact .inl (roundOf_bad _ h2 h3)
        · exact .inr (.inl (roundOf_bad _ h2 h3))
        · exact roundOf_alike p p' h2
      rcases key with hb | hb | ⟨e1, e2⟩ | ⟨e1, e2⟩ | ⟨nd, u, k, k', st, e1, e2⟩
      · rcases hb with hb | hb <;> rw [hb] <;> exact .inl (by simp [Doc.Bad])
      · rcases hb with hb | hb <;> rw [hb] <;> exact .inr (.inl (by simp [Doc.Bad]))
      · rw [e1, e2]; exact .inr (.inr rfl)
      · rw [e1, e2]; exact .inr (.inr rfl)
      · rw [e1, e2]; exact ih _ _ _ _ _ (suffix_drop hl u)

end Xbnf.Spec
