import Verif.Spec.Shuffle
import Verif.Lemmas.RunFuel
import Verif.Lemmas.Document
/-
The order of the alternatives of a group does not matter where the reference semantics says something for both orders.
-/
namespace Xbnf.Spec

/-- No answer, or one that says nothing. -/
def Ans.Bad (x : Ans) : Prop := x = .oof ∨ x = .risky

/-- The same answers, unless one of them says nothing. -/
def Unless (x y : Ans) : Prop := x.Bad ∨ y.Bad ∨ x = y

theorem bad_oof : Ans.Bad .oof := .inl rfl
theorem bad_risky : Ans.Bad .risky := .inr rfl

theorem not_bad {x : Ans} (h : ¬x.Bad) : x ≠ .oof ∧ x ≠ .risky := ⟨fun e => h (.inl e), fun e => h (.inr e)⟩

theorem Unless.refl (x : Ans) : Unless x x := .inr (.inr rfl)

def Alts.Bad (x : Alts) : Prop := x = .oof ∨ x = .risky

/-- What two orders of the same alternatives do. -/
def Alts.Same (x y : Alts) : Prop :=
  (x.Bad ∧ y.Bad) ∨ ∃ hits hits' look st, x = .ok hits look st ∧ y = .ok hits' look st ∧ hits.Perm hits'

theorem Alts.Same.refl (x : Alts) : x.Same x := by
  cases x with
  | oof => exact .inl ⟨.inl rfl, .inl rfl⟩
  | risky => exact .inl ⟨.inr rfl, .inr rfl⟩
  | ok h l s => exact .inr ⟨h, h, l, s, rfl, rfl, .refl _⟩

theorem Alts.Same.trans {x y z : Alts} (h : x.Same y) (h' : y.Same z) : x.Same z := by
  rcases h with ⟨a, b⟩ | ⟨h1, h2, l, s, rfl, rfl, hp⟩
  · rcases h' with ⟨c, d⟩ | ⟨h1, h2, l, s, rfl, rfl, hp⟩
    · exact .inl ⟨a, d⟩
    · rcases b with b | b <;> cases b
  · rcases h' with ⟨c, d⟩ | ⟨h3, h4, l', s', e, rfl, hp'⟩
    · rcases c with c | c <;> cases c
    · cases e; exact .inr ⟨h1, h4, _, _, rfl, rfl, hp.trans hp'⟩

theorem altsAt_perm (run : Runner) (flag : Int) (l : List Rune) {rs rs' : List Rule} (h : rs.Perm rs') :
    ∀ look st, (altsAt run flag l rs look st).Same (altsAt run flag l rs' look st) := by
  induction h with
  | nil => intro look st; exact .refl _
  | @cons r rs rs' _ ih =>
    intro look st
    unfold altsAt
    cases run r flag l with
    | oof => exact .refl _
    | risky => exact .refl _
    | fail n s => exact ih _ _
    | ambiguous n => exact ih _ _
    | hit nd u n s =>
      rcases ih (max look n) (st && s) with ⟨h1, h2⟩ | ⟨h1, h2, k, t, e1, e2, hp⟩
      · rcases h1 with h1 | h1 <;> rcases h2 with h2 | h2 <;> simp only [h1, h2] <;> refine .inl ⟨?_, ?_⟩ <;> simp [Alts.Bad]
      · simp only [e1, e2]
        exact .inr ⟨_, _, _, _, rfl, rfl, hp.cons _⟩
  | swap a b rs =>
    intro look st
    simp only [altsAt]
    have hm : ∀ n m, max (max look n) m = max (max look m) n := fun n m => by omega
    have hs : ∀ s t, ((st && s) && t) = ((st && t) && s) := fun s t => by cases st <;> cases s <;> cases t <;> rfl
    have hf : ∀ t, ((st && t) && false) = false := fun t => by simp
    have bb : ∀ {x y : Alts}, x.Bad → y.Bad → x.Same y := fun h1 h2 => .inl ⟨h1, h2⟩
    cases run b flag l with
    | oof => cases run a flag l <;> exact bb (.inl rfl) (by simp [Alts.Bad])
    | risky => cases run a flag l <;> exact bb (.inr rfl) (by simp [Alts.Bad])
    | fail n s =>
      cases run a flag l with
      | oof => exact bb (.inl rfl) (.inl rfl)
      | risky => exact bb (.inr rfl) (.inr rfl)
      | fail m t => simp only [hm n m, hs s t]; exact .refl _
      | ambiguous m => simp only [hm n m, Bool.false_and]; exact .refl _
      | hit nd u m t => simp only [hm n m, hs s t]; exact .refl _
    | ambiguous n =>
      cases run a flag l with
      | oof => exact bb (.inl rfl) (.inl rfl)
      | risky => exact bb (.inr rfl) (.inr rfl)
      | fail m t => simp only [hm n m, Bool.false_and]; exact .refl _
      | ambiguous m => simp only [hm n m]; exact .refl _
      | hit nd u m t => simp only [hm n m, Bool.false_and]; exact .refl _
    | hit nd u n s =>
      cases run a flag l with
      | oof => exact bb (.inl rfl) (.inl rfl)
      | risky => exact bb (.inr rfl) (.inr rfl)
      | fail m t => simp only [hm n m, hs s t]; exact .refl _
      | ambiguous m => simp only [hm n m, Bool.false_and]; exact .refl _
      | hit nd' u' m t =>
        simp only [hm n m, hs s t]
        cases altsAt run flag l rs (max (max look m) n) ((st && t) && s) with
        | oof => exact .refl _
        | risky => exact .refl _
        | ok hits k q => exact .inr ⟨_, _, _, _, rfl, rfl, .swap _ _ _⟩
  | trans _ _ ih1 ih2 => intro look st; exact (ih1 look st).trans (ih2 look st)

theorem longest_filter {h h' : List (Node × Nat × Bool)} (hp : h.Perm h') :
    (h.filter (fun x => x.2.1 == longest h)).Perm (h'.filter (fun x => x.2.1 == longest h')) := by
  rw [Props.longest_perm hp]; exact hp.filter _

theorem best_perm {h h' : List (Node × Nat × Bool)} (hp : h.Perm h') : best h = best h' ∨ best h = .order ∨ best h' = .order := by
  have hf := longest_filter hp
  unfold best
  cases e : h.filter (fun x => x.2.1 == longest h) with
  | nil => rw [e] at hf; rw [hf.nil_eq.symm]; exact .inl rfl
  | cons x xs =>
    rw [e] at hf
    cases xs with
    | nil =>
      rw [hf.singleton_eq.symm]
      simp only
      split
      · exact .inr (.inl rfl)
      · split
        · exact .inr (.inr rfl)
        · exact .inl rfl
    | cons y ys =>
      have hl := hf.length_eq
      cases e' : h'.filter (fun x => x.2.1 == longest h') with
      | nil => rw [e'] at hl; simp at hl
      | cons a as =>
        cases as with
        | nil => rw [e'] at hl; simp at hl
        | cons b bs => exact .inl rfl

/-! ### Runners -/

def Agrees (run run' : Runner) : Prop := ∀ r r' flag l, Shuffled r r' → Unless (run r flag l) (run' r' flag l)

variable {run run' : Runner}

/-- What the same alternatives, or two orders of them, do, unless one says nothing. -/
def AltsUnless (x y : Alts) : Prop :=
  x.Bad ∨ y.Bad ∨ ∃ hits hits' look st, x = .ok hits look st ∧ y = .ok hits' look st ∧ hits.Perm hits'

theorem altsAt_unless (h : Agrees run run') (flag : Int) (l : List Rune) {rs rs' : List Rule} (hs : ShuffledL rs rs') :
    ∀ look st, (altsAt run flag l rs look st).Bad ∨ (altsAt run' flag l rs' look st).Bad ∨
      altsAt run flag l rs look st = altsAt run' flag l rs' look st := by
  match rs, rs', hs with
  | [], [], .nil => intro look st; exact .inr (.inr rfl)
  | r :: rs, r' :: rs', .cons h0 hs =>
    intro look st
    have ih := altsAt_unless h flag l hs
    simp only [altsAt]
    rcases h r r' flag l h0 with hb | hb | hb
    · rcases hb with hb | hb <;> rw [hb] <;> exact .inl (by simp [Alts.Bad])
    · rcases hb with hb | hb <;> rw [hb] <;> exact .inr (.inl (by simp [Alts.Bad]))
    · rw [hb]
      cases run' r' flag l with
      | oof => exact .inl (.inl rfl)
      | risky => exact .inl (.inr rfl)
      | fail n s => exact ih _ _
      | ambiguous n => exact ih _ _
      | hit nd u n s =>
        simp only
        rcases ih (max look n) (st && s) with hb | hb | hb
        · rcases hb with hb | hb <;> rw [hb] <;> exact .inl (by simp [Alts.Bad])
        · rcases hb with hb | hb <;> rw [hb] <;> exact .inr (.inl (by simp [Alts.Bad]))
        · rw [hb]; exact .inr (.inr rfl)

theorem altsAt_shuffled (h : Agrees run run') (flag : Int) (l : List Rune) {rs ys rs' : List Rule} (hs : ShuffledL rs ys) (hp : ys.Perm rs')
    (look : Nat) (st : Bool) : AltsUnless (altsAt run flag l rs look st) (altsAt run' flag l rs' look st) := by
  have h2 := altsAt_perm run' flag l hp look st
  rcases altsAt_unless h flag l hs look st with hb | hb | hb
  · exact .inl hb
  · rcases h2 with ⟨_, h2⟩ | ⟨_, _, _, _, e, _⟩
    · exact .inr (.inl h2)
    · rw [e] at hb; rcases hb with hb | hb <;> cases hb
  · rw [hb]
    rcases h2 with ⟨h1, _⟩ | h2
    · exact .inl h1
    · exact .inr (.inr h2)

theorem choiceAt_shuffled (h : Agrees run run') (b : RuleBase) (flag : Int) (l : List Rune) {gs gs' : List (List Rule)} (hs : ShuffledG gs gs') :
    ∀ look st, Unless (choiceAt run b flag l gs look st) (choiceAt run' b flag l gs' look st) := by
  match gs, gs', hs with
  | [], [], .nil => intro look st; exact .refl _
  | g :: gs, g' :: gs', .cons hg hp hs =>
    intro look st
    have ih := choiceAt_shuffled h b flag l hs
    simp only [choiceAt]
    rcases altsAt_shuffled h flag l hg hp look st with hb | hb | ⟨h1, h2, k, t, e1, e2, hp⟩
    · rcases hb with hb | hb <;> rw [hb] <;> exact .inl (by simp [Ans.Bad])
    · rcases hb with hb | hb <;> rw [hb] <;> exact .inr (.inl (by simp [Ans.Bad]))
    · rw [e1, e2]
      simp only
      rcases best_perm hp with hb | hb | hb
      · rw [hb]
        cases best h2 with
        | none => exact ih _ _
        | tie => exact .refl _
        | order => exact .refl _
        | one nd u s => exact .refl _
      · rw [hb]; exact .inl bad_risky
      · rw [hb]; exact .inr (.inl bad_risky)

theorem seqAt_shuffled (h : Agrees run run') (b : RuleBase) (l : List Rune) {rs rs' : List Rule} (hs : ShuffledL rs rs') :
    ∀ pos look st flag nodes, Unless (seqAt run b l rs pos look st flag nodes) (seqAt run' b l rs' pos look st flag nodes) := by
  match rs, rs', hs with
  | [], [], .nil => intros; exact .refl _
  | r :: rs, r' :: rs', .cons h0 hs =>
    intro pos look st flag nodes
    have ih := seqAt_shuffled h b l hs
    have hn : rs ≠ [] ↔ rs' ≠ [] := by cases hs <;> simp
    simp only [seqAt]
    rcases h r r' flag (l.drop pos) h0 with hb | hb | hb
    · rcases hb with hb | hb <;> rw [hb] <;> exact .inl (by simp [Ans.Bad])
    · rcases hb with hb | hb <;> rw [hb] <;> exact .inr (.inl (by simp [Ans.Bad]))
    · rw [hb]
      cases run' r' flag (l.drop pos) with
      | hit nd u n s =>
        simp only [hn]
        split
        · exact .refl _
        · exact ih _ _ _ _ _
      | _ => exact .refl _

theorem repAt_shuffled (h : Agrees run run') (b : RuleBase) {r r' : Rule} (h0 : Shuffled r r') (mn mx : Nat) (flag : Int) (l : List Rune) (fuel : Nat) :
    ∀ pos look st nodes, Unless (repAt run b r mn mx flag l fuel pos look st nodes) (repAt run' b r' mn mx flag l fuel pos look st nodes) := by
  induction fuel with
  | zero => intros; exact .refl _
  | succ fuel ih =>
    intro pos look st nodes
    simp only [repAt]
    split
    · exact .refl _
    · rcases h r r' flag (l.drop pos) h0 with hb | hb | hb
      · rcases hb with hb | hb <;> rw [hb] <;> exact .inl (by simp [Ans.Bad])
      · rcases hb with hb | hb <;> rw [hb] <;> exact .inr (.inl (by simp [Ans.Bad]))
      · rw [hb]
        cases run' r' flag (l.drop pos) with
        | hit nd u n s =>
          simp only
          split
          · exact .refl _
          · split
            · exact .refl _
            · exact ih _ _ _ _
        | _ => exact .refl _

theorem escapeAt_shuffled (h : Agrees run run') {e e' : Option Rule} (he : ShuffledO e e') (ne : Bool) (l : List Rune) :
    Unless (escapeAt run e ne l) (escapeAt run' e' ne l) := by
  cases he with
  | none => exact .refl _
  | @some r r' h0 =>
    simp only [escapeAt]
    rcases h r r' NOT_SKIP l h0 with hb | hb | hb
    · rcases hb with hb | hb <;> rw [hb] <;> exact .inl (by simp [Ans.Bad])
    · rcases hb with hb | hb <;> rw [hb] <;> exact .inr (.inl (by simp [Ans.Bad]))
    · rw [hb]; exact .refl _

theorem excludeAt_shuffled (h : Agrees run run') {xs ys zs : List Rule} (hx : ShuffledL xs ys) (hp : ys.Perm zs) (l : List Rune) :
    Unless (excludeAt run xs l) (excludeAt run' zs l) := by
  unfold excludeAt
  rcases altsAt_shuffled h NOT_SKIP l hx hp 0 true with hb | hb | ⟨h1, h2, k, t, e1, e2, hp⟩
  · rcases hb with hb | hb <;> rw [hb] <;> exact .inl (by simp [Ans.Bad])
  · rcases hb with hb | hb <;> rw [hb] <;> exact .inr (.inl (by simp [Ans.Bad]))
  · rw [e1, e2]
    simp only
    rcases best_perm hp with hb | hb | hb
    · rw [hb]; exact .refl _
    · rw [hb]; exact .inl bad_risky
    · rw [hb]; exact .inr (.inl bad_risky)

theorem shuffled_isEmpty {xs ys zs : List Rule} (hx : ShuffledL xs ys) (hp : ys.Perm zs) : xs.isEmpty = zs.isEmpty := by
  have : ys.isEmpty = zs.isEmpty := by
    have := hp.length_eq
    cases ys <;> cases zs <;> simp at this ⊢
  rw [← this]
  cases hx <;> rfl

theorem blockAt_shuffled (h : Agrees run run') (b : RuleBase) (v : Bool) {c c' : Rule} (hc : Shuffled c c') {e e' : Option Rule} (he : ShuffledO e e')
    {xs ys zs : List Rule} (hx : ShuffledL xs ys) (hp : ys.Perm zs) (o : Node) (start : Nat) (l : List Rune) (fuel : Nat) :
    ∀ pos look, Unless (blockAt run b v c e xs o start l fuel pos look) (blockAt run' b v c' e' zs o start l fuel pos look) := by
  induction fuel with
  | zero => intros; exact .refl _
  | succ fuel ih =>
    intro pos look
    simp only [blockAt, shuffled_isEmpty hx hp]
    rcases escapeAt_shuffled h he zs.isEmpty (l.drop pos) with hb | hb | hb
    · rcases hb with hb | hb <;> rw [hb] <;> exact .inl (by simp [Ans.Bad])
    · rcases hb with hb | hb <;> rw [hb] <;> exact .inr (.inl (by simp [Ans.Bad]))
    · rw [hb]
      cases escapeAt run' e' zs.isEmpty (l.drop pos) with
      | fail ne s =>
        simp only
        rcases excludeAt_shuffled h hx hp (l.drop pos) with hb | hb | hb
        · rcases hb with hb | hb <;> rw [hb] <;> exact .inl (by simp [Ans.Bad])
        · rcases hb with hb | hb <;> rw [hb] <;> exact .inr (.inl (by simp [Ans.Bad]))
        · rw [hb]
          cases excludeAt run' zs (l.drop pos) with
          | fail nx s =>
            simp only
            rcases h c c' NOT_SKIP (l.drop pos) hc with hb | hb | hb
            · rcases hb with hb | hb <;> rw [hb] <;> exact .inl (by simp [Ans.Bad])
            · rcases hb with hb | hb <;> rw [hb] <;> exact .inr (.inl (by simp [Ans.Bad]))
            · rw [hb]
              cases run' c' NOT_SKIP (l.drop pos) with
              | fail n s =>
                simp only
                split
                · exact .refl _
                · exact ih _ _
              | _ => exact .refl _
          | _ => exact .refl _
      | _ => exact .refl _

theorem run_shuffled {env env' : Name → Option Rule} (he : ∀ n, ShuffledO (env n) (env' n)) (fuel : Nat) :
    Agrees (Spec.run env fuel) (Spec.run env' fuel) := by
  induction fuel with
  | zero => intro r r' flag l _; exact .refl _
  | succ fuel ih =>
    intro r r' flag l hr
    cases hr with
    | same h =>
      cases r with
      | ref b name =>
        simp only [Spec.run]
        have h0 := he name
        revert h0
        cases env name <;> cases env' name <;> intro h0 <;> cases h0
        · exact .refl _
        · rename_i r r' h0
          simp only
          rcases ih r r' flag l h0 with hb | hb | hb
          · rcases hb with hb | hb <;> rw [hb] <;> exact .inl (by simp [Ans.Bad])
          · rcases hb with hb | hb <;> rw [hb] <;> exact .inr (.inl (by simp [Ans.Bad]))
          · rw [hb]; exact .refl _
      | group => cases h
      | option => cases h
      | rep => cases h
      | choice => cases h
      | concat => cases h
      | block => cases h
      | _ => exact .refl _
    | @group b r r' h0 =>
      simp only [Spec.run]
      rcases ih r r' flag l h0 with hb | hb | hb
      · rcases hb with hb | hb <;> rw [hb] <;> exact .inl (by simp [Ans.Bad])
      · rcases hb with hb | hb <;> rw [hb] <;> exact .inr (.inl (by simp [Ans.Bad]))
      · rw [hb]; exact .refl _
    | @option b r r' h0 =>
      simp only [Spec.run]
      rcases ih r r' flag l h0 with hb | hb | hb
      · rcases hb with hb | hb <;> rw [hb] <;> exact .inl (by simp [Ans.Bad])
      · rcases hb with hb | hb <;> rw [hb] <;> exact .inr (.inl (by simp [Ans.Bad]))
      · rw [hb]; exact .refl _
    | rep h0 => exact repAt_shuffled ih _ h0 _ _ flag l fuel _ _ _ _
    | choice h0 => exact choiceAt_shuffled ih _ flag l h0 _ _
    | concat h0 => exact seqAt_shuffled ih _ l h0 _ _ _ _ _
    | @block b o o' v c c' e e' xs ys zs ho hc h0 hx hp =>
      simp only [Spec.run]
      rcases ih o o' flag l ho with hb | hb | hb
      · rcases hb with hb | hb <;> rw [hb] <;> exact .inl (by simp [Ans.Bad])
      · rcases hb with hb | hb <;> rw [hb] <;> exact .inr (.inl (by simp [Ans.Bad]))
      · rw [hb]
        have hn : e = none ↔ e' = none := by cases h0 <;> simp
        cases Spec.run env' fuel o' flag l with
        | hit nd u n st =>
          simp only [hn]
          split
          · exact .refl _
          · exact blockAt_shuffled ih b v hc h0 hx hp nd u l fuel _ _
        | _ => exact .refl _

/-! ### Documents -/

/-- `roundAt`, from the answers of the roots. -/
def roundOf (pending : Nat) (as : List Ans) : Round :=
  let look := (as.map looked).foldr max 0
  let hits := as.filterMap hitOf
  if as.any isOof then .oof
  else if as.any isRisky then .risky
  else if 2 < as.length ∧ as.any (fun a => looked a != look) then .risky
  else
    match hits.filter (fun h => h.2.1 == longest hits) with
    | [] => .noMatch
    | [h] =>
      if look < pending then .risky
      else if (hits.map (fun h => h.2.1)).Nodup then .step h.1 h.2.1 (look - h.2.1) h.2.2 else .risky
    | _ => .tie

theorem roundAt_of (run : Runner) (roots : List Rule) (flag : Int) (pending : Nat) (l : List Rune) :
    roundAt run roots flag pending l = roundOf pending (roots.map (fun r => run r flag l)) := by
  simp only [roundAt, roundOf, List.length_map]
  rfl

theorem foldMax_perm {xs ys : List Nat} (h : xs.Perm ys) : xs.foldr max 0 = ys.foldr max 0 := by
  induction h with
  | nil => rfl
  | cons x _ ih => simp only [List.foldr_cons, ih]
  | swap x y _ => simp only [List.foldr_cons]; omega
  | trans _ _ h1 h2 => exact h1.trans h2

theorem roundOf_perm (pending : Nat) {as bs : List Ans} (h : as.Perm bs) : roundOf pending as = roundOf pending bs := by
  have hl := foldMax_perm (h.map looked)
  have hh := h.filterMap hitOf
  have hf := longest_filter hh
  have hn := (hh.map (fun h => h.2.1)).nodup_iff
  simp only [roundOf, h.any_eq, h.length_eq, hl, hn]
  cases e : (as.filterMap hitOf).filter (fun x => x.2.1 == longest (as.filterMap hitOf)) with
  | nil => rw [e] at hf; rw [hf.nil_eq.symm]
  | cons x xs =>
    rw [e] at hf
    cases xs with
    | nil => rw [hf.singleton_eq.symm]
    | cons y ys =>
      have hl := hf.length_eq
      cases e' : (bs.filterMap hitOf).filter (fun x => x.2.1 == longest (bs.filterMap hitOf)) with
      | nil => rw [e'] at hl; simp at hl
      | cons a as =>
        cases as with
        | nil => rw [e'] at hl; simp at hl
        | cons b bs => rfl

def Round.Bad (x : Round) : Prop := x = .oof ∨ x = .risky

theorem roundOf_bad (pending : Nat) {as : List Ans} {a : Ans} (h : a ∈ as) (hb : a.Bad) : (roundOf pending as).Bad := by
  unfold roundOf
  simp only
  split
  · exact .inl rfl
  · rename_i h1
    split
    · exact .inr rfl
    · rename_i h2
      rcases hb with rfl | rfl
      · exact absurd (List.any_eq_true.2 ⟨_, h, rfl⟩) h1
      · exact absurd (List.any_eq_true.2 ⟨_, h, rfl⟩) h2

theorem answers_shuffled (h : Agrees run run') (flag : Int) (l : List Rune) {rs rs' : List Rule} (hs : ShuffledL rs rs') :
    (∃ a ∈ rs.map (fun r => run r flag l), a.Bad) ∨ (∃ a ∈ rs'.map (fun r => run' r flag l), a.Bad) ∨
      rs.map (fun r => run r flag l) = rs'.map (fun r => run' r flag l) := by
  match rs, rs', hs with
  | [], [], .nil => exact .inr (.inr rfl)
  | r :: rs, r' :: rs', .cons h0 hs =>
    rcases h r r' flag l h0 with hb | hb | hb
    · exact .inl ⟨_, List.mem_cons_self, hb⟩
    · exact .inr (.inl ⟨_, List.mem_cons_self, hb⟩)
    · rcases answers_shuffled h flag l hs with ⟨a, h1, h2⟩ | ⟨a, h1, h2⟩ | h1
      · exact .inl ⟨a, List.mem_cons_of_mem _ h1, h2⟩
      · exact .inr (.inl ⟨a, List.mem_cons_of_mem _ h1, h2⟩)
      · exact .inr (.inr (by rw [List.map_cons, List.map_cons, hb, h1]))

theorem roundAt_shuffled (h : Agrees run run') {rs rs' : List Rule} (hr : SameRoots rs rs') (flag : Int) (pending : Nat) (l : List Rune) :
    (roundAt run rs flag pending l).Bad ∨ (roundAt run' rs' flag pending l).Bad ∨ roundAt run rs flag pending l = roundAt run' rs' flag pending l := by
  obtain ⟨ys, h1, hp⟩ := hr
  simp only [roundAt_of]
  rw [← roundOf_perm pending (hp.map (fun r => run' r flag l))]
  rcases answers_shuffled h flag l h1 with ⟨a, h2, h3⟩ | ⟨a, h2, h3⟩ | h2
  · exact .inl (roundOf_bad _ h2 h3)
  · exact .inr (.inl (roundOf_bad _ h2 h3))
  · exact .inr (.inr (by rw [h2]))

def Doc.Bad (x : Doc) : Prop := x = .oof ∨ x = .risky

theorem docAt_shuffled (h : Agrees run run') {rs rs' : List Rule} (hr : SameRoots rs rs') (n : Nat) :
    ∀ flag pending l nodes, (docAt run rs n flag pending l nodes).Bad ∨ (docAt run' rs' n flag pending l nodes).Bad ∨
      docAt run rs n flag pending l nodes = docAt run' rs' n flag pending l nodes := by
  induction n with
  | zero => intros; exact .inl (.inl rfl)
  | succ n ih =>
    intro flag pending l nodes
    simp only [docAt]
    split
    · exact .inr (.inr rfl)
    · rcases roundAt_shuffled h hr flag pending l with hb | hb | hb
      · rcases hb with hb | hb <;> rw [hb] <;> exact .inl (by simp [Doc.Bad])
      · rcases hb with hb | hb <;> rw [hb] <;> exact .inr (.inl (by simp [Doc.Bad]))
      · rw [hb]
        cases roundAt run' rs' flag pending l with
        | step nd u left st => exact ih _ _ _ _
        | _ => exact .inr (.inr rfl)

/-- More fuel does not change what was said of a document. -/
theorem roundAt_le (h : Runner.Le run run') (rs : List Rule) (flag : Int) (pending : Nat) (l : List Rune) :
    roundAt run rs flag pending l = .oof ∨ roundAt run' rs flag pending l = roundAt run rs flag pending l := by
  simp only [roundAt_of]
  by_cases ho : (rs.map (fun r => run r flag l)).any isOof = true
  · left; unfold roundOf; simp only [ho, if_true]
  · right
    congr 1
    refine List.map_congr_left fun r hr => ?_
    rcases h r flag l with h | h
    · exact absurd (List.any_eq_true.2 ⟨_, List.mem_map.2 ⟨r, hr, rfl⟩, by rw [h]; rfl⟩) ho
    · exact h

theorem docAt_le (h : Runner.Le run run') (rs : List Rule) (n : Nat) : ∀ n', n ≤ n' → ∀ flag pending l nodes,
    docAt run rs n flag pending l nodes = .oof ∨ docAt run' rs n' flag pending l nodes = docAt run rs n flag pending l nodes := by
  induction n with
  | zero => intros; exact .inl rfl
  | succ n ih =>
    intro n' hn flag pending l nodes
    obtain ⟨n', rfl⟩ : ∃ k, n' = k + 1 := ⟨n' - 1, by omega⟩
    simp only [docAt]
    split
    · exact .inr rfl
    · rcases roundAt_le h rs flag pending l with hb | hb
      · rw [hb]; exact .inl rfl
      · rw [hb]
        cases roundAt run rs flag pending l with
        | step nd u left st => exact ih _ (by omega) _ _ _ _
        | _ => exact .inr rfl

end Xbnf.Spec
