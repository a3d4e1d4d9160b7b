import Verif.Lemmas.Still
/-
With a shape (Spec/Predictive.lean), the number of rules tried grows no faster than the number of
characters used.
-/
namespace Xbnf.Spec
namespace Shape
open Props (run_nullable choiceAt_used repAt_used seqAt_used altsAt_mem blockAt_used)

/-- The characters that pay for an evaluation from `pos` on: those used, if it matched something and what
comes next does not make it look further; otherwise all that are left. -/
def charge (s : Shape) (l : List Rune) (pos : Nat) : Ans → Nat
  | .hit _ u _ _ => if pos < u ∧ begins s.deep (l.drop u) = false then u - pos else l.length - pos
  | _ => l.length - pos

theorem drop_ne {l : List Rune} {pos : Nat} (h : l.drop pos ≠ []) : pos < l.length := by
  rcases Nat.lt_or_ge pos l.length with h' | h'
  · exact h'
  · exact absurd (List.drop_eq_nil_of_le h') h

theorem charge_pos (s : Shape) {l : List Rune} {pos : Nat} (h : l.drop pos ≠ []) (x : Ans) : 1 ≤ charge s l pos x := by
  have := drop_ne h
  cases x with
  | hit nd u n st =>
    simp only [charge]
    split <;> omega
  | _ => simp only [charge]; omega

/-- The answer uses no more than there is. -/
def Fair (l : List Rune) : Ans → Prop
  | .hit _ u _ _ => u ≤ l.length
  | _ => True

theorem charge_le (s : Shape) {l : List Rune} (pos : Nat) {x : Ans} (h : Fair l x) : charge s l pos x ≤ l.length - pos := by
  cases x with
  | hit nd u n st =>
    have : u ≤ l.length := h
    simp only [charge]
    split <;> omega
  | _ => exact Nat.le_refl _

theorem charge_mono {s0 s : Shape} {l : List Rune} {pos : Nat} {x : Ans} (h : Fair l x)
    (hd : ∀ l, begins s0.deep l = true → begins s.deep l = true) : charge s0 l pos x ≤ charge s l pos x := by
  have hle := charge_le s0 pos h
  cases x with
  | hit nd u n st =>
    simp only [charge] at hle ⊢
    by_cases hc : pos < u ∧ begins s.deep (l.drop u) = false
    · rw [if_pos hc, if_pos ⟨hc.1, not_begins (hd _) hc.2⟩]
      exact Nat.le_refl _
    · rw [if_neg hc]; exact hle
  | _ => exact Nat.le_refl _

theorem Fits.fair {s : Shape} {l : List Rune} {x : Ans} (h : Fits s l x) : Fair l x := by
  cases x with
  | hit nd u n st =>
    rcases h with ⟨_, h, _⟩ | ⟨hit, _⟩
    · subst h; exact Nat.zero_le _
    · rcases hit.1 with ⟨_, _, h⟩ | ⟨_, _, h, _⟩
      · exact h
      · exact Nat.le_of_eq h
  | _ => trivial

/-- The number of rules tried is paid for by the characters, `Q` being there at the beginning. -/
def Lin (T : Shapes) (run : Runner) (cnt : Tries) (B Q : Nat) (r : Rule) : Prop :=
  ∀ flag a m, shapeOf T r flag = some a → Tidy m → m ≠ [] → cnt r flag m + B ≤ Q + B * charge a m 0 (run r flag m)

/-- The number of rules tried is bounded where the rule is still. -/
def Bounded (T : Shapes) (run : Runner) (cnt : Tries) (M : Nat) (r : Rule) : Prop :=
  ∀ flag a m, shapeOf T r flag = some a → Tidy m → Still a m (run r flag m) → cnt r flag m ≤ M

theorem sum_const {rs : List Rule} {M : Nat} : (rs.map fun _ => M).sum = rs.length * M := by
  induction rs with
  | nil => simp
  | cons r rs ih => rw [List.map_cons, List.sum_cons, ih, List.length_cons, Nat.succ_mul]; omega

/-- The parts of a concatenation that is still. -/
theorem seq_bounded {T : Shapes} {run : Runner} {cnt : Tries} {l : List Rune} (ht : Tidy l)
    (hr : ∀ r flag a, shapeOf T r flag = some a → ∀ m, Tidy m → Fits a m (run r flag m)) {M : Nat} (b : RuleBase) {rs : List Rule}
    (hM : ∀ r ∈ rs, Bounded T run cnt M r) {flag lag deep s} (hs : seqShape T rs flag lag deep = some s) {pos look st nodes}
    (hw : Within lag deep l pos look)
    (h : begins s.first (l.drop pos) = false ∨
        (begins s.deep0 (l.drop pos) = false ∧ QuietFrom pos (seqAt run b l rs pos look st flag nodes))) :
    seqTries run cnt l rs pos flag ≤ rs.length * M := by
  rw [← sum_const]
  exact seq_still ht hr (N := fun _ => True) (fun _ _ _ _ _ _ _ _ _ _ _ _ => trivial) b rs
    (partsOk_all fun r hr' => hM r hr') hs hw h

theorem seq_fair {T : Shapes} {run : Runner} {l : List Rune} (ht : Tidy l)
    (hr : ∀ r flag a, shapeOf T r flag = some a → ∀ m, Tidy m → Fits a m (run r flag m)) {b : RuleBase} {rs : List Rule}
    {flag lag deep s} (hs : seqShape T rs flag lag deep = some s) {pos look st nodes}
    (hw : Within lag deep l pos look) (hp : pos ≤ l.length) : Fair l (seqAt run b l rs pos look st flag nodes) := by
  have h := seqAt_fits ht hr b rs _ _ _ s hs pos look st nodes hw.1 hw.2
  generalize seqAt run b l rs pos look st flag nodes = x at h
  cases x with
  | hit nd u n st' =>
    obtain ⟨_, h1, _, _, _, h2⟩ := h
    have hlen : (l.drop pos).length = l.length - pos := List.length_drop
    show u ≤ l.length
    rcases h2 with ⟨_, h2, _⟩ | ⟨hit, _⟩
    · omega
    · rcases hit.1 with ⟨_, _, h3⟩ | ⟨_, _, h3, _⟩ <;> omega
  | _ => trivial

theorem seq_linear {T : Shapes} {env : Name → Option Rule} {fuel : Nat} (hT : Consistent T env) {cnt : Tries} {l : List Rune} (ht : Tidy l)
    {M B : Nat} (b : RuleBase) (rs : List Rule) :
    (∀ r ∈ rs, Bounded T (run env fuel) cnt M r) → (∀ r ∈ rs, Lin T (run env fuel) cnt B B r) →
    ∀ {Q}, PartsOk (Nullable env) (Lin T (run env fuel) cnt B Q) rs →
    ∀ {flag lag deep s}, seqShape T rs flag lag deep = some s → ∀ {pos look st nodes}, Within lag deep l pos look →
      l.drop pos ≠ [] → seqTries (run env fuel) cnt l rs pos flag + B ≤
        Q + rs.length * M + B * charge s l pos (seqAt (run env fuel) b l rs pos look st flag nodes) := by
  have hr := run_fits hT fuel
  induction rs with
  | nil =>
    intro _ _ Q _ flag lag deep s hs pos look st nodes hl hne
    have := Nat.mul_le_mul_left B (charge_pos s hne (seqAt (run env fuel) b l [] pos look st flag nodes))
    simp only [seqTries]
    omega
  | cons r rs ih =>
    intro hM hB Q hQ flag lag deep s hs pos look st nodes hl hne
    have hpos := drop_ne hne
    have hlen : (l.drop pos).length = l.length - pos := List.length_drop
    have hM' : ∀ r ∈ rs, Bounded T (run env fuel) cnt M r := fun r hr => hM r (List.mem_cons_of_mem _ hr)
    have hB' : ∀ r ∈ rs, Lin T (run env fuel) cnt B B r := fun r hr => hB r (List.mem_cons_of_mem _ hr)
    obtain ⟨a, _, ha, _⟩ := seqShape_cons hs
    have hf := hr r flag a ha (l.drop pos) (ht.drop pos)
    have hMr := hM r List.mem_cons_self flag a (l.drop pos) ha (ht.drop pos)
    have hQr := hQ.1 flag a (l.drop pos) ha (ht.drop pos) hne
    have hfair := seq_fair (b := b) (st := st) (nodes := nodes) ht hr hs hl (Nat.le_of_lt hpos)
    have hone := Nat.mul_le_mul_left B (charge_pos s hne (seqAt (run env fuel) b l (r :: rs) pos look st flag nodes))
    rw [seqTries, List.length_cons, Nat.succ_mul]
    generalize hxe : run env fuel r flag (l.drop pos) = x at hf hMr hQr
    cases x with
    | oof =>
      simp only [charge] at hQr
      rw [seqAt, hxe]
      simp only [charge]
      rw [hlen] at hQr
      simp only [Nat.sub_zero] at hQr
      omega
    | fail n0 st0 =>
      simp only [charge] at hQr
      rw [seqAt, hxe]
      simp only [charge]
      rw [hlen] at hQr
      simp only [Nat.sub_zero] at hQr
      omega
    | risky => exact hf.elim
    | ambiguous _ => exact hf.elim
    | hit nd0 u0 n0 st0 =>
      simp only
      rcases seq_step (b := b) (st := st) (nodes := nodes) hs ha hl hf hxe with
        ⟨hu, _, s0, lag', look', hs0, hF, hw, he⟩ | ⟨hit, s1, look', hs1, hC, hw, he⟩
      · subst hu
        rw [he] at hfair hone ⊢
        rw [Nat.add_zero]
        by_cases hst : Still a (l.drop pos) (.hit nd0 0 n0 st0)
        · have h1 := hMr hst
          have h2 := ih hM' hB' (hQ.2 (run_nullable hxe)) hs0 hw hne (st := st && st0) (nodes := nodes ++ [nd0])
          have h3 := Nat.mul_le_mul_left B (charge_mono (pos := pos) hfair hF.deep)
          omega
        · have hb1 : begins a.first (l.drop pos) = true := by
            cases hc : begins a.first (l.drop pos) with
            | true => rfl
            | false => exact absurd (.inl hc) hst
          have hb2 : begins a.deep0 (l.drop pos) = true := by
            cases hc : begins a.deep0 (l.drop pos) with
            | true => rfl
            | false => exact absurd (.inr ⟨hc, rfl⟩) hst
          have hb3 := seqShape_first hs0 (l.drop pos) (by rw [begins_union, hb2, Bool.or_true])
          have h1 := seq_bounded ht hr b hM' hs0 hw (st := st && st0) (nodes := nodes ++ [nd0]) (.inl hb3)
          have hfit := seqAt_fits ht hr b rs _ _ _ s0 hs0 pos look' (st && st0) (nodes ++ [nd0]) hw.1 hw.2
          have h2 : charge s l pos (seqAt (run env fuel) b l rs pos look' (st && st0) (flagAfter flag nd0 st0) (nodes ++ [nd0])) = l.length - pos := by
            generalize seqAt (run env fuel) b l rs pos look' (st && st0) (flagAfter flag nd0 st0) (nodes ++ [nd0]) = y at hfit
            cases y with
            | hit nd' u' n' st' =>
              obtain ⟨_, _, _, _, _, h3⟩ := hfit
              rcases h3 with ⟨_, h3, _⟩ | ⟨hit, _⟩
              · simp only [charge]
                rw [if_neg (fun h => by omega)]
              · have := (hit.blank hb3).1
                rw [begins_all_blank this] at hb1
                cases hb1
            | _ => rfl
          simp only [charge, if_neg (fun h : 0 < 0 ∧ _ => absurd h.1 (Nat.lt_irrefl 0)), hlen, Nat.sub_zero] at hQr
          rw [h2]
          omega
      · rw [he] at hfair hone ⊢
        have hle0 : u0 ≤ l.length - pos := by
          have : Fair (l.drop pos) (.hit nd0 u0 n0 st0) := hf.fair
          rw [← hlen]; exact this
        cases hbf : begins a.first (l.drop pos) with
        | false =>
          have hnil := (hit.blank hbf).2.1
          rw [List.drop_drop] at hnil
          have h1 := hMr (.inl hbf)
          have h2 := seq_bounded ht hr b hM' hs1 hw (st := st && st0) (nodes := nodes ++ [nd0]) (.inl (by rw [hnil]; rfl))
          omega
        | true =>
        have hu0 : 0 < u0 := by
          rcases hit.1 with ⟨_, h, _⟩ | ⟨_, h, _⟩
          · omega
          · rw [begins_all_blank h] at hbf; cases hbf
        have hfit := seqAt_fits ht hr b rs _ _ _ s1 hs1 (pos + u0) look' (st && st0) (nodes ++ [nd0]) hw.1 hw.2
        cases hbd : begins a.deep (l.drop (pos + u0)) with
        | true =>
          have hb3 := seqShape_first hs1 (l.drop (pos + u0)) hbd
          have h1 := seq_bounded ht hr b hM' hs1 hw (st := st && st0) (nodes := nodes ++ [nd0]) (.inl hb3)
          have h2 : charge s l pos (seqAt (run env fuel) b l rs (pos + u0) look' (st && st0) (flagAfter flag nd0 st0) (nodes ++ [nd0])) = l.length - pos := by
            generalize seqAt (run env fuel) b l rs (pos + u0) look' (st && st0) (flagAfter flag nd0 st0) (nodes ++ [nd0]) = y at hfit
            cases y with
            | hit nd' u' n' st' =>
              obtain ⟨_, _, _, _, _, h3⟩ := hfit
              rcases h3 with ⟨h4, h3, _⟩ | ⟨hit, _⟩
              · simp only [charge]
                rw [if_neg (fun h => ?_)]
                rw [h3, hC.deep' h4 _ (seqShape_deep0 hs1 _ hbd)] at h
                exact absurd h.2 (by simp)
              · have := (hit.blank hb3).1
                rw [begins_all_blank this] at hbd
                cases hbd
            | _ => rfl
          have h3 : charge a (l.drop pos) 0 (.hit nd0 u0 n0 st0) ≤ l.length - pos := by
            rw [← hlen]
            exact charge_le a 0 hf.fair
          have := Nat.mul_le_mul_left B h3
          rw [h2]
          omega
        | false =>
          have h3 : charge a (l.drop pos) 0 (.hit nd0 u0 n0 st0) = u0 := by
            simp only [charge, List.drop_drop]
            rw [if_pos ⟨hu0, hbd⟩]
            rfl
          rw [h3] at hQr
          have hge : u0 ≤ charge s l pos (seqAt (run env fuel) b l rs (pos + u0) look' (st && st0) (flagAfter flag nd0 st0) (nodes ++ [nd0])) := by
            generalize seqAt (run env fuel) b l rs (pos + u0) look' (st && st0) (flagAfter flag nd0 st0) (nodes ++ [nd0]) = y at hfit
            cases y with
            | hit nd' u' n' st' =>
              have := hfit.2.1
              simp only [charge]
              split <;> omega
            | _ => simp only [charge]; omega
          have hge' := Nat.mul_le_mul_left B hge
          by_cases hnil : l.drop (pos + u0) = []
          · have h1 := seq_bounded ht hr b hM' hs1 hw (st := st && st0) (nodes := nodes ++ [nd0]) (.inl (by rw [hnil]; rfl))
            omega
          · by_cases hq : begins s1.deep0 (l.drop (pos + u0)) = false ∧ QuietFrom (pos + u0)
              (seqAt (run env fuel) b l rs (pos + u0) look' (st && st0) (flagAfter flag nd0 st0) (nodes ++ [nd0]))
            · have h1 := seq_bounded ht hr b hM' hs1 hw (.inr hq)
              omega
            · have h1 := ih hM' hB' (partsOk_all hB') hs1 hw hnil (st := st && st0) (nodes := nodes ++ [nd0])
              have h2 : charge s1 l (pos + u0) (seqAt (run env fuel) b l rs (pos + u0) look' (st && st0) (flagAfter flag nd0 st0) (nodes ++ [nd0])) + u0 ≤
                  charge s l pos (seqAt (run env fuel) b l rs (pos + u0) look' (st && st0) (flagAfter flag nd0 st0) (nodes ++ [nd0])) := by
                have hle := charge_le s1 (pos + u0) hfair
                clear h1
                generalize seqAt (run env fuel) b l rs (pos + u0) look' (st && st0) (flagAfter flag nd0 st0) (nodes ++ [nd0]) = y at *
                cases y with
                | hit nd' u' n' st' =>
                  obtain ⟨_, hp', _, _, _, h3⟩ := hfit
                  simp only [charge] at hle ⊢
                  by_cases hc : pos < u' ∧ begins s.deep (l.drop u') = false
                  · rw [if_pos hc]
                    rcases h3 with ⟨h4, h5, _⟩ | ⟨hit', _⟩
                    · refine absurd ⟨?_, h5⟩ hq
                      rw [h5] at hc
                      exact not_begins (hC.deep' h4 _) hc.2
                    · have hu' : pos + u0 < u' := by
                        have hne2 := drop_ne hnil
                        have hlen2 : (l.drop (pos + u0)).length = l.length - (pos + u0) := List.length_drop
                        rcases hit'.1 with ⟨_, h, _⟩ | ⟨_, _, h, _⟩ <;> omega
                      rw [if_pos ⟨hu', not_begins (hC.deep _) hc.2⟩]
                      omega
                  · rw [if_neg hc]
                    omega
                | _ => simp only [charge]; omega
              have h4 := Nat.mul_le_mul_left B h2
              rw [Nat.mul_add] at h4
              omega

/-! ### Repetitions -/

theorem rep_fair {run : Runner} {b : RuleBase} {r : Rule} {mn mx : Nat} {flag : Int} {l : List Rune} {a : Shape} (ht : Tidy l)
    (hr : ∀ m, Tidy m → Fits a m (run r flag m)) (fuel : Nat) :
    ∀ {pos look st nodes}, pos ≤ l.length → Fair l (repAt run b r mn mx flag l fuel pos look st nodes) := by
  induction fuel with
  | zero => intros; trivial
  | succ fuel ih =>
    intro pos look st nodes hp
    have hend : ∀ p k s ns, p ≤ l.length → Fair l (repEnd b mn p k s ns) := by
      intro p k s ns hp
      unfold repEnd
      split
      · trivial
      · exact hp
    have hf := (hr (l.drop pos) (ht.drop pos)).fair
    have hlen : (l.drop pos).length = l.length - pos := List.length_drop
    rw [repAt]
    split
    · exact hend _ _ _ _ hp
    · generalize run r flag (l.drop pos) = x at hf
      cases x with
      | oof => trivial
      | risky => trivial
      | ambiguous _ => trivial
      | fail n st0 => exact hend _ _ _ _ hp
      | hit nd u n st0 =>
        have hu : u ≤ (l.drop pos).length := hf
        simp only
        split
        · split
          · trivial
          · exact hend _ _ _ _ (by omega)
        · split
          · trivial
          · exact ih (by omega)

/-- A repetition that stops here, and looks no further. -/
theorem rep_stop {T : Shapes} {run : Runner} {cnt : Tries} {b : RuleBase} {r : Rule} {mn mx : Nat} {flag : Int} {l : List Rune} {a : Shape}
    (ha : shapeOf T r flag = some a) (hn : a.null = false) (he : a.eof = false) (ht : Tidy l)
    (hr : ∀ m, Tidy m → Fits a m (run r flag m)) {M : Nat} (hM : Bounded T run cnt M r) (fuel : Nat) {pos look st nodes}
    (h : begins a.first (l.drop pos) = false ∨ (begins a.deep0 (l.drop pos) = false ∧
      ∃ nd n st', repAt run b r mn mx flag l fuel pos look st nodes = .hit nd pos n st')) (count : Nat) :
    repTries run cnt r mx flag l fuel pos count ≤ M ∧
      (begins a.first (l.drop pos) = false → ∀ nd u n st', repAt run b r mn mx flag l fuel pos look st nodes = .hit nd u n st' → u = pos) := by
  cases fuel with
  | zero => exact ⟨Nat.zero_le _, fun _ nd u n st' h => by cases h⟩
  | succ fuel =>
    have hf := hr (l.drop pos) (ht.drop pos)
    have hMr := hM flag a (l.drop pos) ha (ht.drop pos)
    have hend : ∀ {p k s ns nd u n st'}, repEnd b mn p k s ns = .hit nd u n st' → u = p := by
      intro p k s ns nd u n st' h
      unfold repEnd at h
      split at h
      · cases h
      · simp only [Ans.hit.injEq] at h; omega
    rw [repTries]
    rw [repAt] at h
    rw [repAt]
    split
    · rename_i hnil
      exact ⟨Nat.zero_le _, fun _ nd u n st' h => hend h⟩
    rename_i hne
    simp only [if_neg hne] at h ⊢
    generalize run r flag (l.drop pos) = x at hf hMr h
    cases x with
    | oof =>
      refine ⟨?_, fun _ nd u n st' h => by cases h⟩
      rcases h with h | ⟨_, _, _, _, h⟩
      · exact hMr (.inl h)
      · cases h
    | risky => exact hf.elim
    | ambiguous _ => exact hf.elim
    | fail n0 st0 =>
      refine ⟨hMr ?_, fun _ nd u n st' h => hend h⟩
      exact h.imp id (fun h => ⟨h.1, trivial⟩)
    | hit nd0 u0 n0 st0 =>
      exfalso
      rcases hf with ⟨h1, _⟩ | ⟨hit, _⟩
      · rw [hn] at h1; cases h1
      · rcases hit.1 with ⟨h1, h2, _⟩ | ⟨h1, _⟩
        · rcases h with h | ⟨_, nd, n, st', h⟩
          · rw [h] at h1; cases h1
          · simp only at h
            split at h
            · split at h
              · cases h
              · have := hend h; omega
            · split at h
              · cases h
              · have := (repAt_used h).1; omega
        · rw [he] at h1; cases h1

theorem rep_linear {T : Shapes} {run : Runner} {cnt : Tries} {b : RuleBase} {r : Rule} {mn mx : Nat} {flag : Int} {l : List Rune} {a s : Shape}
    (ha : shapeOf T r flag = some a) (hs : repShape a mn = some s) (ht : Tidy l)
    (hr : ∀ m, Tidy m → Fits a m (run r flag m)) {M B : Nat} (hM : Bounded T run cnt M r) (hB : Lin T run cnt B B r) (fuel : Nat) :
    ∀ {Q}, Lin T run cnt B Q r → ∀ {pos look st nodes}, l.drop pos ≠ [] →
      repTries run cnt r mx flag l fuel pos nodes.length + B ≤
        Q + M + B * charge s l pos (repAt run b r mn mx flag l fuel pos look st nodes) := by
  unfold repShape at hs
  split at hs
  rotate_left
  · cases hs
  rename_i hcond
  obtain ⟨hn, he, hap⟩ := hcond
  have hdeep : s.deep = a.deep.union a.deep0 := by
    simp only [Option.some.injEq] at hs
    subst hs; rfl
  have hd1 : ∀ l, begins a.deep l = true → begins s.deep l = true := by
    intro l h; rw [hdeep, begins_union, h, Bool.true_or]
  have hd2 : ∀ l, begins a.deep0 l = true → begins s.deep l = true := by
    intro l h; rw [hdeep, begins_union, h, Bool.or_true]
  have hend : ∀ {p k s ns nd u n st'}, repEnd b mn p k s ns = .hit nd u n st' → u = p := by
    intro p k s ns nd u n st' h
    unfold repEnd at h
    split at h
    · cases h
    · simp only [Ans.hit.injEq] at h; omega
  induction fuel with
  | zero =>
    intro Q _ pos look st nodes hne
    have := Nat.mul_le_mul_left B (charge_pos s hne (repAt run b r mn mx flag l 0 pos look st nodes))
    rw [repTries]
    omega
  | succ fuel ih =>
    intro Q hQ pos look st nodes hne
    have hpos := drop_ne hne
    have hlen : (l.drop pos).length = l.length - pos := List.length_drop
    have hf := hr (l.drop pos) (ht.drop pos)
    have hQr := hQ flag a (l.drop pos) ha (ht.drop pos) hne
    have hfair : Fair l (repAt run b r mn mx flag l (fuel + 1) pos look st nodes) := rep_fair ht hr (fuel + 1) (Nat.le_of_lt hpos)
    rw [repAt, if_neg hne] at hfair ⊢
    rw [repTries, if_neg hne]
    generalize hxe : run r flag (l.drop pos) = x at hf hQr hfair ⊢
    cases x with
    | oof =>
      simp only [charge, hlen, Nat.sub_zero] at hQr ⊢
      omega
    | risky => exact hf.elim
    | ambiguous _ => exact hf.elim
    | fail n0 st0 =>
      have hc : charge s l pos (repEnd b mn pos (max look (pos + n0)) (st && st0) nodes) = l.length - pos := by
        unfold repEnd
        split
        · rfl
        · simp only [charge]
          rw [if_neg (fun h => absurd h.1 (Nat.lt_irrefl _))]
      simp only [charge, hlen, Nat.sub_zero] at hQr
      simp only
      rw [hc]
      omega
    | hit nd0 u0 n0 st0 =>
      have hff := hf.fair
      have hle0 : u0 ≤ l.length - pos := by rw [← hlen]; exact hff
      have hca := charge_le a 0 hff
      rw [hlen, Nat.sub_zero] at hca
      have hit : Hit a (l.drop pos) u0 n0 := by
        rcases hf with ⟨h1, _⟩ | ⟨hit, _⟩
        · rw [hn] at h1; cases h1
        · exact hit
      have hu0 : 0 < u0 := by
        rcases hit.1 with ⟨_, h, _⟩ | ⟨h, _⟩
        · omega
        · rw [he] at h; cases h
      have hcu : begins a.deep (l.drop (pos + u0)) = false → charge a (l.drop pos) 0 (.hit nd0 u0 n0 st0) = u0 := by
        intro hbd
        simp only [charge, List.drop_drop]
        rw [if_pos ⟨hu0, hbd⟩]
        rfl
      simp only at hfair ⊢
      by_cases hmx : mx > 0 ∧ nodes.length + 1 = mx
      · simp only [if_pos hmx] at hfair ⊢
        have hc : charge a (l.drop pos) 0 (.hit nd0 u0 n0 st0) ≤
            charge s l pos (if pos + n0 < look ∧ look - pos < 2 * u0 then .risky
              else repEnd b mn (pos + u0) (max look (pos + n0)) (st && st0) (nodes ++ [nd0])) := by
          split
          · exact hca
          · unfold repEnd
            split
            · exact hca
            · simp only [charge]
              by_cases hc : pos < pos + u0 ∧ begins s.deep (l.drop (pos + u0)) = false
              · have := hcu (not_begins (hd1 _) hc.2)
                simp only [charge] at this
                rw [if_pos hc, this]
                omega
              · rw [if_neg hc]
                exact hca
        have := Nat.mul_le_mul_left B hc
        omega
      · simp only [if_neg hmx] at hfair ⊢
        generalize hye : repAt run b r mn mx flag l fuel (pos + u0) (max look (pos + n0)) (st && st0) (nodes ++ [nd0]) = y at hfair ⊢
        have hyf : Fair l y := by rw [← hye]; exact rep_fair ht hr fuel (by omega)
        have hyu : ∀ nd u n st', y = .hit nd u n st' → pos + u0 ≤ u := by
          intro nd u n st' h
          rw [h] at hye
          exact (repAt_used hye).1
        -- what pays for the whole
        have hcy : ∀ k, k ≤ l.length - pos → k ≤ charge s l pos y →
            k ≤ charge s l pos (if pos + n0 < look then .risky else y) := by
          intro k h1 h2
          split
          · exact h1
          · exact h2
        cases hbd : begins a.deep (l.drop (pos + u0)) with
        | true =>
          have hbf : begins a.first (l.drop (pos + u0)) = false := begins_apart (apart_symm hap) hbd
          obtain ⟨h1, h2⟩ := rep_stop (b := b) (mn := mn) (mx := mx) (look := max look (pos + n0)) (st := st && st0)
            (nodes := nodes ++ [nd0]) ha hn he ht hr hM fuel (.inl hbf) (nodes.length + 1)
          have h3 : charge s l pos y = l.length - pos := by
            cases y with
            | hit nd u n st' =>
              have := h2 hbf nd u n st' hye
              subst this
              simp only [charge]
              rw [if_neg (fun h => by rw [hd1 _ hbd] at h; exact absurd h.2 (by simp))]
            | _ => rfl
          have h4 := Nat.mul_le_mul_left B (hcy _ hca (by rw [h3]; exact hca))
          omega
        | false =>
          rw [hcu hbd] at hQr
          have hge : u0 ≤ charge s l pos y := by
            cases y with
            | hit nd u n st' =>
              have := hyu nd u n st' rfl
              simp only [charge]
              split <;> omega
            | _ => exact hle0
          have hge' := Nat.mul_le_mul_left B (hcy _ hle0 hge)
          by_cases hnil : l.drop (pos + u0) = []
          · have h1 : repTries run cnt r mx flag l fuel (pos + u0) (nodes.length + 1) = 0 := by
              cases fuel with
              | zero => rfl
              | succ k => rw [repTries, if_pos hnil]
            rw [h1]
            omega
          · by_cases hq : begins a.deep0 (l.drop (pos + u0)) = false ∧ ∃ nd n st', y = .hit nd (pos + u0) n st'
            · obtain ⟨h1, nd, n, st', h2⟩ := hq
              obtain ⟨h3, _⟩ := rep_stop (b := b) (mn := mn) (mx := mx) (look := max look (pos + n0)) (st := st && st0)
                (nodes := nodes ++ [nd0]) ha hn he ht hr hM fuel (.inr ⟨h1, nd, n, st', by rw [hye, h2]⟩) (nodes.length + 1)
              omega
            · have h1 := ih hB hnil (look := max look (pos + n0)) (st := st && st0) (nodes := nodes ++ [nd0])
              rw [hye, List.length_append, List.length_singleton] at h1
              have hle := charge_le s (pos + u0) hyf
              have h2 : charge s l (pos + u0) y + u0 ≤ charge s l pos y := by
                cases y with
                | hit nd' u' n' st' =>
                  have hu' := hyu _ _ _ _ rfl
                  simp only [charge] at hle ⊢
                  by_cases hc : pos < u' ∧ begins s.deep (l.drop u') = false
                  · rw [if_pos hc]
                    by_cases hlt : pos + u0 < u'
                    · rw [if_pos ⟨hlt, hc.2⟩]; omega
                    · have heq : u' = pos + u0 := by omega
                      subst heq
                      exact absurd ⟨not_begins (hd2 _) hc.2, _, _, _, rfl⟩ hq
                  · rw [if_neg hc]; omega
                | _ => simp only [charge]; omega
              have h4 := Nat.mul_le_mul_left B (hcy _ (by have := charge_le s pos hyf; omega) h2)
              rw [Nat.mul_add] at h4
              omega

/-! ### Choices -/

/-- Alternatives that exclude each other: one of them is not still at most. -/
theorem alts_linear {T : Shapes} {run : Runner} {cnt : Tries} {flag : Int} {l : List Rune} (ht : Tidy l) (hne : l ≠ []) {M B Q Z : Nat}
    (hZ : 1 ≤ Z) {rs : List Rule} {as : List Shape} (h : Each (fun r a => shapeOf T r flag = some a) rs as)
    (hx : exclusive as = true) (hM : ∀ r ∈ rs, Bounded T run cnt M r) (hQ : ∀ r ∈ rs, Lin T run cnt B Q r)
    (hc : ∀ r ∈ rs, ∀ a, shapeOf T r flag = some a → begins a.first l = true → charge a l 0 (run r flag l) ≤ Z) :
    allTries cnt flag l rs + B ≤ Q + rs.length * M + B * Z := by
  induction h with
  | nil =>
    have := Nat.mul_le_mul_left B hZ
    simp only [allTries, List.map_nil, List.sum_nil]
    omega
  | @cons r a rs as h1 h2 ih =>
    have hcons : allTries cnt flag l (r :: rs) = cnt r flag l + allTries cnt flag l rs := by
      simp [allTries]
    rw [hcons, List.length_cons, Nat.succ_mul]
    have hM' : ∀ r ∈ rs, Bounded T run cnt M r := fun r hr => hM r (List.mem_cons_of_mem _ hr)
    have hQ' : ∀ r ∈ rs, Lin T run cnt B Q r := fun r hr => hQ r (List.mem_cons_of_mem _ hr)
    cases hb : begins a.first l with
    | false =>
      have e1 := hM r List.mem_cons_self flag a l h1 ht (.inl hb)
      have e2 := ih (exclusive_cons hx).2.1 hM' hQ' (fun r hr => hc r (List.mem_cons_of_mem _ hr))
      omega
    | true =>
      have e1 := hQ r List.mem_cons_self flag a l h1 ht hne
      have e2 := Nat.mul_le_mul_left B (hc r List.mem_cons_self a h1 hb)
      have e3 : allTries cnt flag l rs ≤ rs.length * M := by
        rw [← sum_const]
        refine allTries_le fun r' hr' => ?_
        obtain ⟨a', ha', hs'⟩ := h2.mem hr'
        refine hM' r' hr' flag a' l hs' ht (.inl ?_)
        exact begins_apart ((exclusive_cons hx).2.2 a' ha').1 hb
      omega

/-- Of alternatives that exclude each other, only one begins with what comes next. -/
theorem exclusive_unique {T : Shapes} {flag : Int} {l : List Rune} {rs : List Rule} {as : List Shape}
    (h : Each (fun r a => shapeOf T r flag = some a) rs as) (hx : exclusive as = true) {r r' : Rule} (hr : r ∈ rs) (hr' : r' ∈ rs)
    {a a' : Shape} (ha : shapeOf T r flag = some a) (ha' : shapeOf T r' flag = some a') (hb : begins a.first l = true)
    (hb' : begins a'.first l = true) : r = r' := by
  induction h with
  | nil => cases hr
  | @cons r0 a0 rs as h1 h2 ih =>
    obtain ⟨_, hx', hall⟩ := exclusive_cons hx
    rcases List.mem_cons.1 hr with rfl | hm
    · rcases List.mem_cons.1 hr' with rfl | hm'
      · rfl
      · exfalso
        rw [h1] at ha
        obtain rfl : a0 = a := Option.some.inj ha
        obtain ⟨a2, h3, h4⟩ := h2.mem hm'
        rw [ha'] at h4
        obtain rfl : a' = a2 := Option.some.inj h4
        rw [begins_apart (hall _ h3).1 hb] at hb'
        cases hb'
    · rcases List.mem_cons.1 hr' with rfl | hm'
      · exfalso
        rw [h1] at ha'
        obtain rfl : a0 = a' := Option.some.inj ha'
        obtain ⟨a2, h3, h4⟩ := h2.mem hm
        rw [ha] at h4
        obtain rfl : a = a2 := Option.some.inj h4
        rw [begins_apart (hall _ h3).1 hb'] at hb
        cases hb
      · exact ih hx' hm hm'

/-! ### Blocks -/

theorem block_all {run : Runner} {cnt : Tries} {c : Rule} {xs : List Rule} {l : List Rune} (hc : ∀ m, cnt c NOT_SKIP m ≤ 1)
    (hx : ∀ r ∈ xs, ∀ m, cnt r NOT_SKIP m ≤ 1) (fuel : Nat) : ∀ {pos}, pos ≤ l.length →
      blockTries run cnt c none xs l fuel pos ≤ (xs.length + 1) * (l.length - pos + 1) := by
  induction fuel with
  | zero => intros; exact Nat.zero_le _
  | succ fuel ih =>
    intro pos hp
    have e1 : allTries cnt NOT_SKIP (l.drop pos) xs ≤ xs.length := by
      have := allTries_le (cnt := cnt) (flag := NOT_SKIP) (l := l.drop pos) (μ := fun _ => 1) (fun r hr => hx r hr (l.drop pos))
      rw [sum_const, Nat.mul_one] at this
      exact this
    have e2 := hc (l.drop pos)
    have e3 : xs.length + 1 ≤ (xs.length + 1) * (l.length - pos + 1) := Nat.le_mul_of_pos_right _ (by omega)
    rw [blockTries]
    simp only [Nat.zero_add]
    split
    · omega
    · split
      · omega
      · rename_i h
        have hlt := drop_ne (fun h' => h (.inr h'))
        have := ih (pos := pos + 1) (by omega)
        have e4 : (xs.length + 1) * (l.length - pos + 1) = (xs.length + 1) * (l.length - (pos + 1) + 1) + (xs.length + 1) := by
          rw [show l.length - pos + 1 = (l.length - (pos + 1) + 1) + 1 by omega, Nat.mul_add, Nat.mul_one]
        omega

theorem block_some {run : Runner} {cnt : Tries} {b : RuleBase} {v : Bool} {c : Rule} {xs : List Rule} {l : List Rune} {opn : Node} {start : Nat}
    (hc : ∀ m, cnt c NOT_SKIP m ≤ 1) (hx : ∀ r ∈ xs, ∀ m, cnt r NOT_SKIP m ≤ 1) (fuel : Nat) : ∀ {pos look nd u n st},
      blockAt run b v c none xs opn start l fuel pos look = .hit nd u n st →
      blockTries run cnt c none xs l fuel pos ≤ (xs.length + 1) * (u - pos + 1) := by
  induction fuel with
  | zero => intro pos look nd u n st h; cases h
  | succ fuel ih =>
    intro pos look nd u n st h
    have e1 : allTries cnt NOT_SKIP (l.drop pos) xs ≤ xs.length := by
      have := allTries_le (cnt := cnt) (flag := NOT_SKIP) (l := l.drop pos) (μ := fun _ => 1) (fun r hr => hx r hr (l.drop pos))
      rw [sum_const, Nat.mul_one] at this
      exact this
    have e2 := hc (l.drop pos)
    have e3 : xs.length + 1 ≤ (xs.length + 1) * (u - pos + 1) := Nat.le_mul_of_pos_right _ (by omega)
    rw [blockTries]
    simp only [Nat.zero_add]
    split
    · omega
    · split
      · omega
      · rename_i h1
        simp only [blockAt, escapeAt] at h
        split at h
        · cases h
        · cases h
        · cases h
        · split at h <;> cases h
        · split at h
          · cases h
          · cases h
          · cases h
          · rename_i hrun
            exact absurd (.inl (by rw [hrun]; rfl)) h1
          · split at h
            · cases h
            · have := ih h
              have hu := blockAt_used h
              have e4 : (xs.length + 1) * (u - pos + 1) = (xs.length + 1) * (u - (pos + 1) + 1) + (xs.length + 1) := by
                rw [show u - pos + 1 = (u - (pos + 1) + 1) + 1 by omega, Nat.mul_add, Nat.mul_one]
              omega

/-! ### All rules -/

theorem leaf_tries {env : Name → Option Rule} {r : Rule} (h : closeText r ≠ none ∨ isChar r = true) (fuel : Nat) (flag : Int) (m : List Rune) :
    tries env fuel r flag m ≤ 1 := by
  cases fuel with
  | zero => exact Nat.zero_le _
  | succ fuel =>
    cases r with
    | char b t u => exact Nat.le_refl _
    | chars b t => exact Nat.le_refl _
    | str b t => exact Nat.le_refl _
    | _ => rcases h with h | h <;> simp [closeText, isChar] at h

theorem excluded_char {xs : List Rule} {ts : List Rune} (h : excludedChars xs = some ts) : ∀ r ∈ xs, isChar r = true := by
  induction xs generalizing ts with
  | nil => intro r hr; cases hr
  | cons x xs ih =>
    intro r hr
    cases x with
    | char b t u =>
      rw [excludedChars] at h
      cases hx : excludedChars xs with
      | none => rw [hx] at h; cases h
      | some ts' =>
        rcases List.mem_cons.1 hr with rfl | hr
        · rfl
        · exact ih hx r hr
    | _ => simp [excludedChars] at h

/-- What a rule costs at the beginning. -/
def startCost (env : Name → Option Rule) (M : Nat) (r : Rule) : Nat := 1 + ((kids env r).length + 1) * (M + 1)

/-- The numbers fit a set of rules closed under `kids`. -/
structure Fixed (env : Name → Option Rule) (hw : NoLeftRecursion env) (U : List Rule) (M B : Nat) : Prop where
  closed : ∀ r ∈ U, ∀ x ∈ kids env r, x ∈ U
  small : ∀ r ∈ U, weight hw (fun _ => 1) r ≤ M
  big : ∀ r ∈ U, weight hw (startCost env M) r ≤ B
  many : ∀ r ∈ U, (kids env r).length ≤ B

theorem linear {T : Shapes} {env : Name → Option Rule} (hT : Consistent T env) (hw : NoLeftRecursion env) {U : List Rule} {M B : Nat}
    (hU : Fixed env hw U M B) (fuel : Nat) :
    ∀ r ∈ U, Lin T (run env fuel) (tries env fuel) B (weight hw (startCost env M) r) r := by
  induction fuel with
  | zero =>
    intro r hr flag a m ha hm hne
    have := Nat.mul_le_mul_left B (charge_pos a (l := m) (pos := 0) (by rw [List.drop_zero]; exact hne) (run env 0 r flag m))
    simp only [tries]
    omega
  | succ fuel ih =>
    intro r hr flag s l hs ht hne
    have hne' : l.drop 0 ≠ [] := by rw [List.drop_zero]; exact hne
    have hB : ∀ r ∈ U, Lin T (run env fuel) (tries env fuel) B B r := by
      intro r hr flag a m ha hm hne
      have h1 := ih r hr flag a m ha hm hne
      have h2 := hU.big r hr
      omega
    have hM : ∀ r ∈ U, Bounded T (run env fuel) (tries env fuel) M r := by
      intro r hr flag a m ha hm hst
      have h1 := still_le hT hw fuel r flag a m ha hm hst
      have h2 := hU.small r hr
      omega
    have hleft : ∀ {y}, LeftCall env r y → startCost env M r + weight hw (startCost env M) y ≤ weight hw (startCost env M) r :=
      fun h => weight_le hw (startCost env M) h
    have hcost : startCost env M r ≤ weight hw (startCost env M) r := by rw [weight_eq]; omega
    have hsc : startCost env M r = 1 + ((kids env r).length + 1) * (M + 1) := rfl
    have hone := Nat.mul_le_mul_left B (charge_pos s (l := l) (pos := 0) hne' (run env (fuel + 1) r flag l))
    have hf := run_fits hT (fuel + 1) r flag s hs l ht
    have hterm : tries env (fuel + 1) r flag l = 1 → tries env (fuel + 1) r flag l + B ≤
        weight hw (startCost env M) r + B * charge s l 0 (run env (fuel + 1) r flag l) := by
      intro h
      rw [h]
      omega
    cases r with
    | eof b => exact hterm rfl
    | char b t u => exact hterm rfl
    | range b x ux y uy => exact hterm rfl
    | chars b t => exact hterm rfl
    | str b t => exact hterm rfl
    | group b r =>
      rw [shapeOf] at hs
      cases ha : shapeOf T r flag with
      | none => rw [ha] at hs; cases hs
      | some a =>
        rw [ha] at hs
        simp only [Option.some.injEq] at hs
        have h1 := ih r (hU.closed _ hr r (by simp [kids])) flag a l ha ht hne
        have h2 := hleft .group
        have h3 : charge a l 0 (run env fuel r flag l) = charge s l 0 (run env (fuel + 1) (.group b r) flag l) := by
          subst hs
          simp only [run]
          cases run env fuel r flag l <;> rfl
        rw [h3] at h1
        simp only [tries]
        omega
    | option b r =>
      rw [shapeOf] at hs
      cases ha : shapeOf T r flag with
      | none => rw [ha] at hs; cases hs
      | some a =>
        rw [ha] at hs
        simp only at hs
        split at hs
        · cases hs
        simp only [Option.some.injEq] at hs
        have h1 := ih r (hU.closed _ hr r (by simp [kids])) flag a l ha ht hne
        have h2 := hleft .option
        have h3 : charge a l 0 (run env fuel r flag l) = charge s l 0 (run env (fuel + 1) (.option b r) flag l) := by
          subst hs
          simp only [run]
          cases run env fuel r flag l <;> rfl
        rw [h3] at h1
        simp only [tries]
        omega
    | rep b r mn mx =>
      rw [shapeOf] at hs
      cases ha : shapeOf T r flag with
      | none => rw [ha] at hs; cases hs
      | some a =>
        rw [ha] at hs
        have hk := hU.closed _ hr r (by simp [kids])
        have h1 := rep_linear (b := b) (mx := mx) ha hs ht (run_fits hT fuel r flag a ha) (hM r hk) (hB r hk) fuel (ih r hk)
          (pos := 0) (look := 0) (st := true) (nodes := []) hne'
        have h2 := hleft .rep
        simp only [tries]
        rw [List.length_nil] at h1
        simp only [kids, List.length_cons, List.length_nil] at hsc
        have h3 : run env (fuel + 1) (.rep b r mn mx) flag l = repAt (run env fuel) b r mn mx flag l fuel 0 0 true [] := rfl
        rw [h3]
        omega
    | choice b gs =>
      rw [shapeOf] at hs
      cases ha : shapesLL T gs flag with
      | none => rw [ha] at hs; cases hs
      | some as =>
        rw [ha] at hs
        simp only at hs
        split at hs
        rotate_left
        · cases hs
        rename_i hex
        simp only [Option.some.injEq] at hs
        have hflat := shapesLL_flat ha
        have hk : ∀ r ∈ gs.flatten, r ∈ U := fun r hr' => hU.closed _ hr r hr'
        have hQ : ∀ r ∈ gs.flatten, Lin T (run env fuel) (tries env fuel) B
            (weight hw (startCost env M) (.choice b gs) - startCost env M (.choice b gs)) r := by
          intro r' hr' flag a m ha hm hne
          have h1 := ih r' (hk r' hr') flag a m ha hm hne
          obtain ⟨g, hg, hrg⟩ := List.mem_flatten.1 hr'
          have h2 := hleft (.choice hg hrg)
          omega
        have h1 := alts_linear (cnt := tries env fuel) (Z := charge s l 0 (run env (fuel + 1) (.choice b gs) flag l)) ht hne
          (charge_pos s hne' _) hflat hex (fun r hr => hM r (hk r hr)) hQ (by
            intro r' hr' a ha' hb
            have hfa := run_fits hT fuel r' flag a ha' l ht
            have hca := charge_le a 0 hfa.fair
            have hrun : run env (fuel + 1) (.choice b gs) flag l = choiceAt (run env fuel) b flag l gs 0 true := rfl
            rw [hrun] at hf ⊢
            generalize hye : choiceAt (run env fuel) b flag l gs 0 true = y at hf
            cases y with
            | hit nd u n st =>
              by_cases hc : 0 < u ∧ begins s.deep (l.drop u) = false
              · have hcy : charge s l 0 (.hit nd u n st) = u := by
                  simp only [charge]
                  rw [if_pos hc]; rfl
                rw [hcy]
                obtain ⟨g, hg, r2, hr2, nd', n', st', hrun2⟩ := choiceAt_used hye
                have hm2 : r2 ∈ gs.flatten := List.mem_flatten.2 ⟨g, hg, hr2⟩
                obtain ⟨a2, ham2, ha2⟩ := hflat.mem hm2
                have hf2 := run_fits hT fuel r2 flag a2 ha2 l ht
                rw [hrun2] at hf2
                have hb2 : begins a2.first l = true := by
                  rcases hf2 with ⟨_, h, _⟩ | ⟨hit, _⟩
                  · omega
                  · rcases hit.can with h | ⟨_, h⟩
                    · exact h
                    · rw [begins_all_blank h] at hb; cases hb
                have heq := exclusive_unique hflat hex hr' hm2 ha' ha2 hb hb2
                subst heq
                rw [ha'] at ha2
                obtain rfl : a = a2 := Option.some.inj ha2
                rw [hrun2]
                have hd : begins a.deep (l.drop u) = false := by
                  subst hs
                  exact not_begins (alt_deep ham2) hc.2
                simp only [charge]
                rw [if_pos ⟨hc.1, hd⟩]
                exact Nat.le_refl _
              · simp only [charge]
                rw [if_neg hc]
                exact hca
            | _ => exact hca)
        have h2 := choiceTries_le (run env fuel) (tries env fuel) flag l gs
        have h3 : gs.flatten.length * M ≤ (gs.flatten.length + 1) * (M + 1) := Nat.mul_le_mul (by omega) (by omega)
        simp only [tries]
        simp only [kids] at hsc
        omega
    | concat b rs =>
      rw [shapeOf] at hs
      have hk : ∀ r ∈ rs, r ∈ U := fun r hr' => hU.closed _ hr r hr'
      have h1 := seq_linear (cnt := tries env fuel) hT ht b rs (fun r hr => hM r (hk r hr)) (fun r hr => hB r (hk r hr))
        (Q := weight hw (startCost env M) (.concat b rs) - startCost env M (.concat b rs))
        (partsOk_left fun r' hr' flag a m ha hm hne => by
          have h1 := ih r' (hk r' (leftCall_kid hr')) flag a m ha hm hne
          have h2 := hleft hr'
          omega) hs within_zero (pos := 0) (st := true) (nodes := []) hne'
      have h2 : run env (fuel + 1) (.concat b rs) flag l = seqAt (run env fuel) b l rs 0 0 true flag [] := rfl
      have h3 : rs.length * M ≤ (rs.length + 1) * (M + 1) := Nat.mul_le_mul (by omega) (by omega)
      rw [h2]
      simp only [tries]
      simp only [kids] at hsc
      omega
    | block b o v c e xs =>
      rw [shapeOf] at hs
      cases ha : shapeOf T o flag with
      | none => rw [ha] at hs; cases hs
      | some a =>
        rw [ha] at hs
        simp only [blockShape] at hs
        split at hs
        rotate_left
        · cases hs
        rename_i hct hxs
        split at hs
        rotate_left
        · cases hs
        rename_i hcond
        simp only [Option.some.injEq] at hs
        have hk := hU.closed _ hr o (by simp [kids])
        have h1 := ih o hk flag a l ha ht hne
        have h2 := hleft .opn
        have hmany := hU.many _ hr
        have hfo := run_fits hT fuel o flag a ha l ht
        have hcl : ∀ m, tries env fuel c NOT_SKIP m ≤ 1 := fun m => leaf_tries (.inl (by rw [hct]; simp)) fuel NOT_SKIP m
        have hxl : ∀ r ∈ xs, ∀ m, tries env fuel r NOT_SKIP m ≤ 1 :=
          fun r hr m => leaf_tries (.inr (excluded_char hxs r hr)) fuel NOT_SKIP m
        simp only [kids, List.length_cons, Option.toList_none, List.nil_append] at hmany
        simp only [kids, List.length_cons, Option.toList_none, List.nil_append] at hsc
        have hbig : xs.length + 1 ≤ (xs.length + 1 + 1 + 1) * (M + 1) :=
          Nat.le_trans (by omega) (Nat.le_mul_of_pos_right _ (by omega))
        have hdeep : ∀ l, begins s.deep l = false := by
          subst hs
          exact fun l => begins_nil l
        simp only [tries]
        generalize hoe : run env fuel o flag l = x at hfo h1 ⊢
        cases x with
        | risky => exact hfo.elim
        | ambiguous _ => exact hfo.elim
        | oof =>
          have h3 : run env (fuel + 1) (.block b o v c none xs) flag l = .oof := by simp only [run, hoe]
          rw [h3]
          simp only [charge] at h1 ⊢
          omega
        | fail n0 st0 =>
          have h3 : run env (fuel + 1) (.block b o v c none xs) flag l = .fail n0 false := by simp only [run, hoe]
          rw [h3]
          simp only [charge] at h1 ⊢
          omega
        | hit nd0 u0 n0 st0 =>
          have hu0l : u0 ≤ l.length := hfo.fair
          have hu0 : 0 < u0 := by
            rcases hfo with ⟨h, _⟩ | ⟨hit, _⟩
            · rw [hcond.1] at h; cases h
            · rcases hit.1 with ⟨_, h, _⟩ | ⟨h, _⟩
              · omega
              · rw [hcond.2.1] at h; cases h
          have hcu : charge a l 0 (.hit nd0 u0 n0 st0) = u0 := by
            simp only [charge]
            rw [if_pos ⟨hu0, by rw [hcond.2.2.2.1]; exact begins_nil _⟩]
            rfl
          rw [hcu] at h1
          simp only
          have hdist : ∀ k, blockTries (run env fuel) (tries env fuel) c none xs l fuel u0 ≤ (xs.length + 1) * (k - u0 + 1) → u0 ≤ k →
              blockTries (run env fuel) (tries env fuel) c none xs l fuel u0 + B * u0 ≤ (xs.length + 1) + B * k := by
            intro k h3 h4
            rw [Nat.mul_add, Nat.mul_one] at h3
            have h5 : (xs.length + 1) * (k - u0) ≤ B * (k - u0) := Nat.mul_le_mul_right _ (by omega)
            have h6 : B * k = B * (k - u0) + B * u0 := by rw [← Nat.mul_add, Nat.sub_add_cancel h4]
            omega
          have hend : ∀ k, u0 ≤ k → blockTries (run env fuel) (tries env fuel) c none xs l fuel u0 ≤ (xs.length + 1) * (k - u0 + 1) →
              k ≤ charge s l 0 (run env (fuel + 1) (.block b o v c none xs) flag l) →
              1 + (tries env fuel o flag l + blockTries (run env fuel) (tries env fuel) c none xs l fuel u0) + B ≤
                weight hw (startCost env M) (.block b o v c none xs) +
                  B * charge s l 0 (run env (fuel + 1) (.block b o v c none xs) flag l) := by
            intro k h3 h4 h5
            have h6 := hdist k h4 h3
            have h7 := Nat.mul_le_mul_left B h5
            omega
          have hrun : run env (fuel + 1) (.block b o v c none xs) flag l =
              if u0 < n0 ∧ (none : Option Rule) = none then .risky
              else blockAt (run env fuel) b v c none xs nd0 u0 l fuel u0 n0 := by
            simp only [run, hoe]
          have hall := block_all (run := run env fuel) (l := l) hcl hxl fuel hu0l
          generalize hye : run env (fuel + 1) (.block b o v c none xs) flag l = y at hend hrun ⊢
          cases y with
          | hit nd u n st =>
            rw [eq_comm] at hrun
            split at hrun
            · cases hrun
            · have hu := blockAt_used hrun
              refine hend u hu (block_some hcl hxl fuel hrun) ?_
              simp only [charge]
              rw [if_pos ⟨by omega, hdeep _⟩]
              exact Nat.le_refl _
          | _ => exact hend l.length hu0l hall (by simp only [charge]; omega)
    | ref b name =>
      rw [shapeOf] at hs
      obtain ⟨r', hr', hs'⟩ := hT name flag s hs
      have h1 := ih r' (hU.closed _ hr r' (by simp [kids, hr'])) flag s l hs' ht hne
      have h2 := hleft (.ref hr')
      have h3 : charge s l 0 (run env fuel r' flag l) = charge s l 0 (run env (fuel + 1) (.ref b name) flag l) := by
        simp only [run, hr']
        cases run env fuel r' flag l <;> rfl
      rw [h3] at h1
      simp only [tries, hr']
      omega

/-! ### Finitely many rules -/

/-- All rules written in a list of rules. -/
theorem closed_append {env : Name → Option Rule} {rs : List Rule}
    (h : ∀ r ∈ rs, ∃ L : List Rule, r ∈ L ∧ ∀ x ∈ L, ∀ y ∈ kids env x, y ∈ L) :
    ∃ L : List Rule, (∀ r ∈ rs, r ∈ L) ∧ ∀ x ∈ L, ∀ y ∈ kids env x, y ∈ L := by
  induction rs with
  | nil => exact ⟨[], by simp, by simp⟩
  | cons r rs ih =>
    obtain ⟨L1, h1, h2⟩ := h r List.mem_cons_self
    obtain ⟨L2, h3, h4⟩ := ih fun r hr => h r (List.mem_cons_of_mem _ hr)
    refine ⟨L1 ++ L2, fun r' hr' => ?_, fun x hx y hy => ?_⟩
    · rcases List.mem_cons.1 hr' with rfl | hr'
      · exact List.mem_append_left _ h1
      · exact List.mem_append_right _ (h3 r' hr')
    · rcases List.mem_append.1 hx with hx | hx
      · exact List.mem_append_left _ (h2 x hx y hy)
      · exact List.mem_append_right _ (h4 x hx y hy)

theorem kid_size {r x : Rule} (h : x ∈ kids (fun _ => none) r) : sizeOf x < sizeOf r := by
  cases r with
  | group b r => simp only [kids, List.mem_singleton] at h; subst h; simp; omega
  | option b r => simp only [kids, List.mem_singleton] at h; subst h; simp; omega
  | rep b r mn mx => simp only [kids, List.mem_singleton] at h; subst h; simp; omega
  | choice b gs =>
    obtain ⟨g, hg, hx⟩ := List.mem_flatten.1 h
    have h1 := List.sizeOf_lt_of_mem hg
    have h2 := List.sizeOf_lt_of_mem hx
    simp; omega
  | concat b rs =>
    have h1 := List.sizeOf_lt_of_mem (show x ∈ rs from h)
    simp; omega
  | block b o v c e xs =>
    simp only [kids, List.mem_cons, List.mem_append, Option.mem_toList] at h
    rcases h with rfl | rfl | h | h
    · simp; omega
    · simp; omega
    · have : e = some x := h
      subst this
      simp; omega
    · have h1 := List.sizeOf_lt_of_mem h
      simp; omega
  | _ => simp [kids] at h

/-- The rules written inside a rule are finitely many. -/
theorem closed_rule (n : Nat) : ∀ r : Rule, sizeOf r ≤ n →
    ∃ L : List Rule, r ∈ L ∧ ∀ x ∈ L, ∀ y ∈ kids (fun _ => none) x, y ∈ L := by
  induction n with
  | zero =>
    intro r h
    exfalso
    cases r <;> simp at h
  | succ n ih =>
    intro r h
    obtain ⟨L, h1, h2⟩ := closed_append (rs := kids (fun _ => none) r) fun x hx => ih x (by have := kid_size hx; omega)
    refine ⟨r :: L, List.mem_cons_self, fun x hx y hy => ?_⟩
    rcases List.mem_cons.1 hx with rfl | hx
    · exact List.mem_cons_of_mem _ (h1 y hy)
    · exact List.mem_cons_of_mem _ (h2 x hx y hy)

/-- The rules that evaluating some rules can come to are finitely many, if those with a name are. -/
theorem closed_env {env : Name → Option Rule} {named : List Rule} (h : ∀ name r, env name = some r → r ∈ named) (rs : List Rule) :
    ∃ U : List Rule, (∀ r ∈ rs, r ∈ U) ∧ ∀ x ∈ U, ∀ y ∈ kids env x, y ∈ U := by
  obtain ⟨L, h1, h2⟩ := closed_append (env := fun _ => none) (rs := rs ++ named) fun r _ => closed_rule _ r (Nat.le_refl _)
  refine ⟨L, fun r hr => h1 r (List.mem_append_left _ hr), fun x hx y hy => ?_⟩
  cases x with
  | ref b name =>
    simp only [kids, Option.mem_toList] at hy
    exact h1 y (List.mem_append_right _ (h name y hy))
  | _ => exact h2 _ hx y hy

theorem list_bound (U : List Rule) (f : Rule → Nat) : ∃ m, ∀ r ∈ U, f r ≤ m :=
  ⟨(U.map f).sum, fun _ hr => le_sum_of_mem hr⟩

theorem fixed {env : Name → Option Rule} (hw : NoLeftRecursion env) {U : List Rule}
    (h : ∀ x ∈ U, ∀ y ∈ kids env x, y ∈ U) : ∃ M B, Fixed env hw U M B := by
  obtain ⟨M, hM⟩ := list_bound U (weight hw (fun _ => 1))
  obtain ⟨B1, hB1⟩ := list_bound U (weight hw (startCost env M))
  obtain ⟨B2, hB2⟩ := list_bound U (fun r => (kids env r).length)
  exact ⟨M, B1 + B2, h, hM, fun r hr => Nat.le_trans (hB1 r hr) (by omega), fun r hr => Nat.le_trans (hB2 r hr) (by omega)⟩

/-- The number of rules tried, on all texts. -/
theorem tries_le {T : Shapes} {env : Name → Option Rule} (hT : Consistent T env) (hw : NoLeftRecursion env) {U : List Rule} {M B : Nat}
    (hU : Fixed env hw U M B) (fuel : Nat) {r : Rule} (hr : r ∈ U) {flag : Int} {s : Shape} (hs : shapeOf T r flag = some s)
    {l : List Rune} (ht : Tidy l) : tries env fuel r flag l ≤ (M + B) * (l.length + 1) := by
  by_cases hl : l = []
  · subst hl
    have h1 := still_le hT hw fuel r flag s [] hs ht still_nil
    have h2 := hU.small r hr
    simp only [List.length_nil, Nat.zero_add, Nat.mul_one]
    omega
  · have h1 := linear hT hw hU fuel r hr flag s l hs ht hl
    have h2 := hU.big r hr
    have h3 := Nat.mul_le_mul_left B (charge_le s 0 (run_fits hT fuel r flag s hs l ht).fair)
    have h4 : B * (l.length - 0) ≤ (M + B) * (l.length + 1) := Nat.mul_le_mul (by omega) (by omega)
    omega

end Shape
end Xbnf.Spec
