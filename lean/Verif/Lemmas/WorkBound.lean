import Verif.Lemmas.Linear
import Verif.Props.Terminate
/-
A bound on the number of rules tried in a grammar without left recursion.
-/
namespace Xbnf.Spec
open Shape Props

variable {env : Name → Option Rule}

/-- The parts of a concatenation, when no part costs more than `X`. -/
theorem seqTries_le {fuel : Nat} {cnt : Tries} {l : List Rune} (hv : Valid l) {X : Nat} {whole : List Rule}
    (hlater : ∀ r ∈ whole, ∀ flag m, Valid m → m.length < l.length → cnt r flag m ≤ X)
    (hleft : ∀ rs1 r rs2, whole = rs1 ++ r :: rs2 → (∀ r' ∈ rs1, Nullable env r') → ∀ flag, cnt r flag l ≤ X) (rs : List Rule) :
    ∀ rs0 pos flag, whole = rs0 ++ rs → pos ≤ l.length → (pos = 0 ∧ (∀ r' ∈ rs0, Nullable env r') ∨ 0 < pos) →
      seqTries (run env fuel) cnt l rs pos flag ≤ rs.length * X := by
  induction rs with
  | nil => intros; simp [seqTries]
  | cons r rs ih =>
    intro rs0 pos flag hw hp hpos
    have h1 : cnt r flag (l.drop pos) ≤ X := by
      rcases hpos with ⟨rfl, hn⟩ | hpos
      · rw [List.drop_zero]
        exact hleft rs0 r rs hw hn flag
      · exact hlater r (by rw [hw]; simp) flag _ (hv.drop _) (by rw [List.length_drop]; omega)
    simp only [seqTries, List.length_cons, Nat.succ_mul]
    cases hx : run env fuel r flag (l.drop pos) with
    | hit nd u n st =>
      have hu := run_used_le (hv.drop pos) hx
      rw [List.length_drop] at hu
      have h2 := ih (rs0 ++ [r]) (pos + u) (flagAfter flag nd st) (by rw [hw]; simp) (by omega) (by
        rcases Nat.eq_zero_or_pos (pos + u) with h0 | h0
        · refine .inl ⟨h0, fun r' hr' => ?_⟩
          have hu0 : u = 0 := by omega
          subst hu0
          rcases hpos with ⟨_, hn⟩ | hpos
          · rcases List.mem_append.1 hr' with h | h
            · exact hn r' h
            · rw [List.mem_singleton.1 h]
              exact run_nullable hx
          · omega
        · exact .inr h0)
      simp only
      omega
    | _ => simp only; omega

/-- The rounds of a repetition with a maximum. -/
theorem repTries_max {run : Runner} {cnt : Tries} {r : Rule} {mx : Nat} {flag : Int} {l : List Rune} {X : Nat}
    (h : ∀ pos, cnt r flag (l.drop pos) ≤ X) (hm : 0 < mx) (fuel : Nat) :
    ∀ pos count, count < mx → repTries run cnt r mx flag l fuel pos count ≤ (mx - count) * X := by
  induction fuel with
  | zero => intros; exact Nat.zero_le _
  | succ fuel ih =>
    intro pos count hc
    have h1 := h pos
    obtain ⟨d, hd⟩ : ∃ d, mx - count = d + 1 := ⟨mx - count - 1, by omega⟩
    rw [hd, Nat.succ_mul]
    simp only [repTries]
    split
    · exact Nat.zero_le _
    · cases hx : run r flag (l.drop pos) with
      | hit nd u n st =>
        simp only
        split
        · omega
        · have := ih (pos + u) (count + 1) (by omega)
          rw [show mx - (count + 1) = d by omega] at this
          omega
      | _ => simp only; omega

theorem two_pow {K m : Nat} (hK : 2 ≤ K) : 2 * K ^ m ≤ K ^ (m + 1) := by
  rw [Nat.pow_succ, Nat.mul_comm]
  exact Nat.mul_le_mul_left _ hK

/-- The rounds of a repetition without maximum from `pos` on, each using a character. -/
theorem repTries_end {fuel0 : Nat} {cnt : Tries} {r : Rule} {flag : Int} {l : List Rune} (hv : Valid l) (hn : ¬ Nullable env r)
    {A K : Nat} (hK : 2 ≤ K) (p0 : Nat) (h : ∀ pos, p0 ≤ pos → pos ≤ l.length → cnt r flag (l.drop pos) ≤ A * K ^ (l.length - pos)) (fuel : Nat) :
    ∀ pos count, p0 ≤ pos → pos ≤ l.length → repTries (run env fuel0) cnt r 0 flag l fuel pos count ≤ 2 * (A * K ^ (l.length - pos)) := by
  induction fuel with
  | zero => intros; exact Nat.zero_le _
  | succ fuel ih =>
    intro pos count hp hle
    have h1 := h pos hp hle
    simp only [repTries]
    split
    · exact Nat.zero_le _
    · cases hx : run env fuel0 r flag (l.drop pos) with
      | hit nd u n st =>
        have hu := run_used_le (hv.drop pos) hx
        rw [List.length_drop] at hu
        have hu0 : u ≠ 0 := by
          rintro rfl
          exact hn (run_nullable hx)
        simp only [Nat.lt_irrefl, false_and, if_false, gt_iff_lt]
        have h2 := ih (pos + u) (count + 1) (by omega) (by omega)
        obtain ⟨m, hm⟩ : ∃ m, l.length - pos = m + 1 := ⟨l.length - pos - 1, by omega⟩
        have h3 : K ^ (l.length - (pos + u)) ≤ K ^ m := Nat.pow_le_pow_right (by omega) (by omega)
        have h4 := Nat.mul_le_mul_left A (two_pow (m := m) hK)
        have h5 := Nat.mul_le_mul_left A h3
        rw [Nat.mul_left_comm] at h4
        rw [hm] at h1 ⊢
        omega
      | _ => simp only; omega

theorem allTries_le {cnt : Tries} {flag : Int} {l : List Rune} {X : Nat} {rs : List Rule} (h : ∀ r ∈ rs, cnt r flag l ≤ X) :
    allTries cnt flag l rs ≤ rs.length * X := by
  induction rs with
  | nil => simp [allTries]
  | cons r rs ih =>
    have h1 := h r List.mem_cons_self
    have h2 := ih fun r' hr' => h r' (List.mem_cons_of_mem _ hr')
    simp only [allTries, List.map_cons, List.sum_cons, List.length_cons, Nat.succ_mul] at h2 ⊢
    omega

theorem choiceTries_le {run : Runner} {cnt : Tries} {flag : Int} {l : List Rune} {X : Nat} {gs : List (List Rule)}
    (h : ∀ g ∈ gs, ∀ r ∈ g, cnt r flag l ≤ X) : choiceTries run cnt flag l gs ≤ gs.flatten.length * X := by
  induction gs with
  | nil => simp [choiceTries]
  | cons g gs ih =>
    have h1 := allTries_le (h g List.mem_cons_self)
    have h2 := ih fun g' hg' => h g' (List.mem_cons_of_mem _ hg')
    simp only [choiceTries, List.flatten_cons, List.length_append, Nat.add_mul]
    split <;> omega

/-- The escape of a block. -/
def escTries (cnt : Tries) (e : Option Rule) (m : List Rune) : Nat :=
  match e with
  | none => 0
  | some e => cnt e NOT_SKIP m

theorem blockTries_succ {run : Runner} {cnt : Tries} {c : Rule} {e : Option Rule} {xs : List Rule} {l : List Rune} {fuel pos : Nat} :
    blockTries run cnt c e xs l (fuel + 1) pos =
      escTries cnt e (l.drop pos) + allTries cnt NOT_SKIP (l.drop pos) xs +
      if xs.any (fun r => (run r NOT_SKIP (l.drop pos)).isHit) then 0
      else
        cnt c NOT_SKIP (l.drop pos) +
          if (run c NOT_SKIP (l.drop pos)).isHit ∨ l.drop pos = [] then 0
          else blockTries run cnt c e xs l fuel (pos + 1) := rfl

/-- What is tried at one place of a block. -/
theorem place_le {cnt : Tries} {c : Rule} {e : Option Rule} {xs : List Rule} {m : List Rune} {X : Nat}
    (h : ∀ r, r = c ∨ r ∈ e ∨ r ∈ xs → cnt r NOT_SKIP m ≤ X) :
    escTries cnt e m + allTries cnt NOT_SKIP m xs + cnt c NOT_SKIP m ≤ (xs.length + 2) * X := by
  have h1 := allTries_le (cnt := cnt) (flag := NOT_SKIP) (l := m) fun r hr => h r (.inr (.inr hr))
  have h2 := h c (.inl rfl)
  rw [Nat.add_mul]
  cases e with
  | none => simp only [escTries]; omega
  | some e =>
    have h3 := h e (.inr (.inl rfl))
    simp only [escTries]; omega

/-- A block from `pos` on. -/
theorem blockTries_le {run : Runner} {cnt : Tries} {c : Rule} {e : Option Rule} {xs : List Rule} {l : List Rune}
    {A K : Nat} (hK : 2 ≤ K) (p0 : Nat)
    (h : ∀ pos, p0 ≤ pos → pos ≤ l.length → ∀ r, r = c ∨ r ∈ e ∨ r ∈ xs → cnt r NOT_SKIP (l.drop pos) ≤ A * K ^ (l.length - pos)) (fuel : Nat) :
    ∀ pos, p0 ≤ pos → pos ≤ l.length →
      blockTries run cnt c e xs l fuel pos ≤ 2 * ((xs.length + 2) * (A * K ^ (l.length - pos))) := by
  induction fuel with
  | zero => intros; exact Nat.zero_le _
  | succ fuel ih =>
    intro pos hp hle
    have h1 := place_le (h pos hp hle)
    rw [blockTries_succ]
    split
    · omega
    · split
      · omega
      · rename_i hd
        have hlt : pos < l.length := by
          rcases Nat.lt_or_ge pos l.length with h | h
          · exact h
          · exact absurd (.inr (List.drop_eq_nil_of_le h)) hd
        have h2 := ih (pos + 1) (by omega) (by omega)
        obtain ⟨m, hm⟩ : ∃ m, l.length - pos = m + 1 := ⟨l.length - pos - 1, by omega⟩
        rw [show l.length - (pos + 1) = m by omega] at h2
        have h4 := Nat.mul_le_mul_left (xs.length + 2) (Nat.mul_le_mul_left A (two_pow (m := m) hK))
        rw [Nat.mul_left_comm A, Nat.mul_left_comm (xs.length + 2) 2] at h4
        rw [hm] at h1 ⊢
        omega

/-- The number of rules written in a rule, and the maximum of a repetition. -/
def width (env : Name → Option Rule) (r : Rule) : Nat :=
  (kids env r).length + match r with
    | .rep _ _ _ mx => mx
    | _ => 0

/-- The numbers fit a set of rules closed under `kids`. -/
structure Roomy (env : Name → Option Rule) (hw : NoLeftRecursion env) (U : List Rule) (N W : Nat) : Prop where
  closed : ∀ r ∈ U, ∀ x ∈ kids env r, x ∈ U
  wide : ∀ r ∈ U, width env r ≤ N
  tall : ∀ r ∈ U, weight hw (fun _ => 1) r ≤ W

theorem roomy (hw : NoLeftRecursion env) {U : List Rule} (h : ∀ x ∈ U, ∀ y ∈ kids env x, y ∈ U) : ∃ N W, Roomy env hw U N W := by
  obtain ⟨N, hN⟩ := list_bound U (width env)
  obtain ⟨W, hW⟩ := list_bound U (weight hw (fun _ => 1))
  exact ⟨N, W, h, hN, hW⟩

/-- No rule costs more than `D ^ weight * K ^ length`. -/
theorem tries_bound (hw : NoLeftRecursion env) (hs : ∀ name r, env name = some r → SoundReps env r) {U : List Rule} {N W : Nat}
    (hU : Roomy env hw U N W) {D A K : Nat} (hD : D = N + 4) (hA : A = D ^ W) (hK : K = 4 * (N + 1) * A + 2) (fuel : Nat) :
    ∀ r ∈ U, SoundReps env r → ∀ flag l, Valid l → tries env fuel r flag l ≤ D ^ weight hw (fun _ => 1) r * K ^ l.length := by
  induction fuel with
  | zero => intros; exact Nat.zero_le _
  | succ fuel ih =>
    intro r hr hsr flag l hv
    have hK2 : 2 ≤ K := by omega
    have hD1 : 1 ≤ D := by omega
    obtain ⟨w, hwr⟩ : ∃ w, weight hw (fun _ => 1) r = w + 1 := ⟨weight hw (fun _ => 1) r - 1, by
      have := weight_eq hw (fun _ => 1) r
      omega⟩
    have hkid : ∀ x ∈ kids env r, x ∈ U ∧ SoundReps env x := by
      intro x hx
      refine ⟨hU.closed r hr x hx, ?_⟩
      cases r with
      | group b r => simp only [kids, List.mem_singleton] at hx; subst hx; exact hsr.part .group
      | option b r => simp only [kids, List.mem_singleton] at hx; subst hx; exact hsr.part .option
      | rep b r mn mx => simp only [kids, List.mem_singleton] at hx; subst hx; exact hsr.part .rep
      | choice b gs =>
        obtain ⟨g, hg, hx⟩ := List.mem_flatten.1 hx
        exact hsr.part (.choice hg hx)
      | concat b rs => exact hsr.part (.concat hx)
      | block b o v c e xs =>
        simp only [kids, List.mem_cons, List.mem_append, Option.mem_toList] at hx
        rcases hx with rfl | rfl | rfl | hx
        · exact hsr.part .opn
        · exact hsr.part .close
        · exact hsr.part .escape
        · exact hsr.part (.exclude hx)
      | ref b name => exact hs name x (by simpa [kids] using hx)
      | _ => cases hx
    -- a rule called at the same place
    have hX0 : 1 ≤ D ^ w * K ^ l.length := Nat.mul_pos (Nat.pow_pos (by omega)) (Nat.pow_pos (by omega))
    have hleft : ∀ x, LeftCall env r x → ∀ flag, tries env fuel x flag l ≤ D ^ w * K ^ l.length := by
      intro x hx fl
      obtain ⟨h1, h2⟩ := hkid x (leftCall_kid hx)
      have h3 := weight_le hw (fun _ => 1) hx
      exact Nat.le_trans (ih x h1 h2 fl l hv) (Nat.mul_le_mul_right _ (Nat.pow_le_pow_right hD1 (by omega)))
    -- a rule called later
    have hany : ∀ x ∈ kids env r, ∀ flag m, Valid m → tries env fuel x flag m ≤ A * K ^ m.length := by
      intro x hx fl m hm
      obtain ⟨h1, h2⟩ := hkid x hx
      refine Nat.le_trans (ih x h1 h2 fl m hm) (Nat.mul_le_mul_right _ ?_)
      rw [hA]
      exact Nat.pow_le_pow_right hD1 (hU.tall x h1)
    have hsmall : ∀ m, m < l.length → 4 * (N + 1) * (A * K ^ m) ≤ D ^ w * K ^ l.length := by
      intro m hm
      rw [← Nat.mul_assoc]
      have h1 : 4 * (N + 1) * A * K ^ m ≤ K ^ (m + 1) := by
        rw [Nat.pow_succ, Nat.mul_comm (K ^ m)]
        exact Nat.mul_le_mul_right _ (by omega)
      have h2 : K ^ (m + 1) ≤ K ^ l.length := Nat.pow_le_pow_right (by omega) (by omega)
      have h3 : 1 * K ^ l.length ≤ D ^ w * K ^ l.length := Nat.mul_le_mul_right _ (Nat.pow_pos (by omega))
      omega
    have hlater : ∀ x ∈ kids env r, ∀ flag m, Valid m → m.length < l.length → tries env fuel x flag m ≤ D ^ w * K ^ l.length := by
      intro x hx fl m hm hlt
      refine Nat.le_trans (hany x hx fl m hm) (Nat.le_trans ?_ (hsmall _ hlt))
      exact Nat.le_mul_of_pos_left _ (by omega)
    have hwide := hU.wide r hr
    rw [hwr, Nat.pow_succ, Nat.mul_right_comm, Nat.mul_comm, hD]
    -- what it takes
    have close : ∀ k z, k ≤ N + 2 → z ≤ k * (D ^ w * K ^ l.length) → 1 + z ≤ (N + 4) * (D ^ w * K ^ l.length) := by
      intro k z hk hz
      have h1 : k * (D ^ w * K ^ l.length) ≤ (N + 2) * (D ^ w * K ^ l.length) := Nat.mul_le_mul_right _ hk
      have h2 : (N + 4) * (D ^ w * K ^ l.length) = (N + 2) * (D ^ w * K ^ l.length) + 2 * (D ^ w * K ^ l.length) := by
        rw [← Nat.add_mul]
      omega
    rw [← hD] at close ⊢
    generalize hX : D ^ w * K ^ l.length = X at *
    simp only [tries]
    cases r with
    | group b r => exact close 1 _ (by omega) (by rw [Nat.one_mul]; exact hleft r .group flag)
    | option b r => exact close 1 _ (by omega) (by rw [Nat.one_mul]; exact hleft r .option flag)
    | ref b name =>
      refine close 1 _ (by omega) ?_
      cases hn : env name with
      | none => simp only [hn]; exact Nat.zero_le _
      | some x => simp only [hn, Nat.one_mul]; exact hleft x (.ref hn) flag
    | choice b gs =>
      refine close gs.flatten.length _ (by simp only [width, kids] at hwide; omega) ?_
      exact choiceTries_le fun g hg x hx => hleft x (.choice hg hx) flag
    | concat b rs =>
      refine close rs.length _ (by simp only [width, kids] at hwide; omega) ?_
      refine seqTries_le hv (whole := rs) hlater ?_ rs [] 0 flag rfl (Nat.zero_le _) (.inl ⟨rfl, by simp⟩)
      intro rs1 x rs2 he hn fl
      exact hleft x (by rw [he]; exact .concat hn) fl
    | rep b r mn mx =>
      have hkr : r ∈ kids env (.rep b r mn mx) := by simp [kids]
      have hall : ∀ pos, tries env fuel r flag (l.drop pos) ≤ X := by
        intro pos
        by_cases hlt : (l.drop pos).length < l.length
        · exact hlater r hkr flag _ (hv.drop _) hlt
        · have : l.drop pos = l := List.Sublist.eq_of_length_le (List.drop_sublist _ _) (by omega)
          rw [this]
          exact hleft r .rep flag
      simp only [width, kids, List.length_singleton] at hwide
      rcases Nat.eq_zero_or_pos mx with rfl | hm
      · have hn := hsr b r mn .refl
        refine close 2 _ (by omega) ?_
        cases fuel with
        | zero => exact Nat.zero_le _
        | succ k =>
          simp only [repTries]
          split
          · exact Nat.zero_le _
          · have h1 := hall 0
            cases hx : run env (k + 1) r flag (l.drop 0) with
            | hit nd u n st =>
              have hu := run_used_le (hv.drop 0) hx
              rw [List.drop_zero] at hu
              have hu0 : u ≠ 0 := by
                rintro rfl
                exact hn (run_nullable hx)
              simp only [Nat.lt_irrefl, false_and, if_false, gt_iff_lt]
              have h2 := repTries_end (env := env) (fuel0 := k + 1) (cnt := tries env (k + 1)) (r := r) (flag := flag) hv hn hK2 u
                (fun pos _ hp => by
                  have := hany r hkr flag (l.drop pos) (hv.drop _)
                  rwa [List.length_drop] at this) k (0 + u) (0 + 1) (by omega) (by omega)
              have h3 := hsmall (l.length - (0 + u)) (by omega)
              have h4 : 2 * (A * K ^ (l.length - (0 + u))) ≤ 4 * (N + 1) * (A * K ^ (l.length - (0 + u))) :=
                Nat.mul_le_mul_right _ (by omega)
              omega
            | _ => simp only; omega
      · refine close mx _ (by omega) ?_
        exact repTries_max hall hm fuel 0 0 hm
    | block b o v c e xs =>
      have hmem : ∀ x, x = c ∨ x ∈ e ∨ x ∈ xs → x ∈ kids env (.block b o v c e xs) := by
        rintro x (rfl | h | h)
        · simp [kids]
        · simp only [Option.mem_def] at h; simp [kids, h]
        · simp [kids, h]
      have hx2 : xs.length + 2 ≤ N := by
        simp only [width, kids, List.length_cons, List.length_append] at hwide
        omega
      have ho := hleft o .opn flag
      have hrest : ∀ p0, 0 < p0 → ∀ k pos, p0 ≤ pos → pos ≤ l.length → blockTries (run env fuel) (tries env fuel) c e xs l k pos ≤ X := by
        intro p0 h0 k pos hp hle
        have h2 := blockTries_le (run := run env fuel) (cnt := tries env fuel) (c := c) (e := e) (xs := xs) (l := l) hK2 p0
          (fun pos _ _ x hx => by
            have := hany x (hmem x hx) NOT_SKIP (l.drop pos) (hv.drop _)
            rwa [List.length_drop] at this) k pos hp hle
        have h3 := hsmall (l.length - pos) (by omega)
        refine Nat.le_trans h2 (Nat.le_trans ?_ h3)
        rw [← Nat.mul_assoc]
        exact Nat.mul_le_mul_right _ (by omega)
      refine close (xs.length + 4) _ (by omega) ?_
      rw [Nat.add_mul]
      cases hx : run env fuel o flag l with
      | hit nd u n st =>
        have hu := run_used_le hv hx
        simp only [hx]
        rcases Nat.eq_zero_or_pos u with rfl | h0
        · have hn := run_nullable hx
          cases fuel with
          | zero => simp only [blockTries]; omega
          | succ k =>
            have h1 := place_le (cnt := tries env (k + 1)) (c := c) (e := e) (xs := xs) (m := l.drop 0) (X := X) (by
              rw [List.drop_zero]
              rintro x (rfl | h | h)
              · exact hleft _ (.close hn) _
              · simp only [Option.mem_def] at h; subst h; exact hleft _ (.escape hn) _
              · exact hleft _ (.exclude hn h) _)
            rw [Nat.add_mul] at h1
            rw [blockTries_succ]
            split
            · omega
            · split
              · omega
              · rename_i hd
                have hlt : 0 < l.length := by
                  rcases Nat.lt_or_ge 0 l.length with h | h
                  · exact h
                  · exact absurd (.inr (List.drop_eq_nil_of_le h)) hd
                have := hrest 1 (by omega) k (0 + 1) (by omega) (by omega)
                omega
        · have := hrest u h0 fuel u (Nat.le_refl _) hu
          omega
      | _ => simp only [hx]; omega
    | _ => exact close 0 _ (by omega) (Nat.zero_le _)

end Xbnf.Spec
