import Verif.Lemmas.RunFuel
import Verif.Lemmas.Linear
import Verif.Props.Terminate
/-
The number of nodes of a tree is at most proportional to the number of characters it stands for.
-/
namespace Xbnf.Spec
namespace Size
open Shape (kids)

/-! ### Counting nodes -/

theorem count_eq (n : Node) : n.countNodes = 1 + countNodesL n.children := by cases n; rfl

theorem countL_append (a b : List Node) : countNodesL (a ++ b) = countNodesL a + countNodesL b := by
  induction a with
  | nil => rw [List.nil_append, countNodesL, Nat.zero_add]
  | cons n a ih => rw [List.cons_append, countNodesL, countNodesL, ih, Nat.add_assoc]

theorem countL_one (n : Node) : countNodesL [n] = n.countNodes := by simp [countNodesL]

theorem count_inner (rt : RType) (b : RuleBase) (st : Bool) (cs : List Node) : (inner rt b st cs).countNodes = 1 + countNodesL cs := rfl

theorem count_flip (b : RuleBase) (n : Node) : (flip b n).countNodes = n.countNodes := by rw [count_eq, count_eq]; rfl

theorem oneAt_leaf {rt b skip p l nd u n st} (h : oneAt rt b skip p l = .hit nd u n st) : nd.countNodes = 1 := by
  simp only [oneAt] at h
  repeat' split at h
  all_goals first
    | (cases h; done)
    | (simp only [Ans.hit.injEq] at h; rw [← h.1]; rfl)

theorem textAt_leaf {rt b sticky skip t l nd u n st} (h : textAt rt b sticky skip t l = .hit nd u n st) : nd.countNodes = 1 := by
  simp only [textAt] at h
  repeat' split at h
  all_goals first
    | (cases h; done)
    | (simp only [Ans.hit.injEq] at h; rw [← h.1]; rfl)

theorem eofAt_leaf {b skip l nd u n st} (h : eofAt b skip l = .hit nd u n st) : nd.countNodes = 1 := by
  simp only [eofAt] at h
  repeat' split at h
  all_goals first
    | (cases h; done)
    | (simp only [Ans.hit.injEq] at h; rw [← h.1]; rfl)

/-! ### Adding up the parts -/

/-- Among `j` parts, `c` nodes so far, having used `pos` characters: a part that uses nothing has at most
`w` nodes at the start and `W` later, the first that uses something `q` and `B` for every character but the
first, a later one `B` for every character. -/
def Sum (w W q B pos j c : Nat) : Prop := (pos = 0 → c ≤ j * w) ∧ (1 ≤ pos → c + B ≤ j * W + q + B * pos)

/-- What is known of a part that begins at `pos`. -/
def PartOk (w W q B pos u c : Nat) : Prop :=
  (pos = 0 → (u = 0 → c ≤ w) ∧ (1 ≤ u → c + B ≤ q + B * u)) ∧ (1 ≤ pos → (u = 0 → c ≤ W) ∧ (1 ≤ u → c ≤ B * u))

theorem sum_zero (w W q B : Nat) : Sum w W q B 0 0 0 := ⟨fun _ => Nat.zero_le _, fun h => absurd h (by omega)⟩

theorem sum_step {w W q B pos j c u d : Nat} (hw : w ≤ W) (h : Sum w W q B pos j c) (hp : PartOk w W q B pos u d) :
    Sum w W q B (pos + u) (j + 1) (c + d) := by
  have e1 : (j + 1) * w = j * w + w := Nat.succ_mul j w
  have e2 : (j + 1) * W = j * W + W := Nat.succ_mul j W
  have e3 : B * (pos + u) = B * pos + B * u := Nat.mul_add B pos u
  have e4 : j * w ≤ j * W := Nat.mul_le_mul_left j hw
  have e5 : pos = 0 → B * pos = 0 := by intro h; rw [h, Nat.mul_zero]
  unfold Sum at *
  rw [e1, e2, e3]
  obtain ⟨h1, h2⟩ := h
  obtain ⟨p1, p2⟩ := hp
  rcases Nat.eq_zero_or_pos pos with hz | hz <;> rcases Nat.eq_zero_or_pos u with hu | hu
  · have := (p1 hz).1 hu; have := h1 hz; exact ⟨fun _ => by omega, fun _ => by omega⟩
  · have := (p1 hz).2 hu; have := h1 hz; have := e5 hz; exact ⟨fun _ => by omega, fun _ => by omega⟩
  · have := (p2 hz).1 hu; have := h2 hz; exact ⟨fun _ => by omega, fun _ => by omega⟩
  · have := (p2 hz).2 hu; have := h2 hz; exact ⟨fun _ => by omega, fun _ => by omega⟩

/-- A part that uses something need not be counted. -/
theorem sum_used {w W q B pos j c u d : Nat} (hw : w ≤ W) (h : Sum w W q B pos j c) (hp : PartOk w W q B pos u d) (hu : 1 ≤ u) :
    Sum w W q B (pos + u) j (c + d) := by
  have e3 : B * (pos + u) = B * pos + B * u := Nat.mul_add B pos u
  have e4 : j * w ≤ j * W := Nat.mul_le_mul_left j hw
  have e5 : pos = 0 → B * pos = 0 := by intro h; rw [h, Nat.mul_zero]
  unfold Sum at *
  rw [e3]
  obtain ⟨h1, h2⟩ := h
  obtain ⟨p1, p2⟩ := hp
  rcases Nat.eq_zero_or_pos pos with hz | hz
  · have := (p1 hz).2 hu; have := h1 hz; have := e5 hz; exact ⟨fun _ => by omega, fun _ => by omega⟩
  · have := (p2 hz).2 hu; have := h2 hz; exact ⟨fun _ => by omega, fun _ => by omega⟩

/-- Characters without a node. -/
theorem sum_skip {w W q B pos j c : Nat} (hw : w ≤ W) (h : Sum w W q B pos j c) (k : Nat) : Sum w W q B (pos + k) j c := by
  rcases Nat.eq_zero_or_pos k with rfl | hk
  · exact h
  · have := sum_used hw h (u := k) (d := 0)
      ⟨fun _ => ⟨fun _ => Nat.zero_le _, fun h => by have := Nat.le_mul_of_pos_right B h; omega⟩, fun _ => ⟨fun _ => Nat.zero_le _, fun _ => Nat.zero_le _⟩⟩ hk
    exact this

theorem sum_mono {w W q B pos j j' c : Nat} (h : Sum w W q B pos j c) (hj : j ≤ j') : Sum w W q B pos j' c := by
  have e1 : j * w ≤ j' * w := Nat.mul_le_mul_right w hj
  have e2 : j * W ≤ j' * W := Nat.mul_le_mul_right W hj
  obtain ⟨h1, h2⟩ := h
  exact ⟨fun hp => by have := h1 hp; omega, fun hp => by have := h2 hp; omega⟩

/-- What is known of a rule's tree. -/
def Fit (w q B u c : Nat) : Prop := (u = 0 → c ≤ w) ∧ (1 ≤ u → c + B ≤ q + B * u)

/-- Two nodes above the parts. -/
theorem Sum.fit {w W q B u j c D : Nat} (h : Sum w W q B u j c) (hj : j ≤ D) :
    Fit (2 + D * w) (2 + D * W + q) B u (2 + c) := by
  have e1 : j * w ≤ D * w := Nat.mul_le_mul_right w hj
  have e2 : j * W ≤ D * W := Nat.mul_le_mul_right W hj
  exact ⟨fun hu => by have := h.1 hu; omega, fun hu => by have := h.2 hu; omega⟩

theorem Fit.mono {w q B u c c' : Nat} (h : Fit w q B u c) (hc : c' ≤ c) : Fit w q B u c' :=
  ⟨fun hu => by have := h.1 hu; omega, fun hu => by have := h.2 hu; omega⟩

theorem PartOk.zero {w W q B u c : Nat} (h : Fit w q B u c) : PartOk w W q B 0 u c := ⟨fun _ => h, fun h => absurd h (by omega)⟩

theorem fit_one {w W q B u D : Nat} : Fit (2 + D * w) (2 + D * W + q) B u 1 :=
  ⟨fun _ => by omega, fun hu => by have := Nat.le_mul_of_pos_right B hu; omega⟩

/-! ### The rules with parts -/

section parts
variable {run : Runner} {w W q B : Nat} {l : List Rune}

theorem seq_sum (hw : w ≤ W) {F : Int → Prop} (hF : ∀ flag nd st, F flag → F (flagAfter flag nd st)) (b : RuleBase) (rs : List Rule)
    (hr : ∀ r ∈ rs, ∀ flag, F flag → ∀ pos nd u n st, run r flag (l.drop pos) = .hit nd u n st → PartOk w W q B pos u nd.countNodes) :
    ∀ {pos look st flag nodes nd u n st'}, F flag → Sum w W q B pos nodes.length (countNodesL nodes) →
      seqAt run b l rs pos look st flag nodes = .hit nd u n st' →
      ∃ c, nd.countNodes = 1 + c ∧ Sum w W q B u (nodes.length + rs.length) c := by
  induction rs with
  | nil =>
    intro pos look st flag nodes nd u n st' _ hs h
    simp only [seqAt, Ans.hit.injEq] at h
    obtain ⟨rfl, rfl, _, _⟩ := h
    exact ⟨_, rfl, hs⟩
  | cons r rs ih =>
    intro pos look st flag nodes nd u n st' hf hs h
    simp only [seqAt] at h
    split at h
    all_goals first
      | (cases h; done)
      | skip
    rename_i nd0 u0 n0 st0 hrun
    split at h
    · cases h
    · have hp := hr r List.mem_cons_self flag hf pos _ _ _ _ hrun
      obtain ⟨c, e, hc⟩ := ih (fun r hr' => hr r (List.mem_cons_of_mem _ hr')) (hF _ _ _ hf)
        (by rw [List.length_append, countL_append, countL_one]; exact sum_step hw hs hp) h
      refine ⟨c, e, ?_⟩
      rw [List.length_append, List.length_singleton] at hc
      rw [List.length_cons, Nat.add_comm rs.length 1, ← Nat.add_assoc]
      exact hc

/-- A repetition without maximum does not end once a round has used nothing. -/
theorem rep_stays {b : RuleBase} {r : Rule} {mn : Nat} {flag : Int} {pos : Nat} {nd0 n0 st0}
    (h0 : run r flag (l.drop pos) = .hit nd0 0 n0 st0) (hne : l.drop pos ≠ []) (fuel : Nat) : ∀ {look st nodes nd u n st'},
      repAt run b r mn 0 flag l fuel pos look st nodes ≠ .hit nd u n st' := by
  induction fuel with
  | zero => intro _ _ _ _ _ _ _ h; cases h
  | succ fuel ih =>
    intro look st nodes nd u n st' h
    simp only [repAt, if_neg hne, h0] at h
    split at h
    · rename_i hc; exact absurd hc.1 (by omega)
    · split at h
      · cases h
      · exact ih h

theorem rep_sum (hw : w ≤ W) {b : RuleBase} {r : Rule} {mn mx : Nat} {flag : Int}
    (hr : ∀ pos nd u n st, run r flag (l.drop pos) = .hit nd u n st → PartOk w W q B pos u nd.countNodes) (fuel : Nat) :
    ∀ {pos look st nodes nd u n st'}, (mx ≠ 0 → nodes.length < mx) →
      Sum w W q B pos (if mx = 0 then 0 else nodes.length) (countNodesL nodes) →
      repAt run b r mn mx flag l fuel pos look st nodes = .hit nd u n st' →
      ∃ c, nd.countNodes = 1 + c ∧ Sum w W q B u mx c := by
  induction fuel with
  | zero => intro _ _ _ _ _ _ _ _ _ _ h; cases h
  | succ fuel ih =>
    have done : ∀ {pos look st nodes nd u n st'}, (mx ≠ 0 → nodes.length ≤ mx) →
        Sum w W q B pos (if mx = 0 then 0 else nodes.length) (countNodesL nodes) → repEnd b mn pos look st nodes = .hit nd u n st' →
        ∃ c, nd.countNodes = 1 + c ∧ Sum w W q B u mx c := by
      intro pos look st nodes nd u n st' hm hs h
      unfold repEnd at h
      split at h
      · cases h
      · simp only [Ans.hit.injEq] at h
        obtain ⟨rfl, rfl, _, _⟩ := h
        refine ⟨_, rfl, sum_mono hs ?_⟩
        split
        · omega
        · exact hm ‹_›
    intro pos look st nodes nd u n st' hm hs h
    simp only [repAt] at h
    split at h
    · exact done (fun h => Nat.le_of_lt (hm h)) hs h
    · rename_i hne
      split at h
      · cases h
      · cases h
      · exact done (fun h => Nat.le_of_lt (hm h)) hs h
      · cases h
      · rename_i nd0 u0 n0 st0 hrun
        have hp := hr pos _ _ _ _ hrun
        have hstep : mx ≠ 0 → Sum w W q B (pos + u0) (if mx = 0 then 0 else (nodes ++ [nd0]).length) (countNodesL (nodes ++ [nd0])) := by
          intro hz
          rw [if_neg hz, List.length_append, countL_append, countL_one]
          rw [if_neg hz] at hs
          exact sum_step hw hs hp
        split at h
        · rename_i hc
          split at h
          · cases h
          · exact done (fun _ => by rw [List.length_append, List.length_singleton]; omega) (hstep (by omega)) h
        · rename_i hc
          split at h
          · cases h
          · refine ih (fun hz => ?_) ?_ h
            · have := hm hz
              rw [List.length_append, List.length_singleton]
              have : nodes.length + 1 ≠ mx := fun e => hc ⟨by omega, e⟩
              omega
            · by_cases hz : mx = 0
              · subst hz
                rw [if_pos rfl] at hs ⊢
                rw [countL_append, countL_one]
                rcases Nat.eq_zero_or_pos u0 with rfl | hu
                · exact absurd h (rep_stays hrun hne fuel)
                · exact sum_used hw hs hp hu
              · exact hstep hz

theorem choice_sum {b : RuleBase} {flag : Int} {gs : List (List Rule)} : ∀ {look st nd u n st'},
    choiceAt run b flag l gs look st = .hit nd u n st' →
    ∃ r ∈ gs.flatten, ∃ nd0 n0 st0, run r flag l = .hit nd0 u n0 st0 ∧ nd.countNodes = 1 + nd0.countNodes := by
  induction gs with
  | nil => intro _ _ _ _ _ _ h; cases h
  | cons g gs ih =>
    intro look st nd u n st' h
    simp only [choiceAt] at h
    split at h
    · cases h
    · cases h
    · rename_i hits look' st'' ha
      split at h
      · obtain ⟨r, hr, h'⟩ := ih h
        exact ⟨r, by rw [List.flatten_cons]; exact List.mem_append_right _ hr, h'⟩
      · cases h
      · cases h
      · rename_i nd0 u0 s0 hb
        simp only [Ans.hit.injEq] at h
        obtain ⟨rfl, rfl, _, _⟩ := h
        obtain ⟨r, hr, m, hm⟩ := Props.altsAt_mem ha (Props.best_mem hb)
        exact ⟨r, by rw [List.flatten_cons]; exact List.mem_append_left _ hr, _, _, _, hm, by rw [count_inner, countL_one]⟩

theorem block_sum (hw : w ≤ W) {b : RuleBase} {v : Bool} {c : Rule} {e : Option Rule} {xs : List Rule} {opn : Node} {start : Nat}
    (hc : ∀ pos nd u n st, run c NOT_SKIP (l.drop pos) = .hit nd u n st → PartOk w W q B pos u nd.countNodes) (fuel : Nat) :
    ∀ {pos look nd u n st'}, Sum w W q B pos 1 opn.countNodes →
      blockAt run b v c e xs opn start l fuel pos look = .hit nd u n st' →
      ∃ c, nd.countNodes = 2 + c ∧ Sum w W q B u 2 c := by
  induction fuel with
  | zero => intro _ _ _ _ _ _ _ h; cases h
  | succ fuel ih =>
    intro pos look nd u n st' hs h
    simp only [blockAt] at h
    cases he : escapeAt run e xs.isEmpty (l.drop pos) with
    | fail ne s =>
      rw [he] at h
      simp only at h
      cases hx : excludeAt run xs (l.drop pos) with
      | fail nx s =>
        rw [hx] at h
        simp only at h
        cases hr : run c NOT_SKIP (l.drop pos) with
        | hit nd0 u0 n0 st0 =>
          rw [hr] at h
          simp only at h
          split at h
          · cases h
          · simp only [Ans.hit.injEq] at h
            obtain ⟨rfl, rfl, _, _⟩ := h
            cases v with
            | true =>
              refine ⟨opn.countNodes, ?_, sum_mono hs (by omega)⟩
              rw [count_inner]
              simp only [if_true, List.append_nil, countNodesL]
              rw [show ({ ruleType := RType.chars, chars := List.take (pos - start) (List.drop start l), sticky := true } : Node).countNodes = 1
                from rfl]
              omega
            | false =>
              refine ⟨opn.countNodes + nd0.countNodes, ?_, sum_step hw hs (hc pos _ _ _ _ hr)⟩
              rw [count_inner]
              simp only [Bool.false_eq_true, if_false, List.cons_append, List.nil_append, countNodesL]
              rw [show ({ ruleType := RType.chars, chars := List.take (pos - start) (List.drop start l), sticky := true } : Node).countNodes = 1
                from rfl]
              omega
        | fail n0 s0 =>
          rw [hr] at h
          simp only at h
          split at h
          · cases h
          · exact ih (sum_skip hw hs 1) h
        | _ => rw [hr] at h; cases h
      | hit nd0 u0 n0 s0 =>
        rw [hx] at h
        simp only at h
        split at h <;> cases h
      | _ => rw [hx] at h; cases h
    | _ => rw [he] at h; cases h

end parts

/-! ### The bounds -/

/-- How many nodes a tree that stands for nothing can have, when `k` rules can still be tried at its place. -/
def small (D : Nat) : Nat → Nat
  | 0 => 0
  | k + 1 => 2 + D * small D k

/-- The same for the start of a tree that stands for something. -/
def big (D W : Nat) : Nat → Nat
  | 0 => 0
  | k + 1 => 2 + D * W + big D W k

theorem small_mono {D : Nat} (hD : 1 ≤ D) {k N : Nat} (h : k ≤ N) : small D k ≤ small D N := by
  induction N with
  | zero => rw [Nat.le_zero.1 h]; exact Nat.le_refl _
  | succ N ih =>
    rcases Nat.eq_or_lt_of_le h with rfl | h
    · exact Nat.le_refl _
    · have := ih (by omega)
      have h2 : small D N ≤ D * small D N := Nat.le_mul_of_pos_left _ hD
      rw [small]
      omega

/-- How many parts a rule can have at one place. -/
def width (env : Name → Option Rule) : Rule → Nat
  | .rep _ _ _ mx => mx + 2
  | r => (kids env r).length + 2

/-- The flags used by an evaluation that begins with `SUGGEST_SKIP`. -/
def flags : List Int := [SUGGEST_SKIP, SUGGEST_NOT_SKIP, NOT_SKIP]

theorem flags_after {flag : Int} {nd : Node} {st : Bool} (h : flag ∈ flags) : flagAfter flag nd st ∈ flags := by
  unfold flagAfter
  split
  · exact h
  · split <;> simp [flags]

/-- The pairs of a rule and a flag. -/
def pairs (U : List Rule) : List (Rule × Int) := U.flatMap fun r => flags.map fun f => (r, f)

theorem mem_pairs {U : List Rule} {r : Rule} {f : Int} (hr : r ∈ U) (hf : f ∈ flags) : (r, f) ∈ pairs U :=
  List.mem_flatMap.2 ⟨r, hr, List.mem_map.2 ⟨f, hf, rfl⟩⟩

theorem first_hit {env : Name → Option Rule} {fuel : Nat} {r : Rule} {flag : Int} {l : List Rune} {nd u n st}
    (h : run env fuel r flag l = .hit nd u n st) :
    ∃ k, k < fuel ∧ run env (k + 1) r flag l = .hit nd u n st ∧ ∀ nd u n st, run env k r flag l ≠ .hit nd u n st := by
  induction fuel with
  | zero => cases h
  | succ fuel ih =>
    by_cases hc : ∃ nd u n st, run env fuel r flag l = .hit nd u n st
    · obtain ⟨nd', u', n', st', hc⟩ := hc
      have := run_mono (Nat.le_succ fuel) hc
      rw [h] at this
      rw [← this] at hc
      obtain ⟨k, h1, h2⟩ := ih hc
      exact ⟨k, by omega, h2⟩
    · exact ⟨fuel, Nat.lt_succ_self _, h, fun nd u n st h' => hc ⟨_, _, _, _, h'⟩⟩

/-- A rule that gives a tree is not tried again at the same place on the way to it, so the rules tried there
one inside the other are all different. -/
theorem size_at {env : Name → Option Rule} {U : List Rule} (hU : ∀ x ∈ U, ∀ y ∈ kids env x, y ∈ U) {D W B : Nat}
    (hD : ∀ r ∈ U, width env r ≤ D) (hD1 : 2 ≤ D) (hW : small D (pairs U).length = W) {fuel0 : Nat}
    (hlater : ∀ fuel, fuel < fuel0 → ∀ r ∈ U, ∀ flag ∈ flags, ∀ l nd u n st, run env fuel r flag l = .hit nd u n st →
      (u = 0 → nd.countNodes ≤ W) ∧ (1 ≤ u → nd.countNodes ≤ B * u)) (k : Nat) :
    ∀ (R : List (Rule × Int)), R.length = k → k ≤ (pairs U).length → ∀ fuel, fuel ≤ fuel0 → ∀ r ∈ U, ∀ flag ∈ flags, ∀ l nd u n st,
      run env fuel r flag l = .hit nd u n st →
      (∀ p ∈ pairs U, p ∈ R ∨ ∀ nd u n st, run env fuel p.1 p.2 l ≠ .hit nd u n st) →
      Fit (small D k) (big D W k) B u nd.countNodes := by
  induction k with
  | zero =>
    intro R hR _ fuel _ r hr flag hf l nd u n st h hv
    rcases hv _ (mem_pairs hr hf) with hm | hm
    · rw [List.length_eq_zero_iff.1 hR] at hm; cases hm
    · exact absurd h (hm _ _ _ _)
  | succ k ih =>
    intro R hR hk fuel hfuel r hr flag hf l nd u n st h hv
    obtain ⟨m, hm, h, hno⟩ := first_hit h
    have hin : (r, flag) ∈ R := by
      rcases hv _ (mem_pairs hr hf) with hm' | hm'
      · exact hm'
      · exact absurd (run_mono (show m + 1 ≤ fuel by omega) h) (hm' _ _ _ _)
    obtain ⟨R1, R2, rfl⟩ := List.append_of_mem hin
    have hlen : (R1 ++ R2).length = k := by
      rw [List.length_append, List.length_cons] at hR
      rw [List.length_append]; omega
    have hv' : ∀ p ∈ pairs U, p ∈ R1 ++ R2 ∨ ∀ nd u n st, run env m p.1 p.2 l ≠ .hit nd u n st := by
      intro p hp
      rcases hv p hp with h' | h'
      · rcases List.mem_append.1 h' with h' | h'
        · exact .inl (List.mem_append_left _ h')
        · rcases List.mem_cons.1 h' with rfl | h'
          · exact .inr hno
          · exact .inl (List.mem_append_right _ h')
      · exact .inr fun nd u n st h'' => h' _ _ _ _ (run_mono (by omega) h'')
    have hw : small D k ≤ W := by rw [← hW]; exact small_mono (by omega) (by omega)
    -- the parts
    have hpart : ∀ x ∈ kids env r, ∀ f ∈ flags, ∀ pos nd u n st, run env m x f (l.drop pos) = .hit nd u n st →
        PartOk (small D k) W (big D W k) B pos u nd.countNodes := by
      intro x hx f hf' pos nd u n st h'
      refine ⟨fun hp => ?_, fun _ => hlater m (by omega) x (hU r hr x hx) f hf' _ _ _ _ _ h'⟩
      subst hp
      exact ih (R1 ++ R2) hlen (by omega) m (by omega) x (hU r hr x hx) f hf' l nd u n st h' hv'
    have hone : ∀ x ∈ kids env r, ∀ nd0 n0 st0, run env m x flag l = .hit nd0 u n0 st0 → nd.countNodes ≤ 2 + nd0.countNodes →
        Fit (small D (k + 1)) (big D W (k + 1)) B u nd.countNodes := by
      intro x hx nd0 n0 st0 h' hc
      have := sum_step hw (sum_zero (small D k) W (big D W k) B) (hpart x hx flag hf 0 _ _ _ _ h')
      rw [Nat.zero_add, Nat.zero_add, Nat.zero_add] at this
      exact (this.fit (D := D) (by omega)).mono hc
    have hwid := hD r hr
    cases r with
    | eof b => rw [eofAt_leaf h]; exact fit_one
    | char b t x =>
      simp only [run] at h
      split at h
      · cases h
      · rw [oneAt_leaf h]; exact fit_one
    | range b x _ y _ =>
      simp only [run] at h
      split at h
      · cases h
      · rw [oneAt_leaf h]; exact fit_one
    | chars b t => rw [textAt_leaf h]; exact fit_one
    | str b t => rw [textAt_leaf h]; exact fit_one
    | group b r =>
      simp only [run] at h
      cases hx : run env m r flag l with
      | hit nd0 u0 n0 st0 =>
        rw [hx] at h
        simp only [Ans.hit.injEq] at h
        obtain ⟨rfl, rfl, _, _⟩ := h
        exact hone r (by simp [kids]) _ _ _ hx (by rw [count_inner, countL_one]; omega)
      | _ => rw [hx] at h; cases h
    | option b r =>
      simp only [run] at h
      cases hx : run env m r flag l with
      | hit nd0 u0 n0 st0 =>
        rw [hx] at h
        simp only [Ans.hit.injEq] at h
        obtain ⟨rfl, rfl, _, _⟩ := h
        exact hone r (by simp [kids]) _ _ _ hx (by rw [count_inner, countL_one]; omega)
      | fail n0 st0 =>
        rw [hx] at h
        simp only [Ans.hit.injEq] at h
        obtain ⟨rfl, rfl, _, _⟩ := h
        exact fit_one
      | _ => rw [hx] at h; cases h
    | rep b r mn mx =>
      obtain ⟨c, e, hc⟩ := rep_sum hw (hpart r (by simp [kids]) flag hf) m (mx := mx) (fun hz => by simpa using Nat.pos_of_ne_zero hz)
        (by simpa [countNodesL] using sum_zero (small D k) W (big D W k) B) h
      exact (hc.fit (show mx ≤ D by simp only [width] at hwid; omega)).mono (by omega)
    | choice b gs =>
      obtain ⟨x, hx, nd0, n0, st0, h', e⟩ := choice_sum h
      exact hone x hx _ _ _ h' (by omega)
    | concat b rs =>
      obtain ⟨c, e, hc⟩ := seq_sum hw (F := (· ∈ flags)) (fun _ _ _ => flags_after) b rs
        (fun x hx f hf' => hpart x hx f hf') hf (by simpa [countNodesL] using sum_zero (small D k) W (big D W k) B) h
      exact (hc.fit (show _ ≤ D by simp only [width, kids] at hwid; simp only [List.length_nil]; omega)).mono (by omega)
    | block b o v c e xs =>
      simp only [run] at h
      cases hx : run env m o flag l with
      | hit nd0 u0 n0 st0 =>
        rw [hx] at h
        simp only at h
        split at h
        · cases h
        · have := sum_step hw (sum_zero (small D k) W (big D W k) B) (hpart o (by simp [kids]) flag hf 0 _ _ _ _ hx)
          rw [Nat.zero_add, Nat.zero_add, Nat.zero_add] at this
          obtain ⟨c', e', hc⟩ := block_sum hw (hpart c (by simp [kids]) NOT_SKIP (by simp [flags])) m this h
          rw [e']
          exact hc.fit (by omega)
      | _ => rw [hx] at h; cases h
    | ref b name =>
      simp only [run] at h
      cases hn : env name with
      | none => rw [hn] at h; cases h
      | some r =>
        rw [hn] at h
        simp only at h
        cases hx : run env m r flag l with
        | hit nd0 u0 n0 st0 =>
          rw [hx] at h
          simp only [Ans.hit.injEq] at h
          obtain ⟨rfl, rfl, _, _⟩ := h
          exact hone r (by simp [kids, hn]) _ _ _ hx (by rw [count_flip]; omega)
        | _ => rw [hx] at h; cases h

/-- The bound for the rules of a finite set: a number of nodes for nothing, and a number of nodes for every
character. -/
theorem size_le {env : Name → Option Rule} {U : List Rule} (hU : ∀ x ∈ U, ∀ y ∈ kids env x, y ∈ U) :
    ∃ W B, ∀ fuel, ∀ r ∈ U, ∀ flag ∈ flags, ∀ l nd u n st, run env fuel r flag l = .hit nd u n st →
      (u = 0 → nd.countNodes ≤ W) ∧ (1 ≤ u → nd.countNodes ≤ B * u) := by
  obtain ⟨D, hD⟩ := Shape.list_bound U (width env)
  refine ⟨small (D + 2) (pairs U).length, big (D + 2) (small (D + 2) (pairs U).length) (pairs U).length, fun fuel => ?_⟩
  induction fuel using Nat.strongRecOn with
  | ind fuel ih =>
    intro r hr flag hf l nd u n st h
    have := size_at hU (D := D + 2) (fun r hr => Nat.le_trans (hD r hr) (by omega)) (by omega) rfl ih (pairs U).length (pairs U) rfl
      (Nat.le_refl _) fuel (Nat.le_refl _) r hr flag hf l nd u n st h (fun p hp => .inl hp)
    exact ⟨this.1, fun hu => by have := this.2 hu; omega⟩

end Size
end Xbnf.Spec
