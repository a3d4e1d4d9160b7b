import Verif.Spec.Work
import Verif.Lemmas.Certificate
/-
Rules that are tried in vain: with a shape (Spec/Predictive.lean), the number of rules tried is bounded
by a number that depends on the rule alone as long as the next character is not one the rule begins
with, or is not one that leads it astray.
-/
namespace Xbnf.Spec
namespace Shape
open Props (run_nullable choiceAt_used repAt_used seqAt_used altsAt_mem)

/-! ### One part of a concatenation -/

theorem Covers.below {a s' s1 s : Shape} (h : Covers a s1 s) (hb : Below s' s1) : Covers a s' s where
  null hn := h.null (hb.null ▸ hn)
  first := h.first
  eof := h.eof
  hi := h.hi
  deep0 hn := h.deep0 (hb.null ▸ hn)
  lag l := Nat.le_trans (hb.lag l) (h.lag l)
  deep l hl := h.deep l (hb.deep l hl)
  lag' hn l := Nat.le_trans (hb.hi l) (h.lag' (hb.null ▸ hn) l)
  deep' hn l hl := h.deep' (hb.null ▸ hn) l (hb.deep0 l hl)
  miss hn x y hx hy := h.miss (hb.null ▸ hn) x y hx (hb.miss y hy)
  hit x y hx hy := h.hit x y hx (hb.hit y hy)
  hit' hn x y hx hy := h.hit' (hb.null ▸ hn) x y hx (hb.miss y hy)

theorem Follows.below {a s' s0 s : Shape} (hF : Follows a s0 s) (hb : Below s' s0) : Follows a s' s :=
  ⟨hb.null.trans hF.null, fun l h => hF.first l (hb.first l h), fun h => hF.eof (hb.eof h),
    fun l n h1 h2 => hF.lo l n h1 (Nat.le_trans (hb.lo l) h2), fun l => Nat.le_trans (hb.hi l) (hF.hi l),
    fun l h => hF.deep0 l (hb.deep0 l h), fun l => Nat.le_trans (hb.lag l) (hF.lag l),
    fun l h => hF.deep l (hb.deep l h), fun x y hx hy => hF.miss x y hx (hb.miss y hy),
    fun x y hx hy => hF.hit x y hx (hb.hit y hy)⟩

/-- How far was looked before, given what the shape of the rest was worked out with. -/
def Within (lag : Look) (deep : CharSet) (l : List Rune) (pos look : Nat) : Prop :=
  pos ≤ look ∧ (look - pos ≤ lag.at_ (l.drop pos) ∨ begins deep (l.drop pos) = true)

theorem within_zero {lag : Look} {deep : CharSet} {l : List Rune} : Within lag deep l 0 0 := ⟨Nat.le_refl _, .inl (Nat.zero_le _)⟩

/-- The pieces the shape of a concatenation is made of. -/
theorem seqShape_cons {T : Shapes} {r : Rule} {rs : List Rule} {flag : Int} {lag : Look} {deep : CharSet} {s : Shape}
    (hs : seqShape T (r :: rs) flag lag deep = some s) :
    ∃ a s1, shapeOf T r flag = some a ∧ a.first.apart deep = true ∧
      (a.null = true → rs = [] ∨ (deep = [] ∧ lag.le a.lo = true)) ∧
      afterSticky (fun f => seqShape T rs f a.lag a.deep) a.stickyHit = some s1 ∧ Covers a s1 s ∧
      (a.null = false → s.first = a.first ∧ ∀ l, begins (deep.union a.deep0) l = true → begins s.deep0 l = true) ∧
      (a.null = true → ∃ s0, (if a.opt then seqShape T rs flag (lag.sup a.hi) (deep.union a.deep0)
         else afterSticky (fun f => seqShape T rs f (lag.sup a.hi) (deep.union a.deep0)) a.stickyMiss) = some s0 ∧
         Follows a s0 s ∧ s.first = a.first.union s0.first) := by
  rw [seqShape] at hs
  cases ha : shapeOf T r flag with
  | none => rw [ha] at hs; cases hs
  | some a =>
  rw [ha] at hs
  simp only at hs
  split at hs
  rotate_left
  · cases hs
  rename_i hcond
  obtain ⟨hapart, hnull⟩ := hcond
  cases hs1 : afterSticky (fun f => seqShape T rs f a.lag a.deep) a.stickyHit with
  | none => rw [hs1] at hs; cases hs
  | some s1 =>
  rw [hs1] at hs
  simp only at hs
  refine ⟨a, s1, rfl, hapart, hnull, hs1, cons_covers hs, fun hn => ?_, fun hn => ?_⟩
  · unfold consShape at hs
    simp only [hn, Bool.false_eq_true, if_false, Option.some.injEq] at hs
    subst hs
    refine ⟨rfl, fun l hl => ?_⟩
    simp only
    split
    · exact hl
    · rw [begins_union, hl, Bool.true_or]
  · simp only [hn, if_true] at hs
    cases h0 : (if a.opt then seqShape T rs flag (lag.sup a.hi) (deep.union a.deep0)
         else afterSticky (fun f => seqShape T rs f (lag.sup a.hi) (deep.union a.deep0)) a.stickyMiss) with
    | none => rw [h0] at hs; simp [consShape, hn] at hs
    | some s0 =>
      rw [h0] at hs
      refine ⟨s0, rfl, cons_follows hn hs, ?_⟩
      unfold consShape at hs
      simp only [hn, if_true] at hs
      split at hs
      · simp only [Option.some.injEq] at hs
        subst hs; rfl
      · cases hs

theorem afterSticky_all {k : Int → Option Shape} {o : Option Bool} {s : Shape} (h : afterSticky k o = some s)
    {P : Shape → Prop} (hk : ∀ f s, k f = some s → P s) (hj : ∀ a b s, a.join b = some s → P a → P b → P s) : P s := by
  unfold afterSticky at h
  split at h
  · exact hk _ _ h
  · exact hk _ _ h
  · split at h
    · rename_i a b h1 h2
      exact hj _ _ _ h (hk _ _ h1) (hk _ _ h2)
    · cases h

/-- What was looked at before counts as looked at by the rest. -/
theorem seqShape_deep0 {T : Shapes} {rs : List Rule} : ∀ {flag : Int} {lag : Look} {deep : CharSet} {s : Shape},
    seqShape T rs flag lag deep = some s → ∀ l, begins deep l = true → begins s.deep0 l = true := by
  induction rs with
  | nil =>
    intro flag lag deep s hs l hl
    simp only [seqShape, Option.some.injEq] at hs
    subst hs; exact hl
  | cons r rs ih =>
    intro flag lag deep s hs l hl
    obtain ⟨a, s1, ha, _, _, _, _, h1, h2⟩ := seqShape_cons hs
    cases hn : a.null with
    | false => exact (h1 hn).2 l (by rw [begins_union, hl, Bool.true_or])
    | true =>
      obtain ⟨s0, h0, hF, _⟩ := h2 hn
      have hu : begins (deep.union a.deep0) l = true := by rw [begins_union, hl, Bool.true_or]
      refine hF.deep0 l ?_
      split at h0
      · exact ih h0 l hu
      · refine afterSticky_all h0 (fun f s h => ih h l hu) (fun x y s h hx hy => ?_)
        obtain ⟨_, _, _, _, _, _, _, _, h9, _⟩ := join_spec h
        rw [h9, begins_union, hx, Bool.true_or]

/-- The rest does not begin with what was looked at before. -/
theorem seqShape_first {T : Shapes} {rs : List Rule} : ∀ {flag : Int} {lag : Look} {deep : CharSet} {s : Shape},
    seqShape T rs flag lag deep = some s → ∀ l, begins deep l = true → begins s.first l = false := by
  induction rs with
  | nil =>
    intro flag lag deep s hs l hl
    simp only [seqShape, Option.some.injEq] at hs
    subst hs; exact begins_nil l
  | cons r rs ih =>
    intro flag lag deep s hs l hl
    obtain ⟨a, s1, ha, hap, _, _, _, h1, h2⟩ := seqShape_cons hs
    have haf : begins a.first l = false := begins_apart (apart_symm hap) hl
    cases hn : a.null with
    | false => rw [(h1 hn).1]; exact haf
    | true =>
      obtain ⟨s0, h0, hF, hf⟩ := h2 hn
      have hu : begins (deep.union a.deep0) l = true := by rw [begins_union, hl, Bool.true_or]
      rw [hf, begins_union, haf, Bool.false_or]
      split at h0
      · exact ih h0 l hu
      · refine afterSticky_all h0 (fun f s h => ih h l hu) (fun x y s h hx hy => ?_)
        obtain ⟨_, _, _, _, h5, _⟩ := join_spec h
        rw [h5, begins_union, hx, hy]; rfl

/-- The first part, seen from the whole. -/
theorem seqShape_head {T : Shapes} {r : Rule} {rs : List Rule} {flag : Int} {lag : Look} {deep : CharSet} {s a : Shape}
    (hs : seqShape T (r :: rs) flag lag deep = some s) (ha : shapeOf T r flag = some a) (l : List Rune) :
    (begins a.first l = true → begins s.first l = true) ∧ (begins a.deep0 l = true → begins s.deep0 l = true) := by
  obtain ⟨a', s1, ha', hap, _, _, hc, h1, h2⟩ := seqShape_cons hs
  rw [ha] at ha'
  obtain rfl : a = a' := Option.some.inj ha'
  refine ⟨hc.first l, fun hl => ?_⟩
  have hu : begins (deep.union a.deep0) l = true := by rw [begins_union, hl, Bool.or_true]
  cases hn : a.null with
  | false => exact (h1 hn).2 l hu
  | true =>
    obtain ⟨s0, h0, hF, _⟩ := h2 hn
    refine hF.deep0 l ?_
    split at h0
    · exact seqShape_deep0 h0 l hu
    · refine afterSticky_all h0 (fun f s h => seqShape_deep0 h l hu) (fun x y s h hx hy => ?_)
      obtain ⟨_, _, _, _, _, _, _, _, h9, _⟩ := join_spec h
      rw [h9, begins_union, hx, Bool.true_or]

/-- A concatenation whose first part matches. -/
theorem seq_step {T : Shapes} {run : Runner} {l : List Rune} {b : RuleBase} {r : Rule} {rs : List Rule} {flag : Int} {lag : Look}
    {deep : CharSet} {s a : Shape} (hs : seqShape T (r :: rs) flag lag deep = some s) (ha : shapeOf T r flag = some a)
    {pos look : Nat} (hl : Within lag deep l pos look) {st : Bool} {nodes : List Node} {nd : Node} {u n : Nat} {st0 : Bool}
    (hf : Fits a (l.drop pos) (.hit nd u n st0)) (hrun : run r flag (l.drop pos) = .hit nd u n st0) :
    (u = 0 ∧ a.null = true ∧ ∃ s0 lag' look', seqShape T rs (flagAfter flag nd st0) lag' (deep.union a.deep0) = some s0 ∧
      Follows a s0 s ∧ Within lag' (deep.union a.deep0) l pos look' ∧
      seqAt run b l (r :: rs) pos look st flag nodes =
        seqAt run b l rs pos look' (st && st0) (flagAfter flag nd st0) (nodes ++ [nd])) ∨
    (Hit a (l.drop pos) u n ∧ ∃ s1 look', seqShape T rs (flagAfter flag nd st0) a.lag a.deep = some s1 ∧ Covers a s1 s ∧
      Within a.lag a.deep l (pos + u) look' ∧
      seqAt run b l (r :: rs) pos look st flag nodes =
        seqAt run b l rs (pos + u) look' (st && st0) (flagAfter flag nd st0) (nodes ++ [nd])) := by
  obtain ⟨a', s1, ha', hapart, hnull, hs1, hc, _, h2⟩ := seqShape_cons hs
  rw [ha] at ha'
  obtain rfl : a = a' := Option.some.inj ha'
  obtain ⟨hp, hl⟩ := hl
  rcases hf with ⟨hn, hu, hm, hag, hopt⟩ | ⟨hit, hag, hopt⟩
  · left
    subst hu
    have hok : ¬ (pos + n < look ∧ (rs ≠ [] ∨ look - pos < 2 * 0)) := by
      rintro ⟨h1, h2⟩
      rcases hnull hn with h | ⟨h, h'⟩
      · rcases h2 with h2 | h2
        · exact h2 h
        · omega
      · subst h
        rcases hl with hl | hl
        · have := at_le h' (l.drop pos)
          have := hm.1
          omega
        · rw [begins_nil] at hl; cases hl
    obtain ⟨s0, h0, hF, _⟩ := h2 hn
    have key : ∃ s0, seqShape T rs (flagAfter flag nd st0) (lag.sup a.hi) (deep.union a.deep0) = some s0 ∧ Follows a s0 s := by
      rw [flagAfter_eq, hopt]
      cases ho : a.opt with
      | true =>
        simp only [ho, if_true] at h0 ⊢
        exact ⟨s0, h0, hF⟩
      | false =>
        simp only [ho, Bool.false_eq_true, if_false] at h0 ⊢
        obtain ⟨s', hs', hb⟩ := afterSticky_below h0 hag
        exact ⟨s', hs', hF.below hb⟩
    obtain ⟨s0', hs0', hF'⟩ := key
    refine ⟨rfl, hn, s0', lag.sup a.hi, max look (pos + n), hs0', hF', ⟨by omega, ?_⟩, ?_⟩
    · rw [begins_union]
      have e1 := sup_left lag a.hi (l.drop pos)
      have e2 := sup_right lag a.hi (l.drop pos)
      rcases hl with hl | hl
      · rcases hm.2 with h | h
        · left; omega
        · right; rw [h, Bool.or_true]
      · right; rw [hl, Bool.true_or]
    · rw [seqAt, hrun]
      simp only
      rw [if_neg hok]
      rfl
  · right
    have hlook : look ≤ pos + n := by
      have h2 := hit.2.1
      rcases hl with hl | hl
      · have := hit.far lag
        omega
      · rcases hit.can with h | ⟨_, h⟩
        · rw [begins_apart hapart h] at hl; cases hl
        · rw [begins_all_blank h] at hl; cases hl
    obtain ⟨s', hs', hb⟩ := afterSticky_below hs1 hag
    have hfl : flagAfter flag nd st0 = if st0 then SUGGEST_NOT_SKIP else SUGGEST_SKIP := by
      rw [flagAfter_eq, hopt]; rfl
    refine ⟨hit, s', pos + n, by rw [hfl]; exact hs', hc.below hb, ⟨by have := hit.2.1; omega, ?_⟩, ?_⟩
    · have := hit.2.2
      rw [List.drop_drop] at this
      exact this.imp (fun h => by omega) id
    · rw [seqAt, hrun]
      simp only
      rw [if_neg (by omega), show max look (pos + n) = pos + n by omega]

/-! ### Being still -/

/-- It did not match, or matched nothing, from `pos` on. -/
def QuietFrom (pos : Nat) : Ans → Prop
  | .fail _ _ => True
  | .hit _ u _ _ => u = pos
  | _ => False

/-- The rule does not begin here, or gives up at once. -/
def Still (s : Shape) (l : List Rune) (x : Ans) : Prop :=
  begins s.first l = false ∨ (begins s.deep0 l = false ∧ QuietFrom 0 x)

theorem still_nil {s : Shape} {x : Ans} : Still s [] x := .inl rfl

/-- What holds for the parts of a concatenation up to the first without `N`. -/
def PartsOk (N P : Rule → Prop) : List Rule → Prop
  | [] => True
  | r :: rs => P r ∧ (N r → PartsOk N P rs)

theorem partsOk_all {N P : Rule → Prop} {rs : List Rule} (h : ∀ r ∈ rs, P r) : PartsOk N P rs := by
  induction rs with
  | nil => trivial
  | cons r rs ih => exact ⟨h r List.mem_cons_self, fun _ => ih fun r hr => h r (List.mem_cons_of_mem _ hr)⟩

/-- Hits of something on texts the rule does not begin with: only white space is left, and it is all used. -/
theorem Hit.blank {s : Shape} {l : List Rune} {u n : Nat} (h : Hit s l u n) (hb : begins s.first l = false) :
    blanks l = l.length ∧ l.drop u = [] ∧ s.eof = true := by
  rcases h.1 with ⟨h1, _⟩ | ⟨h1, h2, h3, _⟩
  · rw [hb] at h1; cases h1
  · exact ⟨h2, List.drop_eq_nil_of_le (by omega), h1⟩

/-- All parts of a concatenation that matches where it does not begin, match where they do not begin. -/
theorem seq_still_all {T : Shapes} {run : Runner} {l : List Rune} (ht : Tidy l)
    (hr : ∀ r flag a, shapeOf T r flag = some a → ∀ m, Tidy m → Fits a m (run r flag m)) {N : Rule → Prop}
    (hN : ∀ r flag a, shapeOf T r flag = some a → ∀ m, Tidy m → begins a.first m = false →
      ∀ nd u n st, run r flag m = .hit nd u n st → N r) (b : RuleBase) (rs : List Rule) :
    ∀ {flag lag deep s}, seqShape T rs flag lag deep = some s → ∀ {pos look st nodes}, Within lag deep l pos look →
      begins s.first (l.drop pos) = false → ∀ {nd u n st'}, seqAt run b l rs pos look st flag nodes = .hit nd u n st' →
      ∀ r ∈ rs, N r := by
  induction rs with
  | nil => intros; rename_i h; cases h
  | cons r rs ih =>
    intro flag lag deep s hs pos look st nodes hl hb nd u n st' h
    obtain ⟨a, _, ha, _⟩ := seqShape_cons hs
    have hf := hr r flag a ha (l.drop pos) (ht.drop pos)
    have hh := seqShape_head hs ha (l.drop pos)
    have hba : begins a.first (l.drop pos) = false := by
      cases hc : begins a.first (l.drop pos) with
      | false => rfl
      | true => rw [hh.1 hc] at hb; cases hb
    have hx : run r flag (l.drop pos) = run r flag (l.drop pos) := rfl
    revert hx hf
    generalize hxe : run r flag (l.drop pos) = x
    intro hf _
    cases x with
    | hit nd0 u0 n0 st0 =>
      have hNr := hN r flag a ha (l.drop pos) (ht.drop pos) hba _ _ _ _ hxe
      rcases seq_step (b := b) (st := st) (nodes := nodes) hs ha hl hf hxe with ⟨_, _, s0, lag', look', hs0, hF, hw, he⟩ | ⟨hit, s1, look', hs1, hC, hw, he⟩
      · rw [he] at h
        have hb0 : begins s0.first (l.drop pos) = false := by
          cases hc : begins s0.first (l.drop pos) with
          | false => rfl
          | true => rw [hF.first _ hc] at hb; cases hb
        intro r' hr'
        rcases List.mem_cons.1 hr' with rfl | hm
        · exact hNr
        · exact ih hs0 hw hb0 h r' hm
      · rw [he] at h
        have hnil := (hit.blank hba).2.1
        rw [List.drop_drop] at hnil
        intro r' hr'
        rcases List.mem_cons.1 hr' with rfl | hm
        · exact hNr
        · exact ih hs1 hw (by rw [hnil]; rfl) h r' hm
    | _ =>
      rw [seqAt, hxe] at h
      cases h

theorem Each.append {α β : Type} {R : α → β → Prop} {as cs : List α} {bs ds : List β} (h : Each R as bs) (h' : Each R cs ds) :
    Each R (as ++ cs) (bs ++ ds) := by
  induction h with
  | nil => exact h'
  | cons h1 _ ih => exact .cons h1 ih

theorem Each.mem {α β : Type} {R : α → β → Prop} {as : List α} {bs : List β} (h : Each R as bs) {a : α} (ha : a ∈ as) :
    ∃ b ∈ bs, R a b := by
  induction h with
  | nil => cases ha
  | cons h1 _ ih =>
    rcases List.mem_cons.1 ha with rfl | ha
    · exact ⟨_, List.mem_cons_self, h1⟩
    · obtain ⟨b, h2, h3⟩ := ih ha
      exact ⟨b, List.mem_cons_of_mem _ h2, h3⟩

/-- The shapes of all alternatives. -/
theorem shapesLL_flat {T : Shapes} {gs : List (List Rule)} {flag : Int} {as : List Shape} (h : shapesLL T gs flag = some as) :
    Each (fun r a => shapeOf T r flag = some a) gs.flatten as := by
  obtain ⟨ass, h1, h2⟩ := shapesLL_each (P := fun r a => shapeOf T r flag = some a) h (fun r a h => h)
  subst h1
  clear h
  induction h2 with
  | nil => exact .nil
  | cons h3 _ ih => exact h3.append ih

/-- A rule that matches where it does not begin is one that can match nothing. -/
theorem still_nullable {T : Shapes} {env : Name → Option Rule} (hT : Consistent T env) (fuel : Nat) :
    ∀ (r : Rule) (flag : Int) (s : Shape), shapeOf T r flag = some s → ∀ l, Tidy l → begins s.first l = false →
      ∀ nd u n st, run env fuel r flag l = .hit nd u n st → Nullable env r := by
  induction fuel with
  | zero => intro r flag s _ l _ _ nd u n st h; cases h
  | succ fuel ih =>
    intro r flag s hs l ht hb nd u n st h
    have hf := run_fits hT (fuel + 1) r flag s hs l ht
    rw [h] at hf
    rcases hf with ⟨_, hu, _⟩ | ⟨hit, _⟩
    · subst hu; exact run_nullable h
    obtain ⟨hbl, _, heof⟩ := hit.blank hb
    cases r with
    | eof b => exact .eof
    | char b t u =>
      simp only [shapeOf, oneShape] at hs
      split at hs
      · simp only [Option.some.injEq] at hs; subst hs; cases heof
      · cases hs
    | range b x ux y uy =>
      simp only [shapeOf, oneShape] at hs
      split at hs
      · simp only [Option.some.injEq] at hs; subst hs; cases heof
      · cases hs
    | chars b t =>
      rw [shapeOf] at hs
      unfold textShape at hs
      split at hs
      · cases hs
      · split at hs
        · simp only [Option.some.injEq] at hs; subst hs; cases heof
        · cases hs
    | str b t =>
      rw [shapeOf] at hs
      unfold textShape at hs
      split at hs
      · cases hs
      · split at hs
        · simp only [Option.some.injEq] at hs; subst hs; cases heof
        · cases hs
    | group b r =>
      rw [shapeOf] at hs
      cases ha : shapeOf T r flag with
      | none => rw [ha] at hs; cases hs
      | some a =>
        rw [ha] at hs
        simp only [Option.some.injEq] at hs
        subst hs
        simp only [run] at h
        split at h
        · cases h
        · rename_i hr
          exact .group (ih r flag a ha l ht hb _ _ _ _ hr)
        · exact .group (ih r flag a ha l ht hb _ _ _ _ h)
    | option b r => exact .option
    | rep b r mn mx =>
      rw [shapeOf] at hs
      cases ha : shapeOf T r flag with
      | none => rw [ha] at hs; cases hs
      | some a =>
        rw [ha] at hs
        simp only [repShape] at hs
        split at hs
        · simp only [Option.some.injEq] at hs; subst hs; cases heof
        · cases hs
    | choice b gs =>
      rw [shapeOf] at hs
      cases ha : shapesLL T gs flag with
      | none => rw [ha] at hs; cases hs
      | some as =>
        rw [ha] at hs
        simp only at hs
        split at hs
        rotate_left
        · cases hs
        simp only [Option.some.injEq] at hs
        subst hs
        obtain ⟨g, hg, r, hr, nd', n', st', hrun⟩ := choiceAt_used h
        have hmem := (shapesLL_flat ha).mem (List.mem_flatten.2 ⟨g, hg, hr⟩)
        obtain ⟨a, ham, hsa⟩ := hmem
        refine .choice hg hr (ih r flag a hsa l ht ?_ _ _ _ _ hrun)
        cases hc : begins a.first l with
        | false => rfl
        | true => rw [alt_first ham hc] at hb; cases hb
    | concat b rs =>
      rw [shapeOf] at hs
      exact .concat (seq_still_all ht (run_fits hT fuel) ih b rs hs within_zero (by rw [List.drop_zero]; exact hb) h)
    | block b o v c e xs =>
      rw [shapeOf] at hs
      cases ha : shapeOf T o flag with
      | none => rw [ha] at hs; cases hs
      | some a =>
        rw [ha] at hs
        simp only [blockShape] at hs
        split at hs
        · split at hs
          · simp only [Option.some.injEq] at hs; subst hs; cases heof
          · cases hs
        · cases hs
    | ref b name =>
      rw [shapeOf] at hs
      obtain ⟨r, hr, hs'⟩ := hT name flag s hs
      simp only [run, hr] at h
      split at h
      · rename_i hrun
        exact .ref hr (ih r flag s hs' l ht hb _ _ _ _ hrun)
      · exact .ref hr (ih r flag s hs' l ht hb _ _ _ _ h)

/-! ### Weights -/

/-- The rules a rule is written with, and what a reference refers to. -/
def kids (env : Name → Option Rule) : Rule → List Rule
  | .group _ r => [r]
  | .option _ r => [r]
  | .rep _ r _ _ => [r]
  | .choice _ gs => gs.flatten
  | .concat _ rs => rs
  | .block _ o _ c e xs => o :: c :: (e.toList ++ xs)
  | .ref _ name => (env name).toList
  | _ => []

open Classical in
/-- A number for each rule: `c` and the numbers of all rules it can begin with. -/
noncomputable def weight {env : Name → Option Rule} (hw : NoLeftRecursion env) (c : Rule → Nat) : Rule → Nat :=
  (show WellFounded (fun r' r => LeftCall env r r') from hw).fix fun r F => c r + ((kids env r).map fun x => if h : LeftCall env r x then F x h else 0).sum

open Classical in
/-- The part of a rule's weight that is due to one of its parts. -/
noncomputable def share {env : Name → Option Rule} (hw : NoLeftRecursion env) (c : Rule → Nat) (r x : Rule) : Nat :=
  if LeftCall env r x then weight hw c x else 0

open Classical in
theorem weight_eq {env : Name → Option Rule} (hw : NoLeftRecursion env) (c : Rule → Nat) (r : Rule) :
    weight hw c r = c r + ((kids env r).map (share hw c r)).sum := by
  have h := WellFounded.fix_eq (show WellFounded (fun r' r => LeftCall env r r') from hw) (C := fun _ => Nat)
    (fun r F => c r + ((kids env r).map fun x => if h : LeftCall env r x then F x h else 0).sum) r
  exact h

theorem share_eq {env : Name → Option Rule} {hw : NoLeftRecursion env} {c : Rule → Nat} {r x : Rule} (h : LeftCall env r x) :
    share hw c r x = weight hw c x := by
  unfold share
  rw [if_pos h]

theorem le_sum_of_mem {α : Type} {f : α → Nat} {l : List α} {x : α} (h : x ∈ l) : f x ≤ (l.map f).sum := by
  induction l with
  | nil => cases h
  | cons y l ih =>
    rw [List.map_cons, List.sum_cons]
    rcases List.mem_cons.1 h with rfl | h
    · omega
    · have := ih h; omega

theorem leftCall_kid {env : Name → Option Rule} {r x : Rule} (h : LeftCall env r x) : x ∈ kids env r := by
  cases h with
  | choice hg hr => exact List.mem_flatten.2 ⟨_, hg, hr⟩
  | ref hn => simp [kids, hn]
  | exclude _ hx => simp [kids, hx]
  | _ => simp [kids]

theorem weight_le {env : Name → Option Rule} (hw : NoLeftRecursion env) (c : Rule → Nat) {r x : Rule} (h : LeftCall env r x) :
    c r + weight hw c x ≤ weight hw c r := by
  rw [weight_eq hw c r]
  have := le_sum_of_mem (f := share hw c r) (leftCall_kid h)
  rw [share_eq h] at this
  omega

/-! ### Concatenations, repetitions and choices that are still -/

theorem not_begins {s t : CharSet} {l : List Rune} (h : begins s l = true → begins t l = true) (ht : begins t l = false) :
    begins s l = false := by
  cases hc : begins s l with
  | false => rfl
  | true => rw [h hc] at ht; cases ht

/-- A concatenation, from some part on. -/
theorem seq_still {T : Shapes} {run : Runner} {cnt : Tries} {l : List Rune} (ht : Tidy l)
    (hr : ∀ r flag a, shapeOf T r flag = some a → ∀ m, Tidy m → Fits a m (run r flag m)) {N : Rule → Prop}
    (hN : ∀ r flag a, shapeOf T r flag = some a → ∀ m, Tidy m → ∀ nd u n st,
      run r flag m = .hit nd u n st → (begins a.first m = false ∨ u = 0) → N r) {μ : Rule → Nat} (b : RuleBase) (rs : List Rule) :
    PartsOk N (fun r => ∀ flag a m, shapeOf T r flag = some a → Tidy m → Still a m (run r flag m) → cnt r flag m ≤ μ r) rs →
    ∀ {flag lag deep s}, seqShape T rs flag lag deep = some s → ∀ {pos look st nodes}, Within lag deep l pos look →
      (begins s.first (l.drop pos) = false ∨
        (begins s.deep0 (l.drop pos) = false ∧ QuietFrom pos (seqAt run b l rs pos look st flag nodes))) →
      seqTries run cnt l rs pos flag ≤ (rs.map μ).sum := by
  induction rs with
  | nil => intros; exact Nat.zero_le _
  | cons r rs ih =>
    intro hok flag lag deep s hs pos look st nodes hl hst
    obtain ⟨hok1, hok2⟩ := hok
    obtain ⟨a, _, ha, _⟩ := seqShape_cons hs
    have hf := hr r flag a ha (l.drop pos) (ht.drop pos)
    have hh := seqShape_head hs ha (l.drop pos)
    have hfit := seqAt_fits ht hr b (r :: rs) flag lag deep s hs pos look st nodes hl.1 hl.2
    rw [seqTries, List.map_cons, List.sum_cons]
    have hNr := hN r flag a ha (l.drop pos) (ht.drop pos)
    have hcnt := hok1 flag a (l.drop pos) ha (ht.drop pos)
    generalize hxe : run r flag (l.drop pos) = x at hf hcnt hNr
    cases x with
    | hit nd0 u0 n0 st0 =>
      simp only
      rcases seq_step (b := b) (st := st) (nodes := nodes) hs ha hl hf hxe with
        ⟨hu, _, s0, lag', look', hs0, hF, hw, he⟩ | ⟨hit, s1, look', hs1, hC, hw, he⟩
      · subst hu
        have h1 : cnt r flag (l.drop pos) ≤ μ r := by
          refine hcnt ?_
          rcases hst with h | ⟨h, _⟩
          · exact .inl (not_begins hh.1 h)
          · exact .inr ⟨not_begins hh.2 h, rfl⟩
        have h2 : seqTries run cnt l rs pos (flagAfter flag nd0 st0) ≤ (rs.map μ).sum := by
          refine ih (hok2 (hNr _ _ _ _ rfl (.inr rfl))) hs0 hw (st := st && st0) (nodes := nodes ++ [nd0]) ?_
          · rcases hst with h | ⟨h, h'⟩
            · exact .inl (not_begins (hF.first _) h)
            · exact .inr ⟨not_begins (hF.deep0 _) h, by rw [← he]; exact h'⟩
        rw [Nat.add_zero]
        omega
      · have hna : begins a.first (l.drop pos) = false := by
          rcases hst with h | ⟨h, h'⟩
          · exact not_begins hh.1 h
          · rw [he] at h'
            have hfit' := seqAt_fits ht hr b rs _ _ _ s1 hs1 (pos + u0) look' (st && st0) (nodes ++ [nd0]) hw.1 hw.2
            generalize seqAt run b l rs (pos + u0) look' (st && st0) (flagAfter flag nd0 st0) (nodes ++ [nd0]) = y at h' hfit'
            cases y with
            | fail n' st' => exact not_begins (hC.deep0 hfit'.1 _) h
            | hit nd' u' n' st' =>
              have h1 := hfit'.2.1
              have h2 : u' = pos := h'
              rcases hit.1 with ⟨_, h3, _⟩ | ⟨_, h3, _⟩
              · omega
              · exact begins_all_blank h3
            | _ => exact h'.elim
        have hnil := (hit.blank hna).2.1
        rw [List.drop_drop] at hnil
        have h1 := hcnt (.inl hna)
        have h2 : seqTries run cnt l rs (pos + u0) (flagAfter flag nd0 st0) ≤ (rs.map μ).sum := by
          refine ih (hok2 (hNr _ _ _ _ rfl (.inl hna))) hs1 hw (st := st && st0) (nodes := nodes ++ [nd0]) (.inl ?_)
          rw [hnil]; rfl
        omega
    | fail n0 st0 =>
      have h1 : cnt r flag (l.drop pos) ≤ μ r := by
        refine hcnt ?_
        rcases hst with h | ⟨h, _⟩
        · exact .inl (not_begins hh.1 h)
        · exact .inr ⟨not_begins hh.2 h, trivial⟩
      simp only
      omega
    | oof =>
      have h1 : cnt r flag (l.drop pos) ≤ μ r := by
        refine hcnt ?_
        rcases hst with h | ⟨_, h⟩
        · exact .inl (not_begins hh.1 h)
        · rw [seqAt, hxe] at h; exact h.elim
      simp only
      omega
    | risky => exact hf.elim
    | ambiguous _ => exact hf.elim

/-- A repetition that has matched something does not fail, if no more than one round is asked for. -/
theorem rep_not_quiet {run : Runner} {b : RuleBase} {r : Rule} {mn mx : Nat} {flag : Int} {l : List Rune} (hmn : mn ≤ 1) (fuel : Nat) :
    ∀ {pos look st nodes}, 0 < pos → nodes ≠ [] → ¬ QuietFrom 0 (repAt run b r mn mx flag l fuel pos look st nodes) := by
  induction fuel with
  | zero => intro pos look st nodes _ _ h; exact h
  | succ fuel ih =>
    intro pos look st nodes hp hn h
    have hlen : ∀ nodes : List Node, nodes ≠ [] → ¬ nodes.length < mn := by
      intro nodes hn
      have := List.length_pos_iff.2 hn
      omega
    have hend : ∀ p k s ns, 0 < p → ns ≠ [] → ¬ QuietFrom 0 (repEnd b mn p k s ns) := by
      intro p k s ns hp hn h
      rw [repEnd, if_neg (hlen ns hn)] at h
      exact absurd h (by simp only [QuietFrom]; omega)
    rw [repAt] at h
    split at h
    · exact hend _ _ _ _ hp hn h
    · split at h
      · exact h
      · exact h
      · exact hend _ _ _ _ hp hn h
      · exact h
      · split at h
        · split at h
          · exact h
          · exact hend _ _ _ _ (by omega) (by simp) h
        · split at h
          · exact h
          · exact ih (by omega) (by simp) h

theorem alts_quiet {run : Runner} {flag : Int} {l : List Rune} {rs : List Rule} : ∀ {look st look' st'},
    altsAt run flag l rs look st = .ok [] look' st' → ∀ r ∈ rs, QuietFrom 0 (run r flag l) ∨ ∃ n, run r flag l = .ambiguous n := by
  induction rs with
  | nil => intro _ _ _ _ _ r hr; cases hr
  | cons r rs ih =>
    intro look st look' st' h r' hr'
    rw [altsAt] at h
    split at h
    · cases h
    · cases h
    · rename_i hrun
      rcases List.mem_cons.1 hr' with rfl | hr'
      · rw [hrun]; exact .inl trivial
      · exact ih h r' hr'
    · rename_i hrun
      rcases List.mem_cons.1 hr' with rfl | hr'
      · exact .inr ⟨_, hrun⟩
      · exact ih h r' hr'
    · split at h
      · simp only [Alts.ok.injEq] at h
        cases h.1
      · rename_i hc
        exact absurd h (hc _ _ _)

/-- If no alternative is taken, none matches. -/
theorem choice_quiet {run : Runner} {b : RuleBase} {flag : Int} {l : List Rune} {gs : List (List Rule)} : ∀ {look st n st'},
    choiceAt run b flag l gs look st = .fail n st' →
      ∀ r ∈ gs.flatten, QuietFrom 0 (run r flag l) ∨ ∃ n, run r flag l = .ambiguous n := by
  induction gs with
  | nil => intro _ _ _ _ _ r hr; cases hr
  | cons g gs ih =>
    intro look st n st' h r hr
    rw [choiceAt] at h
    split at h
    · cases h
    · cases h
    · rename_i hits look' st0 ha
      split at h
      · rename_i hb
        have hh := Props.best_none hb
        subst hh
        rw [List.flatten_cons, List.mem_append] at hr
        rcases hr with hr | hr
        · exact alts_quiet ha r hr
        · exact ih h r hr
      all_goals cases h

theorem choiceTries_le (run : Runner) (cnt : Tries) (flag : Int) (l : List Rune) (gs : List (List Rule)) :
    choiceTries run cnt flag l gs ≤ allTries cnt flag l gs.flatten := by
  induction gs with
  | nil => exact Nat.zero_le _
  | cons g gs ih =>
    rw [choiceTries, List.flatten_cons]
    unfold allTries at *
    rw [List.map_append, List.sum_append]
    split <;> omega

theorem allTries_le {cnt : Tries} {flag : Int} {l : List Rune} {rs : List Rule} {μ : Rule → Nat}
    (h : ∀ r ∈ rs, cnt r flag l ≤ μ r) : allTries cnt flag l rs ≤ (rs.map μ).sum := by
  induction rs with
  | nil => exact Nat.le_refl _
  | cons r rs ih =>
    have h1 := h r List.mem_cons_self
    have h2 := ih fun r hr => h r (List.mem_cons_of_mem _ hr)
    unfold allTries at *
    simp only [List.map_cons, List.sum_cons]
    omega

theorem partsOk_left {env : Name → Option Rule} {P : Rule → Prop} {b : RuleBase} {rs : List Rule}
    (h : ∀ r, LeftCall env (.concat b rs) r → P r) : PartsOk (Nullable env) P rs := by
  have : ∀ (rs2 rs1 : List Rule), rs = rs1 ++ rs2 → (∀ r ∈ rs1, Nullable env r) → PartsOk (Nullable env) P rs2 := by
    intro rs2
    induction rs2 with
    | nil => intros; trivial
    | cons r rs2 ih =>
      intro rs1 he hn
      refine ⟨h r (he ▸ .concat hn), fun hr => ih (rs1 ++ [r]) (by rw [he]; simp) ?_⟩
      intro r' hr'
      rcases List.mem_append.1 hr' with h | h
      · exact hn r' h
      · rw [List.mem_singleton.1 h]; exact hr
  exact this rs [] rfl (by simp)

/-- The number of rules tried is bounded where the rule is still. -/
theorem still_le {T : Shapes} {env : Name → Option Rule} (hT : Consistent T env) (hw : NoLeftRecursion env) (fuel : Nat) :
    ∀ (r : Rule) (flag : Int) (s : Shape) (l : List Rune), shapeOf T r flag = some s → Tidy l →
      Still s l (run env fuel r flag l) → tries env fuel r flag l ≤ weight hw (fun _ => 1) r := by
  induction fuel with
  | zero => intros; exact Nat.zero_le _
  | succ fuel ih =>
    intro r flag s l hs ht hst
    have hf := run_fits hT (fuel + 1) r flag s hs l ht
    have hone : 1 ≤ weight hw (fun _ => 1) r := by rw [weight_eq]; omega
    have hsh : ∀ y, LeftCall env r y → share hw (fun _ => 1) r y = weight hw (fun _ => 1) y := fun y h => share_eq h
    cases r with
    | eof b => exact hone
    | char b t u => exact hone
    | range b x ux y uy => exact hone
    | chars b t => exact hone
    | str b t => exact hone
    | group b r =>
      rw [shapeOf] at hs
      cases ha : shapeOf T r flag with
      | none => rw [ha] at hs; cases hs
      | some a =>
        rw [ha] at hs
        simp only [Option.some.injEq] at hs
        subst hs
        have hfa := run_fits hT fuel r flag a ha l ht
        have h1 := ih r flag a l ha ht (by
          refine hst.imp id (fun h => ⟨h.1, ?_⟩)
          have h2 := h.2
          simp only [run] at h2
          generalize run env fuel r flag l = x at h2 hfa
          cases x with
          | ambiguous n => exact hfa.elim
          | _ => exact h2)
        have := weight_le hw (fun _ => 1) (LeftCall.group (env := env) (b := b) (r := r))
        simp only [tries]
        omega
    | option b r =>
      rw [shapeOf] at hs
      cases ha : shapeOf T r flag with
      | none => rw [ha] at hs; cases hs
      | some a =>
        rw [ha] at hs
        simp only at hs
        split at hs
        · cases hs
        simp only [Option.some.injEq] at hs
        subst hs
        have h1 := ih r flag a l ha ht (by
          refine hst.imp id (fun h => ⟨h.1, ?_⟩)
          have h2 := h.2
          simp only [run] at h2
          generalize run env fuel r flag l = x at h2
          cases x with
          | fail n st => trivial
          | _ => exact h2)
        have := weight_le hw (fun _ => 1) (LeftCall.option (env := env) (b := b) (r := r))
        simp only [tries]
        omega
    | rep b r mn mx =>
      rw [shapeOf] at hs
      cases ha : shapeOf T r flag with
      | none => rw [ha] at hs; cases hs
      | some a =>
        rw [ha] at hs
        simp only [repShape] at hs
        split at hs
        rotate_left
        · cases hs
        rename_i hcond
        obtain ⟨hn, he, hap⟩ := hcond
        simp only [Option.some.injEq] at hs
        subst hs
        have hfa := run_fits hT fuel r flag a ha l ht
        have hle := weight_le hw (fun _ => 1) (LeftCall.rep (env := env) (b := b) (r := r) (mn := mn) (mx := mx))
        simp only [tries]
        cases fuel with
        | zero => simp only [repTries]; omega
        | succ k =>
          simp only [repTries, List.drop_zero]
          split
          · omega
          rename_i hne
          have hst' : Still a l (run env (k + 1) r flag l) ∧ ∀ nd u n st, run env (k + 1) r flag l ≠ .hit nd u n st := by
            have hnohit : begins a.first l = false → ∀ nd u n st, run env (k + 1) r flag l ≠ .hit nd u n st := by
              intro hb nd u n st h
              rw [h] at hfa
              rcases hfa with ⟨h, _⟩ | ⟨hit, _⟩
              · rw [hn] at h; cases h
              · have := (hit.blank hb).2.2
                rw [he] at this; cases this
            rcases hst with hb | ⟨hd, hq⟩
            · exact ⟨.inl hb, hnohit hb⟩
            · have hd' : begins a.deep0 l = false := by
                refine not_begins (fun h => ?_) hd
                simp only
                split
                · exact h
                · rw [begins_union, h, Bool.true_or]
              have hnh : ∀ nd u n st, run env (k + 1) r flag l ≠ .hit nd u n st := by
                intro nd u n st h
                by_cases hmn : mn ≤ 1
                · replace hq : QuietFrom 0 (repAt (run env (k + 1)) b r mn mx flag l (k + 1) 0 0 true []) := hq
                  rw [repAt] at hq
                  simp only [List.drop_zero, if_neg hne, h] at hq
                  rw [h] at hfa
                  have hu : 0 < u := by
                    rcases hfa with ⟨h, _⟩ | ⟨hit, _⟩
                    · rw [hn] at h; cases h
                    · rcases hit.1 with ⟨_, h, _⟩ | ⟨h, _⟩
                      · omega
                      · rw [he] at h; cases h
                  split at hq
                  · split at hq
                    · exact hq
                    · rw [repEnd, if_neg (by simp; omega)] at hq
                      exact absurd hq (by simp only [QuietFrom]; omega)
                  · split at hq
                    · exact hq
                    · exact rep_not_quiet hmn k (by omega) (by simp) hq
                · refine hnohit ?_ nd u n st h
                  refine not_begins (fun h => ?_) hd
                  simp only [if_neg hmn]
                  rw [begins_union, h, Bool.or_true]
              refine ⟨.inr ⟨hd', ?_⟩, hnh⟩
              replace hq : QuietFrom 0 (repAt (run env (k + 1)) b r mn mx flag l (k + 1) 0 0 true []) := hq
              rw [repAt] at hq
              simp only [List.drop_zero, if_neg hne] at hq
              generalize run env (k + 1) r flag l = x at hfa hnh hq
              cases x with
              | oof => exact hq
              | risky => exact hfa.elim
              | ambiguous _ => exact hfa.elim
              | fail n st => trivial
              | hit nd u n st => exact absurd rfl (hnh nd u n st)
          have h1 := ih r flag a l ha ht hst'.1
          have hnh := hst'.2
          generalize run env (k + 1) r flag l = x at hnh
          cases x with
          | hit nd u n st => exact absurd rfl (hnh nd u n st)
          | _ => simp only; omega
    | choice b gs =>
      rw [shapeOf] at hs
      cases ha : shapesLL T gs flag with
      | none => rw [ha] at hs; cases hs
      | some as =>
        rw [ha] at hs
        simp only at hs
        split at hs
        rotate_left
        · cases hs
        simp only [Option.some.injEq] at hs
        subst hs
        have hall : ∀ r' ∈ gs.flatten, tries env fuel r' flag l ≤ share hw (fun _ => 1) (.choice b gs) r' := by
          intro r' hr'
          obtain ⟨a, ham, hsa⟩ := (shapesLL_flat ha).mem hr'
          obtain ⟨g, hg, hr⟩ := List.mem_flatten.1 hr'
          rw [hsh r' (.choice hg hr)]
          refine ih r' flag a l hsa ht ?_
          have hfa := run_fits hT fuel r' flag a hsa l ht
          rcases hst with h | ⟨h, hq⟩
          · exact .inl (not_begins (alt_first ham) h)
          · simp only [run] at hq
            simp only [run] at hf
            generalize hxe : choiceAt (run env fuel) b flag l gs 0 true = x at hq hf
            cases x with
            | fail n st =>
              refine .inr ⟨not_begins (alt_deep0 ham) h, ?_⟩
              rcases choice_quiet hxe r' hr' with h | ⟨n, h⟩
              · exact h
              · rw [h] at hfa; exact hfa.elim
            | hit nd u n st =>
              rcases hf with ⟨h, _⟩ | ⟨hit, _⟩
              · rw [alt_null] at h; cases h
              · have hu : u = 0 := hq
                rcases hit.1 with ⟨_, h, _⟩ | ⟨_, h, _⟩
                · omega
                · exact .inl (begins_all_blank h)
            | _ => exact hq.elim
        have h1 := choiceTries_le (run env fuel) (tries env fuel) flag l gs
        have h2 := allTries_le hall
        rw [weight_eq]
        simp only [tries, kids]
        omega
    | concat b rs =>
      rw [shapeOf] at hs
      have h1 := seq_still (cnt := tries env fuel) (μ := share hw (fun _ => 1) (.concat b rs)) (N := Nullable env) ht
        (run_fits hT fuel)
        (fun r flag a ha m hm nd u n st h hc => by
          rcases hc with hc | rfl
          · exact still_nullable hT fuel r flag a ha m hm hc nd u n st h
          · exact run_nullable h) b rs
        (partsOk_left fun r hr flag a m ha hm hst => by rw [hsh r hr]; exact ih r flag a m ha hm hst) hs within_zero
        (pos := 0) (st := true) (nodes := []) (by rw [List.drop_zero]; exact hst)
      rw [weight_eq]
      simp only [tries, kids]
      omega
    | block b o v c e xs =>
      rw [shapeOf] at hs
      cases ha : shapeOf T o flag with
      | none => rw [ha] at hs; cases hs
      | some a =>
        rw [ha] at hs
        simp only [blockShape] at hs
        split at hs
        rotate_left
        · cases hs
        split at hs
        rotate_left
        · cases hs
        rename_i hcond
        simp only [Option.some.injEq] at hs
        subst hs
        have hb : begins a.first l = false := by
          rcases hst with h | ⟨h, _⟩
          · exact h
          · exact not_begins (fun h => by rw [begins_union, h, Bool.or_true]) h
        have hfa := run_fits hT fuel o flag a ha l ht
        have h1 := ih o flag a l ha ht (.inl hb)
        have := weight_le hw (fun _ => 1) (LeftCall.opn (env := env) (b := b) (o := o) (v := v) (c := c) (e := none) (xs := xs))
        simp only [tries]
        generalize run env fuel o flag l = x at hfa
        cases x with
        | hit nd u n st =>
          rcases hfa with ⟨h, _⟩ | ⟨hit, _⟩
          · rw [hcond.1] at h; cases h
          · have := (hit.blank hb).2.2
            rw [hcond.2.1] at this; cases this
        | _ => simp only; omega
    | ref b name =>
      rw [shapeOf] at hs
      obtain ⟨r, hr, hs'⟩ := hT name flag s hs
      have h1 := ih r flag s l hs' ht (by
        refine hst.imp id (fun h => ⟨h.1, ?_⟩)
        have h2 := h.2
        simp only [run, hr] at h2
        generalize run env fuel r flag l = x at h2
        cases x with
        | hit nd u n st => exact h2
        | _ => exact h2)
      have := weight_le hw (fun _ => 1) (LeftCall.ref (env := env) (b := b) hr)
      simp only [tries, hr]
      omega

end Shape
end Xbnf.Spec
