import Verif.Lemmas.Predictive
/-
Soundness of the shapes of Spec/Predictive.lean, continued: concatenations, blocks, and all rules.
-/
namespace Xbnf.Spec
namespace Shape

/-! ### Concatenations -/

theorem Below.refl (a : Shape) : Below a a :=
  ⟨rfl, rfl, fun _ h => h, id, fun _ => Nat.le_refl _, fun _ => Nat.le_refl _, fun _ h => h, fun _ => Nat.le_refl _,
    fun _ h => h, fun _ h => h, fun _ h => h⟩

theorem afterSticky_below {k : Int → Option Shape} {o : Option Bool} {s : Shape} (h : afterSticky k o = some s) {b : Bool}
    (hb : Agrees o b) : ∃ s', k (if b then SUGGEST_NOT_SKIP else SUGGEST_SKIP) = some s' ∧ Below s' s := by
  unfold afterSticky at h
  split at h
  · rw [agrees_true hb]
    exact ⟨s, h, .refl s⟩
  · rw [agrees_false hb]
    exact ⟨s, h, .refl s⟩
  · split at h
    · rename_i a b' h1 h2
      cases b
      · exact ⟨b', h2, join_right h⟩
      · exact ⟨a, h1, join_left h⟩
    · cases h

/-- What the shape of a concatenation must allow if its first part matches something. -/
structure Covers (a s1 s : Shape) : Prop where
  null : s1.null = false → s.null = false
  first : ∀ l, begins a.first l = true → begins s.first l = true
  eof : a.eof = true → s.eof = true
  hi : ∀ l, a.hi.at_ l ≤ s.hi.at_ l
  deep0 : s1.null = false → ∀ l, begins a.first l = true → begins s.deep0 l = true
  lag : ∀ l, s1.lag.at_ l ≤ s.lag.at_ l
  deep : ∀ l, begins s1.deep l = true → begins s.deep l = true
  lag' : s1.null = true → ∀ l, s1.hi.at_ l ≤ s.lag.at_ l
  deep' : s1.null = true → ∀ l, begins s1.deep0 l = true → begins s.deep l = true
  miss : s1.null = false → ∀ x y, Agrees a.stickyHit x → Agrees s1.stickyMiss y → Agrees s.stickyMiss (x && y)
  hit : ∀ x y, Agrees a.stickyHit x → Agrees s1.stickyHit y → Agrees s.stickyHit (x && y)
  hit' : s1.null = true → ∀ x y, Agrees a.stickyHit x → Agrees s1.stickyMiss y → Agrees s.stickyHit (x && y)

theorem combine_hit {a s1 s : Shape} (hc : Covers a s1 s) {l : List Rune} {pos look u n : Nat} {st st0 : Bool} {x : Ans}
    (hp : pos ≤ look) (hlook : look ≤ pos + n) (hit : Hit a (l.drop pos) u n) (hag : Agrees a.stickyHit st0)
    (h : FitsSeq s1 l (pos + u) (pos + n) (st && st0) x) : FitsSeq s l pos look st x := by
  obtain ⟨h1, h2, h3⟩ := hit
  have hlen : (l.drop pos).length = l.length - pos := List.length_drop
  have hlen2 : (l.drop (pos + u)).length = l.length - (pos + u) := List.length_drop
  cases x with
  | oof => trivial
  | risky => exact h
  | ambiguous => exact h
  | fail n' st' =>
    obtain ⟨g1, g2, g3, b, hb, hb'⟩ := h
    refine ⟨hc.null g1, by omega, ⟨?_, ?_⟩, st0 && b, by rw [hb, Bool.and_assoc], hc.miss g1 _ _ hag hb'⟩
    · have := at_top s.lo (l.drop pos)
      rcases h1 with ⟨_, h, _⟩ | ⟨_, _, h, _⟩ <;> omega
    · rcases h1 with ⟨h, _⟩ | ⟨_, he, hu, hh⟩
      · exact .inr (hc.deep0 g1 _ h)
      · left
        have hnil : l.drop (pos + u) = [] := List.drop_eq_nil_of_le (by omega)
        have hz : n' - (pos + u) = 0 := by
          rcases g3.2 with h | h
          · rw [hnil, at_empty] at h; omega
          · rw [hnil] at h; cases h
        have := hc.hi (l.drop pos)
        omega
  | hit nd u' n' st' =>
    obtain ⟨g0, g1, g2, b, hb, hb'⟩ := h
    refine ⟨g0, by omega, by omega, st0 && b, by rw [hb, Bool.and_assoc], .inr ⟨⟨?_, ?_, ?_⟩, ?_⟩⟩
    · rcases h1 with ⟨h, hu, hu'⟩ | ⟨he, hbl, hu, hh⟩
      · refine .inl ⟨hc.first _ h, by omega, ?_⟩
        rcases hb' with ⟨_, e, _⟩ | ⟨⟨e, _⟩, _⟩
        · omega
        · rcases e with ⟨_, _, e⟩ | ⟨_, _, e, _⟩ <;> omega
      · refine .inr ⟨hc.eof he, hbl, ?_, Nat.le_trans hh (hc.hi _)⟩
        rcases hb' with ⟨_, e, _⟩ | ⟨⟨e, _⟩, _⟩
        · omega
        · rcases e with ⟨_, _, e⟩ | ⟨_, _, e, _⟩ <;> omega
    · rcases hb' with ⟨_, e, _⟩ | ⟨⟨_, e, _⟩, _⟩ <;> omega
    · have hd : (l.drop pos).drop (u' - pos) = l.drop u' := by
        rw [List.drop_drop]; congr 1; omega
      rw [hd]
      rcases hb' with ⟨hn, e, hm, _⟩ | ⟨⟨_, e1, e2⟩, _⟩
      · subst e
        have := hc.lag' hn (l.drop (pos + u))
        exact hm.2.imp (fun h => by omega) (hc.deep' hn _)
      · have hd : (l.drop (pos + u)).drop (u' - (pos + u)) = l.drop u' := by
          rw [List.drop_drop]; congr 1; omega
        rw [hd] at e2
        have := hc.lag (l.drop u')
        exact e2.imp (fun h => by omega) (hc.deep _)
    · rcases hb' with ⟨hn, _, _, e⟩ | ⟨_, e⟩
      · exact hc.hit' hn _ _ hag e
      · exact hc.hit _ _ hag e

/-- What the shape of a concatenation must allow if its first part matches nothing. -/
structure Follows (a s0 s : Shape) : Prop where
  null : s0.null = s.null
  first : ∀ l, begins s0.first l = true → begins s.first l = true
  eof : s0.eof = true → s.eof = true
  lo : ∀ l n, a.lo.at_ l ≤ n → s0.lo.at_ l ≤ n → s.lo.at_ l ≤ n
  hi : ∀ l, s0.hi.at_ l ≤ s.hi.at_ l
  deep0 : ∀ l, begins s0.deep0 l = true → begins s.deep0 l = true
  lag : ∀ l, s0.lag.at_ l ≤ s.lag.at_ l
  deep : ∀ l, begins s0.deep l = true → begins s.deep l = true
  miss : ∀ x y, Agrees a.stickyMiss x → Agrees s0.stickyMiss y → Agrees s.stickyMiss (x && y)
  hit : ∀ x y, Agrees a.stickyMiss x → Agrees s0.stickyHit y → Agrees s.stickyHit (x && y)

theorem combine_empty {a s0 s : Shape} (hc : Follows a s0 s) {l : List Rune} {pos look n : Nat} {st st0 : Bool} {x : Ans}
    (hm : Miss a (l.drop pos) n) (hag : Agrees a.stickyMiss st0)
    (h : FitsSeq s0 l pos (max look (pos + n)) (st && st0) x) : FitsSeq s l pos look st x := by
  cases x with
  | oof => trivial
  | risky => exact h
  | ambiguous => exact h
  | fail n' st' =>
    obtain ⟨g1, g2, g3, b, hb, hb'⟩ := h
    refine ⟨by rw [← hc.null]; exact g1, by omega, ⟨?_, ?_⟩, st0 && b, by rw [hb, Bool.and_assoc], hc.miss _ _ hag hb'⟩
    · exact hc.lo _ _ (by have := hm.1; omega) g3.1
    · have := hc.hi (l.drop pos)
      exact g3.2.imp (fun h => by omega) (hc.deep0 _)
  | hit nd u' n' st' =>
    obtain ⟨g0, g1, g2, b, hb, hb'⟩ := h
    refine ⟨g0, by omega, by omega, st0 && b, by rw [hb, Bool.and_assoc], ?_⟩
    rcases hb' with ⟨e1, e2, e3, e4⟩ | ⟨⟨e1, e2, e3⟩, e4⟩
    · refine .inl ⟨by rw [← hc.null]; exact e1, e2, ⟨?_, ?_⟩, hc.miss _ _ hag e4⟩
      · exact hc.lo _ _ (by have := hm.1; omega) e3.1
      · have := hc.hi (l.drop pos)
        exact e3.2.imp (fun h => by omega) (hc.deep0 _)
    · refine .inr ⟨⟨?_, e2, ?_⟩, hc.hit _ _ hag e4⟩
      · rcases e1 with ⟨h, h'⟩ | ⟨h, h', h'', h3⟩
        · exact .inl ⟨hc.first _ h, h'⟩
        · exact .inr ⟨hc.eof h, h', h'', Nat.le_trans h3 (hc.hi _)⟩
      · have := hc.lag ((l.drop pos).drop (u' - pos))
        exact e3.imp (fun h => by omega) (hc.deep _)

theorem cons_covers {a s1 s : Shape} {s0 : Option Shape} {lag : Look} {deep : CharSet}
    (h : consShape a s1 s0 lag deep = some s) : Covers a s1 s := by
  have hsticky : ∀ x y, Agrees a.stickyHit x → Agrees s1.stickyHit y →
      Agrees (both3 a.stickyHit (if s1.null then known s1.stickyHit s1.stickyMiss else s1.stickyHit)) (x && y) := by
    intro x y hx hy
    refine agrees_both hx ?_
    split
    · exact agrees_known_left hy
    · exact hy
  have hsticky' : s1.null = true → ∀ x y, Agrees a.stickyHit x → Agrees s1.stickyMiss y →
      Agrees (both3 a.stickyHit (if s1.null then known s1.stickyHit s1.stickyMiss else s1.stickyHit)) (x && y) := by
    intro hn x y hx hy
    refine agrees_both hx ?_
    rw [if_pos hn]
    exact agrees_known_right hy
  have hlag : ∀ l, s1.lag.at_ l ≤ (if s1.null then s1.lag.sup s1.hi else s1.lag).at_ l := by
    intro l
    split
    · exact sup_left ..
    · exact Nat.le_refl _
  have hlag' : s1.null = true → ∀ l, s1.hi.at_ l ≤ (if s1.null then s1.lag.sup s1.hi else s1.lag).at_ l := by
    intro hn l
    rw [if_pos hn]; exact sup_right ..
  have hdeep : ∀ l, begins s1.deep l = true → begins (if s1.null then s1.deep.union s1.deep0 else s1.deep) l = true := by
    intro l hl
    split
    · rw [begins_union, hl, Bool.true_or]
    · exact hl
  have hdeep' : s1.null = true → ∀ l, begins s1.deep0 l = true →
      begins (if s1.null then s1.deep.union s1.deep0 else s1.deep) l = true := by
    intro hn l hl
    rw [if_pos hn, begins_union, hl, Bool.or_true]
  unfold consShape at h
  simp only at h
  generalize (if s1.null then s1.lag.sup s1.hi else s1.lag) = HL at *
  generalize (if s1.null then s1.deep.union s1.deep0 else s1.deep) = HD at *
  generalize both3 a.stickyHit (if s1.null then known s1.stickyHit s1.stickyMiss else s1.stickyHit) = HS at *
  split at h
  · cases s0 with
    | none => cases h
    | some s0 =>
      simp only at h
      split at h
      rotate_left
      · cases h
      rename_i he
      simp only [Option.some.injEq] at h
      subst h
      refine ⟨fun hn => he.trans hn, fun l hl => ?_, fun h => by simp [h], fun l => sup_left .., fun hn l hl => ?_,
        fun l => Nat.le_trans (hlag l) (sup_left ..), fun l hl => ?_, fun hn l => Nat.le_trans (hlag' hn l) (sup_left ..),
        fun hn l hl => ?_, fun hn x y hx hy => ?_, fun x y hx hy => agrees_known_left (hsticky x y hx hy),
        fun hn x y hx hy => agrees_known_left (hsticky' hn x y hx hy)⟩
      · rw [begins_union, hl, Bool.true_or]
      · simp only [hn, Bool.false_eq_true, if_false]
        rw [begins_union, hl, Bool.or_true]
      · rw [begins_union, hdeep l hl, Bool.true_or]
      · rw [begins_union, hdeep' hn l hl, Bool.true_or]
      · simp only [hn, Bool.false_eq_true, if_false]
        exact agrees_known_right (agrees_both hx hy)
  · simp only [Option.some.injEq] at h
    subst h
    refine ⟨fun hn => rfl, fun l hl => hl, id, fun l => sup_right .., fun hn l hl => ?_, hlag, hdeep, hlag', hdeep',
      fun hn x y hx hy => ?_, hsticky, hsticky'⟩
    · simp only [hn, Bool.false_eq_true, if_false]
      rw [begins_union, hl, Bool.or_true]
    · simp only [hn, Bool.false_eq_true, if_false]
      exact agrees_known_right (agrees_both hx hy)

theorem cons_follows {a s1 s0 s : Shape} {lag : Look} {deep : CharSet} (hn : a.null = true)
    (h : consShape a s1 (some s0) lag deep = some s) : Follows a s0 s := by
  unfold consShape at h
  simp only [hn, if_true] at h
  generalize (if s1.null then s1.lag.sup s1.hi else s1.lag) = HL at *
  generalize (if s1.null then s1.deep.union s1.deep0 else s1.deep) = HD at *
  generalize both3 a.stickyHit (if s1.null then known s1.stickyHit s1.stickyMiss else s1.stickyHit) = HS at *
  split at h
  rotate_left
  · cases h
  simp only [Option.some.injEq] at h
  subst h
  refine ⟨rfl, fun l hl => ?_, fun h => by simp [h], fun l n h1 h2 => upper_le _ _ _ h1 h2, fun l => sup_right ..,
    fun l hl => ?_, fun l => sup_right .., fun l hl => ?_, fun x y hx hy => ?_, fun x y hx hy => agrees_known_right (agrees_both hx hy)⟩
  · rw [begins_union, hl, Bool.or_true]
  · simp only
    split
    · exact hl
    · rw [begins_union, hl, Bool.true_or]
  · rw [begins_union, hl, Bool.or_true]
  · simp only
    split
    · exact agrees_both hx hy
    · exact agrees_known_left (agrees_both hx hy)

theorem flagAfter_eq (flag : Int) (nd : Node) (st : Bool) :
    flagAfter flag nd st = if emptyOption nd then flag else if st then SUGGEST_NOT_SKIP else SUGGEST_SKIP := by
  unfold flagAfter emptyOption
  by_cases h : nd.ruleType = .option ∧ nd.children = [] ∧ nd.chars = []
  · rw [if_pos h, if_pos (by simpa using h)]
  · have hd : decide (nd.ruleType = .option ∧ nd.children = [] ∧ nd.chars = []) = false := decide_eq_false h
    rw [if_neg h, hd]; rfl

theorem seqAt_fits {T : Shapes} {run : Runner} {l : List Rune} (ht : Tidy l)
    (hr : ∀ r flag a, shapeOf T r flag = some a → ∀ m, Tidy m → Fits a m (run r flag m)) (b : RuleBase) (rs : List Rule) :
    ∀ (flag : Int) (lag : Look) (deep : CharSet) (s : Shape), seqShape T rs flag lag deep = some s →
      ∀ (pos look : Nat) (st : Bool) (nodes : List Node), pos ≤ look →
        (look - pos ≤ lag.at_ (l.drop pos) ∨ begins deep (l.drop pos) = true) →
        FitsSeq s l pos look st (seqAt run b l rs pos look st flag nodes) := by
  induction rs with
  | nil =>
    intro flag lag deep s hs pos look st nodes hp hl
    simp only [seqShape, Option.some.injEq] at hs
    subst hs
    rw [seqAt]
    refine ⟨rfl, Nat.le_refl _, Nat.le_refl _, true, by simp, .inl ⟨rfl, rfl, ⟨?_, hl⟩, .inr rfl⟩⟩
    simp [Look.at_]
  | cons r rs ih =>
    intro flag lag deep s hs pos look st nodes hp hl
    rw [seqShape] at hs
    cases ha : shapeOf T r flag with
    | none => rw [ha] at hs; cases hs
    | some a =>
    rw [ha] at hs
    simp only at hs
    split at hs
    rotate_left
    · cases hs
    rename_i hcond
    obtain ⟨hapart, hnull⟩ := hcond
    cases hs1 : afterSticky (fun f => seqShape T rs f a.lag a.deep) a.stickyHit with
    | none => rw [hs1] at hs; cases hs
    | some s1 =>
    rw [hs1] at hs
    simp only at hs
    have hf := hr r flag a ha (l.drop pos) (ht.drop pos)
    rw [seqAt]
    generalize run r flag (l.drop pos) = x at hf
    cases x with
    | oof => trivial
    | risky => exact hf
    | ambiguous => exact hf.elim
    | fail n st0 =>
      obtain ⟨h1, h2, h3⟩ := hf
      unfold consShape at hs
      simp only [h1, Bool.false_eq_true, if_false, Option.some.injEq] at hs
      refine ⟨by subst hs; rfl, by omega, ⟨?_, ?_⟩, st0, rfl, ?_⟩
      · subst hs
        have := h2.1
        simp only; omega
      · subst hs
        simp only
        have e1 := sup_left lag a.hi (l.drop pos)
        have e2 := sup_right lag a.hi (l.drop pos)
        have hd : begins deep (l.drop pos) = true ∨ begins a.deep0 (l.drop pos) = true →
            begins (if s1.null then deep.union a.deep0 else (deep.union a.deep0).union a.first) (l.drop pos) = true := by
          intro h
          have : begins (deep.union a.deep0) (l.drop pos) = true := by
            rw [begins_union]; rcases h with h | h <;> simp [h]
          split
          · exact this
          · rw [begins_union, this, Bool.true_or]
        rcases hl with hl | hl
        · rcases h2.2 with h | h
          · left; omega
          · exact .inr (hd (.inr h))
        · exact .inr (hd (.inl hl))
      · subst hs
        simp only
        split
        · exact h3
        · exact agrees_known_left h3
    | hit nd u n st0 =>
      simp only
      rcases hf with ⟨hn, hu, hm, hag, hopt⟩ | ⟨hit, hag, hopt⟩
      · subst hu
        have hok : ¬ (pos + n < look ∧ (rs ≠ [] ∨ look - pos < 2 * 0)) := by
          rintro ⟨h1, h2⟩
          rcases hnull hn with h | ⟨h, h'⟩
          · rcases h2 with h2 | h2
            · exact h2 h
            · omega
          · subst h
            rcases hl with hl | hl
            · have := at_le h' (l.drop pos)
              have := hm.1
              omega
            · rw [begins_nil] at hl; cases hl
        rw [if_neg hok]
        simp only [hn, if_true] at hs
        -- the rest after nothing
        have key : ∃ s0, seqShape T rs (flagAfter flag nd st0) (lag.sup a.hi) (deep.union a.deep0) = some s0 ∧
            Follows a s0 s := by
          rw [flagAfter_eq, hopt]
          cases ho : a.opt with
          | true =>
            simp only [ho, if_true] at hs ⊢
            cases h0 : seqShape T rs flag (lag.sup a.hi) (deep.union a.deep0) with
            | none => rw [h0] at hs; simp [consShape, hn] at hs
            | some s0 => rw [h0] at hs; exact ⟨s0, rfl, cons_follows hn hs⟩
          | false =>
            simp only [ho, Bool.false_eq_true, if_false] at hs ⊢
            cases h0 : afterSticky (fun f => seqShape T rs f (lag.sup a.hi) (deep.union a.deep0)) a.stickyMiss with
            | none => rw [h0] at hs; simp [consShape, hn] at hs
            | some s0 =>
              rw [h0] at hs
              obtain ⟨s', hs', hb⟩ := afterSticky_below h0 hag
              have hF := cons_follows hn hs
              refine ⟨s', hs', hb.null.trans hF.null, fun l h => hF.first l (hb.first l h), fun h => hF.eof (hb.eof h),
                fun l n h1 h2 => hF.lo l n h1 (Nat.le_trans (hb.lo l) h2), fun l => Nat.le_trans (hb.hi l) (hF.hi l),
                fun l h => hF.deep0 l (hb.deep0 l h), fun l => Nat.le_trans (hb.lag l) (hF.lag l),
                fun l h => hF.deep l (hb.deep l h), fun x y hx hy => hF.miss x y hx (hb.miss y hy),
                fun x y hx hy => hF.hit x y hx (hb.hit y hy)⟩
        obtain ⟨s0, hs0, hF⟩ := key
        refine combine_empty hF hm hag ?_
        refine ih _ _ _ _ hs0 (pos + 0) (max look (pos + n)) (st && st0) (nodes ++ [nd]) (by omega) ?_
        rw [Nat.add_zero, begins_union]
        have e1 := sup_left lag a.hi (l.drop pos)
        have e2 := sup_right lag a.hi (l.drop pos)
        rcases hl with hl | hl
        · rcases hm.2 with h | h
          · left; omega
          · right; rw [h, Bool.or_true]
        · right; rw [hl, Bool.true_or]
      · have hlook : look ≤ pos + n := by
          have h2 := hit.2.1
          rcases hl with hl | hl
          · have := hit.far lag
            omega
          · rcases hit.can with h | ⟨_, h⟩
            · rw [begins_apart hapart h] at hl; cases hl
            · rw [begins_all_blank h] at hl; cases hl
        rw [if_neg (by omega)]
        obtain ⟨s', hs', hb⟩ := afterSticky_below hs1 hag
        refine combine_hit (cons_covers hs) hp hlook hit hag (FitsSeq.below ?_ hb)
        have hmax : max look (pos + n) = pos + n := by omega
        rw [hmax]
        have hfl : flagAfter flag nd st0 = if st0 then SUGGEST_NOT_SKIP else SUGGEST_SKIP := by
          rw [flagAfter_eq, hopt]; rfl
        refine ih _ _ _ _ (by rw [hfl]; exact hs') _ _ _ _ (by have := hit.2.1; omega) ?_
        have := hit.2.2
        rw [List.drop_drop] at this
        exact this.imp (fun h => by omega) id

theorem seq_fits {s : Shape} {l : List Rune} {x : Ans} (h : FitsSeq s l 0 0 true x) (ho : s.opt = false) : Fits s l x := by
  cases x with
  | oof => trivial
  | risky => exact h
  | ambiguous => exact h
  | fail n st =>
    obtain ⟨h1, _, h3, b, hb, hb'⟩ := h
    rw [List.drop_zero] at h3
    refine ⟨h1, h3, ?_⟩
    rw [hb, Bool.true_and]; exact hb'
  | hit nd u n st =>
    obtain ⟨h0, _, _, b, hb, hb'⟩ := h
    rw [Bool.true_and] at hb
    subst hb
    simp only [List.drop_zero, Nat.sub_zero] at hb'
    rcases hb' with ⟨e1, e2, e3, e4⟩ | ⟨e1, e2⟩
    · exact .inl ⟨e1, e2, e3, e4, by simp [emptyOption, h0, ho]⟩
    · exact .inr ⟨e1, e2, by simp [emptyOption, h0]⟩

theorem seqShape_opt {T : Shapes} {rs : List Rule} {flag : Int} {lag : Look} {deep : CharSet} {s : Shape}
    (h : seqShape T rs flag lag deep = some s) : s.opt = false := by
  cases rs with
  | nil =>
    simp only [seqShape, Option.some.injEq] at h
    subst h; rfl
  | cons r rs =>
    rw [seqShape] at h
    cases ha : shapeOf T r flag with
    | none => rw [ha] at h; cases h
    | some a =>
    rw [ha] at h
    simp only at h
    split at h
    rotate_left
    · cases h
    cases hs1 : afterSticky (fun f => seqShape T rs f a.lag a.deep) a.stickyHit with
    | none => rw [hs1] at h; cases h
    | some s1 =>
    rw [hs1] at h
    simp only at h
    unfold consShape at h
    simp only at h
    split at h
    · split at h
      · cases h
      · split at h
        · simp only [Option.some.injEq] at h
          subst h; rfl
        · cases h
    · simp only [Option.some.injEq] at h
      subst h; rfl

/-! ### Blocks -/

theorem blank_false (l : List Rune) : blank false l = [] := rfl

theorem common_lt {t m : List Rune} (h : t.isPrefixOf m = false) : (commonPrefix t m).length + 1 ≤ t.length := by
  induction t generalizing m with
  | nil => simp at h
  | cons c t ih =>
    cases m with
    | nil => simp [commonPrefix]
    | cons d m =>
      simp only [commonPrefix]
      split
      · rename_i he
        simp only [List.isPrefixOf, he, beq_self_eq_true, Bool.true_and] at h
        have := ih h
        simp only [List.length_cons]; omega
      · simp

/-- What closes a block. -/
theorem close_fits {c : Rule} {t : List Rune} (h : closeText c = some t) (env : Name → Option Rule) (fuel : Nat) (m : List Rune) :
    run env fuel c NOT_SKIP m = .oof ∨ (∃ n st, run env fuel c NOT_SKIP m = .fail n st ∧ n ≤ t.length) ∨
      ∃ nd st, run env fuel c NOT_SKIP m = .hit nd t.length t.length st ∧ t.length ≤ m.length := by
  have htext : ∀ (rt : RType) (b : RuleBase) (sticky : Bool),
      (∃ n st, textAt rt b sticky false t m = .fail n st ∧ n ≤ t.length) ∨
        ∃ nd st, textAt rt b sticky false t m = .hit nd t.length t.length st ∧ t.length ≤ m.length := by
    intro rt b sticky
    unfold textAt
    simp only [blank_false, Bool.false_eq_true, if_false, List.length_nil, List.drop_zero, Nat.zero_add]
    split
    · exact .inl ⟨0, sticky, rfl, Nat.zero_le _⟩
    · rw [if_pos (by rfl)]
      cases hp : t.isPrefixOf m with
      | true =>
        have := (List.isPrefixOf_iff_prefix.1 hp).length_le
        exact .inr ⟨_, _, rfl, this⟩
      | false =>
        have := common_lt hp
        refine .inl ⟨_, _, rfl, ?_⟩
        omega
  cases fuel with
  | zero => exact .inl rfl
  | succ fuel =>
    right
    cases c <;> simp only [closeText] at h <;> try cases h
    case char b x u =>
      split at h
      · cases h
      · rename_i hx
        simp only [Option.some.injEq] at h
        subst h
        have hsk : decide (NOT_SKIP = SUGGEST_SKIP) = false := by decide
        simp only [run, hx, if_false, hsk, oneAt, blank_false, List.findIdx?_nil, List.length_nil, List.drop_zero]
        cases m with
        | nil => exact .inl ⟨0, true, rfl, Nat.zero_le _⟩
        | cons d m =>
          simp only
          split
          · exact .inr ⟨_, _, rfl, by simp⟩
          · exact .inl ⟨0, true, rfl, Nat.zero_le _⟩
    case chars b x =>
      split at h
      · cases h
      · simp only [Option.some.injEq] at h
        subst h
        have hsk : decide (NOT_SKIP = SUGGEST_SKIP) = false := by decide
        simp only [run, hsk]
        exact htext ..
    case str b x =>
      split at h
      · cases h
      · simp only [Option.some.injEq] at h
        subst h
        have hsk : decide (NOT_SKIP = SUGGEST_SKIP ∨ NOT_SKIP = SUGGEST_NOT_SKIP) = false := by decide
        simp only [run, hsk]
        exact htext ..

theorem closeText_pos {c : Rule} {t : List Rune} (h : closeText c = some t) : 0 < t.length := by
  cases c <;> simp only [closeText] at h <;> try cases h
  all_goals
    split at h
    · cases h
    · simp only [Option.some.injEq] at h
      subst h
      first
        | exact Nat.one_pos
        | exact List.length_pos_iff.2 ‹_›

theorem closeText_char {c : Rule} {t : List Rune} (h : closeText c = some t) (hc : isChar c = true) : t.length = 1 := by
  cases c <;> simp only [isChar, Bool.false_eq_true] at hc
  simp only [closeText] at h
  split at h
  · cases h
  · simp only [Option.some.injEq] at h
    subst h; rfl

/-- The excluded characters, some of them. -/
theorem excludes_fit {xs : List Rule} {ts : List Rune} (h : excludedChars xs = some ts) (env : Name → Option Rule) (fuel : Nat)
    (m : List Rune) (look : Nat) (sticky : Bool) :
    altsAt (run env fuel) NOT_SKIP m xs look sticky = .oof ∨
      (∃ sticky', altsAt (run env fuel) NOT_SKIP m xs look sticky = .ok [] look sticky') ∨
      ∃ nd c sticky', altsAt (run env fuel) NOT_SKIP m xs look sticky = .ok [(nd, 1, true)] (max look 1) sticky' ∧
        m.head? = some c ∧ c ∈ ts := by
  induction xs generalizing ts look sticky with
  | nil => exact .inr (.inl ⟨_, rfl⟩)
  | cons x xs ih =>
    cases x <;> simp only [excludedChars] at h <;> try cases h
    case char b t u =>
      cases hx : excludedChars xs with
      | none => rw [hx] at h; cases h
      | some ts' =>
      rw [hx] at h
      simp only at h
      split at h
      · cases h
      rename_i hc
      simp only [Option.some.injEq] at h
      subst h
      simp only [not_or, Bool.not_eq_true, List.contains_eq_mem, decide_eq_false_iff_not] at hc
      rw [altsAt]
      cases fuel with
      | zero => exact .inl rfl
      | succ fuel =>
        have hsk : decide (NOT_SKIP = SUGGEST_SKIP) = false := by decide
        by_cases hm : m.head? = some t
        · obtain ⟨m', rfl⟩ : ∃ m', m = t :: m' := by
            cases m with
            | nil => cases hm
            | cons d m => simp only [List.head?_cons, Option.some.injEq] at hm; exact ⟨m, by rw [hm]⟩
          have hr : run env (fuel + 1) (.char b t u) NOT_SKIP (t :: m') = .hit (leaf .char b true [t]) 1 1 true := by
            simp [run, hc.1, hsk, oneAt, blank_false]
          rw [hr]
          simp only
          rcases ih hx (max look 1) (sticky && true) with h | ⟨s', h⟩ | ⟨nd, c, s', h, hc', hmem⟩
          · left; rw [h]
          · right; right
            rw [h]
            exact ⟨_, t, s', rfl, hm, List.mem_cons_self ..⟩
          · rw [List.head?_cons, Option.some.injEq] at hc'
            subst hc'
            exact absurd hmem hc.2
        · have hr : run env (fuel + 1) (.char b t u) NOT_SKIP m = .fail 0 true := by
            simp only [run, hc.1, if_false, hsk, oneAt, blank_false, List.findIdx?_nil, List.length_nil, List.drop_zero]
            cases m with
            | nil => rfl
            | cons d m =>
              simp only
              rw [if_neg]
              intro he
              apply hm
              rw [List.head?_cons, Option.some.injEq]
              exact beq_iff_eq.1 he
          rw [hr]
          simp only [Nat.max_zero]
          rcases ih hx look (sticky && true) with h | ⟨s', h⟩ | ⟨nd, c, s', h, hc', hmem⟩
          · exact .inl h
          · exact .inr (.inl ⟨s', h⟩)
          · exact .inr (.inr ⟨nd, c, s', h, hc', List.mem_cons_of_mem _ hmem⟩)

/-- A block after its opening. -/
theorem blockAt_fits {c : Rule} {t : List Rune} (hc : closeText c = some t) {xs : List Rule} {ts : List Rune}
    (hx : excludedChars xs = some ts) (h1 : ts = [] ∨ isChar c = true) {v : Bool} (hv : v = true → t.length = 1)
    (env : Name → Option Rule) (f : Nat) (b : RuleBase) (opn : Node) (start : Nat) (l : List Rune) (fuel : Nat) :
    ∀ (pos look : Nat), start ≤ pos → pos ≤ l.length → look + 1 ≤ pos + t.length →
      match blockAt (run env f) b v c none xs opn start l fuel pos look with
      | .oof => True
      | .risky => False
      | .ambiguous _ => False
      | .fail n st => start ≤ n ∧ st = false
      | .hit nd u n st => nd.ruleType = .block ∧ start ≤ u ∧ u ≤ l.length ∧ u ≤ n ∧ st = false ∧
          n ≤ u + (if v then Look.blankOne else .zero).at_ (l.drop u) := by
  induction fuel with
  | zero => intros; trivial
  | succ fuel ih =>
    intro pos look hs hp hl
    have hlen : (l.drop pos).length = l.length - pos := List.length_drop
    rw [blockAt]
    simp only [escapeAt, Nat.add_zero, excludeAt]
    have htpos := closeText_pos hc
    rcases excludes_fit hx env f (l.drop pos) 0 true with h | ⟨s', h⟩ | ⟨nd, d, s', h, hd, hmem⟩
    · rw [h]; trivial
    · rw [h]
      have hb : best [] = .none := rfl
      simp only [hb, Nat.add_zero]
      rcases close_fits hc env f (l.drop pos) with h | ⟨n, st, h, hn⟩ | ⟨nd, st, h, hn⟩
      · rw [h]; trivial
      · rw [h]
        simp only
        by_cases hd : l.drop pos = []
        · rw [if_pos hd]
          exact ⟨by omega, rfl⟩
        · rw [if_neg hd]
          have : pos < l.length := by
            rcases Nat.lt_or_ge pos l.length with h | h
            · exact h
            · exact absurd (List.drop_eq_nil_of_le h) hd
          exact ih _ _ (by omega) (by omega) (by omega)
      · rw [h]
        simp only
        rw [if_neg (by omega)]
        simp only [true_and]
        refine ⟨rfl, ?_⟩
        cases v with
        | true =>
          have := hv rfl
          simp only [if_true, Look.at_]
          refine ⟨hs, hp, by omega, ?_⟩
          omega
        | false =>
          simp only [Bool.false_eq_true, if_false]
          exact ⟨by omega, by omega, by omega, by omega⟩
    · rw [h]
      simp only [best_one]
      have : t.length = 1 := by
        rcases h1 with h1 | h1
        · rw [h1] at hmem; cases hmem
        · exact closeText_char hc h1
      rw [if_neg (by omega)]
      exact ⟨by omega, rfl⟩

theorem block_fits {a s : Shape} {v : Bool} {c : Rule} {e : Option Rule} {xs : List Rule} (hs : blockShape a v c e xs = some s)
    {l : List Rune} {x : Ans} (h : Fits a l x) (env : Name → Option Rule) (f : Nat) (b : RuleBase) (fuel : Nat) :
    Fits s l (match (generalizing := false) x with
      | .fail n _ => .fail n false
      | .hit nd u n _ =>
        if u < n ∧ e = none then .risky
        else blockAt (run env f) b v c e xs nd u l fuel u n
      | a => a) := by
  unfold blockShape at hs
  split at hs
  rotate_left
  · cases hs
  rename_i t ts hc hx
  split at hs
  rotate_left
  · cases hs
  rename_i hcond
  obtain ⟨hn, he, hlag, hdeep, h1, hv⟩ := hcond
  simp only [Option.some.injEq] at hs
  cases x with
  | oof => trivial
  | risky => exact h
  | ambiguous => exact h
  | fail n st =>
    obtain ⟨g1, g2, g3⟩ := h
    subst hs
    refine ⟨rfl, ⟨g2.1, g2.2.imp id fun h => ?_⟩, .inr rfl⟩
    simp only
    rw [begins_union, h, Bool.true_or]
  | hit nd u n st =>
    rcases h with ⟨h, _⟩ | ⟨hit, _, _⟩
    · rw [hn] at h; cases h
    obtain ⟨hfirst, hun, hl⟩ := hit
    rw [hlag, hdeep, begins_nil] at hl
    have hnu : n = u := by
      rcases hl with hl | hl
      · simp only [Look.at_] at hl; omega
      · cases hl
    subst hnu
    rcases hfirst with ⟨hfirst, hu1, hu2⟩ | ⟨h, _⟩
    rotate_left
    · rw [he] at h; cases h
    simp only
    rw [if_neg (by omega)]
    have := blockAt_fits hc hx h1 hv env f b nd n l fuel n n (Nat.le_refl _) hu2 (by have := closeText_pos hc; omega)
    generalize blockAt (run env f) b v c none xs nd n l fuel n n = y at this
    cases y with
    | oof => trivial
    | risky => exact this
    | ambiguous => exact this
    | fail n' st' =>
      obtain ⟨g1, g2⟩ := this
      subst hs
      refine ⟨rfl, ⟨?_, .inr ?_⟩, .inr (by rw [g2])⟩
      · have := at_top a.lo l
        simp only; omega
      · simp only
        rw [begins_union, hfirst, Bool.or_true]
    | hit nd' u' n' st' =>
      obtain ⟨g0, g1, g2, g3, g4, g5⟩ := this
      subst hs
      exact .inr ⟨⟨.inl ⟨hfirst, by omega, g2⟩, g3, .inl g5⟩, .inr (by rw [g4]), by simp [emptyOption, g0]⟩

/-! ### All rules -/

theorem shapesL_each {T : Shapes} {P : Rule → Shape → Prop} {rs : List Rule} {flag : Int} {as : List Shape}
    (h : shapesL T rs flag = some as) (hP : ∀ r a, shapeOf T r flag = some a → P r a) : Each P rs as := by
  induction rs generalizing as with
  | nil =>
    simp only [shapesL, Option.some.injEq] at h
    subst h; exact .nil
  | cons r rs ih =>
    rw [shapesL] at h
    cases ha : shapeOf T r flag with
    | none => rw [ha] at h; cases h
    | some a =>
      rw [ha] at h
      cases hb : shapesL T rs flag with
      | none => rw [hb] at h; cases h
      | some bs =>
        rw [hb] at h
        simp only [Option.some.injEq] at h
        subst h
        exact .cons (hP r a ha) (ih hb)

theorem shapesLL_each {T : Shapes} {P : Rule → Shape → Prop} {gs : List (List Rule)} {flag : Int} {as : List Shape}
    (h : shapesLL T gs flag = some as) (hP : ∀ r a, shapeOf T r flag = some a → P r a) :
    ∃ ass : List (List Shape), ass.flatten = as ∧ Each (fun rs as => Each P rs as) gs ass := by
  induction gs generalizing as with
  | nil =>
    simp only [shapesLL, Option.some.injEq] at h
    subst h; exact ⟨[], rfl, .nil⟩
  | cons g gs ih =>
    rw [shapesLL] at h
    cases ha : shapesL T g flag with
    | none => rw [ha] at h; cases h
    | some a =>
      rw [ha] at h
      cases hb : shapesLL T gs flag with
      | none => rw [hb] at h; cases h
      | some bs =>
        rw [hb] at h
        simp only [Option.some.injEq] at h
        subst h
        obtain ⟨ass, h1, h2⟩ := ih hb
        exact ⟨a :: ass, by rw [List.flatten_cons, h1], .cons (shapesL_each ha hP) h2⟩

theorem flip_emptyOption (b : RuleBase) (nd : Node) : emptyOption (flip b nd) = emptyOption nd := rfl

theorem run_fits {T : Shapes} {env : Name → Option Rule} (hT : Consistent T env) (fuel : Nat) :
    ∀ (r : Rule) (flag : Int) (s : Shape), shapeOf T r flag = some s → ∀ l, Tidy l → Fits s l (run env fuel r flag l) := by
  induction fuel with
  | zero => intros; trivial
  | succ fuel ih =>
    intro r flag s hs l ht
    cases r with
    | eof b => exact eofAt_fits (T := T) b flag hs
    | char b t u =>
      rw [shapeOf] at hs
      have h32 : (32 : Int) < t := by
        unfold oneShape at hs
        split at hs
        · assumption
        · cases hs
      have hE : t ≠ EOFChar := by
        intro h; rw [h] at h32; exact absurd h32 (by decide)
      simp only [run, if_neg hE]
      refine oneAt_fits hs (by decide) b (fun c => ?_) ht
      rw [Bool.eq_iff_iff]
      simp only [between, beq_iff_eq, Bool.and_eq_true, decide_eq_true_eq]
      unfold Rune at *
      omega
    | range b x ux y uy =>
      rw [shapeOf] at hs
      have h32 : (32 : Int) < x := by
        unfold oneShape at hs
        split at hs
        · assumption
        · cases hs
      simp only [run]
      rw [if_neg]
      · exact oneAt_fits hs (by decide) b (fun c => rfl) ht
      · rintro (h | h)
        · unfold Rune at *; omega
        · rw [List.any_eq_true] at h
          obtain ⟨c, hc, hne⟩ := h
          have := mem_takeWhile_white ht hc
          have e1 : decide (x ≤ c ∧ y ≤ c) = false := decide_eq_false (by unfold Rune at *; omega)
          have e2 : between x y c = false := by
            simp only [between, Bool.and_eq_false_iff, decide_eq_false_iff_not]
            left; unfold Rune at *; omega
          rw [e1, e2] at hne
          cases hne
    | chars b t =>
      rw [shapeOf] at hs
      exact textAt_fits hs (by decide) b ht
    | str b t =>
      rw [shapeOf] at hs
      exact textAt_fits hs (by decide) b ht
    | group b r =>
      rw [shapeOf] at hs
      cases ha : shapeOf T r flag with
      | none => rw [ha] at hs; cases hs
      | some a =>
        rw [ha] at hs
        simp only [Option.some.injEq] at hs
        subst hs
        exact group_fits (ih r flag a ha l ht) b
    | option b r =>
      rw [shapeOf] at hs
      cases ha : shapeOf T r flag with
      | none => rw [ha] at hs; cases hs
      | some a =>
        rw [ha] at hs
        simp only at hs
        split at hs
        · cases hs
        · rename_i hn
          simp only [Option.some.injEq] at hs
          subst hs
          exact option_fits (by simpa using hn) (ih r flag a ha l ht) b
    | rep b r mn mx =>
      rw [shapeOf] at hs
      cases ha : shapeOf T r flag with
      | none => rw [ha] at hs; cases hs
      | some a =>
        rw [ha] at hs
        refine repAt_fits hs ht (fun m hm => ih r flag a ha m hm) b mx fuel 0 0 true [] ?_ (Nat.le_refl _) (fun _ => rfl)
          (fun h => absurd rfl h)
        exact ⟨fun _ => ⟨rfl, fun _ _ => rfl⟩, fun h => absurd rfl h⟩
    | choice b gs =>
      rw [shapeOf] at hs
      cases ha : shapesLL T gs flag with
      | none => rw [ha] at hs; cases hs
      | some as =>
        rw [ha] at hs
        simp only at hs
        split at hs
        rotate_left
        · cases hs
        rename_i he
        simp only [Option.some.injEq] at hs
        subst hs
        obtain ⟨ass, h1, h2⟩ := shapesLL_each (P := fun r a => Fits a l (run env fuel r flag l)) ha
          (fun r a h => ih r flag a h l ht)
        subst h1
        exact choice_fits (choiceAt_fits gs ass h2 he 0 true)
    | concat b rs =>
      rw [shapeOf] at hs
      exact seq_fits (seqAt_fits ht ih b rs flag .zero [] s hs 0 0 true [] (Nat.le_refl _) (.inl (Nat.zero_le _)))
        (seqShape_opt hs)
    | block b o v c e xs =>
      rw [shapeOf] at hs
      cases ha : shapeOf T o flag with
      | none => rw [ha] at hs; cases hs
      | some a =>
        rw [ha] at hs
        exact block_fits hs (ih o flag a ha l ht) env fuel b fuel
    | ref b name =>
      rw [shapeOf] at hs
      obtain ⟨r, hr, hs'⟩ := hT name flag s hs
      have := ih r flag s hs' l ht
      simp only [run, hr]
      generalize run env fuel r flag l = x at this
      cases x with
      | hit nd u n st => exact this
      | _ => exact this

end Shape
end Xbnf.Spec
