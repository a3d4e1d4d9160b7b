import Verif.Spec.Predictive
import Verif.Spec.Peg
/-
Soundness of the shapes of Spec/Predictive.lean: the reference semantics never answers `risky` or
`ambiguous` for a rule that has a shape.
-/
namespace Xbnf.Spec
namespace Shape

/-- The white space of the text is that of ASCII. -/
def _root_.Xbnf.Spec.Tidy (l : List Rune) : Prop := ∀ c ∈ l, isWhiteSpace c = true → c ≤ 32

theorem _root_.Xbnf.Spec.Tidy.drop {l : List Rune} (h : Tidy l) (k : Nat) : Tidy (l.drop k) :=
  fun c hc => h c (List.mem_of_mem_drop hc)

/-- Not contradicted. -/
def Agrees (o : Option Bool) (b : Bool) : Prop := o = none ∨ o = some b

/-- The node of an option that matched nothing. -/
def emptyOption (n : Node) : Bool := decide (n.ruleType = .option ∧ n.children = [] ∧ n.chars = [])

/-- How far it looks without a match. -/
def Miss (s : Shape) (l : List Rune) (n : Nat) : Prop :=
  s.lo.at_ l ≤ n ∧ (n ≤ s.hi.at_ l ∨ begins s.deep0 l = true)

/-- What is used, and how far it looks, in a match of something. -/
def Hit (s : Shape) (l : List Rune) (u n : Nat) : Prop :=
  ((begins s.first l = true ∧ blanks l + 1 ≤ u ∧ u ≤ l.length) ∨
    (s.eof = true ∧ blanks l = l.length ∧ u = l.length ∧ l.length ≤ s.hi.at_ l)) ∧ u ≤ n ∧
  (n ≤ u + s.lag.at_ (l.drop u) ∨ begins s.deep (l.drop u) = true)

/-- The answer is as the shape says. -/
def Fits (s : Shape) (l : List Rune) : Ans → Prop
  | .oof => True
  | .risky => False
  | .ambiguous _ => False
  | .fail n st => s.null = false ∧ Miss s l n ∧ Agrees s.stickyMiss st
  | .hit nd u n st =>
    (s.null = true ∧ u = 0 ∧ Miss s l n ∧ Agrees s.stickyMiss st ∧ emptyOption nd = s.opt) ∨
      (Hit s l u n ∧ Agrees s.stickyHit st ∧ emptyOption nd = false)

/-- The same for the rest of a concatenation from `pos` on, `look` characters looked at. -/
def FitsSeq (s : Shape) (l : List Rune) (pos look : Nat) (st : Bool) : Ans → Prop
  | .oof => True
  | .risky => False
  | .ambiguous _ => False
  | .fail n st' => s.null = false ∧ look ≤ n ∧ Miss s (l.drop pos) (n - pos) ∧
      ∃ b, st' = (st && b) ∧ Agrees s.stickyMiss b
  | .hit nd u n st' => nd.ruleType = .concatenate ∧ pos ≤ u ∧ look ≤ n ∧ ∃ b, st' = (st && b) ∧
      ((s.null = true ∧ u = pos ∧ Miss s (l.drop pos) (n - pos) ∧ Agrees s.stickyMiss b) ∨
        (Hit s (l.drop pos) (u - pos) (n - pos) ∧ Agrees s.stickyHit b))

/-! ### Sets, looks -/

theorem has_union (s t : CharSet) (c : Rune) : (s.union t).has c = (s.has c || t.has c) := by
  rw [Bool.eq_iff_iff]
  simp only [CharSet.union, CharSet.has, List.any_append, Bool.or_eq_true, List.any_eq_true,
    List.mem_filter, Bool.not_eq_true', List.contains_eq_mem, decide_eq_false_iff_not]
  constructor
  · rintro (h | ⟨i, ⟨h1, h2⟩, h3⟩)
    · exact .inl h
    · exact .inr ⟨i, h1, h3⟩
  · rintro (h | ⟨i, h1, h3⟩)
    · exact .inl h
    · by_cases hm : i ∈ s
      · exact .inl ⟨i, hm, h3⟩
      · exact .inr ⟨i, ⟨h1, hm⟩, h3⟩

theorem has_apart {s t : CharSet} (h : s.apart t = true) {c : Rune} (hs : s.has c = true) : t.has c = false := by
  simp only [CharSet.apart, List.all_eq_true, Bool.or_eq_true, decide_eq_true_eq] at h
  simp only [CharSet.has, List.any_eq_true, Bool.and_eq_true, decide_eq_true_eq] at hs
  obtain ⟨i, hi, h1, h2⟩ := hs
  simp only [CharSet.has, List.any_eq_false, Bool.and_eq_true, decide_eq_true_eq, not_and]
  intro j hj h3
  have := h i hi j hj
  unfold Rune at *
  omega

theorem begins_union (s t : CharSet) (l : List Rune) : begins (s.union t) l = (begins s l || begins t l) := by
  unfold begins
  split
  · rfl
  · exact has_union ..

theorem begins_nil (l : List Rune) : begins [] l = false := by
  unfold begins
  split <;> rfl

theorem begins_apart {s t : CharSet} (h : s.apart t = true) {l : List Rune} (hs : begins s l = true) :
    begins t l = false := by
  unfold begins at *
  split at hs
  · cases hs
  · exact has_apart h hs

theorem apart_symm {s t : CharSet} (h : s.apart t = true) : t.apart s = true := by
  simp only [CharSet.apart, List.all_eq_true, Bool.or_eq_true, decide_eq_true_eq] at *
  intro j hj i hi
  exact (h i hi j hj).symm

theorem blanks_le (l : List Rune) : blanks l ≤ l.length := (List.takeWhile_prefix _).length_le

theorem drop_blanks (l : List Rune) : l.drop (blanks l) = l.dropWhile isWhiteSpace := by
  unfold blanks
  induction l with
  | nil => rfl
  | cons c l ih =>
    by_cases h : isWhiteSpace c = true
    · simp [h, ih]
    · simp [h]

theorem begins_blanks {s : CharSet} {l : List Rune} (h : begins s l = true) : blanks l < l.length := by
  unfold begins at h
  rw [← drop_blanks] at h
  rcases Nat.lt_or_ge (blanks l) l.length with h1 | h1
  · exact h1
  · rw [List.drop_eq_nil_of_le h1] at h
    cases h

theorem begins_all_blank {s : CharSet} {l : List Rune} (h : blanks l = l.length) : begins s l = false := by
  cases hb : begins s l with
  | false => rfl
  | true => have := begins_blanks hb; omega

theorem begins_empty (s : CharSet) : begins s [] = false := rfl

theorem at_top (k : Look) (l : List Rune) : k.at_ l ≤ blanks l + 1 ∧ k.at_ l ≤ l.length := by
  have := blanks_le l
  cases k <;> simp only [Look.at_] <;> omega

theorem at_empty (k : Look) : k.at_ [] = 0 := by
  cases k <;> rfl

theorem at_le {a b : Look} (h : a.le b = true) (l : List Rune) : a.at_ l ≤ b.at_ l := by
  simp only [Look.le, Bool.or_eq_true, beq_iff_eq] at h
  rcases h with (h | h) | h
  · subst h; simp only [Look.at_]; omega
  · subst h
    have := at_top a l
    simp only [Look.at_] at *; omega
  · rw [h]; exact Nat.le_refl _

theorem sup_left (a b : Look) (l : List Rune) : a.at_ l ≤ (a.sup b).at_ l := by
  unfold Look.sup
  split
  · exact at_le ‹_› l
  · split
    · exact Nat.le_refl _
    · exact at_le (by simp [Look.le]) l

theorem sup_right (a b : Look) (l : List Rune) : b.at_ l ≤ (a.sup b).at_ l := by
  unfold Look.sup
  split
  · exact Nat.le_refl _
  · split
    · exact at_le ‹_› l
    · exact at_le (by simp [Look.le]) l

theorem upper_le (a b : Look) (l : List Rune) {n : Nat} (ha : a.at_ l ≤ n) (hb : b.at_ l ≤ n) : (a.upper b).at_ l ≤ n := by
  unfold Look.upper
  split <;> assumption

theorem inf_left (a b : Look) (l : List Rune) : (a.inf b).at_ l ≤ a.at_ l := by
  unfold Look.inf
  split
  · exact Nat.le_refl _
  · split
    · exact at_le ‹_› l
    · simp [Look.at_]

theorem inf_right (a b : Look) (l : List Rune) : (a.inf b).at_ l ≤ b.at_ l := by
  unfold Look.inf
  split
  · exact at_le ‹_› l
  · split
    · exact Nat.le_refl _
    · simp [Look.at_]

theorem agrees_known_left {a b : Option Bool} {x : Bool} (h : Agrees a x) : Agrees (known a b) x := by
  unfold known
  split
  · exact h
  · exact .inl rfl

theorem agrees_known_right {a b : Option Bool} {x : Bool} (h : Agrees b x) : Agrees (known a b) x := by
  unfold known
  split
  · rename_i he; rw [he]; exact h
  · exact .inl rfl

theorem agrees_both {a b : Option Bool} {x y : Bool} (h : Agrees a x) (h' : Agrees b y) : Agrees (both3 a b) (x && y) := by
  unfold Agrees at *
  rcases h with rfl | rfl <;> rcases h' with rfl | rfl <;> cases x <;> cases y <;> simp [both3]

theorem agrees_true {x : Bool} (h : Agrees (some true) x) : x = true := by
  rcases h with h | h
  · cases h
  · exact (Option.some.inj h).symm

theorem agrees_false {x : Bool} (h : Agrees (some false) x) : x = false := by
  rcases h with h | h
  · cases h
  · exact (Option.some.inj h).symm

/-! ### Joining -/

theorem join_spec {a b s : Shape} (h : a.join b = some s) : a.null = s.null ∧ b.null = s.null ∧ a.opt = s.opt ∧ b.opt = s.opt ∧
    s.first = a.first.union b.first ∧ s.eof = (a.eof || b.eof) ∧ s.lo = a.lo.inf b.lo ∧ s.hi = a.hi.sup b.hi ∧
    s.deep0 = a.deep0.union b.deep0 ∧ s.lag = a.lag.sup b.lag ∧ s.deep = a.deep.union b.deep ∧
    s.stickyMiss = known a.stickyMiss b.stickyMiss ∧ s.stickyHit = known a.stickyHit b.stickyHit := by
  unfold Shape.join at h
  split at h
  · rename_i hc
    simp only [Option.some.injEq] at h
    subst h
    exact ⟨rfl, hc.1.symm, rfl, hc.2.symm, rfl, rfl, rfl, rfl, rfl, rfl, rfl, rfl, rfl⟩
  · cases h

/-- Everything one shape says follows from the other. -/
structure Below (a s : Shape) : Prop where
  null : a.null = s.null
  opt : a.opt = s.opt
  first : ∀ l, begins a.first l = true → begins s.first l = true
  eof : a.eof = true → s.eof = true
  lo : ∀ l, s.lo.at_ l ≤ a.lo.at_ l
  hi : ∀ l, a.hi.at_ l ≤ s.hi.at_ l
  deep0 : ∀ l, begins a.deep0 l = true → begins s.deep0 l = true
  lag : ∀ l, a.lag.at_ l ≤ s.lag.at_ l
  deep : ∀ l, begins a.deep l = true → begins s.deep l = true
  miss : ∀ b, Agrees a.stickyMiss b → Agrees s.stickyMiss b
  hit : ∀ b, Agrees a.stickyHit b → Agrees s.stickyHit b

theorem join_left {a b s : Shape} (h : a.join b = some s) : Below a s := by
  obtain ⟨h1, h2, h3, h4, h5, h6, h7, h8, h9, h10, h11, h12, h13⟩ := join_spec h
  refine ⟨h1, h3, fun l hl => ?_, fun he => ?_, fun l => ?_, fun l => ?_, fun l hl => ?_, fun l => ?_, fun l hl => ?_,
    fun x hx => ?_, fun x hx => ?_⟩
  · rw [h5, begins_union, hl, Bool.true_or]
  · rw [h6, he, Bool.true_or]
  · rw [h7]; exact inf_left ..
  · rw [h8]; exact sup_left ..
  · rw [h9, begins_union, hl, Bool.true_or]
  · rw [h10]; exact sup_left ..
  · rw [h11, begins_union, hl, Bool.true_or]
  · rw [h12]; exact agrees_known_left hx
  · rw [h13]; exact agrees_known_left hx

theorem join_right {a b s : Shape} (h : a.join b = some s) : Below b s := by
  obtain ⟨h1, h2, h3, h4, h5, h6, h7, h8, h9, h10, h11, h12, h13⟩ := join_spec h
  refine ⟨h2, h4, fun l hl => ?_, fun he => ?_, fun l => ?_, fun l => ?_, fun l hl => ?_, fun l => ?_, fun l hl => ?_,
    fun x hx => ?_, fun x hx => ?_⟩
  · rw [h5, begins_union, hl, Bool.or_true]
  · rw [h6, he, Bool.or_true]
  · rw [h7]; exact inf_right ..
  · rw [h8]; exact sup_right ..
  · rw [h9, begins_union, hl, Bool.or_true]
  · rw [h10]; exact sup_right ..
  · rw [h11, begins_union, hl, Bool.or_true]
  · rw [h12]; exact agrees_known_right hx
  · rw [h13]; exact agrees_known_right hx

theorem Miss.below {a s : Shape} {l : List Rune} {n : Nat} (h : Miss a l n) (hb : Below a s) : Miss s l n :=
  ⟨Nat.le_trans (hb.lo l) h.1, h.2.imp (fun h => Nat.le_trans h (hb.hi l)) (hb.deep0 l)⟩

theorem Hit.below {a s : Shape} {l : List Rune} {u n : Nat} (h : Hit a l u n) (hb : Below a s) : Hit s l u n := by
  obtain ⟨h1, h2, h3⟩ := h
  refine ⟨?_, h2, ?_⟩
  · rcases h1 with ⟨h, h', h''⟩ | ⟨h, h', h'', h3⟩
    · exact .inl ⟨hb.first l h, h', h''⟩
    · exact .inr ⟨hb.eof h, h', h'', Nat.le_trans h3 (hb.hi l)⟩
  · have := hb.lag (l.drop u)
    exact h3.imp (fun h => by omega) (hb.deep _)

theorem FitsSeq.below {a s : Shape} {l : List Rune} {pos look : Nat} {st : Bool} {x : Ans} (h : FitsSeq a l pos look st x)
    (hb : Below a s) : FitsSeq s l pos look st x := by
  cases x with
  | oof => trivial
  | risky => exact h
  | ambiguous => exact h
  | fail n st' =>
    obtain ⟨h1, h2, h3, b, h4, h5⟩ := h
    exact ⟨by rw [← hb.null]; exact h1, h2, h3.below hb, b, h4, hb.miss b h5⟩
  | hit nd u n st' =>
    obtain ⟨h0, h1, h2, b, h4, h5⟩ := h
    refine ⟨h0, h1, h2, b, h4, ?_⟩
    rcases h5 with ⟨h5, h6, h7, h8⟩ | ⟨h5, h6⟩
    · exact .inl ⟨by rw [← hb.null]; exact h5, h6, h7.below hb, hb.miss b h8⟩
    · exact .inr ⟨h5.below hb, hb.hit b h6⟩

/-! ### Terminals -/

theorem mem_takeWhile_white {l : List Rune} (ht : Tidy l) {c : Rune} (h : c ∈ blank skip l) : c ≤ 32 := by
  unfold blank at h
  split at h
  · have h1 := List.all_eq_true.1 List.all_takeWhile c h
    exact ht c ((List.takeWhile_prefix _).subset h) h1
  · cases h

theorem begins_cons {s : CharSet} {c : Rune} {l : List Rune} (hw : isWhiteSpace c = false) : begins s (c :: l) = s.has c := by
  unfold begins
  rw [List.dropWhile_cons, if_neg (by simp [hw])]

theorem blanks_cons {c : Rune} {l : List Rune} (hw : isWhiteSpace c = false) : blanks (c :: l) = 0 := by
  unfold blanks
  rw [List.takeWhile_cons, if_neg (by simp [hw])]
  rfl

theorem oneAt_fits {x y : Rune} {flag : Int} {s : Shape} (hs : oneShape x y flag = some s) {rt : RType} (hrt : rt ≠ .option)
    (b : RuleBase) {p : Rune → Bool} (hp : ∀ c, p c = between x y c) {l : List Rune} (ht : Tidy l) :
    Fits s l (oneAt rt b (decide (flag = SUGGEST_SKIP)) p l) := by
  unfold oneShape at hs
  split at hs
  rotate_left
  · cases hs
  rename_i hx
  simp only [Option.some.injEq] at hs
  generalize hsk : decide (flag = SUGGEST_SKIP) = skip
  have hflag : (flag = SUGGEST_SKIP) ↔ skip = true := by rw [← hsk]; simp
  have hnone : (blank skip l).findIdx? p = none := by
    rw [List.findIdx?_eq_none_iff]
    intro c hc
    have := mem_takeWhile_white ht hc
    rw [hp]
    simp only [between, Bool.and_eq_false_iff, decide_eq_false_iff_not]
    left
    unfold Rune at *
    omega
  have hlook : (if flag = SUGGEST_SKIP then Look.blank else Look.zero).at_ l = (blank skip l).length := by
    cases skip with
    | true => rw [if_pos (hflag.2 rfl)]; rfl
    | false => rw [if_neg (by rw [hflag]; decide)]; rfl
  have hdrop : ∀ c rest, l.drop (blank skip l).length = c :: rest → p c = true →
      begins [(x, y)] l = true ∧ blanks l = (blank skip l).length := by
    intro c rest hd hpc
    rw [hp] at hpc
    have hh : CharSet.has [(x, y)] c = true := by
      simpa [CharSet.has, between] using hpc
    cases skip with
    | true =>
      have : l.drop (blanks l) = c :: rest := hd
      rw [drop_blanks] at this
      unfold begins
      rw [this]
      exact ⟨hh, rfl⟩
    | false =>
      have : l = c :: rest := hd
      have hw : isWhiteSpace c = false := by
        cases hw : isWhiteSpace c with
        | false => rfl
        | true =>
          have := ht c (by rw [this]; simp) hw
          simp only [between, Bool.and_eq_true, decide_eq_true_eq] at hpc
          unfold Rune at *
          omega
      rw [this, begins_cons hw, blanks_cons hw]
      exact ⟨hh, rfl⟩
  simp only [oneAt, hnone]
  cases hd : l.drop (blank skip l).length with
  | nil =>
    subst hs
    exact ⟨rfl, ⟨by rw [hlook]; exact Nat.le_refl _, .inl (by rw [hlook]; exact Nat.le_refl _)⟩, .inr rfl⟩
  | cons c rest =>
    simp only
    cases hpc : p c with
    | false =>
      simp only [Bool.false_eq_true, if_false]
      subst hs
      exact ⟨rfl, ⟨by rw [hlook]; exact Nat.le_refl _, .inl (by rw [hlook]; exact Nat.le_refl _)⟩, .inr rfl⟩
    | true =>
      simp only [if_true]
      obtain ⟨h1, h2⟩ := hdrop c rest hd hpc
      have hlen : (blank skip l).length < l.length := by
        rcases Nat.lt_or_ge (blank skip l).length l.length with h | h
        · exact h
        · rw [List.drop_eq_nil_of_le h] at hd; cases hd
      subst hs
      refine .inr ⟨⟨.inl ⟨h1, by omega, by omega⟩, Nat.le_refl _, .inl (by omega)⟩, .inr rfl, ?_⟩
      simp [emptyOption, leaf, hrt]

theorem textAt_fits {text : List Rune} {skip sticky : Bool} {s : Shape} (hs : textShape text skip sticky = some s) {rt : RType}
    (hrt : rt ≠ .option) (b : RuleBase) {l : List Rune} (ht : Tidy l) :
    Fits s l (textAt rt b sticky skip text l) := by
  unfold textShape at hs
  cases text with
  | nil => cases hs
  | cons c rest =>
  simp only at hs
  split at hs
  rotate_left
  · cases hs
  rename_i hx
  obtain ⟨hc, hw⟩ := hx
  simp only [Option.some.injEq] at hs
  have hlead : (if skip = true then (c :: rest).takeWhile isWhiteSpace else []) = [] := by
    split
    · rw [List.takeWhile_cons, if_neg (by simp [hw])]
    · rfl
  have hstick : s.stickyMiss = some sticky ∧ s.stickyHit = some sticky := by subst hs; exact ⟨rfl, rfl⟩
  have hlo : s.lo = s.hi := by subst hs; rfl
  have hhi : s.hi = if skip then .blankOne else .one := by subst hs; rfl
  have hd0 : s.deep0 = if rest = [] then [] else [(c, c)] := by subst hs; rfl
  have hfirst : s.first = [(c, c)] := by subst hs; rfl
  have hnull : s.null = false := by subst hs; rfl
  clear hs
  simp only [textAt]
  rw [hlead]
  simp only [List.length_nil, List.drop_zero]
  split
  · rename_i hl
    subst hl
    exact ⟨hnull, ⟨by rw [at_empty]; exact Nat.le_refl _, .inl (by rw [at_empty]; exact Nat.le_refl _)⟩, by rw [hstick.1]; exact .inr rfl⟩
  rename_i hl
  rw [if_pos (by simp)]
  have hbl : (blank skip l).length ≤ l.length := by
    unfold blank
    split
    · exact blanks_le l
    · simp
  have hln : 0 < l.length := by
    rcases Nat.eq_zero_or_pos l.length with h | h
    · exact absurd (List.eq_nil_of_length_eq_zero h) hl
    · exact h
  split
  · rename_i hp
    have hp := List.isPrefixOf_iff_prefix.1 hp
    obtain ⟨tail, htail⟩ := hp
    have hlen := congrArg List.length htail
    simp only [List.length_append, List.length_cons, List.length_drop] at hlen
    have h12 : begins [(c, c)] l = true ∧ blanks l = (blank skip l).length := by
      have hh : CharSet.has [(c, c)] c = true := by simp [CharSet.has]
      cases skip with
      | true =>
        have : l.drop (blanks l) = c :: (rest ++ tail) := by rw [← List.cons_append]; exact htail.symm
        rw [drop_blanks] at this
        unfold begins
        rw [this]
        exact ⟨hh, rfl⟩
      | false =>
        have : l = c :: (rest ++ tail) := by rw [← List.cons_append]; exact htail.symm
        rw [this, begins_cons hw, blanks_cons hw]
        exact ⟨hh, rfl⟩
    refine .inr ⟨⟨.inl ⟨by rw [hfirst]; exact h12.1, ?_, ?_⟩, Nat.le_refl _, .inl (by omega)⟩, by rw [hstick.2]; exact .inr rfl, ?_⟩
    · simp only [List.length_cons]; omega
    · simp only [List.length_cons]; omega
    · simp [emptyOption, leaf, hrt]
  · rename_i hp
    refine ⟨hnull, ⟨?_, ?_⟩, by rw [hstick.1]; exact .inr rfl⟩
    · rw [hlo, hhi]
      cases skip with
      | true =>
        simp only [if_true, Look.at_, blank, List.length_drop]
        have : (l.takeWhile isWhiteSpace).length = blanks l := rfl
        rw [this]
        have := blanks_le l
        omega
      | false =>
        simp only [Bool.false_eq_true, if_false, Look.at_, blank, List.length_drop, List.length_nil]
        omega
    · rw [hhi, hd0]
      by_cases hb : begins [(c, c)] l = true ∧ rest ≠ []
      · right
        rw [if_neg hb.2]; exact hb.1
      · left
        have hcp : (commonPrefix (c :: rest) (l.drop (blank skip l).length)).length = 0 := by
          cases hd : l.drop (blank skip l).length with
          | nil => rfl
          | cons d ds =>
            simp only [commonPrefix]
            split
            · rename_i hcd
              subst hcd
              exfalso
              apply hb
              constructor
              · have hh : CharSet.has [(c, c)] c = true := by simp [CharSet.has]
                cases skip with
                | true =>
                  have : l.drop (blanks l) = c :: ds := hd
                  rw [drop_blanks] at this
                  unfold begins
                  rw [this]
                  exact hh
                | false =>
                  have : l = c :: ds := hd
                  rw [this, begins_cons hw]
                  exact hh
              · intro hr
                apply hp
                rw [hr, hd]
                simp
            · rfl
        rw [hcp]
        cases skip with
        | true =>
          simp only [if_true, Look.at_, blank, List.length_drop]
          have : (l.takeWhile isWhiteSpace).length = blanks l := rfl
          rw [this]
          have := blanks_le l
          omega
        | false =>
          simp only [Bool.false_eq_true, if_false, Look.at_, blank, List.length_drop, List.length_nil]
          omega

theorem eofAt_fits (b : RuleBase) (flag : Int) {l : List Rune} {s : Shape} (hs : shapeOf T (.eof b) flag = some s) :
    Fits s l (eofAt b (decide (flag = SUGGEST_SKIP)) l) := by
  simp only [shapeOf, Option.some.injEq] at hs
  generalize hsk : decide (flag = SUGGEST_SKIP) = skip
  have hflag : (flag = SUGGEST_SKIP) ↔ skip = true := by rw [← hsk]; simp
  have hlook : (if flag = SUGGEST_SKIP then Look.blank else Look.zero).at_ l = (blank skip l).length := by
    cases skip with
    | true => rw [if_pos (hflag.2 rfl)]; rfl
    | false => rw [if_neg (by rw [hflag]; decide)]; rfl
  simp only [eofAt]
  split
  · rename_i hd
    have hlen : l.length ≤ (blank skip l).length := by
      have := congrArg List.length hd
      simp only [List.length_drop, List.length_nil] at this
      omega
    have hle : (blank skip l).length ≤ blanks l := by
      unfold blank
      split
      · exact Nat.le_refl _
      · simp
    have := blanks_le l
    subst hs
    refine .inr ⟨⟨.inr ⟨rfl, by omega, by omega, by rw [hlook]; omega⟩, Nat.le_refl _, .inl (by omega)⟩, .inr rfl, ?_⟩
    simp [emptyOption]
  · subst hs
    exact ⟨rfl, ⟨by rw [hlook]; exact Nat.le_refl _, .inl (by rw [hlook]; exact Nat.le_refl _)⟩, .inr rfl⟩

/-! ### Groups and options -/

theorem group_fits {a : Shape} {l : List Rune} {x : Ans} (h : Fits a l x) (b : RuleBase) :
    Fits { a with opt := false } l (match (generalizing := false) x with
      | .ambiguous n => .fail n false
      | .hit nd u n st => .hit (inner .group b st [nd]) u n st
      | a => a) := by
  cases x with
  | oof => trivial
  | risky => exact h
  | ambiguous => exact h.elim
  | fail n st => exact h
  | hit nd u n st =>
    rcases h with ⟨h1, h2, h3, h4, h5⟩ | ⟨h1, h2, h3⟩
    · exact .inl ⟨h1, h2, h3, h4, by simp [emptyOption, inner]⟩
    · exact .inr ⟨h1, h2, by simp [emptyOption, inner]⟩

theorem option_fits {a : Shape} (hn : a.null = false) {l : List Rune} {x : Ans} (h : Fits a l x) (b : RuleBase) :
    Fits { a with null := true, opt := true } l (match (generalizing := false) x with
      | .fail n st => .hit (inner .option b st []) 0 n st
      | .ambiguous _ => .risky
      | .hit nd u n st => .hit (inner .option b st [nd]) u n st
      | a => a) := by
  cases x with
  | oof => trivial
  | risky => exact h
  | ambiguous => exact h.elim
  | fail n st => exact .inl ⟨rfl, rfl, h.2.1, h.2.2, by simp [emptyOption, inner]⟩
  | hit nd u n st =>
    rcases h with ⟨h1, _⟩ | ⟨h1, h2, h3⟩
    · rw [hn] at h1; cases h1
    · exact .inr ⟨h1, h2, by simp [emptyOption, inner]⟩

/-! ### Repetitions -/

/-- What is known between the rounds of a repetition. -/
structure RepSt (a : Shape) (l : List Rune) (pos : Nat) (sticky : Bool) (nodes : List Node) : Prop where
  none : nodes = [] → pos = 0 ∧ (a.stickyMiss = some true → a.stickyHit = some true → sticky = true)
  some : nodes ≠ [] → begins a.first l = true ∧ blanks l + 1 ≤ pos ∧ pos ≤ l.length ∧
    (a.stickyHit = .some false → sticky = false) ∧
    (a.stickyMiss = .some true → a.stickyHit = .some true → sticky = true)

theorem repEnd_fits {a s : Shape} {mn : Nat} (hs : repShape a mn = some s) {l : List Rune} {pos look : Nat} {sticky : Bool}
    {nodes : List Node} (h : RepSt a l pos sticky nodes) (b : RuleBase) (hp : pos ≤ look)
    (h0 : nodes = [] → Miss a l look)
    (h1 : nodes ≠ [] → look ≤ pos + (a.lag.sup a.hi).at_ (l.drop pos) ∨ begins (a.deep.union a.deep0) (l.drop pos) = true) :
    Fits s l (repEnd b mn pos look sticky nodes) := by
  unfold repShape at hs
  split at hs
  rotate_left
  · cases hs
  simp only [Option.some.injEq] at hs
  unfold repEnd
  have hmiss : Agrees s.stickyMiss sticky := by
    subst hs
    simp only
    split
    · rename_i hc
      by_cases hn : nodes = []
      · rw [(h.none hn).2 hc.1 hc.2]; exact .inr rfl
      · rw [(h.some hn).2.2.2.2 hc.1 hc.2]; exact .inr rfl
    · exact .inl rfl
  split
  · rename_i hlt
    refine ⟨by subst hs; simp; omega, ?_, hmiss⟩
    by_cases hn : nodes = []
    · have := h0 hn
      subst hs
      refine ⟨this.1, this.2.imp id (fun hb => ?_)⟩
      simp only
      split
      · exact hb
      · rw [begins_union, hb, Bool.true_or]
    · have hl : 0 < nodes.length := List.length_pos_iff.2 hn
      obtain ⟨g1, g2, g3, _⟩ := h.some hn
      subst hs
      refine ⟨?_, .inr ?_⟩
      · have := at_top a.lo l
        show a.lo.at_ l ≤ look
        omega
      · simp only
        rw [if_neg (by omega), begins_union, g1, Bool.or_true]
  · rename_i hlt
    by_cases hn : nodes = []
    · left
      have hm := h0 hn
      have hz : mn = 0 := by rw [hn] at hlt; simpa using hlt
      refine ⟨by subst hs; simp [hz], (h.none hn).1, ?_, hmiss, ?_⟩
      · subst hs
        refine ⟨hm.1, hm.2.imp id (fun hb => ?_)⟩
        simp only
        rw [if_pos (by omega)]
        exact hb
      · subst hs; simp [emptyOption, inner]
    · right
      obtain ⟨g1, g2, g3, g4, g5⟩ := h.some hn
      refine ⟨⟨.inl ⟨by subst hs; exact g1, g2, g3⟩, hp, ?_⟩, ?_, by simp [emptyOption, inner]⟩
      · subst hs
        exact h1 hn
      · subst hs
        simp only
        split
        · rename_i hc
          rw [g4 hc]; exact .inr rfl
        · split
          · rename_i hc
            rw [g5 hc.1 hc.2]; exact .inr rfl
          · exact .inl rfl

theorem repAt_fits {a s : Shape} {mn : Nat} (hs : repShape a mn = some s) {run : Runner} {r : Rule} {flag : Int} {l : List Rune}
    (ht : Tidy l) (hr : ∀ m, Tidy m → Fits a m (run r flag m)) (b : RuleBase) (mx : Nat) (fuel : Nat) :
    ∀ (pos look : Nat) (sticky : Bool) (nodes : List Node), RepSt a l pos sticky nodes → pos ≤ look →
      (nodes = [] → look = 0) →
      (nodes ≠ [] → look ≤ pos + a.lag.at_ (l.drop pos) ∨ begins a.deep (l.drop pos) = true) →
      Fits s l (repAt run b r mn mx flag l fuel pos look sticky nodes) := by
  have hs' := hs
  unfold repShape at hs'
  split at hs'
  rotate_left
  · cases hs'
  rename_i hcond
  obtain ⟨hnull, heof, hapart⟩ := hcond
  clear hs'
  induction fuel with
  | zero => intros; trivial
  | succ fuel ih =>
    intro pos look sticky nodes hst hp h0 h1
    rw [repAt]
    split
    · rename_i hd
      refine repEnd_fits hs hst b hp (fun hn => ?_) (fun hn => ?_)
      · have := (hst.none hn).1
        subst this
        rw [List.drop_zero] at hd
        subst hd
        rw [h0 hn]
        exact ⟨by rw [at_empty]; omega, .inl (by omega)⟩
      · rcases h1 hn with h | h
        · left
          have := sup_left a.lag a.hi (l.drop pos)
          omega
        · right; rw [begins_union, h, Bool.true_or]
    · have hf := hr (l.drop pos) (ht.drop pos)
      generalize hx : run r flag (l.drop pos) = x at hf
      cases x with
      | oof => trivial
      | risky => exact hf.elim
      | ambiguous => exact hf.elim
      | fail n st =>
        obtain ⟨_, hm, hag⟩ := hf
        simp only
        have hst' : RepSt a l pos (sticky && st) nodes := by
          refine ⟨fun hn => ⟨(hst.none hn).1, fun e1 e2 => ?_⟩, fun hn => ?_⟩
          · rw [e1] at hag
            rw [(hst.none hn).2 e1 e2, agrees_true hag]; rfl
          · obtain ⟨g1, g2, g3, g4, g5⟩ := hst.some hn
            refine ⟨g1, g2, g3, fun e => by rw [g4 e]; rfl, fun e1 e2 => ?_⟩
            rw [e1] at hag
            rw [g5 e1 e2, agrees_true hag]; rfl
        refine repEnd_fits hs hst' b (by omega) (fun hn => ?_) (fun hn => ?_)
        · have e1 := (hst.none hn).1
          have e2 := h0 hn
          subst e1 e2
          rw [List.drop_zero] at hm
          have : max 0 (0 + n) = n := by omega
          rw [this]; exact hm
        · have g1 := sup_left a.lag a.hi (l.drop pos)
          have g2 := sup_right a.lag a.hi (l.drop pos)
          rw [begins_union]
          rcases h1 hn with h | h
          · rcases hm.2 with h' | h'
            · left; omega
            · right; rw [h', Bool.or_true]
          · right; rw [h, Bool.true_or]
      | hit nd u n st =>
        rcases hf with ⟨hc, _⟩ | ⟨⟨hu, hun, hlag⟩, hag, _⟩
        · rw [hnull] at hc; cases hc
        rcases hu with ⟨hb, hu1, hu2⟩ | ⟨hc, _⟩
        rotate_left
        · rw [heof] at hc; cases hc
        -- the round looks as far as the rounds before
        have hfar : look ≤ pos + n := by
          by_cases hn : nodes = []
          · rw [h0 hn]; omega
          · rcases h1 hn with h | h
            · have := at_top a.lag (l.drop pos)
              omega
            · rw [begins_apart hapart hb] at h; cases h
        have hst' : RepSt a l (pos + u) (sticky && st) (nodes ++ [nd]) := by
          have hlen : (l.drop pos).length = l.length - pos := List.length_drop
          refine ⟨fun hn => absurd hn (by simp), fun _ => ?_⟩
          by_cases hn : nodes = []
          · obtain ⟨e1, e2⟩ := hst.none hn
            subst e1
            rw [List.drop_zero] at hb hu1 hu2
            refine ⟨hb, by omega, by omega, fun e => ?_, fun e1 e3 => ?_⟩
            · rw [e] at hag; rw [agrees_false hag, Bool.and_false]
            · rw [e3] at hag; rw [e2 e1 e3, agrees_true hag]; rfl
          · obtain ⟨g1, g2, g3, g4, g5⟩ := hst.some hn
            refine ⟨g1, by omega, by omega, fun e => by rw [g4 e]; rfl, fun e1 e2 => ?_⟩
            rw [e2] at hag
            rw [g5 e1 e2, agrees_true hag]; rfl
        have hmax : max look (pos + n) = pos + n := by omega
        rw [List.drop_drop] at hlag
        simp only
        split
        · rw [if_neg (by omega), hmax]
          refine repEnd_fits hs hst' b (by omega) (fun hn => absurd hn (by simp)) (fun _ => ?_)
          have g1 := sup_left a.lag a.hi (l.drop (pos + u))
          rw [begins_union]
          rcases hlag with h | h
          · left; omega
          · right; rw [h, Bool.true_or]
        · rw [if_neg (by omega), hmax]
          refine ih _ _ _ _ hst' (by omega) (fun hn => absurd hn (by simp)) (fun _ => ?_)
          rcases hlag with h | h
          · left; omega
          · right; exact h

/-! ### Choices -/

theorem alt_first {as : List Shape} {s : Shape} (h : s ∈ as) {l : List Rune} (hb : begins s.first l = true) :
    begins (altShape as).first l = true := by
  induction as with
  | nil => cases h
  | cons a as ih =>
    simp only [altShape, begins_union]
    rcases List.mem_cons.1 h with rfl | h
    · rw [hb, Bool.true_or]
    · rw [ih h, Bool.or_true]

theorem alt_eof {as : List Shape} {s : Shape} (h : s ∈ as) (hb : s.eof = true) : (altShape as).eof = true := by
  induction as with
  | nil => cases h
  | cons a as ih =>
    simp only [altShape]
    rcases List.mem_cons.1 h with rfl | h
    · rw [hb, Bool.true_or]
    · rw [ih h, Bool.or_true]

theorem alt_deep0 {as : List Shape} {s : Shape} (h : s ∈ as) {l : List Rune} (hb : begins s.deep0 l = true) :
    begins (altShape as).deep0 l = true := by
  induction as with
  | nil => cases h
  | cons a as ih =>
    simp only [altShape, begins_union]
    rcases List.mem_cons.1 h with rfl | h
    · rw [hb, Bool.true_or]
    · rw [ih h, Bool.or_true]

theorem alt_deep {as : List Shape} {s : Shape} (h : s ∈ as) {l : List Rune} (hb : begins s.deep l = true) :
    begins (altShape as).deep l = true := by
  induction as with
  | nil => cases h
  | cons a as ih =>
    simp only [altShape, begins_union]
    rcases List.mem_cons.1 h with rfl | h
    · rw [hb, Bool.true_or]
    · rw [ih h, Bool.or_true]

theorem alt_hi {as : List Shape} {s : Shape} (h : s ∈ as) (l : List Rune) : s.hi.at_ l ≤ (altShape as).hi.at_ l := by
  induction as with
  | nil => cases h
  | cons a as ih =>
    simp only [altShape]
    rcases List.mem_cons.1 h with rfl | h
    · exact sup_left ..
    · exact Nat.le_trans (ih h) (sup_right ..)

theorem alt_lag {as : List Shape} {s : Shape} (h : s ∈ as) (l : List Rune) : s.lag.at_ l ≤ (altShape as).lag.at_ l := by
  induction as with
  | nil => cases h
  | cons a as ih =>
    simp only [altShape]
    rcases List.mem_cons.1 h with rfl | h
    · exact sup_left ..
    · exact Nat.le_trans (ih h) (sup_right ..)

theorem alt_lo {as : List Shape} {l : List Rune} {n : Nat} (h : ∀ s ∈ as, s.lo.at_ l ≤ n) : (altShape as).lo.at_ l ≤ n := by
  induction as with
  | nil => simp [altShape, Look.at_]
  | cons a as ih =>
    simp only [altShape]
    exact upper_le _ _ _ (h a (List.mem_cons_self ..)) (ih fun s hs => h s (List.mem_cons_of_mem _ hs))

theorem alt_null (as : List Shape) : (altShape as).null = false := by
  cases as <;> rfl

theorem alt_opt (as : List Shape) : (altShape as).opt = false := by
  cases as <;> rfl

theorem both3_true {a b : Option Bool} (h : both3 a b = some true) : a = some true ∧ b = some true := by
  unfold both3 at h
  split at h <;> simp_all

theorem both3_false {a b : Option Bool} (h : both3 a b = some false) : a = some false ∨ b = some false := by
  unfold both3 at h
  split at h <;> simp_all

theorem alt_miss {as : List Shape} {b : Bool} (ht : (∀ s ∈ as, s.stickyMiss = some true) → b = true)
    (hf : (∃ s ∈ as, s.stickyMiss = some false) → b = false) : Agrees (altShape as).stickyMiss b := by
  have h1 : ∀ as : List Shape, (altShape as).stickyMiss = some true → ∀ s ∈ as, s.stickyMiss = some true := by
    intro as
    induction as with
    | nil => intro _ s hs; cases hs
    | cons a as ih =>
      intro h s hs
      obtain ⟨g1, g2⟩ := both3_true (show both3 a.stickyMiss (altShape as).stickyMiss = some true from h)
      rcases List.mem_cons.1 hs with rfl | hs
      · exact g1
      · exact ih g2 s hs
  have h2 : ∀ as : List Shape, (altShape as).stickyMiss = some false → ∃ s ∈ as, s.stickyMiss = some false := by
    intro as
    induction as with
    | nil => intro h; cases h
    | cons a as ih =>
      intro h
      rcases both3_false (show both3 a.stickyMiss (altShape as).stickyMiss = some false from h) with g | g
      · exact ⟨a, List.mem_cons_self .., g⟩
      · obtain ⟨s, hs, hg⟩ := ih g
        exact ⟨s, List.mem_cons_of_mem _ hs, hg⟩
  cases h : (altShape as).stickyMiss with
  | none => exact .inl rfl
  | some x =>
    cases x with
    | true => rw [ht (h1 as h)]; exact .inr rfl
    | false => rw [hf (h2 as h)]; exact .inr rfl

theorem alt_true {as : List Shape} (h : (altShape as).stickyMiss = some true) (h' : (altShape as).stickyHit = some true) :
    ∀ s ∈ as, s.stickyMiss = some true ∧ s.stickyHit = some true := by
  induction as with
  | nil => intro s hs; cases hs
  | cons a as ih =>
    simp only [altShape] at h'
    split at h'
    · cases h'
    · split at h'
      · rename_i hc
        intro s hs
        rcases List.mem_cons.1 hs with rfl | hs
        · exact ⟨hc.1, hc.2.1⟩
        · exact ih hc.2.2.1 hc.2.2.2 s hs
      · cases h'

theorem alt_hit {as : List Shape} {b : Bool}
    (ht : (∀ s ∈ as, s.stickyMiss = some true ∧ s.stickyHit = some true) → b = true)
    (hf : (∃ s, as.head? = some s ∧ s.stickyMiss = some false ∧ s.stickyHit = some false) → b = false) (hne : as ≠ []) :
    Agrees (altShape as).stickyHit b := by
  cases as with
  | nil => exact absurd rfl hne
  | cons a as =>
    simp only [altShape]
    split
    · rename_i hc
      rw [hf ⟨a, rfl, hc.1, hc.2⟩]; exact .inr rfl
    · split
      · rename_i hc
        rw [ht]
        · exact .inr rfl
        · intro s hs
          rcases List.mem_cons.1 hs with rfl | hs
          · exact ⟨hc.1, hc.2.1⟩
          · exact alt_true hc.2.2.1 hc.2.2.2 s hs
      · exact .inl rfl

/-- Related one by one. -/
inductive Each {α β : Type} (R : α → β → Prop) : List α → List β → Prop where
  | nil : Each R [] []
  | cons {a : α} {b : β} {as : List α} {bs : List β} : R a b → Each R as bs → Each R (a :: as) (b :: bs)

/-- It can match something here. -/
def Can (s : Shape) (l : List Rune) : Prop := begins s.first l = true ∨ (s.eof = true ∧ blanks l = l.length)

theorem exclusive_cons {a : Shape} {as : List Shape} (h : exclusive (a :: as) = true) :
    a.null = false ∧ exclusive as = true ∧ ∀ s ∈ as, a.first.apart s.first = true ∧ a.first.apart s.deep0 = true ∧
      s.first.apart a.deep0 = true ∧ (a.eof = true → s.eof = true → False) := by
  simp only [exclusive, Bool.and_eq_true, Bool.not_eq_true', List.all_eq_true] at h
  refine ⟨h.1.1, h.2, fun s hs => ?_⟩
  obtain ⟨⟨⟨h1, h2⟩, h3⟩, h4⟩ := h.1.2 s hs
  refine ⟨h1, h2, h3, fun e1 e2 => ?_⟩
  simp [e1, e2] at h4

theorem exclusive_append {as bs : List Shape} (h : exclusive (as ++ bs) = true) :
    exclusive as = true ∧ exclusive bs = true ∧ ∀ a ∈ as, ∀ s ∈ bs, s.first.apart a.deep0 = true := by
  induction as with
  | nil => exact ⟨rfl, h, fun a ha => absurd ha (by simp)⟩
  | cons a as ih =>
    obtain ⟨h1, h2, h3⟩ := exclusive_cons h
    obtain ⟨i1, i2, i3⟩ := ih h2
    refine ⟨?_, i2, fun x hx s hs => ?_⟩
    · simp only [List.cons_append, exclusive, Bool.and_eq_true, Bool.not_eq_true', List.all_eq_true] at h ⊢
      exact ⟨⟨h.1.1, fun s hs => h.1.2 s (List.mem_append_left _ hs)⟩, i1⟩
    · rcases List.mem_cons.1 hx with rfl | hx
      · exact (h3 s (List.mem_append_right _ hs)).2.2.1
      · exact i3 x hx s hs

/-- The first alternative that matches excludes the others. -/
theorem excluded {a : Shape} {as : List Shape} (h : exclusive (a :: as) = true) {l : List Rune} (hc : Can a l) :
    ∀ s ∈ as, ¬ Can s l ∧ begins s.deep0 l = false := by
  intro s hs
  obtain ⟨h1, h2, h3, h4⟩ := (exclusive_cons h).2.2 s hs
  rcases hc with hb | ⟨he, hl⟩
  · refine ⟨?_, begins_apart h2 hb⟩
    rintro (g | ⟨_, g⟩)
    · rw [begins_apart h1 hb] at g; cases g
    · have := begins_blanks hb; omega
  · refine ⟨?_, begins_all_blank hl⟩
    rintro (g | ⟨g, _⟩)
    · rw [begins_all_blank hl] at g; cases g
    · exact h4 he g

/-- Where an alternative matches, those before it look no farther than the match. -/
theorem before {a s : Shape} (h : s.first.apart a.deep0 = true) {l : List Rune} (hc : Can s l) : begins a.deep0 l = false := by
  rcases hc with hb | ⟨_, hl⟩
  · exact begins_apart h hb
  · exact begins_all_blank hl

theorem Hit.can {s : Shape} {l : List Rune} {u n : Nat} (h : Hit s l u n) : Can s l := by
  rcases h.1 with ⟨h, _⟩ | ⟨h1, h2, _⟩
  · exact .inl h
  · exact .inr ⟨h1, h2⟩

theorem Hit.far {s : Shape} {l : List Rune} {u n : Nat} (h : Hit s l u n) (k : Look) : k.at_ l ≤ u := by
  have := at_top k l
  rcases h.1 with ⟨_, h, _⟩ | ⟨_, _, h, _⟩ <;> omega

/-- No alternative matched. -/
structure AllMiss (as : List Shape) (l : List Rune) (look look' : Nat) (sticky sticky' : Bool) : Prop where
  mono : look ≤ look'
  lo : ∀ s ∈ as, s.lo.at_ l ≤ look'
  hi : look' ≤ look ∨ ∃ s ∈ as, look' ≤ s.hi.at_ l ∨ begins s.deep0 l = true
  sticky : ∃ b, sticky' = (sticky && b) ∧ ((∀ s ∈ as, s.stickyMiss = some true) → b = true) ∧
    ((∃ s ∈ as, s.stickyMiss = some false) → b = false)

/-- One alternative matched. -/
structure OneHit (as : List Shape) (l : List Rune) (look u look' : Nat) (sticky sticky' : Bool) : Prop where
  can : ∃ s ∈ as, (begins s.first l = true ∧ blanks l + 1 ≤ u ∧ u ≤ l.length) ∨
    (s.eof = true ∧ blanks l = l.length ∧ u = l.length ∧ l.length ≤ s.hi.at_ l)
  le : u ≤ look'
  lag : look' ≤ look ∨ ∃ s ∈ as, look' ≤ u + s.lag.at_ (l.drop u) ∨ begins s.deep (l.drop u) = true
  sticky : ∃ b, sticky' = (sticky && b) ∧
    ((∀ s ∈ as, s.stickyMiss = some true ∧ s.stickyHit = some true) → b = true) ∧
    ((∃ s, as.head? = some s ∧ s.stickyMiss = some false ∧ s.stickyHit = some false) → b = false)

theorem OneHit.canDo {as : List Shape} {l : List Rune} {look u look' : Nat} {sticky sticky' : Bool}
    (h : OneHit as l look u look' sticky sticky') : ∃ s ∈ as, Can s l ∧ ∀ k : Look, k.at_ l ≤ u := by
  obtain ⟨s, hs, hc⟩ := h.can
  refine ⟨s, hs, ?_, fun k => ?_⟩
  · rcases hc with ⟨h, _⟩ | ⟨h1, h2, _⟩
    · exact .inl h
    · exact .inr ⟨h1, h2⟩
  · have := at_top k l
    rcases hc with ⟨_, h, _⟩ | ⟨_, _, h, _⟩ <;> omega

def AltsFit (as : List Shape) (l : List Rune) (look : Nat) (sticky : Bool) : Alts → Prop
  | .oof => True
  | .risky => False
  | .ok hits look' sticky' =>
    (hits = [] ∧ AllMiss as l look look' sticky sticky') ∨
      ∃ nd u st, hits = [(nd, u, st)] ∧ OneHit as l look u look' sticky sticky'

/-- No alternative can match. -/
theorem altsAt_miss {run : Runner} {flag : Int} {l : List Rune} {rs : List Rule} {as : List Shape}
    (h : Each (fun r a => Fits a l (run r flag l)) rs as)
    (hc : ∀ s ∈ as, s.null = false ∧ ¬ Can s l) (look : Nat) (sticky : Bool) :
    altsAt run flag l rs look sticky = .oof ∨
      ∃ look' sticky', altsAt run flag l rs look sticky = .ok [] look' sticky' ∧ AllMiss as l look look' sticky sticky' := by
  induction h generalizing look sticky with
  | nil => exact .inr ⟨_, _, rfl, Nat.le_refl _, by simp, .inl (Nat.le_refl _), true, by simp⟩
  | @cons r a rs as hf _ ih =>
    rw [altsAt]
    generalize run r flag l = x at hf
    cases x with
    | oof => exact .inl rfl
    | risky => exact hf.elim
    | ambiguous => exact hf.elim
    | hit nd u n st =>
      have := hc a (List.mem_cons_self ..)
      rcases hf with ⟨h1, _⟩ | ⟨h1, _⟩
      · rw [this.1] at h1; cases h1
      · exact absurd h1.can this.2
    | fail n st =>
      obtain ⟨_, hm, hag⟩ := hf
      rcases ih (fun s hs => hc s (List.mem_cons_of_mem _ hs)) (max look n) (sticky && st) with h | ⟨look', sticky', h, hall⟩
      · exact .inl h
      · refine .inr ⟨look', sticky', h, ?_⟩
        obtain ⟨m1, m2, m3, b, hb1, hb2, hb3⟩ := hall
        refine ⟨by omega, fun s hs => ?_, ?_, st && b, by rw [hb1, Bool.and_assoc], fun ht => ?_, fun hf => ?_⟩
        · rcases List.mem_cons.1 hs with rfl | hs
          · have := hm.1; omega
          · exact m2 s hs
        · rcases m3 with h | ⟨s, hs, h⟩
          · by_cases hl : look' ≤ look
            · exact .inl hl
            · refine .inr ⟨a, List.mem_cons_self .., hm.2.imp (fun h => by omega) id⟩
          · exact .inr ⟨s, List.mem_cons_of_mem _ hs, h⟩
        · have e := ht a (List.mem_cons_self ..)
          rw [e] at hag
          rw [agrees_true hag, hb2 fun s hs => ht s (List.mem_cons_of_mem _ hs)]; rfl
        · obtain ⟨s, hs, e⟩ := hf
          rcases List.mem_cons.1 hs with rfl | hs
          · rw [e] at hag; rw [agrees_false hag]; rfl
          · rw [hb3 ⟨s, hs, e⟩, Bool.and_false]

theorem altsAt_fits {run : Runner} {flag : Int} {l : List Rune} {rs : List Rule} {as : List Shape}
    (h : Each (fun r a => Fits a l (run r flag l)) rs as)
    (he : exclusive as = true) (look : Nat) (sticky : Bool) : AltsFit as l look sticky (altsAt run flag l rs look sticky) := by
  induction h generalizing look sticky with
  | nil => exact .inl ⟨rfl, Nat.le_refl _, by simp, .inl (Nat.le_refl _), true, by simp⟩
  | @cons r a rs as hf hrest ih =>
    obtain ⟨hn, he', hx⟩ := exclusive_cons he
    rw [altsAt]
    generalize hrun : run r flag l = x at hf
    cases x with
    | oof => trivial
    | risky => exact hf.elim
    | ambiguous => exact hf.elim
    | hit nd u n st =>
      rcases hf with ⟨h1, _⟩ | ⟨hit, hag, _⟩
      · rw [hn] at h1; cases h1
      have hout := excluded he hit.can
      have hnull : ∀ s ∈ as, s.null = false ∧ ¬ Can s l := by
        intro s hs
        refine ⟨?_, (hout s hs).1⟩
        clear ih hrest hx hout
        induction as with
        | nil => cases hs
        | cons a' as' ih' =>
          obtain ⟨g1, g2, _⟩ := exclusive_cons he'
          rcases List.mem_cons.1 hs with rfl | hs
          · exact g1
          · refine ih' ?_ g2 hs
            simp only [exclusive, Bool.and_eq_true, Bool.not_eq_true', List.all_eq_true] at he ⊢
            exact ⟨⟨he.1.1, fun s hs => he.1.2 s (List.mem_cons_of_mem _ hs)⟩, he.2.2⟩
      rcases altsAt_miss hrest hnull (max look n) (sticky && st) with h | ⟨look', sticky', h, m1, m2, m3, b, hb1, hb2, hb3⟩
      · simp only [h]; trivial
      · simp only [h]
        refine .inr ⟨nd, u, st, rfl, ⟨a, List.mem_cons_self .., hit.1⟩, by have := hit.2.1; omega, ?_,
          st && b, by rw [hb1, Bool.and_assoc], fun ht => ?_, fun hf => ?_⟩
        · have hle : look' ≤ max look n ∨ look' ≤ u := by
            rcases m3 with h | ⟨s, hs, h⟩
            · exact .inl h
            · rcases h with h | h
              · have := hit.far s.hi; exact .inr (by omega)
              · rw [(hout s hs).2] at h; cases h
          by_cases hl : look' ≤ look
          · exact .inl hl
          · refine .inr ⟨a, List.mem_cons_self .., ?_⟩
            rcases hit.2.2 with h | h
            · left; have := hit.2.1; omega
            · exact .inr h
        · have e := ht a (List.mem_cons_self ..)
          rw [e.2] at hag
          rw [agrees_true hag, hb2 fun s hs => (ht s (List.mem_cons_of_mem _ hs)).1]; rfl
        · obtain ⟨s, hs, e1, e2⟩ := hf
          have : a = s := by simpa using hs
          subst this
          rw [e2] at hag; rw [agrees_false hag]; rfl
    | fail n st =>
      obtain ⟨_, hm, hag⟩ := hf
      have := ih he' (max look n) (sticky && st)
      show AltsFit (a :: as) l look sticky (altsAt run flag l rs (max look n) (sticky && st))
      generalize altsAt run flag l rs (max look n) (sticky && st) = y at this
      cases y with
      | oof => trivial
      | risky => exact this
      | ok hits look' sticky' =>
        rcases this with ⟨h0, m1, m2, m3, b, hb1, hb2, hb3⟩ | ⟨nd, u, st', h0, hone⟩
        · refine .inl ⟨h0, by omega, fun s hs => ?_, ?_, st && b, by rw [hb1, Bool.and_assoc], fun ht => ?_, fun hf => ?_⟩
          · rcases List.mem_cons.1 hs with rfl | hs
            · have := hm.1; omega
            · exact m2 s hs
          · rcases m3 with h | ⟨s, hs, h⟩
            · by_cases hl : look' ≤ look
              · exact .inl hl
              · refine .inr ⟨a, List.mem_cons_self .., hm.2.imp (fun h => by omega) id⟩
            · exact .inr ⟨s, List.mem_cons_of_mem _ hs, h⟩
          · have e := ht a (List.mem_cons_self ..)
            rw [e] at hag
            rw [agrees_true hag, hb2 fun s hs => ht s (List.mem_cons_of_mem _ hs)]; rfl
          · obtain ⟨s, hs, e⟩ := hf
            rcases List.mem_cons.1 hs with rfl | hs
            · rw [e] at hag; rw [agrees_false hag]; rfl
            · rw [hb3 ⟨s, hs, e⟩, Bool.and_false]
        · obtain ⟨s, hs, hcan, hfar⟩ := hone.canDo
          have hnu : n ≤ u := by
            rcases hm.2 with h | h
            · have := hfar a.hi; omega
            · rw [before (hx s hs).2.2.1 hcan] at h; cases h
          obtain ⟨⟨s1, hs1, h1⟩, h2, h3, b, hb1, hb2, hb3⟩ := hone
          refine .inr ⟨nd, u, st', h0, ⟨s1, List.mem_cons_of_mem _ hs1, h1⟩, h2, ?_,
            st && b, by rw [hb1, Bool.and_assoc], fun ht => ?_, fun hf => ?_⟩
          · rcases h3 with h3 | ⟨s2, hs2, h3⟩
            · by_cases hl : look' ≤ look
              · exact .inl hl
              · exact .inr ⟨s, List.mem_cons_of_mem _ hs, .inl (by omega)⟩
            · exact .inr ⟨s2, List.mem_cons_of_mem _ hs2, h3⟩
          · have e := ht a (List.mem_cons_self ..)
            rw [e.1] at hag
            rw [agrees_true hag, hb2 fun s hs => ht s (List.mem_cons_of_mem _ hs)]; rfl
          · obtain ⟨s, hs, e1, e2⟩ := hf
            have : a = s := by simpa using hs
            subst this
            rw [e1] at hag; rw [agrees_false hag]; rfl

/-- The answer of a choice, some groups having been tried. -/
def ChoiceFit (as : List Shape) (l : List Rune) (look : Nat) (sticky : Bool) : Ans → Prop
  | .oof => True
  | .risky => False
  | .ambiguous _ => False
  | .fail n st => AllMiss as l look n sticky st
  | .hit nd u n st => nd.ruleType = .choice ∧ OneHit as l look u n sticky st

theorem best_one (h : Node × Nat × Bool) : best [h] = .one h.1 h.2.1 h.2.2 := by
  simp [best, longest, runningTie]

theorem choiceAt_fits {run : Runner} {b : RuleBase} {flag : Int} {l : List Rune} (gs : List (List Rule)) :
    ∀ (ass : List (List Shape)), Each (fun rs as => Each (fun r a => Fits a l (run r flag l)) rs as) gs ass →
      exclusive ass.flatten = true → ∀ (look : Nat) (sticky : Bool), ChoiceFit ass.flatten l look sticky (choiceAt run b flag l gs look sticky) := by
  induction gs with
  | nil =>
    intro ass h _ look sticky
    cases h
    exact ⟨Nat.le_refl _, by simp, .inl (Nat.le_refl _), true, by simp⟩
  | cons g gs ih =>
    intro ass h he look sticky
    cases h with
    | @cons _ as _ ass hg hgs =>
    rw [List.flatten_cons] at he ⊢
    obtain ⟨he1, he2, hx⟩ := exclusive_append he
    have hal := altsAt_fits hg he1 look sticky
    rw [choiceAt]
    generalize altsAt run flag l g look sticky = y at hal
    cases y with
    | oof => trivial
    | risky => exact hal
    | ok hits look' sticky' =>
      rcases hal with ⟨h0, m1, m2, m3, c, hc1, hc2, hc3⟩ | ⟨nd, u, st', h0, hone⟩
      · subst h0
        have hb : best [] = .none := rfl
        simp only [hb]
        have := ih ass hgs he2 look' sticky'
        generalize choiceAt run b flag l gs look' sticky' = z at this
        cases z with
        | oof => trivial
        | risky => exact this
        | ambiguous => exact this
        | fail n st =>
          obtain ⟨n1, n2, n3, d, hd1, hd2, hd3⟩ := this
          refine ⟨by omega, fun s hs => ?_, ?_, c && d, by rw [hd1, hc1, Bool.and_assoc], fun ht => ?_, fun hf => ?_⟩
          · rcases List.mem_append.1 hs with hs | hs
            · have := m2 s hs; omega
            · exact n2 s hs
          · rcases n3 with h | ⟨s, hs, h⟩
            · rcases m3 with h' | ⟨s, hs, h'⟩
              · exact .inl (by omega)
              · exact .inr ⟨s, List.mem_append_left _ hs, h'.imp (fun h => by omega) id⟩
            · exact .inr ⟨s, List.mem_append_right _ hs, h⟩
          · rw [hc2 fun s hs => ht s (List.mem_append_left _ hs), hd2 fun s hs => ht s (List.mem_append_right _ hs)]; rfl
          · obtain ⟨s, hs, e⟩ := hf
            rcases List.mem_append.1 hs with hs | hs
            · rw [hc3 ⟨s, hs, e⟩]; rfl
            · rw [hd3 ⟨s, hs, e⟩, Bool.and_false]
        | hit nd u n st =>
          obtain ⟨hnd, hone⟩ := this
          obtain ⟨s, hs, hcan, hfar⟩ := hone.canDo
          obtain ⟨⟨s1, hs1, h1⟩, h2, h3, d, hd1, hd2, hd3⟩ := hone
          refine ⟨hnd, ⟨s1, List.mem_append_right _ hs1, h1⟩, h2, ?_, c && d, by rw [hd1, hc1, Bool.and_assoc], fun ht => ?_,
            fun hf => ?_⟩
          · rcases h3 with h3 | ⟨s2, hs2, h3⟩
            · rcases m3 with h' | ⟨s', hs', h'⟩
              · exact .inl (by omega)
              · rcases h' with h' | h'
                · have := hfar s'.hi
                  exact .inr ⟨s, List.mem_append_right _ hs, .inl (by omega)⟩
                · rw [before (hx s' hs' s hs) hcan] at h'; cases h'
            · exact .inr ⟨s2, List.mem_append_right _ hs2, h3⟩
          · rw [hc2 fun s hs => (ht s (List.mem_append_left _ hs)).1, hd2 fun s hs => ht s (List.mem_append_right _ hs)]; rfl
          · obtain ⟨s, hs, e1, e2⟩ := hf
            cases as with
            | nil => rw [hd3 ⟨s, hs, e1, e2⟩, Bool.and_false]
            | cons a as =>
              have : a = s := by simpa using hs
              subst this
              rw [hc3 ⟨a, List.mem_cons_self .., e1⟩]; rfl
      · subst h0
        simp only [best_one]
        obtain ⟨⟨s1, hs1, h1⟩, h2, h3, d, hd1, hd2, hd3⟩ := hone
        refine ⟨rfl, ⟨s1, List.mem_append_left _ hs1, h1⟩, h2, ?_, d, hd1, fun ht => ?_, fun hf => ?_⟩
        · exact h3.imp id (fun ⟨s, hs, h⟩ => ⟨s, List.mem_append_left _ hs, h⟩)
        · exact hd2 fun s hs => ht s (List.mem_append_left _ hs)
        · obtain ⟨s, hs, e⟩ := hf
          cases as with
          | nil => cases hs1
          | cons a as => exact hd3 ⟨s, by simpa using hs, e⟩

theorem choice_fits {as : List Shape} {l : List Rune} {x : Ans} (h : ChoiceFit as l 0 true x) : Fits (altShape as) l x := by
  cases x with
  | oof => trivial
  | risky => exact h
  | ambiguous => exact h
  | fail n st =>
    obtain ⟨_, h2, h3, b, hb1, hb2, hb3⟩ := h
    refine ⟨alt_null as, ⟨alt_lo h2, ?_⟩, ?_⟩
    · rcases h3 with h | ⟨s, hs, h⟩
      · exact .inl (by omega)
      · have := alt_hi hs l
        exact h.imp (fun h => by omega) (alt_deep0 hs)
    · rw [hb1, Bool.true_and]; exact alt_miss hb2 hb3
  | hit nd u n st =>
    obtain ⟨hnd, ⟨s, hs, h1⟩, h2, h3, b, hb1, hb2, hb3⟩ := h
    refine .inr ⟨⟨?_, h2, ?_⟩, ?_, by simp [emptyOption, hnd]⟩
    · have := alt_hi hs l
      rcases h1 with ⟨h, h'⟩ | ⟨h, h', h'', h3⟩
      · exact .inl ⟨alt_first hs h, h'⟩
      · exact .inr ⟨alt_eof hs h, h', h'', by omega⟩
    · rcases h3 with h | ⟨s', hs', h⟩
      · exact .inl (by omega)
      · have := alt_lag hs' (l.drop u)
        exact h.imp (fun h => by omega) (alt_deep hs')
    · rw [hb1, Bool.true_and]
      exact alt_hit hb2 hb3 (fun h => by rw [h] at hs; cases hs)

end Shape
end Xbnf.Spec
