import Verif.Lemmas.Sim
import Verif.Spec.AnyStream
/-
An implementation of `ICharstream` that gives the answers of `CharstreamString`, cursors and positions included, is evaluated as
`CharstreamString` is, errors and positions included.
-/
namespace Xbnf
namespace G
open Spec (Answers)

variable {σ : Type} {I : Impl σ} {R : σ → Base → Prop} {w : Nat}

/-- The same layers over streams that answer the same. -/
inductive GR (w : Nat) (R : σ → Base → Prop) : GStream σ → Stream → Prop
  | base {b c} (h : R b c) (hw : (Stream.base c).size ≤ w) : GR w R (.base b) (.base c)
  | pre {p k u u'} (h : GR w R u u') : GR w R (.pre p k u) (.pre p k u')

/-- The same result, and streams that go on alike. -/
abbrev RX (w : Nat) (R : σ → Base → Prop) {α : Type} : α × GStream σ → α × Stream → Prop := fun x y => x.1 = y.1 ∧ GR w R x.2 y.2

theorem GR.pushBack {gs : GStream σ} {s : Stream} (h : GR w R gs s) (p : List Rune) : GR w R (gs.pushBack p) (s.pushBack p) := by
  unfold GStream.pushBack Stream.pushBack
  split
  · exact h
  · exact .pre h

theorem GR.popBack {gs : GStream σ} {s : Stream} (h : GR w R gs s) (p : List Rune) : GR w R (gs.popBack p) (s.popBack p) := by
  unfold GStream.popBack Stream.popBack
  split
  · exact h
  · cases h with
    | base h hw => exact .base h hw
    | pre h => exact h

theorem GR.peek (hI : Answers I R) {gs : GStream σ} {s : Stream} (h : GR w R gs s) : (gs.peek I).1 = s.peek ∧ GR w R (gs.peek I).2 s := by
  induction h with
  | base h hw => exact ⟨(hI.peek _ _ h).1, .base (hI.peek _ _ h).2 hw⟩
  | @pre p k u u' h ih =>
    simp only [GStream.peek, Stream.peek]
    split
    · exact ⟨rfl, .pre h⟩
    · exact ⟨ih.1, .pre ih.2⟩

theorem base_next_size (c : Base) : (Stream.base c.next.2).size ≤ (Stream.base c).size := by
  unfold Base.next
  split
  · exact Nat.le_refl _
  · simp only [Stream.size]; omega

theorem GR.next (hI : Answers I R) {gs : GStream σ} {s : Stream} (h : GR w R gs s) :
    (gs.next I).1 = s.next.1 ∧ GR w R (gs.next I).2 s.next.2 := by
  induction h with
  | base h hw => exact ⟨(hI.next _ _ h).1, .base (hI.next _ _ h).2 (Nat.le_trans (base_next_size _) hw)⟩
  | @pre p k u u' h ih =>
    simp only [GStream.next, Stream.next]
    split
    · exact ⟨rfl, .pre h⟩
    · exact ⟨ih.1, .pre ih.2⟩

theorem GR.cursor (hI : Answers I R) {gs : GStream σ} {s : Stream} (h : GR w R gs s) : (gs.cursor I).1 = s.cursor ∧ GR w R (gs.cursor I).2 s := by
  induction h with
  | base h hw => exact ⟨(hI.cursor _ _ h).1, .base (hI.cursor _ _ h).2 hw⟩
  | @pre p k u u' h ih =>
    simp only [GStream.cursor, Stream.cursor]
    exact ⟨by rw [ih.1], .pre ih.2⟩

theorem GR.positionLookup (hI : Answers I R) (idx : Int) {gs : GStream σ} {s : Stream} (h : GR w R gs s) :
    (gs.positionLookup I idx).1 = s.positionLookup idx ∧ GR w R (gs.positionLookup I idx).2 s := by
  induction h with
  | base h hw => exact ⟨(hI.positionLookup _ _ idx h).1, .base (hI.positionLookup _ _ idx h).2 hw⟩
  | @pre p k u u' h ih =>
    simp only [GStream.positionLookup, Stream.positionLookup]
    exact ⟨ih.1, .pre ih.2⟩

theorem base_position_size (c : Base) : (Stream.base c.position.2).size = (Stream.base c).size := by
  unfold Base.position
  split
  · rfl
  · split <;> rfl

theorem GR.position (hI : Answers I R) {gs : GStream σ} {s : Stream} (h : GR w R gs s) :
    (gs.position I).1 = s.position.1 ∧ GR w R (gs.position I).2 s.position.2 := by
  induction h with
  | base h hw =>
    exact ⟨(hI.position _ _ h).1, .base (hI.position _ _ h).2 (by rw [base_position_size]; exact hw)⟩
  | @pre p k u u' h ih =>
    simp only [GStream.position, Stream.position]
    split
    · exact ⟨ih.1, .pre ih.2⟩
    · obtain ⟨c1, c2⟩ := h.cursor hI
      rw [c1]
      obtain ⟨q1, q2⟩ := c2.positionLookup hI (u'.cursor - p.length + k)
      exact ⟨q1, .pre q2⟩

theorem size_zero : ∀ {s : Stream}, s.size = 0 → s.peek = EOFChar
  | .base c, h => by
    simp only [Stream.size] at h
    simp only [Stream.peek, Base.peek]
    rw [List.getD_eq_getElem?_getD, List.getElem?_eq_none (by omega)]; rfl
  | .pre p k u, h => by
    simp only [Stream.size] at h
    simp only [Stream.peek]
    rw [if_neg (by omega)]
    exact size_zero (by omega)

theorem size_next : ∀ {s : Stream}, s.peek ≠ EOFChar → s.next.2.size + 1 = s.size
  | .base c, h => by
    have : c.cursor < c.chars.length := by
      false_or_by_contra
      apply h
      simp only [Stream.peek, Base.peek]
      rw [List.getD_eq_getElem?_getD, List.getElem?_eq_none (by omega)]; rfl
    simp only [Stream.next, Base.next]
    rw [if_neg (by omega)]
    simp only [Stream.size]; omega
  | .pre p k u, h => by
    simp only [Stream.peek] at h
    simp only [Stream.next]
    split
    · simp only [Stream.size]; omega
    · rename_i hk
      rw [if_neg hk] at h
      have := size_next h
      simp only [Stream.size]; omega

theorem GR.size {gs : GStream σ} {s : Stream} (h : GR w R gs s) : s.size ≤ gs.left + w := by
  induction h with
  | base h hw => simp only [GStream.left]; omega
  | pre h ih => simp only [GStream.left, Stream.size]; omega

theorem GR.skipLoop (hI : Answers I R) : ∀ (n m : Nat) {gs : GStream σ} {s : Stream}, GR w R gs s → s.size < n → s.size ≤ m →
    SimG (RX w R) (GStream.skipLoop I n gs) (.ok (Stream.skipLoop m s))
  | 0, _, _, _, _, h1, _ => by omega
  | n + 1, 0, gs, s, h, _, h2 => by
    obtain ⟨p1, p2⟩ := h.peek hI
    unfold GStream.skipLoop
    simp only
    rw [p1, if_pos (size_zero (by omega))]
    exact ⟨rfl, p2⟩
  | n + 1, m + 1, gs, s, h, h1, h2 => by
    obtain ⟨p1, p2⟩ := h.peek hI
    unfold GStream.skipLoop Stream.skipLoop
    simp only
    rw [p1]
    by_cases he : s.peek = EOFChar
    · rw [if_pos he, if_pos he]; exact ⟨rfl, p2⟩
    · rw [if_neg he, if_neg he]
      by_cases hw : (!isWhiteSpace s.peek) = true
      · rw [if_pos hw, if_pos hw]; exact ⟨rfl, p2⟩
      · rw [if_neg hw, if_neg hw]
        obtain ⟨q1, q2⟩ := p2.next hI
        have hs := size_next he
        have ih := GR.skipLoop hI n m q2 (by omega) (by omega)
        cases hx : GStream.skipLoop I n (GStream.next I (GStream.peek I gs).2).2 with
        | ok y =>
          rw [hx] at ih
          exact ⟨by rw [q1]; exact congrArg (s.next.1 :: ·) ih.1, ih.2⟩
        | panic => rw [hx] at ih; exact ih.elim
        | oof => rw [hx] at ih; exact ih.elim

theorem base_skip_size (c : Base) : (Stream.base c.skipSpaces.2).size ≤ (Stream.base c).size := by
  unfold Base.skipSpaces
  simp only
  split
  · exact Nat.le_refl _
  · simp only [Stream.size]; omega

theorem GR.skipSpaces (hI : Answers I R) {gs : GStream σ} {s : Stream} (h : GR w R gs s) :
    SimG (RX w R) (gs.skipSpaces I w) (.ok s.skipSpaces) := by
  cases h with
  | base h hw =>
    exact ⟨(hI.skipSpaces _ _ h).1, .base (hI.skipSpaces _ _ h).2 (Nat.le_trans (base_skip_size _) hw)⟩
  | @pre p k u u' h =>
    have h' := GR.pre (p := p) (k := k) h
    exact GR.skipLoop hI _ _ h' (Nat.lt_succ_of_le h'.size) (Nat.le_refl _)

theorem GR.matchLoop (hI : Answers I R) : ∀ (t : List Rune) {gs : GStream σ} {s : Stream}, GR w R gs s →
    (GStream.matchLoop I t gs).1 = (s.matchRunes t).1 ∧ (GStream.matchLoop I t gs).2.1 = (s.matchRunes t).2.1 ∧
      GR w R (GStream.matchLoop I t gs).2.2 (s.matchRunes t).2.2
  | [], _, _, h => ⟨rfl, rfl, h⟩
  | want :: t, gs, s, h => by
    obtain ⟨q1, q2⟩ := h.next hI
    unfold GStream.matchLoop Stream.matchRunes
    simp only
    rw [q1]
    split
    · exact ⟨rfl, rfl, q2⟩
    · split
      · exact ⟨rfl, rfl, q2⟩
      · obtain ⟨a1, a2, a3⟩ := GR.matchLoop hI t q2
        exact ⟨by rw [a1], a2, a3⟩

theorem base_match_size : ∀ (t : List Rune) (s : Stream), (s.matchRunes t).2.2.size ≤ s.size
  | [], _ => Nat.le_refl _
  | want :: t, s => by
    have hn : s.next.2.size ≤ s.size := by
      by_cases h : s.peek = EOFChar
      · clear want t
        induction s with
        | base c => exact base_next_size c
        | pre p k u ih =>
          simp only [Stream.next]
          split
          · simp only [Stream.size]; omega
          · rename_i hk
            simp only [Stream.peek, if_neg hk] at h
            have := ih h
            simp only [Stream.size]; omega
      · have := size_next h; omega
    unfold Stream.matchRunes
    simp only
    split
    · exact hn
    · split
      · exact hn
      · exact Nat.le_trans (base_match_size t _) hn

theorem GR.matchRunes (hI : Answers I R) (t : List Rune) {gs : GStream σ} {s : Stream} (h : GR w R gs s) :
    (gs.matchRunes I t).1 = (s.matchRunes t).1 ∧ (gs.matchRunes I t).2.1 = (s.matchRunes t).2.1 ∧
      GR w R (gs.matchRunes I t).2.2 (s.matchRunes t).2.2 := by
  cases h with
  | @base b c h hw =>
    obtain ⟨c', e, hr⟩ := hI.matchRunes _ _ t h
    have hz := base_match_size t (.base c)
    rw [e] at hz ⊢
    exact ⟨rfl, rfl, .base hr (Nat.le_trans hz hw)⟩
  | pre h => exact GR.matchLoop hI t (.pre h)

/-! ### Terminals -/

theorem skip_exact (hI : Answers I R) (flag : Int) {gs : GStream σ} {s : Stream} (h : GR w R gs s) :
    SimG (RX w R) (skip I w flag gs) (.ok (if flag = SUGGEST_SKIP then s.skipSpaces else ([], s))) := by
  unfold skip
  split
  · exact h.skipSpaces hI
  · exact ⟨rfl, h⟩

theorem failed_exact (hI : Answers I R) (e : Err) (read unused : List Rune) (st : Bool) {gs : GStream σ} {s : Stream} (h : GR w R gs s) :
    SimG (RX w R) (failed I e read unused st gs)
      (.ok (({ error := some e, errIdx := s.cursor, read := read, unused := unused, sticky := st } : Res), s)) := by
  obtain ⟨c1, c2⟩ := h.cursor hI
  unfold failed
  exact ⟨by simp only [c1], c2⟩

/-- A step of the general evaluator that the other makes with a `let`. -/
theorem SimG.step {α β γ δ : Type} {P : α → β → Prop} {Q : γ → δ → Prop} {x : Exec α} {y : β} {f : α → Exec γ} {z : Exec δ}
    (h : SimG P x (.ok y)) (hf : ∀ a, P a y → SimG Q (f a) z) : SimG Q (x >>= f) z := by
  cases x with
  | ok a => exact hf a h
  | panic => exact h.elim
  | oof => exact h.elim

theorem evalEOF_exact (hI : Answers I R) (b : RuleBase) (flag : Int) {gs : GStream σ} {s : Stream} (h : GR w R gs s) :
    SimG (RX w R) (G.evalEOF I w b flag gs) (.ok (Xbnf.evalEOF b flag s)) := by
  unfold G.evalEOF Xbnf.evalEOF
  refine SimG.step (skip_exact hI flag h) ?_
  generalize (if flag = SUGGEST_SKIP then s.skipSpaces else ([], s)) = sk
  rintro ⟨skipped, s1⟩ ⟨e, h1⟩
  simp only at e h1
  subst e
  obtain ⟨p1, p2⟩ := h1.peek hI
  simp only
  rw [p1]
  split
  · obtain ⟨q1, q2⟩ := p2.position hI
    exact ⟨by simp only [q1], q2⟩
  · exact failed_exact hI _ _ _ _ p2

theorem evalChar_exact (hI : Answers I R) (b : RuleBase) (t : Rune) (flag : Int) {gs : GStream σ} {s : Stream} (h : GR w R gs s) :
    SimG (RX w R) (G.evalChar I w b t flag gs) (.ok (Xbnf.evalChar b t flag s)) := by
  unfold G.evalChar Xbnf.evalChar
  obtain ⟨p1, p2⟩ := h.peek hI
  simp only
  rw [p1]
  split
  · exact failed_exact hI _ _ _ _ p2
  · obtain ⟨s1, s2⟩ := p2.position hI
    rw [s1]
    refine SimG.step (skip_exact hI flag s2) ?_
    generalize (if flag = SUGGEST_SKIP then s.position.2.skipSpaces else ([], s.position.2)) = sk
    rintro ⟨skipped, s3⟩ ⟨e, h1⟩
    simp only at e h1
    subst e
    simp only
    split
    · cases sk.1.findIdx? (fun c => c == t) with
      | some i =>
        obtain ⟨c1, c2⟩ := h1.cursor hI
        obtain ⟨l1, l2⟩ := c2.positionLookup hI (sk.2.cursor - sk.1.length + i)
        simp only
        rw [c1]
        exact ⟨by simp only [l1], l2⟩
      | none => exact failed_exact hI _ _ _ _ h1
    · obtain ⟨a1, a2⟩ := h1.peek hI
      rw [a1]
      split
      · exact failed_exact hI _ _ _ _ a2
      · obtain ⟨b1, b2⟩ := a2.position hI
        obtain ⟨d1, d2⟩ := b2.next hI
        exact ⟨by simp only [b1, d1], d2⟩

theorem evalRange_exact (hI : Answers I R) (b : RuleBase) (x y : Rune) (flag : Int) {gs : GStream σ} {s : Stream} (h : GR w R gs s) :
    SimG (RX w R) (G.evalRange I w b x y flag gs) (.ok (Xbnf.evalRange b x y flag s)) := by
  unfold G.evalRange Xbnf.evalRange
  obtain ⟨p1, p2⟩ := h.peek hI
  simp only
  rw [p1]
  split
  · exact failed_exact hI _ _ _ _ p2
  · obtain ⟨c1, c2⟩ := p2.cursor hI
    obtain ⟨l1, l2⟩ := c2.positionLookup hI (s.cursor - 1)
    rw [c1, l1]
    refine SimG.step (skip_exact hI flag l2) ?_
    generalize (if flag = SUGGEST_SKIP then s.skipSpaces else ([], s)) = sk
    rintro ⟨skipped, s3⟩ ⟨e, h1⟩
    simp only at e h1
    subst e
    simp only
    cases sk.1.findIdx? (fun c => decide (x ≤ c) && decide (c ≥ y)) with
    | some i => exact ⟨rfl, h1⟩
    | none =>
      obtain ⟨b1, b2⟩ := h1.position hI
      simp only
      obtain ⟨a1, a2⟩ := b2.peek hI
      rw [a1, b1]
      split
      · obtain ⟨d1, d2⟩ := a2.next hI
        exact ⟨by simp only [d1], d2⟩
      · exact failed_exact hI _ _ _ _ a2

theorem matchText_exact (hI : Answers I R) (t : List Rune) (b : Bool) {gs : GStream σ} {s : Stream} (h : GR w R gs s) :
    SimG (fun x y => x.1 = y.1 ∧ x.2.1 = y.2.1 ∧ x.2.2.1 = y.2.2.1 ∧ GR w R x.2.2.2 y.2.2.2) (G.matchText I w t b gs)
      (.ok (Xbnf.matchText t b s)) := by
  unfold G.matchText Xbnf.matchText
  split
  · refine SimG.step (h.skipSpaces hI) ?_
    rintro ⟨skipped, s1⟩ ⟨e, h1⟩
    simp only at e h1
    subst e
    simp only
    split
    · exact ⟨rfl, rfl, rfl, h1⟩
    · split
      · exact ⟨rfl, rfl, rfl, h1⟩
      · obtain ⟨m1, m2, m3⟩ := h1.matchRunes hI (t.drop (leadingWhiteSpace t).length)
        exact ⟨rfl, by simp only [m1], m2, m3⟩
  · obtain ⟨m1, m2, m3⟩ := h.matchRunes hI t
    exact ⟨rfl, m1, m2, m3⟩

theorem evalChars_exact (hI : Answers I R) (b : RuleBase) (t : List Rune) (flag : Int) {gs : GStream σ} {s : Stream} (h : GR w R gs s) :
    SimG (RX w R) (G.evalChars I w b t flag gs) (.ok (Xbnf.evalChars b t flag s)) := by
  unfold G.evalChars Xbnf.evalChars
  obtain ⟨p1, p2⟩ := h.peek hI
  simp only
  rw [p1]
  split
  · exact failed_exact hI _ _ _ _ p2
  · obtain ⟨s1, s2⟩ := p2.position hI
    obtain ⟨c1, c2⟩ := s2.cursor hI
    rw [s1, c1]
    refine SimG.step (matchText_exact hI t _ c2) ?_
    generalize Xbnf.matchText t _ _ = m
    rintro ⟨skipped, read, found, s3⟩ ⟨e1, e2, e3, h1⟩
    simp only at e1 e2 e3 h1
    subst e1 e2 e3
    simp only
    split
    · obtain ⟨l1, l2⟩ := h1.positionLookup hI (s.position.2.cursor + m.1.length)
      exact ⟨by simp only [l1], l2⟩
    · exact failed_exact hI _ _ _ _ h1

theorem evalString_exact (hI : Answers I R) (b : RuleBase) (t : List Rune) (flag : Int) {gs : GStream σ} {s : Stream} (h : GR w R gs s) :
    SimG (RX w R) (G.evalString I w b t flag gs) (.ok (Xbnf.evalString b t flag s)) := by
  unfold G.evalString Xbnf.evalString
  obtain ⟨p1, p2⟩ := h.peek hI
  simp only
  rw [p1]
  split
  · exact failed_exact hI _ _ _ _ p2
  · obtain ⟨s1, s2⟩ := p2.position hI
    rw [s1]
    refine SimG.step (matchText_exact hI t _ s2) ?_
    generalize Xbnf.matchText t _ _ = m
    rintro ⟨skipped, read, found, s3⟩ ⟨e1, e2, e3, h1⟩
    simp only at e1 e2 e3 h1
    subst e1 e2 e3
    simp only
    split
    · obtain ⟨c1, c2⟩ := h1.cursor hI
      obtain ⟨l1, l2⟩ := c2.positionLookup hI (m.2.2.2.cursor - t.length)
      rw [c1]
      exact ⟨by simp only [l1], l2⟩
    · exact failed_exact hI _ _ _ _ h1

/-! ### Composite rules -/

def EvExact (w : Nat) (R : σ → Base → Prop) (ev : G.Evaluator σ) (ev' : Xbnf.Evaluator) : Prop :=
  ∀ r flag gs s, GR w R gs s → SimG (RX w R) (ev r flag gs) (ev' r flag s)

theorem concatLoop_exact {ev : G.Evaluator σ} {ev' : Xbnf.Evaluator} (hev : EvExact w R ev ev') (self : Rule) (rs : List Rule) (st : SeqState)
    {gs : GStream σ} {s : Stream} (h : GR w R gs s) : SimG (RX w R) (G.concatLoop ev self rs st gs) (Xbnf.concatLoop ev' self rs st s) := by
  induction rs generalizing st gs s with
  | nil => exact ⟨rfl, h⟩
  | cons r rs ih =>
    unfold G.concatLoop Xbnf.concatLoop
    refine SimG.bind (hev r st.flag _ _ (h.pushBack _)) ?_
    rintro ⟨res, cs⟩ ⟨res', cs'⟩ ⟨e, h1⟩
    simp only at e h1
    subst e
    refine SimG.same ?_
    rintro ⟨read, unused⟩
    simp only
    cases res.node with
    | none => exact ⟨rfl, h1.popBack _⟩
    | some n =>
      refine SimG.bind (ih _ h1) ?_
      rintro ⟨out, c⟩ ⟨out', c'⟩ ⟨e, h2⟩
      exact ⟨e, h2.popBack _⟩

theorem popBack_pushBack (s : Stream) (p : List Rune) : (s.pushBack p).popBack p = s := by
  unfold Stream.pushBack Stream.popBack
  split <;> rfl

theorem repLoop_exact (hI : Answers I R) {ev : G.Evaluator σ} {ev' : Xbnf.Evaluator} (hev : EvExact w R ev ev') (r : Rule) (mx fuel : Nat)
    (st : SeqState) {gs : GStream σ} {s : Stream} (h : GR w R gs s) :
    SimG (fun x y => x.1 = y.1 ∧ x.2.1 = y.2.1 ∧ GR w R x.2.2 y.2.2) (G.repLoop I ev r mx fuel st gs) (Xbnf.repLoop ev' r mx fuel st s) := by
  induction fuel generalizing st gs s with
  | zero => trivial
  | succ fuel ih =>
    unfold G.repLoop Xbnf.repLoop
    obtain ⟨p1, p2⟩ := (h.pushBack st.unused).peek hI
    simp only
    rw [p1]
    split
    · have := p2.popBack st.unused
      rw [popBack_pushBack] at this
      exact ⟨rfl, rfl, this⟩
    · refine SimG.bind (hev r st.flag _ _ p2) ?_
      rintro ⟨res, cs⟩ ⟨res', cs'⟩ ⟨e, h1⟩
      simp only at e h1
      subst e
      refine SimG.same ?_
      rintro ⟨read, unused⟩
      simp only
      cases res.node with
      | none => exact ⟨rfl, rfl, h1.popBack _⟩
      | some n =>
        simp only
        split
        · exact ⟨rfl, rfl, h1.popBack _⟩
        · refine SimG.bind (ih _ h1) ?_
          rintro ⟨out, why, c⟩ ⟨out', why', c'⟩ ⟨e1, e2, h2⟩
          exact ⟨e1, e2, h2.popBack _⟩

theorem evalRep_exact (hI : Answers I R) {ev : G.Evaluator σ} {ev' : Xbnf.Evaluator} (hev : EvExact w R ev ev') (fuel : Nat) (b : RuleBase)
    (r : Rule) (mn mx : Nat) (flag : Int) {gs : GStream σ} {s : Stream} (h : GR w R gs s) :
    SimG (RX w R) (G.evalRep I ev fuel b r mn mx flag gs) (Xbnf.evalRep ev' fuel b r mn mx flag s) := by
  unfold G.evalRep Xbnf.evalRep
  refine SimG.bind (repLoop_exact hI hev r mx fuel { flag := flag } h) ?_
  rintro ⟨st, why, c⟩ ⟨st', why', c'⟩ ⟨e1, e2, h2⟩
  simp only at e1 e2 h2
  subst e1 e2
  have hk : (if why.isSome then c.cursor I else (0, c)).1 = (if why.isSome then c'.cursor else 0) ∧
      GR w R (if why.isSome then c.cursor I else (0, c)).2 c' := by
    split
    · exact h2.cursor hI
    · exact ⟨rfl, h2⟩
  simp only
  unfold G.repFinish Xbnf.repFinish
  simp only
  generalize (if why.isSome then c.cursor I else (0, c)) = k at *
  generalize (if why.isSome then c'.cursor else 0) = k0 at *
  split
  · split
    · exact ⟨by simp only [hk.1], hk.2⟩
    · obtain ⟨a1, a2⟩ := hk.2.cursor hI
      exact ⟨by simp only [a1], a2⟩
  · exact ⟨by simp only [hk.1], hk.2⟩

theorem choiceGroup_exact {ev : G.Evaluator σ} {ev' : Xbnf.Evaluator} (hev : EvExact w R ev ev') (flag : Int) (rs : List Rule) (st : ChoiceState)
    {gs : GStream σ} {s : Stream} (h : GR w R gs s) :
    SimG (fun x y => x.1 = y.1 ∧ x.2.1 = y.2.1 ∧ GR w R x.2.2 y.2.2) (G.choiceGroup ev flag rs st gs) (Xbnf.choiceGroup ev' flag rs st s) := by
  induction rs generalizing st gs s with
  | nil => exact ⟨rfl, rfl, h⟩
  | cons r rs ih =>
    unfold G.choiceGroup Xbnf.choiceGroup
    refine SimG.bind (hev r flag _ _ (h.pushBack _)) ?_
    rintro ⟨res, cs⟩ ⟨res', cs'⟩ ⟨e, h1⟩
    simp only at e h1
    subst e
    simp only
    cases res.node with
    | some n =>
      refine SimG.bind (ih _ (h1.popBack _)) ?_
      rintro ⟨ms, st', c⟩ ⟨ms', st'', c'⟩ ⟨e1, e2, h2⟩
      exact ⟨congrArg (res :: ·) e1, e2, h2⟩
    | none =>
      simp only
      split
      · exact ih _ (h1.popBack _)
      · exact ih _ (h1.popBack _)

theorem choiceLoop_exact {ev : G.Evaluator σ} {ev' : Xbnf.Evaluator} (hev : EvExact w R ev ev') (self : Rule) (flag : Int)
    (groups : List (List Rule)) (st : ChoiceState) {gs : GStream σ} {s : Stream} (h : GR w R gs s) :
    SimG (RX w R) (G.choiceLoop ev self flag groups st gs) (Xbnf.choiceLoop ev' self flag groups st s) := by
  induction groups generalizing st gs s with
  | nil => exact ⟨rfl, h⟩
  | cons g groups ih =>
    unfold G.choiceLoop Xbnf.choiceLoop
    refine SimG.bind (choiceGroup_exact hev flag g st h) ?_
    rintro ⟨ms, st', c⟩ ⟨ms', st'', c'⟩ ⟨e1, e2, h2⟩
    simp only at e1 e2 h2
    subst e1 e2
    simp only
    cases pick ms with
    | none => exact ih _ h2
    | ambiguous x y => exact ⟨rfl, h2⟩
    | found r =>
      refine SimG.same ?_
      intro unused
      exact ⟨rfl, h2⟩

theorem greedyLoop_exact {ev : G.Evaluator σ} {ev' : Xbnf.Evaluator} (hev : EvExact w R ev ev') (flag : Int) (rs : List Rule) (m : List Rune)
    {gs : GStream σ} {s : Stream} (h : GR w R gs s) :
    SimG (fun x y => x.1 = y.1 ∧ x.2.1 = y.2.1 ∧ GR w R x.2.2 y.2.2) (G.greedyLoop ev flag rs m gs) (Xbnf.greedyLoop ev' flag rs m s) := by
  induction rs generalizing m gs s with
  | nil => exact ⟨rfl, rfl, h⟩
  | cons r rs ih =>
    unfold G.greedyLoop Xbnf.greedyLoop
    refine SimG.bind (hev r flag _ _ (h.pushBack _)) ?_
    rintro ⟨res, cs⟩ ⟨res', cs'⟩ ⟨e, h1⟩
    simp only at e h1
    subst e
    simp only
    refine SimG.bind (ih _ (h1.popBack _)) ?_
    rintro ⟨ms, mr, c⟩ ⟨ms', mr', c'⟩ ⟨e1, e2, h2⟩
    simp only at e1 e2 h2
    subst e1 e2
    simp only
    split
    · exact ⟨rfl, rfl, h2⟩
    · exact ⟨rfl, rfl, h2⟩

theorem mostGreedy_exact {ev : G.Evaluator σ} {ev' : Xbnf.Evaluator} (hev : EvExact w R ev ev') (flag : Int) (rs : List Rule)
    {gs : GStream σ} {s : Stream} (h : GR w R gs s) : SimG (RX w R) (G.mostGreedy ev flag rs gs) (Xbnf.mostGreedy ev' flag rs s) := by
  unfold G.mostGreedy Xbnf.mostGreedy
  refine SimG.bind (greedyLoop_exact hev flag rs [] h) ?_
  rintro ⟨ms, mr, c⟩ ⟨ms', mr', c'⟩ ⟨e1, e2, h2⟩
  simp only at e1 e2 h2
  subst e1 e2
  simp only
  cases pick ms with
  | none => exact ⟨rfl, h2⟩
  | ambiguous x y => exact ⟨rfl, h2⟩
  | found r =>
    refine SimG.same ?_
    intro unused
    exact ⟨rfl, h2⟩

theorem blockLoop_exact (hI : Answers I R) {ev : G.Evaluator σ} {ev' : Xbnf.Evaluator} (hev : EvExact w R ev ev') (close : Rule)
    (escape : Option Rule) (excludes : List Rule) (fuel : Nat) (st : BlockState) {gs : GStream σ} {s : Stream} (h : GR w R gs s) :
    SimG (RX w R) (G.blockLoop I ev close escape excludes fuel st gs) (Xbnf.blockLoop ev' close escape excludes fuel st s) := by
  induction fuel generalizing st gs s with
  | zero => trivial
  | succ fuel ih =>
    unfold G.blockLoop Xbnf.blockLoop
    refine SimG.bind (P := fun x y => x.1 = y.1 ∧ x.2.1 = y.2.1 ∧ x.2.2.1 = y.2.2.1 ∧ x.2.2.2.1 = y.2.2.2.1 ∧ GR w R x.2.2.2.2 y.2.2.2.2) ?_ ?_
    · cases escape with
      | none => exact ⟨rfl, rfl, rfl, rfl, h⟩
      | some e =>
        refine SimG.bind (hev e NOT_SKIP _ _ h) ?_
        rintro ⟨res, cs⟩ ⟨res', cs'⟩ ⟨e, h1⟩
        simp only at e h1
        subst e
        simp only
        split
        · refine SimG.same ?_
          intro c
          exact ⟨rfl, rfl, rfl, rfl, h1⟩
        · exact ⟨rfl, rfl, rfl, rfl, h1⟩
    rintro ⟨escaped, ec, used, u1, c0⟩ ⟨_, _, _, _, c0'⟩ ⟨e1, e2, e3, e4, h0⟩
    simp only at e1 e2 e3 e4 h0
    subst e1 e2 e3 e4
    simp only
    refine SimG.bind (P := RX w R) ?_ ?_
    · split
      · refine SimG.bind (mostGreedy_exact hev NOT_SKIP excludes (h0.pushBack u1)) ?_
        rintro ⟨res, cs⟩ ⟨res', cs'⟩ ⟨e, h1⟩
        exact ⟨congrArg some e, h1⟩
      · exact ⟨rfl, h0.pushBack u1⟩
    rintro ⟨rx, c1⟩ ⟨_, c1'⟩ ⟨e1, h1⟩
    simp only at e1 h1
    subst e1
    simp only
    cases rx.bind (fun r => r.node.map (fun _ => r)) with
    | some r =>
      refine SimG.same ?_
      intro c
      cases escaped with
      | true =>
        refine SimG.bind (ih _ h1) ?_
        rintro ⟨out, d⟩ ⟨out', d'⟩ ⟨e, h2⟩
        exact ⟨e, h2.popBack _⟩
      | false => exact ⟨rfl, h1.popBack _⟩
    | none =>
      simp only
      refine SimG.bind (hev close NOT_SKIP _ _ (h1.pushBack _)) ?_
      rintro ⟨rc, c2⟩ ⟨_, c2'⟩ ⟨e, h2⟩
      simp only at e h2
      subst e
      simp only
      cases rc.node with
      | some n =>
        refine SimG.same ?_
        intro c
        cases escaped with
        | true =>
          refine SimG.bind (ih _ h2) ?_
          rintro ⟨out, d⟩ ⟨out', d'⟩ ⟨e, h3⟩
          exact ⟨e, (h3.popBack _).popBack _⟩
        | false => exact ⟨rfl, (h2.popBack _).popBack _⟩
      | none =>
        simp only
        obtain ⟨p1, p2⟩ := (h2.pushBack rc.unused).peek hI
        rw [p1]
        split
        · have := p2.popBack rc.unused
          rw [popBack_pushBack] at this
          exact ⟨rfl, (this.popBack _).popBack _⟩
        · obtain ⟨q1, q2⟩ := p2.next hI
          rw [q1]
          refine SimG.bind (ih _ q2) ?_
          rintro ⟨out, d⟩ ⟨out', d'⟩ ⟨e, h3⟩
          exact ⟨e, ((h3.popBack _).popBack _).popBack _⟩

theorem evalBlock_exact (hI : Answers I R) {ev : G.Evaluator σ} {ev' : Xbnf.Evaluator} (hev : EvExact w R ev ev') (fuel : Nat) (b : RuleBase)
    (opn : Rule) (v : Bool) (close : Rule) (escape : Option Rule) (excludes : List Rule) (flag : Int) {gs : GStream σ} {s : Stream}
    (h : GR w R gs s) :
    SimG (RX w R) (G.evalBlock I ev fuel b opn v close escape excludes flag gs) (Xbnf.evalBlock ev' fuel b opn v close escape excludes flag s) := by
  unfold G.evalBlock Xbnf.evalBlock
  refine SimG.bind (hev opn flag _ _ h) ?_
  rintro ⟨ro, c1⟩ ⟨_, c1'⟩ ⟨e, h1⟩
  simp only at e h1
  subst e
  simp only
  cases ro.node with
  | none =>
    obtain ⟨k1, k2⟩ := h1.cursor hI
    exact ⟨by simp only [k1], k2⟩
  | some n =>
    refine SimG.same ?_
    intro used
    obtain ⟨p1, p2⟩ := (h1.pushBack ro.unused).position hI
    rw [p1]
    refine SimG.bind (blockLoop_exact hI hev close escape excludes fuel _ p2) ?_
    rintro ⟨en, c2⟩ ⟨_, c2'⟩ ⟨e, h2⟩
    simp only at e h2
    subst e
    cases en with
    | excluded text read => exact failed_exact hI _ _ _ _ (h2.popBack _)
    | eof used unused => exact failed_exact hI _ _ _ _ (h2.popBack _)
    | closed used unused rc content => exact ⟨rfl, h2.popBack _⟩

theorem eval_exact (hI : Answers I R) (env : Env) (fuel : Nat) : EvExact w R (G.eval I w env fuel) (Xbnf.eval env fuel) := by
  induction fuel with
  | zero => intro r flag gs s h; trivial
  | succ fuel ih =>
    intro r flag gs s h
    cases r with
    | eof b => exact evalEOF_exact hI b flag h
    | char b t u => exact evalChar_exact hI b t flag h
    | range b x xu y yu => exact evalRange_exact hI b x y flag h
    | chars b t => exact evalChars_exact hI b t flag h
    | str b t => exact evalString_exact hI b t flag h
    | group b r =>
      refine SimG.bind (ih r flag _ _ h) ?_
      rintro ⟨res, c⟩ ⟨res', c'⟩ ⟨e, h1⟩
      exact ⟨congrArg (groupRes b) e, h1⟩
    | option b r =>
      refine SimG.bind (ih r flag _ _ h) ?_
      rintro ⟨res, c⟩ ⟨res', c'⟩ ⟨e, h1⟩
      exact ⟨congrArg (optionRes b) e, h1⟩
    | rep b r mn mx => exact evalRep_exact hI ih fuel b r mn mx flag h
    | choice b groups => exact choiceLoop_exact ih _ flag groups {} h
    | concat b rs => exact concatLoop_exact ih _ rs _ h
    | block b o v c e x => exact evalBlock_exact hI ih fuel b o v c e x flag h
    | ref b name =>
      simp only [G.eval, Xbnf.eval]
      cases env name with
      | none => exact ⟨rfl, h⟩
      | some r =>
        refine SimG.bind (ih r flag _ _ h) ?_
        rintro ⟨res, c⟩ ⟨res', c'⟩ ⟨e, h1⟩
        exact ⟨congrArg (refRes b) e, h1⟩

/-! ### Documents -/
open Grammar (Sched RawErr simplify)

theorem rootsLoop_exact (hI : Answers I R) (env : Env) (fuel : Nat) (flag : Int) (rs : List Record) (m : List Rune) {gs : GStream σ} {s : Stream}
    (h : GR w R gs s) :
    SimG (fun x y => x.1 = y.1 ∧ x.2.1 = y.2.1 ∧ GR w R x.2.2 y.2.2) (G.rootsLoop I w env fuel flag rs m gs)
      (Grammar.rootsLoop env fuel flag rs m s) := by
  induction rs generalizing m gs s with
  | nil => exact ⟨rfl, rfl, h⟩
  | cons r rs ih =>
    unfold G.rootsLoop Grammar.rootsLoop
    refine SimG.bind (eval_exact hI env fuel r.rule flag _ _ (h.pushBack _)) ?_
    rintro ⟨res, cs⟩ ⟨res', cs'⟩ ⟨e, h1⟩
    simp only at e h1
    subst e
    simp only
    refine SimG.bind (ih _ h1) ?_
    rintro ⟨ms, mr, c⟩ ⟨ms', mr', c'⟩ ⟨e1, e2, h2⟩
    simp only at e1 e2 h2
    subst e1 e2
    exact ⟨rfl, rfl, h2.popBack _⟩

theorem rawLoop_exact (hI : Answers I R) (env : Env) (fuel : Nat) (roots : List Record) (sch : Sched) (n i : Nat) (nodes : List Node) (flag : Int)
    (unused : List Rune) {gs : GStream σ} {s : Stream} (h : GR w R gs s) :
    SimG (RX w R) (G.rawLoop I w env fuel roots sch n i nodes flag unused gs) (Grammar.rawLoop env fuel roots sch n i nodes flag unused s) := by
  induction n generalizing i nodes flag unused gs s with
  | zero => trivial
  | succ n ih =>
    unfold G.rawLoop Grammar.rawLoop
    obtain ⟨p1, p2⟩ := (h.pushBack unused).peek hI
    simp only
    rw [p1]
    split
    · have := p2.popBack unused
      rw [popBack_pushBack] at this
      exact ⟨rfl, this⟩
    · refine SimG.bind (rootsLoop_exact hI env fuel flag _ [] p2) ?_
      rintro ⟨ms, mr, c⟩ ⟨ms', mr', c'⟩ ⟨e1, e2, h2⟩
      simp only at e1 e2 h2
      subst e1 e2
      simp only
      cases pick (sch.matched i ms) with
      | none => exact ⟨rfl, h2.popBack _⟩
      | ambiguous x y => exact ⟨rfl, h2.popBack _⟩
      | found r =>
        refine SimG.same ?_
        intro u
        exact ih _ _ _ _ (h2.popBack _)

theorem evalRaw_exact (hI : Answers I R) (g : Grammar) (fuel : Nat) (sch : Sched) {gs : GStream σ} {s : Stream} (h : GR w R gs s) :
    SimG (RX w R) (G.evalRaw I w g fuel sch gs) (g.evalRaw fuel sch s) := by
  unfold G.evalRaw Grammar.evalRaw
  obtain ⟨p1, p2⟩ := h.peek hI
  simp only
  rw [p1]
  split
  · exact ⟨rfl, p2⟩
  · exact rawLoop_exact hI _ _ _ _ _ _ _ _ _ p2

theorem evalAST_exact (hI : Answers I R) (g : Grammar) (fuel : Nat) (sch : Sched) (level : Int) {gs : GStream σ} {s : Stream} (h : GR w R gs s) :
    SimG (RX w R) (G.evalAST I w g fuel sch gs level) (g.evalAST fuel sch s level) := by
  unfold G.evalAST Grammar.evalAST
  refine SimG.bind (evalRaw_exact hI g fuel sch h) ?_
  rintro ⟨y, c⟩ ⟨y', c'⟩ ⟨e, h1⟩
  exact ⟨congrArg (Except.map (simplify level)) e, h1⟩

end G
end Xbnf
