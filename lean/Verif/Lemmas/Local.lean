import Verif.Lemmas.Places
import Verif.Spec.Local
/-
What an evaluation does not depend on: the characters beyond the one after the last it consumed.
-/
namespace Xbnf
open Spec L Props

/-! ### Another text under the same cursors -/

/-- The same stream over another text. -/
def Stream.retext (t : List Rune) : Stream → Stream
  | .base b => .base { b with chars := t }
  | .pre p c u => .pre p c (u.retext t)

theorem retext_pushBack (t : List Rune) (s : Stream) (p : List Rune) : (s.pushBack p).retext t = (s.retext t).pushBack p := by
  unfold Stream.pushBack; split <;> rfl

theorem retext_popBack (t : List Rune) (s : Stream) (p : List Rune) : (s.popBack p).retext t = (s.retext t).popBack p := by
  unfold Stream.popBack; split
  · rfl
  · cases s <;> rfl

theorem low_pushBack (s : Stream) (p : List Rune) : (s.pushBack p).low = s.low := by
  unfold Stream.pushBack; split <;> rfl

theorem low_popBack (s : Stream) (p : List Rune) : (s.popBack p).low = s.low := by
  unfold Stream.popBack; split
  · rfl
  · cases s <;> rfl

theorem whole_popBack (s : Stream) (p : List Rune) : (s.popBack p).whole = s.whole := by
  unfold Stream.popBack; split
  · rfl
  · cases s <;> rfl

theorem wf_popBack {s : Stream} (h : s.WF) (p : List Rune) : (s.popBack p).WF := by
  unfold Stream.popBack; split
  · exact h
  · cases s with
    | base b => exact h
    | pre p c u => exact h.2

theorem cursor_retext (t : List Rune) (s : Stream) : (s.retext t).cursor = s.cursor := by
  induction s with
  | base b => rfl
  | pre p c u ih => simp only [Stream.retext, Stream.cursor, ih]

theorem Adv.low {k s s'} (h : Adv k s s') : s.low ≤ s'.low := by
  induction s generalizing k s' with
  | base b =>
    match s', h with
    | .base b', h => simp only [Stream.low, h.2.1]; omega
  | pre p c u ih =>
    match s', h with
    | .pre p' c' u', h => exact ih (s' := u') h.2.2.2

/-! ### Work that looks no further than one character -/

/-- From `s` to `s'` no character beyond the one after those consumed in `s'` is looked at: the
fact `P` about the same work on the other text holds as soon as the texts agree that far. -/
structure Loc (s s' : Stream) (P : List Rune → Prop) : Prop where
  low : s.low ≤ s'.low
  wf : s'.WF
  whole : s'.whole = s.whole
  move : ∀ t, s.whole.take (s'.low + 1) = t.take (s'.low + 1) → P t

theorem take_le {l t : List Rune} {m n : Nat} (h : l.take n = t.take n) (hm : m ≤ n) : l.take m = t.take m := by
  have := congrArg (List.take m) h
  simpa [List.take_take, Nat.min_eq_left hm] using this

theorem Loc.trans {s t u : Stream} {P Q : List Rune → Prop} (h : Loc s t P) (g : Loc t u Q) : Loc s u (fun x => P x ∧ Q x) := by
  refine ⟨Nat.le_trans h.low g.low, g.wf, g.whole.trans h.whole, fun x hx => ⟨?_, ?_⟩⟩
  · exact h.move x (take_le hx (Nat.succ_le_succ g.low))
  · exact g.move x (by rw [h.whole]; exact hx)

theorem Loc.mono {s t : Stream} {P Q : List Rune → Prop} (h : Loc s t P) (hpq : ∀ x, P x → Q x) : Loc s t Q :=
  ⟨h.low, h.wf, h.whole, fun x hx => hpq x (h.move x hx)⟩

theorem Loc.push {s t : Stream} {P : List Rune → Prop} {p : List Rune} (h : Loc (s.pushBack p) t P) : Loc s t P :=
  ⟨by have := h.low; rwa [low_pushBack] at this, h.wf, by have := h.whole; rwa [whole_pushBack] at this,
    fun x hx => h.move x (by rwa [whole_pushBack])⟩

theorem Loc.pop {s t : Stream} {P : List Rune → Prop} (p : List Rune) (h : Loc s t P) : Loc s (t.popBack p) P :=
  ⟨by rw [low_popBack]; exact h.low, wf_popBack h.wf _, by rw [whole_popBack]; exact h.whole,
    fun x hx => h.move x (by rwa [low_popBack] at hx)⟩

theorem Loc.refl {s : Stream} (h : s.WF) : Loc s s (fun _ => True) := ⟨Nat.le_refl _, h, rfl, fun _ _ => trivial⟩

theorem get_of_take {l t : List Rune} {n i : Nat} (h : l.take n = t.take n) (hi : i < n) : l[i]? = t[i]? := by
  have := congrArg (fun x => x[i]?) h
  simpa [List.getElem?_take, hi] using this

theorem getD_of_take {l t : List Rune} {n i : Nat} (h : l.take n = t.take n) (hi : i < n) (d : Rune) : l.getD i d = t.getD i d := by
  rw [List.getD_eq_getElem?_getD, List.getD_eq_getElem?_getD, get_of_take h hi]

theorem ge_of_take {l t : List Rune} {n i : Nat} (h : l.take n = t.take n) (hi : i < n) : (i ≥ l.length ↔ i ≥ t.length) := by
  have := congrArg List.length h
  simp only [List.length_take] at this
  omega

theorem takeWhile_of_take {p : Rune → Bool} : ∀ {l t : List Rune} {n : Nat}, l.take n = t.take n → (l.takeWhile p).length < n →
    t.takeWhile p = l.takeWhile p
  | [], t, n, h, hn => by
    have := ge_of_take h (i := 0) hn
    have ht : t = [] := List.eq_nil_of_length_eq_zero (by simp at this; simp [this])
    rw [ht]
  | c :: l, t, n, h, hn => by
    cases n with
    | zero => omega
    | succ n =>
      cases t with
      | nil => simp at h
      | cons d t =>
        simp only [List.take_succ_cons, List.cons.injEq] at h
        obtain ⟨rfl, h⟩ := h
        simp only [List.takeWhile_cons] at hn ⊢
        cases hp : p c with
        | false => simp
        | true =>
          simp only [hp, if_true, List.length_cons] at hn
          simp only [if_true]
          rw [takeWhile_of_take h (by omega)]

/-! ### The methods -/

theorem peek_loc {s : Stream} (hw : s.WF) : Loc s s (fun t => (s.retext t).peek = s.peek) := by
  refine ⟨Nat.le_refl _, hw, rfl, fun t ht => ?_⟩
  induction s with
  | base b =>
    simp only [Stream.retext, Stream.peek, Base.peek]
    exact (getD_of_take ht (Nat.lt_succ_self _) _).symm
  | pre p c u ih =>
    simp only [Stream.retext, Stream.peek]
    rw [ih hw.2 ht]

theorem next_retext {s : Stream} {t : List Rune} (ht : s.whole.take (s.low + 1) = t.take (s.low + 1)) :
    (s.retext t).next = (s.next.1, s.next.2.retext t) := by
  induction s with
  | base b =>
    simp only [Stream.retext, Stream.next, Base.next]
    have h1 := ge_of_take ht (Nat.lt_succ_self b.cursor)
    have h2 := getD_of_take ht (Nat.lt_succ_self b.cursor) EOFChar
    simp only [Stream.whole] at h1 h2
    by_cases hc : b.cursor ≥ b.chars.length
    · rw [if_pos (h1.1 hc), if_pos hc]
    · rw [if_neg (fun h => hc (h1.2 h)), if_neg hc, ← h2]
  | pre p c u ih =>
    simp only [Stream.retext, Stream.next]
    split
    · rfl
    · rw [ih ht]; rfl

theorem next_adv {s : Stream} (hw : s.WF) : ∃ k, Adv k s s.next.2 := by
  cases hr : s.rem with
  | nil => exact ⟨_, (Stream.next_nil hw hr).2.1⟩
  | cons c l => exact ⟨_, (Stream.next_cons hw hr).2.1⟩

theorem Loc.of_adv {s s' : Stream} {k : Nat} (h : Adv k s s') {P : List Rune → Prop}
    (hp : ∀ t, s.whole.take (s'.low + 1) = t.take (s'.low + 1) → P t) : Loc s s' P :=
  ⟨h.low, h.wf.2, h.whole, hp⟩

theorem next_loc {s : Stream} (hw : s.WF) : Loc s s.next.2 (fun t => (s.retext t).next = (s.next.1, s.next.2.retext t)) := by
  obtain ⟨k, ha⟩ := next_adv hw
  exact .of_adv ha fun t ht => next_retext (take_le ht (Nat.succ_le_succ ha.low))

theorem lookup_loc {s : Stream} (hw : s.WF) (idx : Int) :
    Loc s s (fun t => (s.retext t).positionLookup idx = s.positionLookup idx) := by
  refine ⟨Nat.le_refl _, hw, rfl, fun t ht => ?_⟩
  induction s with
  | base b =>
    simp only [Stream.retext, Stream.positionLookup, Base.positionLookup]
    have hw : b.cursor ≤ b.chars.length := hw
    have h1 : b.cursor ≤ t.length := by
      have := congrArg List.length ht
      simp only [List.length_take, Stream.whole, Stream.low] at this
      omega
    split
    · rfl
    · by_cases hc : idx ≥ b.cursor
      · rw [if_pos (.inl hc), if_pos (.inl hc)]
      · rw [if_neg (by omega), if_neg (by omega)]
  | pre p c u ih =>
    simp only [Stream.retext, Stream.positionLookup]
    exact ih hw.2 ht

theorem position_loc {s : Stream} (hw : s.WF) :
    Loc s s.position.2 (fun t => (s.retext t).position = (s.position.1, s.position.2.retext t)) := by
  have ha := Stream.position_adv hw
  refine .of_adv ha fun t ht => ?_
  replace ht := take_le ht (Nat.succ_le_succ ha.low)
  clear ha
  induction s with
  | base b =>
    simp only [Stream.retext, Stream.position, Base.position]
    have h1 := ge_of_take ht (Nat.lt_succ_self b.cursor)
    have h2 := getD_of_take ht (Nat.lt_succ_self b.cursor) EOFChar
    simp only [Stream.whole] at h1 h2
    by_cases hc : b.cursor ≥ b.chars.length
    · rw [if_pos (h1.1 hc), if_pos hc]
    · rw [if_neg (fun h => hc (h1.2 h)), if_neg hc, ← h2]
      split <;> rfl
  | pre p c u ih =>
    simp only [Stream.retext, Stream.position]
    split
    · rw [ih hw.2 ht]; rfl
    · simp only [Stream.retext, cursor_retext, (lookup_loc hw.2 _).move t ht]

theorem next_size {s : Stream} (h : s.peek ≠ EOFChar) : s.size = s.next.2.size + 1 := by
  induction s with
  | base b =>
    simp only [Stream.peek, Base.peek] at h
    have : b.cursor < b.chars.length := by
      apply Decidable.byContradiction
      intro hc
      exact h (by rw [List.getD_eq_getElem?_getD, List.getElem?_eq_none (by omega)]; rfl)
    simp only [Stream.size, Stream.next, Base.next]
    rw [if_neg (by omega)]
    simp only
    omega
  | pre p c u ih =>
    simp only [Stream.size, Stream.next]
    simp only [Stream.peek] at h
    split at h
    · rename_i hc
      rw [if_pos hc]; simp only [Stream.size]; omega
    · rename_i hc
      rw [if_neg hc]; simp only [Stream.size]; rw [ih h]; omega

theorem skipLoop_loc (n : Nat) {s : Stream} (hw : s.WF) (hn : s.size ≤ n) :
    Loc s (Stream.skipLoop n s).2 (fun t => ∀ m, (s.retext t).size ≤ m →
      Stream.skipLoop m (s.retext t) = ((Stream.skipLoop n s).1, (Stream.skipLoop n s).2.retext t)) := by
  induction n generalizing s with
  | zero =>
    have he : s.peek = EOFChar := by
      apply Decidable.byContradiction
      intro h
      have := next_size h
      omega
    refine (peek_loc hw).mono fun t ht m hm => ?_
    cases m with
    | zero => rfl
    | succ m => simp only [Stream.skipLoop]; rw [if_pos (ht.trans he)]
  | succ n ih =>
    by_cases he : s.peek = EOFChar
    · simp only [Stream.skipLoop]
      rw [if_pos he]
      refine (peek_loc hw).mono fun t ht m hm => ?_
      cases m with
      | zero => rfl
      | succ m => simp only [Stream.skipLoop]; rw [if_pos (ht.trans he)]
    · simp only [Stream.skipLoop]
      rw [if_neg he]
      by_cases hsp : (!isWhiteSpace s.peek) = true
      · rw [if_pos hsp]
        refine (peek_loc hw).mono fun t ht m hm => ?_
        cases m with
        | zero => rfl
        | succ m =>
          simp only [Stream.skipLoop]
          rw [if_neg (by rw [ht]; exact he), if_pos (by rw [ht]; exact hsp)]
      · rw [if_neg hsp]
        have hs := next_size he
        refine ((peek_loc hw).trans ((next_loc hw).trans (ih (next_loc hw).wf (by omega)))).mono ?_
        rintro t ⟨h1, h2, h3⟩ m hm
        have hs' := next_size (s := s.retext t) (by rw [h1]; exact he)
        cases m with
        | zero => omega
        | succ m =>
          simp only [Stream.skipLoop]
          rw [if_neg (by rw [h1]; exact he), if_neg (by rw [h1]; exact hsp), h2]
          rw [h2] at hs'
          simp only at hs' ⊢
          rw [h3 m (by omega)]

theorem skipSpaces_loc {s : Stream} (hw : s.WF) :
    Loc s s.skipSpaces.2 (fun t => (s.retext t).skipSpaces = (s.skipSpaces.1, s.skipSpaces.2.retext t)) := by
  cases s with
  | base b =>
    refine .of_adv (Stream.skipSpaces_spec hw).2 fun t ht => ?_
    have hlow : (Stream.base b).skipSpaces.2.low = b.cursor + ((b.chars.drop b.cursor).takeWhile isWhiteSpace).length := by
      simp only [Stream.skipSpaces, Base.skipSpaces, Stream.low]
      split
      · rename_i h; rw [h]; rfl
      · rfl
    rw [hlow] at ht
    have hd : (b.chars.drop b.cursor).take (((b.chars.drop b.cursor).takeWhile isWhiteSpace).length + 1) =
        (t.drop b.cursor).take (((b.chars.drop b.cursor).takeWhile isWhiteSpace).length + 1) := by
      have := congrArg (List.drop b.cursor) ht
      rw [List.drop_take, List.drop_take] at this
      simp only [Stream.whole] at this
      rwa [show b.cursor + ((b.chars.drop b.cursor).takeWhile isWhiteSpace).length + 1 - b.cursor =
        ((b.chars.drop b.cursor).takeWhile isWhiteSpace).length + 1 by omega] at this
    have ht' := takeWhile_of_take hd (Nat.lt_succ_self _)
    simp only [Stream.retext, Stream.skipSpaces, Base.skipSpaces, ht']
    split <;> rfl
  | pre p c u =>
    exact (skipLoop_loc _ hw (Nat.le_refl _)).mono fun t ht => ht _ (Nat.le_refl _)

theorem skipIf_loc {s : Stream} (hw : s.WF) (flag : Int) :
    Loc s (if flag = SUGGEST_SKIP then s.skipSpaces else ([], s)).2
      (fun t => (if flag = SUGGEST_SKIP then (s.retext t).skipSpaces else ([], s.retext t)) =
        ((if flag = SUGGEST_SKIP then s.skipSpaces else ([], s)).1,
          (if flag = SUGGEST_SKIP then s.skipSpaces else ([], s)).2.retext t)) := by
  split
  · exact skipSpaces_loc hw
  · exact (Loc.refl hw).mono fun _ _ => rfl

theorem matchRunes_loc (text : List Rune) {s : Stream} (hw : s.WF) :
    Loc s (s.matchRunes text).2.2 (fun t => (s.retext t).matchRunes text =
      ((s.matchRunes text).1, (s.matchRunes text).2.1, (s.matchRunes text).2.2.retext t)) := by
  induction text generalizing s with
  | nil => exact (Loc.refl hw).mono fun _ _ => rfl
  | cons w ws ih =>
    have hn := next_loc hw
    simp only [Stream.matchRunes]
    by_cases h1 : s.next.1 = EOFChar
    · simp only [if_pos h1]
      exact hn.mono fun t ht => by rw [ht]; simp only [h1, if_true]
    · simp only [if_neg h1]
      by_cases h2 : s.next.1 ≠ w
      · simp only [if_pos h2]
        exact hn.mono fun t ht => by rw [ht]; simp only [if_neg h1, if_pos h2]
      · simp only [if_neg h2]
        refine (hn.trans (ih hn.wf)).mono ?_
        rintro t ⟨ht, hr⟩
        rw [ht]
        simp only [if_neg h1, if_neg h2, hr]

/-! ### The terminals -/

/-- The result of a function on a stream that always returns, and the same on another text. -/
abbrev Same (f : Stream → Res × Stream) (s : Stream) : Prop :=
  Loc s (f s).2 (fun t => f (s.retext t) = ((f s).1, (f s).2.retext t))

theorem evalEOF_loc (b : RuleBase) (flag : Int) {s : Stream} (hw : s.WF) : Same (evalEOF b flag) s := by
  have h1 := skipIf_loc hw flag
  have h2 := peek_loc h1.wf
  simp only [Same, evalEOF]
  by_cases he : (if flag = SUGGEST_SKIP then s.skipSpaces else ([], s)).2.peek = EOFChar
  · simp only [if_pos he]
    refine (h1.trans (h2.trans (position_loc h1.wf))).mono ?_
    rintro t ⟨e1, e2, e3⟩
    rw [e1]
    simp only
    rw [if_pos (e2.trans he), e3]
  · simp only [if_neg he]
    refine (h1.trans h2).mono ?_
    rintro t ⟨e1, e2⟩
    rw [e1]
    simp only
    rw [if_neg (fun h => he (e2.symm.trans h)), cursor_retext]

theorem evalChar_loc (b : RuleBase) (text : Rune) (flag : Int) {s : Stream} (hw : s.WF) : Same (evalChar b text flag) s := by
  have h0 := peek_loc hw
  simp only [Same, evalChar]
  by_cases he : s.peek = EOFChar
  · simp only [if_pos he]
    refine h0.mono fun t e0 => ?_
    rw [if_pos (e0.trans he), cursor_retext]
  · simp only [if_neg he]
    have hp := position_loc hw
    have h1 := skipIf_loc hp.wf flag
    have hb := h0.trans (hp.trans h1)
    generalize hsk : (if flag = SUGGEST_SKIP then s.position.2.skipSpaces else ([], s.position.2)) = sk at h1 hb ⊢
    obtain ⟨skipped, u⟩ := sk
    have hu : u.WF := h1.wf
    simp only at hb ⊢
    by_cases hc : flag = SUGGEST_SKIP ∧ isWhiteSpace text = true ∧ skipped ≠ []
    · simp only [if_pos hc]
      cases hf : skipped.findIdx? (fun c => c == text) with
      | some i =>
        refine (hb.trans (lookup_loc hu (u.cursor - skipped.length + i))).mono ?_
        rintro t ⟨⟨e0, e1, e2⟩, e3⟩
        rw [if_neg (by rw [e0]; exact he), e1]
        simp only [e2, if_pos hc, hf, cursor_retext, e3]
      | none =>
        refine hb.mono ?_
        rintro t ⟨e0, e1, e2⟩
        rw [if_neg (by rw [e0]; exact he), e1]
        simp only [e2, if_pos hc, hf, cursor_retext]
    · simp only [if_neg hc]
      have h2 := peek_loc hu
      by_cases hm : u.peek ≠ text
      · simp only [if_pos hm]
        refine (hb.trans h2).mono ?_
        rintro t ⟨⟨e0, e1, e2⟩, e3⟩
        rw [if_neg (by rw [e0]; exact he), e1]
        simp only [e2, if_neg hc, e3, if_pos hm, cursor_retext]
      · simp only [if_neg hm]
        have h3 := position_loc hu
        refine (hb.trans (h2.trans (h3.trans (next_loc h3.wf)))).mono ?_
        rintro t ⟨⟨e0, e1, e2⟩, e3, e4, e5⟩
        rw [if_neg (by rw [e0]; exact he), e1]
        simp only [e2, if_neg hc, e3, if_neg hm, e4, e5]

theorem evalRange_loc (b : RuleBase) (x y : Rune) (flag : Int) {s : Stream} (hw : s.WF) : Same (evalRange b x y flag) s := by
  have h0 := peek_loc hw
  simp only [Same, evalRange]
  by_cases he : s.peek = EOFChar
  · simp only [if_pos he]
    refine h0.mono fun t e0 => ?_
    rw [if_pos (e0.trans he), cursor_retext]
  · simp only [if_neg he]
    have h1 := skipIf_loc hw flag
    have hb := (h0.trans (lookup_loc hw (s.cursor - 1))).trans h1
    generalize hsk : (if flag = SUGGEST_SKIP then s.skipSpaces else ([], s)) = sk at h1 hb ⊢
    obtain ⟨skipped, u⟩ := sk
    have hu : u.WF := h1.wf
    simp only at hb ⊢
    cases hf : skipped.findIdx? (fun c => decide (x ≤ c) && decide (c ≥ y)) with
    | some i =>
      refine hb.mono ?_
      rintro t ⟨⟨e0, e1⟩, e2⟩
      rw [if_neg (by rw [e0]; exact he)]
      simp only [e2, hf, cursor_retext, e1]
    | none =>
      have h3 := position_loc hu
      have h4 := peek_loc h3.wf
      by_cases hm : x ≤ u.position.2.peek ∧ u.position.2.peek ≤ y
      · simp only [if_pos hm]
        refine (hb.trans (h3.trans (h4.trans (next_loc h3.wf)))).mono ?_
        rintro t ⟨⟨⟨e0, e1⟩, e2⟩, e3, e4, e5⟩
        rw [if_neg (by rw [e0]; exact he)]
        simp only [e2, hf, cursor_retext, e1, e3, e4, if_pos hm, e5]
      · simp only [if_neg hm]
        refine (hb.trans (h3.trans h4)).mono ?_
        rintro t ⟨⟨⟨e0, e1⟩, e2⟩, e3, e4⟩
        rw [if_neg (by rw [e0]; exact he)]
        simp only [e2, hf, cursor_retext, e3, e4, if_neg hm]

theorem matchText_loc (text : List Rune) (skip : Bool) {s : Stream} (hw : s.WF) :
    Loc s (matchText text skip s).2.2.2 (fun t => matchText text skip (s.retext t) =
      ((matchText text skip s).1, (matchText text skip s).2.1, (matchText text skip s).2.2.1, (matchText text skip s).2.2.2.retext t)) := by
  simp only [matchText]
  cases skip with
  | false =>
    simp only [Bool.false_eq_true, if_false]
    exact (matchRunes_loc text hw).mono fun t ht => by rw [ht]
  | true =>
    simp only [if_true]
    have h1 := skipSpaces_loc hw
    by_cases hc : s.skipSpaces.1.length < (leadingWhiteSpace text).length
    · simp only [if_pos hc]
      exact h1.mono fun t ht => by rw [ht]; simp only [if_pos hc]
    · simp only [if_neg hc]
      by_cases hd : s.skipSpaces.1.drop (s.skipSpaces.1.length - (leadingWhiteSpace text).length) ≠ leadingWhiteSpace text
      · simp only [if_pos hd]
        exact h1.mono fun t ht => by rw [ht]; simp only [if_neg hc, if_pos hd]
      · simp only [if_neg hd]
        refine (h1.trans (matchRunes_loc _ h1.wf)).mono ?_
        rintro t ⟨e1, e2⟩
        rw [e1]
        simp only [if_neg hc, if_neg hd, e2]

theorem evalChars_loc (b : RuleBase) (text : List Rune) (flag : Int) {s : Stream} (hw : s.WF) : Same (evalChars b text flag) s := by
  have h0 := peek_loc hw
  simp only [Same, evalChars]
  by_cases he : s.peek = EOFChar
  · simp only [if_pos he]
    refine h0.mono fun t e0 => ?_
    rw [if_pos (e0.trans he), cursor_retext]
  · simp only [if_neg he]
    have hp := position_loc hw
    have h1 := matchText_loc text (decide (flag = SUGGEST_SKIP)) hp.wf
    have hb := h0.trans (hp.trans h1)
    generalize hsk : matchText text (decide (flag = SUGGEST_SKIP)) s.position.2 = m at h1 hb ⊢
    obtain ⟨skipped, read, ok, u⟩ := m
    have hu : u.WF := h1.wf
    simp only at hb ⊢
    cases ok with
    | true =>
      simp only [if_true]
      refine (hb.trans (lookup_loc hu (s.position.2.cursor + skipped.length))).mono ?_
      rintro t ⟨⟨e0, e1, e2⟩, e3⟩
      rw [if_neg (by rw [e0]; exact he), e1]
      simp only [e2, if_true, cursor_retext, e3]
    | false =>
      simp only [Bool.false_eq_true, if_false]
      refine hb.mono ?_
      rintro t ⟨e0, e1, e2⟩
      rw [if_neg (by rw [e0]; exact he), e1]
      simp only [e2, Bool.false_eq_true, if_false, cursor_retext]

theorem evalString_loc (b : RuleBase) (text : List Rune) (flag : Int) {s : Stream} (hw : s.WF) : Same (evalString b text flag) s := by
  have h0 := peek_loc hw
  simp only [Same, evalString]
  by_cases he : s.peek = EOFChar
  · simp only [if_pos he]
    refine h0.mono fun t e0 => ?_
    rw [if_pos (e0.trans he), cursor_retext]
  · simp only [if_neg he]
    have hp := position_loc hw
    have h1 := matchText_loc text (decide (flag = SUGGEST_SKIP ∨ flag = SUGGEST_NOT_SKIP)) hp.wf
    have hb := h0.trans (hp.trans h1)
    generalize hsk : matchText text (decide (flag = SUGGEST_SKIP ∨ flag = SUGGEST_NOT_SKIP)) s.position.2 = m at h1 hb ⊢
    obtain ⟨skipped, read, ok, u⟩ := m
    have hu : u.WF := h1.wf
    simp only at hb ⊢
    cases ok with
    | true =>
      simp only [if_true]
      refine (hb.trans (lookup_loc hu (u.cursor - text.length))).mono ?_
      rintro t ⟨⟨e0, e1, e2⟩, e3⟩
      rw [if_neg (by rw [e0]; exact he), e1]
      simp only [e2, if_true, cursor_retext, e3]
    | false =>
      simp only [Bool.false_eq_true, if_false]
      refine hb.mono ?_
      rintro t ⟨e0, e1, e2⟩
      rw [if_neg (by rw [e0]; exact he), e1]
      simp only [e2, Bool.false_eq_true, if_false, cursor_retext]

/-! ### The composite rules -/

/-- Whenever the evaluation returns, it has not looked further. -/
def EvLoc (ev : Evaluator) : Prop :=
  ∀ r flag s res s', s.WF → ev r flag s = .ok (res, s') → Loc s s' (fun t => ev r flag (s.retext t) = .ok (res, s'.retext t))

theorem concatLoop_loc {ev : Evaluator} (h : EvLoc ev) (b : Rule) : ∀ {rs : List Rule} {st : SeqState} {s s' : Stream} {res : Res},
    s.WF → concatLoop ev b rs st s = .ok (res, s') →
    Loc s s' (fun t => concatLoop ev b rs st (s.retext t) = .ok (res, s'.retext t))
  | [], st, s, s', res, hw, he => by
    simp only [concatLoop, Exec.ok.injEq, Prod.mk.injEq] at he
    obtain ⟨rfl, rfl⟩ := he
    exact (Loc.refl hw).mono fun _ _ => rfl
  | r :: rs, st, s, s', res, hw, he => by
    simp only [concatLoop] at he
    obtain ⟨⟨r1, cs⟩, h1, he⟩ := Exec.of_bind he
    obtain ⟨⟨read, unused⟩, h2, he⟩ := Exec.of_bind he
    have l1 := h _ _ _ _ _ (Stream.wf_pushBack hw _) h1
    simp only at he
    cases hn : r1.node with
    | none =>
      simp only [hn, Exec.ok.injEq, Prod.mk.injEq] at he
      obtain ⟨rfl, rfl⟩ := he
      refine (l1.push.pop st.unused).mono fun t ht => ?_
      rw [retext_pushBack] at ht
      simp only [concatLoop, ht, Exec.ok_bind, h2, hn, retext_popBack]
    | some n =>
      simp only [hn] at he
      obtain ⟨⟨out, cs'⟩, h3, he⟩ := Exec.of_bind he
      simp only [Exec.ok.injEq, Prod.mk.injEq] at he
      obtain ⟨rfl, rfl⟩ := he
      have l2 := concatLoop_loc h b l1.wf h3
      refine ((l1.push.trans l2).pop st.unused).mono ?_
      rintro t ⟨e1, e2⟩
      rw [retext_pushBack] at e1
      simp only [concatLoop, e1, Exec.ok_bind, h2, hn, e2, retext_popBack]

theorem repLoop_loc {ev : Evaluator} (h : EvLoc ev) (r : Rule) (mx : Nat) : ∀ {fuel : Nat} {st st' : SeqState} {why : Option Res} {s s' : Stream},
    s.WF → repLoop ev r mx fuel st s = .ok (st', why, s') →
    Loc s s' (fun t => repLoop ev r mx fuel st (s.retext t) = .ok (st', why, s'.retext t))
  | 0, st, st', why, s, s', hw, he => by simp [repLoop] at he
  | fuel + 1, st, st', why, s, s', hw, he => by
    simp only [repLoop] at he
    have hw' := Stream.wf_pushBack hw st.unused
    have l0 := (peek_loc hw').push
    by_cases hp : (s.pushBack st.unused).peek = EOFChar
    · rw [if_pos hp] at he
      simp only [Exec.ok.injEq, Prod.mk.injEq] at he
      obtain ⟨rfl, rfl, rfl⟩ := he
      have : Loc s s (fun t => ((s.pushBack st.unused).retext t).peek = (s.pushBack st.unused).peek) :=
        ⟨Nat.le_refl _, hw, rfl, fun t ht => l0.move t (by rwa [low_pushBack])⟩
      refine this.mono fun t e0 => ?_
      simp only [repLoop]
      rw [← retext_pushBack, if_pos (e0.trans hp)]
    · rw [if_neg hp] at he
      obtain ⟨⟨r1, cs⟩, h1, he⟩ := Exec.of_bind he
      obtain ⟨⟨read, unused⟩, h2, he⟩ := Exec.of_bind he
      have l1 := h _ _ _ _ _ hw' h1
      have lb := l0.trans l1
      simp only at he
      cases hn : r1.node with
      | none =>
        simp only [hn, Exec.ok.injEq, Prod.mk.injEq] at he
        obtain ⟨rfl, rfl, rfl⟩ := he
        refine (lb.pop st.unused).mono ?_
        rintro t ⟨e0, e1⟩
        simp only [repLoop]
        rw [← retext_pushBack, if_neg (by rw [e0]; exact hp), e1]
        simp only [Exec.ok_bind, h2, hn, retext_popBack]
      | some n =>
        simp only [hn] at he
        split at he
        · rename_i hm
          simp only [Exec.ok.injEq, Prod.mk.injEq] at he
          obtain ⟨rfl, rfl, rfl⟩ := he
          refine (lb.pop st.unused).mono ?_
          rintro t ⟨e0, e1⟩
          simp only [repLoop]
          rw [← retext_pushBack, if_neg (by rw [e0]; exact hp), e1]
          simp only [Exec.ok_bind, h2, hn, retext_popBack, if_pos hm]
        · rename_i hm
          obtain ⟨⟨out, why', cs'⟩, h3, he⟩ := Exec.of_bind he
          simp only [Exec.ok.injEq, Prod.mk.injEq] at he
          obtain ⟨rfl, rfl, rfl⟩ := he
          have l2 := repLoop_loc h r mx l1.wf h3
          refine ((lb.trans l2).pop st.unused).mono ?_
          rintro t ⟨⟨e0, e1⟩, e2⟩
          simp only [repLoop]
          rw [← retext_pushBack, if_neg (by rw [e0]; exact hp), e1]
          simp only [Exec.ok_bind, h2, hn, retext_popBack, if_neg hm, e2]

theorem evalRep_loc {ev : Evaluator} (h : EvLoc ev) {fuel : Nat} {b : RuleBase} {r : Rule} {mn mx : Nat} {flag : Int} {s s' : Stream} {res : Res}
    (hw : s.WF) (he : evalRep ev fuel b r mn mx flag s = .ok (res, s')) :
    Loc s s' (fun t => evalRep ev fuel b r mn mx flag (s.retext t) = .ok (res, s'.retext t)) := by
  simp only [evalRep] at he
  obtain ⟨⟨st, why, u⟩, h1, he⟩ := Exec.of_bind he
  simp only [Exec.ok.injEq, Prod.mk.injEq] at he
  obtain ⟨rfl, rfl⟩ := he
  refine (repLoop_loc h r mx hw h1).mono fun t e1 => ?_
  simp only [evalRep, e1, Exec.ok_bind, repFinish, cursor_retext]

theorem choiceGroup_loc {ev : Evaluator} (h : EvLoc ev) (flag : Int) : ∀ {rs : List Rule} {st st' : ChoiceState} {s s' : Stream} {ms : List Res},
    s.WF → choiceGroup ev flag rs st s = .ok (ms, st', s') →
    Loc s s' (fun t => choiceGroup ev flag rs st (s.retext t) = .ok (ms, st', s'.retext t))
  | [], st, st', s, s', ms, hw, he => by
    simp only [choiceGroup, Exec.ok.injEq, Prod.mk.injEq] at he
    obtain ⟨rfl, rfl, rfl⟩ := he
    exact (Loc.refl hw).mono fun _ _ => rfl
  | r :: rs, st, st', s, s', ms, hw, he => by
    simp only [choiceGroup] at he
    obtain ⟨⟨r1, cs⟩, h1, he⟩ := Exec.of_bind he
    have l1 := ((h _ _ _ _ _ (Stream.wf_pushBack hw _) h1).push).pop st.read
    simp only at he
    cases hn : r1.node with
    | none =>
      simp only [hn] at he
      split at he
      · rename_i hm
        refine (l1.trans (choiceGroup_loc h flag l1.wf he)).mono ?_
        rintro t ⟨e1, e2⟩
        rw [retext_pushBack] at e1
        rw [retext_popBack] at e2
        simp only [choiceGroup, e1, Exec.ok_bind, hn, if_pos hm, e2]
      · rename_i hm
        refine (l1.trans (choiceGroup_loc h flag l1.wf he)).mono ?_
        rintro t ⟨e1, e2⟩
        rw [retext_pushBack] at e1
        rw [retext_popBack] at e2
        simp only [choiceGroup, e1, Exec.ok_bind, hn, if_neg hm, e2]
    | some n =>
      simp only [hn] at he
      obtain ⟨⟨ms', st2, u⟩, h2, he⟩ := Exec.of_bind he
      simp only [Exec.ok.injEq, Prod.mk.injEq] at he
      obtain ⟨rfl, rfl, rfl⟩ := he
      refine (l1.trans (choiceGroup_loc h flag l1.wf h2)).mono ?_
      rintro t ⟨e1, e2⟩
      rw [retext_pushBack] at e1
      rw [retext_popBack] at e2
      simp only [choiceGroup, e1, Exec.ok_bind, hn, e2]

theorem choiceLoop_loc {ev : Evaluator} (h : EvLoc ev) (b : Rule) (flag : Int) : ∀ {gs : List (List Rule)} {st : ChoiceState} {s s' : Stream} {res : Res},
    s.WF → choiceLoop ev b flag gs st s = .ok (res, s') →
    Loc s s' (fun t => choiceLoop ev b flag gs st (s.retext t) = .ok (res, s'.retext t))
  | [], st, s, s', res, hw, he => by
    simp only [choiceLoop, Exec.ok.injEq, Prod.mk.injEq] at he
    obtain ⟨rfl, rfl⟩ := he
    exact (Loc.refl hw).mono fun _ _ => rfl
  | g :: gs, st, s, s', res, hw, he => by
    simp only [choiceLoop] at he
    obtain ⟨⟨ms, st2, u⟩, h1, he⟩ := Exec.of_bind he
    have l1 := choiceGroup_loc h flag hw h1
    simp only at he
    cases hp : pick ms with
    | none =>
      simp only [hp] at he
      refine (l1.trans (choiceLoop_loc h b flag l1.wf he)).mono ?_
      rintro t ⟨e1, e2⟩
      simp only [choiceLoop, e1, Exec.ok_bind, hp, e2]
    | ambiguous =>
      simp only [hp, Exec.ok.injEq, Prod.mk.injEq] at he
      obtain ⟨rfl, rfl⟩ := he
      refine l1.mono fun t e1 => ?_
      simp only [choiceLoop, e1, Exec.ok_bind, hp]
    | found r =>
      simp only [hp] at he
      obtain ⟨unused, h2, he⟩ := Exec.of_bind he
      simp only [Exec.ok.injEq, Prod.mk.injEq] at he
      obtain ⟨rfl, rfl⟩ := he
      refine l1.mono fun t e1 => ?_
      simp only [choiceLoop, e1, Exec.ok_bind, hp, h2]

theorem greedyLoop_loc {ev : Evaluator} (h : EvLoc ev) (flag : Int) : ∀ {rs : List Rule} {read read' : List Rune} {s s' : Stream} {ms : List Res},
    s.WF → greedyLoop ev flag rs read s = .ok (ms, read', s') →
    Loc s s' (fun t => greedyLoop ev flag rs read (s.retext t) = .ok (ms, read', s'.retext t))
  | [], read, read', s, s', ms, hw, he => by
    simp only [greedyLoop, Exec.ok.injEq, Prod.mk.injEq] at he
    obtain ⟨rfl, rfl, rfl⟩ := he
    exact (Loc.refl hw).mono fun _ _ => rfl
  | r :: rs, read, read', s, s', ms, hw, he => by
    simp only [greedyLoop] at he
    obtain ⟨⟨r1, cs⟩, h1, he⟩ := Exec.of_bind he
    have l1 := ((h _ _ _ _ _ (Stream.wf_pushBack hw _) h1).push).pop read
    obtain ⟨⟨ms', m, u⟩, h2, he⟩ := Exec.of_bind he
    simp only at he
    split at he <;> (
      rename_i hn
      simp only [Exec.ok.injEq, Prod.mk.injEq] at he
      obtain ⟨rfl, rfl, rfl⟩ := he
      refine (l1.trans (greedyLoop_loc h flag l1.wf h2)).mono ?_
      rintro t ⟨e1, e2⟩
      rw [retext_pushBack] at e1
      rw [retext_popBack] at e2
      simp only [greedyLoop, e1, Exec.ok_bind, e2]
      simp only [hn, if_true, if_false, Bool.false_eq_true])

theorem mostGreedy_loc {ev : Evaluator} (h : EvLoc ev) {flag : Int} {rs : List Rule} {s s' : Stream} {res : Res}
    (hw : s.WF) (he : mostGreedy ev flag rs s = .ok (res, s')) :
    Loc s s' (fun t => mostGreedy ev flag rs (s.retext t) = .ok (res, s'.retext t)) := by
  simp only [mostGreedy] at he
  obtain ⟨⟨ms, read, u⟩, h1, he⟩ := Exec.of_bind he
  have l1 := greedyLoop_loc h flag hw h1
  simp only at he
  cases hp : pick ms with
  | none =>
    simp only [hp, Exec.ok.injEq, Prod.mk.injEq] at he
    obtain ⟨rfl, rfl⟩ := he
    exact l1.mono fun t e1 => by simp only [mostGreedy, e1, Exec.ok_bind, hp]
  | ambiguous =>
    simp only [hp, Exec.ok.injEq, Prod.mk.injEq] at he
    obtain ⟨rfl, rfl⟩ := he
    exact l1.mono fun t e1 => by simp only [mostGreedy, e1, Exec.ok_bind, hp]
  | found r =>
    simp only [hp] at he
    obtain ⟨unused, h2, he⟩ := Exec.of_bind he
    simp only [Exec.ok.injEq, Prod.mk.injEq] at he
    obtain ⟨rfl, rfl⟩ := he
    exact l1.mono fun t e1 => by simp only [mostGreedy, e1, Exec.ok_bind, hp, h2]

/-- The first part of a round of the loop of a block: the escape. -/
def escapePart (ev : Evaluator) (escape : Option Rule) (st : BlockState) (s : Stream) :
    Exec (Bool × List Rune × List Rune × List Rune × Stream) :=
  match escape with
  | none => .ok (false, [], st.used, st.unused, s)
  | some e => do
    let (res, s) ← ev e NOT_SKIP s
    if res.node.isSome then do
      let c ← res.charsUsed
      .ok (true, c, st.used ++ c, res.unused, s)
    else .ok (false, [], st.used, res.read, s)

/-- The second part: the excludes. -/
def excludePart (ev : Evaluator) (excludes : List Rule) (cs1 : Stream) : Exec (Option Res × Stream) :=
  if excludes.length > 0 then do
    let (res, cs) ← mostGreedy ev NOT_SKIP excludes cs1
    .ok (some res, cs)
  else .ok (none, cs1)

theorem blockLoop_parts (ev : Evaluator) (close : Rule) (escape : Option Rule) (excludes : List Rule) (fuel : Nat) (st : BlockState) (s : Stream) :
    blockLoop ev close escape excludes (fuel + 1) st s = (do
      let (escaped, escapeChars, used, u1, s) ← escapePart ev escape st s
      let (rx, cs1) ← excludePart ev excludes (s.pushBack u1)
      match rx.bind (fun r => r.node.map (fun _ => r)) with
      | some rx => do
        let c ← rx.charsUsed
        if escaped then do
          let (out, cs1) ← blockLoop ev close escape excludes fuel
            { used := used ++ c, unused := rx.unused, content := st.content ++ c } cs1
          .ok (out, cs1.popBack u1)
        else .ok (.excluded c (used ++ st.content ++ rx.read), cs1.popBack u1)
      | none => do
        let (rc, cs2) ← ev close NOT_SKIP (cs1.pushBack ((rx.map Res.read).getD u1))
        match rc.node with
        | some _ => do
          let c ← rc.charsUsed
          if escaped then do
            let (out, cs2) ← blockLoop ev close escape excludes fuel
              { used := used ++ c, unused := rc.unused, content := st.content ++ c } cs2
            .ok (out, (cs2.popBack ((rx.map Res.read).getD u1)).popBack u1)
          else
            .ok (.closed (used ++ st.content ++ c) rc.unused rc st.content,
                 (cs2.popBack ((rx.map Res.read).getD u1)).popBack u1)
        | none =>
          if (cs2.pushBack rc.unused).peek = EOFChar then
            .ok (.eof (used ++ (st.content ++ escapeChars)) rc.unused, (cs2.popBack ((rx.map Res.read).getD u1)).popBack u1)
          else do
            let (out, cs3) ← blockLoop ev close escape excludes fuel
              { used := used, unused := [], content := st.content ++ escapeChars ++ escapeChars ++ [(cs2.pushBack rc.unused).next.1] }
              (cs2.pushBack rc.unused).next.2
            .ok (out, ((cs3.popBack rc.unused).popBack ((rx.map Res.read).getD u1)).popBack u1)) := by
  simp only [blockLoop]
  congr 1
  funext x
  congr 1
  funext y
  obtain ⟨y, cs1⟩ := y
  cases y <;> rfl

theorem escapePart_loc {ev : Evaluator} (h : EvLoc ev) {escape : Option Rule} {st : BlockState} {s s1 : Stream} {x : Bool} {a b c : List Rune}
    (hw : s.WF) (h1 : escapePart ev escape st s = .ok (x, a, b, c, s1)) :
    Loc s s1 (fun t => escapePart ev escape st (s.retext t) = .ok (x, a, b, c, s1.retext t)) := by
  simp only [escapePart] at h1 ⊢
  cases escape with
  | none =>
    simp only [Exec.ok.injEq, Prod.mk.injEq] at h1
    obtain ⟨rfl, rfl, rfl, rfl, rfl⟩ := h1
    exact (Loc.refl hw).mono fun _ _ => rfl
  | some e =>
    simp only at h1
    obtain ⟨⟨res, s2⟩, h2, h1⟩ := Exec.of_bind h1
    simp only at h1
    split at h1
    · rename_i hn
      obtain ⟨c, h3, h1⟩ := Exec.of_bind h1
      simp only [Exec.ok.injEq, Prod.mk.injEq] at h1
      obtain ⟨rfl, rfl, rfl, rfl, rfl⟩ := h1
      refine (h _ _ _ _ _ hw h2).mono fun t ht => ?_
      simp only [ht, Exec.ok_bind, if_pos hn, h3]
    · rename_i hn
      simp only [Exec.ok.injEq, Prod.mk.injEq] at h1
      obtain ⟨rfl, rfl, rfl, rfl, rfl⟩ := h1
      refine (h _ _ _ _ _ hw h2).mono fun t ht => ?_
      simp only [ht, Exec.ok_bind, if_neg hn]

theorem excludePart_loc {ev : Evaluator} (h : EvLoc ev) {excludes : List Rule} {s cs1 : Stream} {rx : Option Res}
    (hw : s.WF) (h2 : excludePart ev excludes s = .ok (rx, cs1)) :
    Loc s cs1 (fun t => excludePart ev excludes (s.retext t) = .ok (rx, cs1.retext t)) := by
  simp only [excludePart] at h2 ⊢
  split at h2
  · rename_i hx
    obtain ⟨⟨res, cs⟩, h3, h2⟩ := Exec.of_bind h2
    simp only [Exec.ok.injEq, Prod.mk.injEq] at h2
    obtain ⟨rfl, rfl⟩ := h2
    refine (mostGreedy_loc h hw h3).mono fun t ht => ?_
    simp only [if_pos hx, ht, Exec.ok_bind]
  · rename_i hx
    simp only [Exec.ok.injEq, Prod.mk.injEq] at h2
    obtain ⟨rfl, rfl⟩ := h2
    refine (Loc.refl hw).mono fun t _ => ?_
    simp only [if_neg hx]

theorem blockLoop_loc {ev : Evaluator} (h : EvLoc ev) (close : Rule) (escape : Option Rule) (excludes : List Rule) :
    ∀ {fuel : Nat} {st : BlockState} {s s' : Stream} {e : BlockEnd},
    s.WF → blockLoop ev close escape excludes fuel st s = .ok (e, s') →
    Loc s s' (fun t => blockLoop ev close escape excludes fuel st (s.retext t) = .ok (e, s'.retext t))
  | 0, st, s, s', e, hw, he => by simp [blockLoop] at he
  | fuel + 1, st, s, s', e, hw, he => by
    rw [blockLoop_parts] at he
    simp only [blockLoop_parts]
    obtain ⟨⟨escaped, escapeChars, used, u1, s1⟩, h1, he⟩ := Exec.of_bind he
    have l1 := escapePart_loc h hw h1
    simp only at he
    obtain ⟨⟨rx, cs1⟩, h2, he⟩ := Exec.of_bind he
    have l2 : Loc s1 cs1 (fun t => excludePart ev excludes ((s1.retext t).pushBack u1) = .ok (rx, cs1.retext t)) := by
      refine (excludePart_loc h (Stream.wf_pushBack l1.wf u1) h2).push.mono fun t ht => ?_
      rwa [retext_pushBack] at ht
    have l12 := l1.trans l2
    simp only at he
    split at he
    · rename_i x hx
      obtain ⟨c, h3, he⟩ := Exec.of_bind he
      split at he
      · rename_i hesc
        obtain ⟨⟨out, cs⟩, h4, he⟩ := Exec.of_bind he
        simp only [Exec.ok.injEq, Prod.mk.injEq] at he
        obtain ⟨rfl, rfl⟩ := he
        refine ((l12.trans (blockLoop_loc h close escape excludes l2.wf h4)).pop u1).mono ?_
        rintro t ⟨⟨e1, e2⟩, e3⟩
        rw [e1]
        simp only [Exec.ok_bind]
        rw [e2]
        simp only [Exec.ok_bind]
        simp only [hx, h3, Exec.ok_bind, if_pos hesc, e3, retext_popBack]
      · rename_i hesc
        simp only [Exec.ok.injEq, Prod.mk.injEq] at he
        obtain ⟨rfl, rfl⟩ := he
        refine (l12.pop u1).mono ?_
        rintro t ⟨e1, e2⟩
        rw [e1]
        simp only [Exec.ok_bind]
        rw [e2]
        simp only [Exec.ok_bind]
        simp only [hx, h3, Exec.ok_bind, if_neg hesc, retext_popBack]
    · rename_i hx
      obtain ⟨⟨rc, cs2⟩, h3, he⟩ := Exec.of_bind he
      have l3 := h _ _ _ _ _ (Stream.wf_pushBack l2.wf _) h3
      have l13 := l12.trans l3.push
      simp only at he
      cases hn : rc.node with
      | some n =>
        simp only [hn] at he
        obtain ⟨c, h4, he⟩ := Exec.of_bind he
        split at he
        · rename_i hesc
          obtain ⟨⟨out, cs⟩, h5, he⟩ := Exec.of_bind he
          simp only [Exec.ok.injEq, Prod.mk.injEq] at he
          obtain ⟨rfl, rfl⟩ := he
          refine (((l13.trans (blockLoop_loc h close escape excludes l3.wf h5)).pop _).pop u1).mono ?_
          rintro t ⟨⟨⟨e1, e2⟩, e3⟩, e4⟩
          rw [e1]
          simp only [Exec.ok_bind]
          rw [e2]
          simp only [Exec.ok_bind]
          rw [retext_pushBack] at e3
          simp only [hx, e3, Exec.ok_bind, hn, h4, if_pos hesc, e4, retext_popBack]
        · rename_i hesc
          simp only [Exec.ok.injEq, Prod.mk.injEq] at he
          obtain ⟨rfl, rfl⟩ := he
          refine ((l13.pop _).pop u1).mono ?_
          rintro t ⟨⟨e1, e2⟩, e3⟩
          rw [e1]
          simp only [Exec.ok_bind]
          rw [e2]
          simp only [Exec.ok_bind]
          rw [retext_pushBack] at e3
          simp only [hx, e3, Exec.ok_bind, hn, h4, if_neg hesc, retext_popBack]
      | none =>
        simp only [hn] at he
        have hw3 := Stream.wf_pushBack l3.wf rc.unused
        have l4 := peek_loc hw3
        split at he
        · rename_i hp
          simp only [Exec.ok.injEq, Prod.mk.injEq] at he
          obtain ⟨rfl, rfl⟩ := he
          have l4' : Loc cs2 cs2 (fun t => ((cs2.pushBack rc.unused).retext t).peek = (cs2.pushBack rc.unused).peek) :=
            ⟨Nat.le_refl _, l3.wf, rfl, fun t ht => l4.move t (by rwa [low_pushBack, whole_pushBack])⟩
          refine (((l13.trans l4').pop _).pop u1).mono ?_
          rintro t ⟨⟨⟨e1, e2⟩, e3⟩, e4⟩
          rw [e1]
          simp only [Exec.ok_bind]
          rw [e2]
          simp only [Exec.ok_bind]
          rw [retext_pushBack] at e3 e4
          simp only [hx, e3, Exec.ok_bind, hn, e4, if_pos hp, retext_popBack]
        · rename_i hp
          obtain ⟨⟨out, cs⟩, h5, he⟩ := Exec.of_bind he
          simp only [Exec.ok.injEq, Prod.mk.injEq] at he
          obtain ⟨rfl, rfl⟩ := he
          have l5 := next_loc hw3
          refine ((((l13.trans ((l4.trans (l5.trans (blockLoop_loc h close escape excludes l5.wf h5))).push)).pop _).pop _).pop u1).mono ?_
          rintro t ⟨⟨⟨e1, e2⟩, e3⟩, e4, e5, e6⟩
          rw [e1]
          simp only [Exec.ok_bind]
          rw [e2]
          simp only [Exec.ok_bind]
          rw [retext_pushBack] at e3 e4 e5
          simp only [hx, e3, Exec.ok_bind, hn, e4, if_neg hp, e5, e6, retext_popBack]

theorem evalBlock_loc {ev : Evaluator} (h : EvLoc ev) {fuel : Nat} {b : RuleBase} {opn : Rule} {v : Bool} {close : Rule}
    {escape : Option Rule} {excludes : List Rule} {flag : Int} {s s' : Stream} {res : Res}
    (hw : s.WF) (he : evalBlock ev fuel b opn v close escape excludes flag s = .ok (res, s')) :
    Loc s s' (fun t => evalBlock ev fuel b opn v close escape excludes flag (s.retext t) = .ok (res, s'.retext t)) := by
  simp only [evalBlock] at he ⊢
  obtain ⟨⟨ro, u⟩, h1, he⟩ := Exec.of_bind he
  have l1 := h _ _ _ _ _ hw h1
  simp only at he
  cases hn : ro.node with
  | none =>
    simp only [hn, Exec.ok.injEq, Prod.mk.injEq] at he
    obtain ⟨rfl, rfl⟩ := he
    exact l1.mono fun t e1 => by simp only [e1, Exec.ok_bind, hn, cursor_retext]
  | some n =>
    simp only [hn] at he
    obtain ⟨used, h2, he⟩ := Exec.of_bind he
    obtain ⟨⟨e, cs⟩, h3, he⟩ := Exec.of_bind he
    have l2 := position_loc (Stream.wf_pushBack l1.wf ro.unused)
    have l3 := blockLoop_loc h close escape excludes l2.wf h3
    have lb := (l1.trans (l2.trans l3).push).pop ro.unused
    cases e with
    | excluded read =>
      simp only [Exec.ok.injEq, Prod.mk.injEq] at he
      obtain ⟨rfl, rfl⟩ := he
      refine lb.mono ?_
      rintro t ⟨e1, e2, e3⟩
      rw [retext_pushBack] at e2
      simp only [e1, Exec.ok_bind, hn, h2, e2, e3, ← retext_popBack, cursor_retext]
    | eof used unused =>
      simp only [Exec.ok.injEq, Prod.mk.injEq] at he
      obtain ⟨rfl, rfl⟩ := he
      refine lb.mono ?_
      rintro t ⟨e1, e2, e3⟩
      rw [retext_pushBack] at e2
      simp only [e1, Exec.ok_bind, hn, h2, e2, e3, ← retext_popBack, cursor_retext]
    | closed used unused rc content =>
      simp only [Exec.ok.injEq, Prod.mk.injEq] at he
      obtain ⟨rfl, rfl⟩ := he
      refine lb.mono ?_
      rintro t ⟨e1, e2, e3⟩
      rw [retext_pushBack] at e2
      simp only [e1, Exec.ok_bind, hn, h2, e2, e3, ← retext_popBack]

theorem eval_loc (env : Env) (fuel : Nat) : EvLoc (eval env fuel) := by
  induction fuel with
  | zero => intro r flag s res s' hw he; simp [eval] at he
  | succ fuel ih =>
    have leaf : ∀ {f : Stream → Res × Stream} {s s' : Stream} {res : Res}, Same f s → (Exec.ok (f s) : Exec (Res × Stream)) = .ok (res, s') →
        Loc s s' (fun t => (Exec.ok (f (s.retext t)) : Exec (Res × Stream)) = .ok (res, s'.retext t)) := by
      intro f s s' res h he
      have e : f s = (res, s') := Exec.ok.inj he
      unfold Same at h
      rw [e] at h
      exact Loc.mono h fun t ht => by rw [ht]
    intro r flag s res s' hw he
    cases r with
    | eof b => exact leaf (evalEOF_loc b flag hw) he
    | char b text n => exact leaf (evalChar_loc b text flag hw) he
    | range b x n y m => exact leaf (evalRange_loc b x y flag hw) he
    | chars b text => exact leaf (evalChars_loc b text flag hw) he
    | str b text => exact leaf (evalString_loc b text flag hw) he
    | group b r =>
      simp only [eval] at he ⊢
      obtain ⟨⟨x, u⟩, h1, he⟩ := Exec.of_bind he
      simp only [Exec.ok.injEq, Prod.mk.injEq] at he
      obtain ⟨rfl, rfl⟩ := he
      exact (ih _ _ _ _ _ hw h1).mono fun t ht => by rw [ht]; rfl
    | option b r =>
      simp only [eval] at he ⊢
      obtain ⟨⟨x, u⟩, h1, he⟩ := Exec.of_bind he
      simp only [Exec.ok.injEq, Prod.mk.injEq] at he
      obtain ⟨rfl, rfl⟩ := he
      exact (ih _ _ _ _ _ hw h1).mono fun t ht => by rw [ht]; rfl
    | rep b r mn mx => exact evalRep_loc ih hw he
    | choice b gs => exact choiceLoop_loc ih _ flag hw he
    | concat b rs => exact concatLoop_loc ih _ hw he
    | block b opn v close escape excludes => exact evalBlock_loc ih hw he
    | ref b name =>
      simp only [eval] at he ⊢
      cases hr : env name with
      | none =>
        simp only [hr, Exec.ok.injEq, Prod.mk.injEq] at he
        obtain ⟨rfl, rfl⟩ := he
        exact (Loc.refl hw).mono fun _ _ => rfl
      | some r =>
        simp only [hr] at he
        obtain ⟨⟨x, u⟩, h1, he⟩ := Exec.of_bind he
        simp only [Exec.ok.injEq, Prod.mk.injEq] at he
        obtain ⟨rfl, rfl⟩ := he
        exact (ih _ _ _ _ _ hw h1).mono fun t ht => by simp only [ht]; rfl

end Xbnf
