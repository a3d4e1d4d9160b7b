import Verif.Model.Stream
/-
Streams as the list of characters left, and the relation `Adv`: a stream with characters consumed.
-/
namespace Xbnf

/-! ### The line table -/

/-- The line table after reading exactly `l`. -/
def linesOf (l : List Rune) : List Int := posUpdate [-1] 0 l

/-- Indexes of the newlines of `l`, when the first character has index `i`. -/
def nlIdx : Int → List Rune → List Int
  | _, [] => []
  | i, c :: cs => if c = newline then i :: nlIdx (i + 1) cs else nlIdx (i + 1) cs

theorem setLast_append (l : List Int) (x v : Int) : setLast (l ++ [x]) v = l ++ [v] := by
  induction l with
  | nil => rfl
  | cons a l ih =>
    cases l with
    | nil => rfl
    | cons b l => simpa [setLast] using ih

theorem lastLine_append (l : List Int) (x : Int) : lastLine (l ++ [x]) = x := by
  simp [lastLine, List.getLastD_eq_getLast?]

theorem posUpdateLoop_append (lines : List Int) (idx : Int) (a b : List Rune) :
    posUpdateLoop lines idx (a ++ b) =
      posUpdateLoop (posUpdateLoop lines idx a) (idx + a.length) b := by
  induction a generalizing lines idx with
  | nil => simp [posUpdateLoop]
  | cons c cs ih =>
    simp only [List.cons_append, posUpdateLoop, ih, List.length_cons]
    congr 1
    push_cast; omega

theorem posUpdateLoop_new (pre : List Int) (i : Int) (l : List Rune) :
    posUpdateLoop (pre ++ [i - 1]) i l = pre ++ nlIdx i l ++ [i + l.length - 1] := by
  induction l generalizing pre i with
  | nil => simp [posUpdateLoop, nlIdx]
  | cons c cs ih =>
    simp only [posUpdateLoop, lastLine_append, setLast_append]
    rw [if_pos (by omega)]
    by_cases hc : c = newline
    · simp only [hc, if_true, nlIdx]
      have := ih (pre ++ [i]) (i + 1)
      simp only [Int.add_sub_cancel] at this
      rw [this]
      simp only [List.append_assoc, List.cons_append, List.nil_append, List.length_cons]
      congr 4
      push_cast; omega
    · simp only [hc, if_false, nlIdx]
      have := ih pre (i + 1)
      simp only [Int.add_sub_cancel] at this
      rw [this]
      simp only [List.length_cons]
      congr 2
      push_cast; omega

theorem linesOf_eq (l : List Rune) : linesOf l = nlIdx 0 l ++ [(l.length : Int) - 1] := by
  have := posUpdateLoop_new [] 0 l
  simpa [linesOf, posUpdate] using this

theorem linesOf_ne_nil (l : List Rune) : linesOf l ≠ [] := by simp [linesOf_eq]

/-- Characters already in the table change nothing. -/
theorem posUpdateLoop_old (pre : List Int) (last i : Int) (l : List Rune)
    (h : i + l.length - 1 ≤ last) : posUpdateLoop (pre ++ [last]) i l = pre ++ [last] := by
  induction l generalizing i with
  | nil => simp [posUpdateLoop]
  | cons c cs ih =>
    simp only [posUpdateLoop, lastLine_append, List.length_cons] at *
    push_cast at h
    rw [if_neg (by omega)]
    exact ih _ (by omega)

/-- Reading `chars[i : j]` when the table covers `f` characters, `i ≤ f`. -/
theorem posUpdate_take (chars : List Rune) (f i j : Nat) (hif : i ≤ f)
    (hf : f ≤ chars.length) (hj : j ≤ chars.length) :
    posUpdate (linesOf (chars.take f)) i ((chars.take j).drop i) =
      linesOf (chars.take (max f j)) := by
  have hne : linesOf (chars.take f) ≠ [] := linesOf_ne_nil _
  unfold posUpdate
  rw [if_neg hne]
  by_cases hjf : j ≤ f
  · rw [Nat.max_eq_left hjf, linesOf_eq]
    apply posUpdateLoop_old
    simp only [List.length_drop, List.length_take]
    omega
  · have hfj : f ≤ j := by omega
    rw [Nat.max_eq_right hfj]
    have hsplit : (chars.take j).drop i = (chars.take f).drop i ++ (chars.take j).drop f := by
      have h1 : chars.take f = (chars.take j).take f := by
        rw [List.take_take, Nat.min_eq_left hfj]
      have h2 : (chars.take j).drop f = ((chars.take j).drop i).drop (f - i) := by
        rw [List.drop_drop]; congr 1; omega
      have h3 : (chars.take f).drop i = ((chars.take j).drop i).take (f - i) := by
        rw [h1, List.drop_take]
      rw [h2, h3, List.take_append_drop]
    rw [hsplit, posUpdateLoop_append]
    have hold : posUpdateLoop (linesOf (chars.take f)) i ((chars.take f).drop i) =
        linesOf (chars.take f) := by
      rw [linesOf_eq]
      apply posUpdateLoop_old
      simp only [List.length_drop, List.length_take]
      omega
    rw [hold]
    have hlen : (i : Int) + ((chars.take f).drop i).length = f := by
      simp only [List.length_drop, List.length_take]; omega
    rw [hlen]
    have h3 : chars.take j = chars.take f ++ (chars.take j).drop f := by
      have h1 : chars.take f = (chars.take j).take f := by
        rw [List.take_take, Nat.min_eq_left hfj]
      rw [h1, List.take_append_drop]
    conv => rhs; rw [h3]
    unfold linesOf posUpdate
    simp only [List.cons_ne_nil, if_false]
    rw [posUpdateLoop_append]
    congr 1
    simp only [List.length_take]; omega

/-- The line table belongs to the characters read, or one more (after `Position`). -/
def Base.LinesOK (b : Base) : Prop :=
  ∃ f, b.cursor ≤ f ∧ f ≤ b.cursor + 1 ∧ f ≤ b.chars.length ∧ b.lines = linesOf (b.chars.take f)

theorem Base.linesOK_ofChars (chars : List Rune) : (Base.ofChars chars).LinesOK :=
  ⟨0, by simp [Base.ofChars], by simp [Base.ofChars], by simp,
    by simp [Base.ofChars, linesOf, posUpdate, posUpdateLoop]⟩

/-! ### Characters left -/

/-- The characters left on a stream. -/
def Stream.rem : Stream → List Rune
  | .base b => b.chars.drop b.cursor
  | .pre p c u => p.drop c ++ u.rem

/-- Cursors are inside the texts. -/
def Stream.WF : Stream → Prop
  | .base b => b.cursor ≤ b.chars.length
  | .pre p c u => c ≤ p.length ∧ u.WF

/-- The line table of the stream at the bottom is right. -/
def Stream.LinesOK : Stream → Prop
  | .base b => b.LinesOK
  | .pre _ _ u => u.LinesOK

/-- `s'` is `s` with `k` more characters consumed, whatever the layers they were in; the line table
stays right if it was. -/
def Adv : Nat → Stream → Stream → Prop
  | k, .base b, .base b' =>
    b'.chars = b.chars ∧ b'.cursor = b.cursor + k ∧ b'.cursor ≤ b.chars.length ∧
      (b.LinesOK → b'.LinesOK)
  | k, .pre p c u, .pre p' c' u' =>
    p' = p ∧ c ≤ p.length ∧ c' = min (c + k) p.length ∧ Adv (k - (p.length - c)) u u'
  | _, _, _ => False

theorem Adv.wf {k s s'} (h : Adv k s s') : s.WF ∧ s'.WF := by
  induction s generalizing k s' with
  | base b =>
    cases s' with
    | base b' =>
      obtain ⟨h1, h2, h3, _⟩ := h
      refine ⟨?_, ?_⟩
      · show b.cursor ≤ b.chars.length; omega
      · show b'.cursor ≤ b'.chars.length; rw [h1]; exact h3
    | pre => exact h.elim
  | pre p c u ih =>
    cases s' with
    | base => exact h.elim
    | pre p' c' u' =>
      obtain ⟨h1, h2, h3, h4⟩ := h
      have := ih h4
      refine ⟨⟨h2, this.1⟩, ⟨?_, this.2⟩⟩
      rw [h1, h3]; omega

theorem Adv.refl {s : Stream} (h : s.WF) : Adv 0 s s := by
  induction s with
  | base b => exact ⟨rfl, rfl, h, id⟩
  | pre p c u ih =>
    refine ⟨rfl, h.1, ?_, ?_⟩
    · have := h.1; omega
    · simpa using ih h.2

theorem Adv.trans {i j s t u} (h : Adv i s t) (h' : Adv j t u) : Adv (i + j) s u := by
  induction s generalizing i j t u with
  | base b =>
    match t, u, h, h' with
    | .base b', .base b'', h, h' =>
      obtain ⟨h1, h2, h3, h4⟩ := h
      obtain ⟨g1, g2, g3, g4⟩ := h'
      exact ⟨by rw [g1, h1], by omega, by rw [← h1]; exact g3, fun x => g4 (h4 x)⟩
  | pre p c v ih =>
    match t, u, h, h' with
    | .pre p' c' v', .pre p'' c'' v'', h, h' =>
      obtain ⟨h1, h2, h3, h4⟩ := h
      obtain ⟨g1, g2, g3, g4⟩ := h'
      subst h1
      refine ⟨g1, h2, by omega, ?_⟩
      have := ih h4 g4
      have e : (i - (p'.length - c)) + (j - (p'.length - c')) = i + j - (p'.length - c) := by omega
      rwa [e] at this

theorem Adv.rem {k s s'} (h : Adv k s s') : s'.rem = s.rem.drop k := by
  induction s generalizing k s' with
  | base b =>
    match s', h with
    | .base b', h =>
      obtain ⟨h1, h2, h3, _⟩ := h
      simp only [Stream.rem, h1, h2, List.drop_drop]
  | pre p c u ih =>
    match s', h with
    | .pre p' c' u', h =>
      obtain ⟨h1, h2, h3, h4⟩ := h
      have := ih h4
      simp only [Stream.rem, h1, h3, this, List.drop_append, List.drop_drop, List.length_drop]
      congr 1
      by_cases hk : c + k ≤ p.length
      · rw [Nat.min_eq_left hk]
      · rw [Nat.min_eq_right (by omega), List.drop_eq_nil_of_le (by omega), List.drop_eq_nil_of_le (by omega)]

theorem Adv.le {k s s'} (h : Adv k s s') : k ≤ s.rem.length := by
  induction s generalizing k s' with
  | base b =>
    match s', h with
    | .base b', h =>
      obtain ⟨h1, h2, h3, _⟩ := h
      simp only [Stream.rem, List.length_drop]; omega
  | pre p c u ih =>
    match s', h with
    | .pre p' c' u', h =>
      obtain ⟨h1, h2, h3, h4⟩ := h
      have := ih h4
      simp only [Stream.rem, List.length_append, List.length_drop]; omega

theorem Adv.linesOK {k s s'} (h : Adv k s s') (hl : s.LinesOK) : s'.LinesOK := by
  induction s generalizing k s' with
  | base b =>
    match s', h with
    | .base b', h => exact h.2.2.2 hl
  | pre p c u ih =>
    match s', h with
    | .pre p' c' u', h => exact ih (s' := u') h.2.2.2 hl

theorem Adv.rem_length {k s s'} (h : Adv k s s') : s'.rem.length = s.rem.length - k := by
  rw [h.rem, List.length_drop]

/-- Consuming is determined up to the line table. -/
theorem Adv.take_read {k s s'} (h : Adv k s s') : s.rem = s.rem.take k ++ s'.rem := by
  rw [h.rem, List.take_append_drop]

/-! ### pushBack and popBack -/

theorem Stream.wf_pushBack {s : Stream} (h : s.WF) (p : List Rune) : (s.pushBack p).WF := by
  unfold Stream.pushBack
  split
  · exact h
  · exact ⟨Nat.zero_le _, h⟩

theorem Stream.rem_pushBack (s : Stream) (p : List Rune) : (s.pushBack p).rem = p ++ s.rem := by
  unfold Stream.pushBack
  split
  · simp [*]
  · simp [Stream.rem]

theorem Stream.linesOK_pushBack (s : Stream) (p : List Rune) :
    (s.pushBack p).LinesOK ↔ s.LinesOK := by
  unfold Stream.pushBack
  split <;> rfl

theorem Adv.popBack {k s s' p} (h : Adv k (s.pushBack p) s') :
    Adv (k - p.length) s (s'.popBack p) := by
  unfold Stream.pushBack at h
  unfold Stream.popBack
  split
  · next hp => subst hp; simpa using h
  · next hp =>
    rw [if_neg hp] at h
    match s', h with
    | .pre p' c' u', h => simpa [Stream.under] using h.2.2.2

/-! ### The methods -/

theorem drop_takeWhile_length {α} (p : α → Bool) (l : List α) :
    l.drop (l.takeWhile p).length = l.dropWhile p := by
  induction l with
  | nil => rfl
  | cons a l ih =>
    simp only [List.takeWhile_cons, List.dropWhile_cons]
    split <;> simp [ih]

theorem mem_takeWhile_imp {α} {p : α → Bool} {l : List α} {a : α} (h : a ∈ l.takeWhile p) :
    p a = true := by
  induction l with
  | nil => simp at h
  | cons b l ih =>
    simp only [List.takeWhile_cons] at h
    split at h
    · next hb =>
      rcases List.mem_cons.mp h with rfl | h
      · exact hb
      · exact ih h
    · simp at h

theorem List.headD_append_of_ne_nil {α} (l l' : List α) (d : α) (h : l ≠ []) :
    (l ++ l').headD d = l.headD d := by
  cases l with
  | nil => exact absurd rfl h
  | cons => rfl

theorem getD_eq_headD_drop (l : List Rune) (n : Nat) (d : Rune) :
    l.getD n d = (l.drop n).headD d := by
  simp only [List.getD_eq_getElem?_getD, List.headD_eq_head?_getD, List.head?_drop]

theorem Stream.peek_rem {s : Stream} (h : s.WF) : s.peek = s.rem.headD EOFChar := by
  induction s with
  | base b => simp only [Stream.peek, Base.peek, Stream.rem, getD_eq_headD_drop]
  | pre p c u ih =>
    simp only [Stream.peek, Stream.rem]
    split
    · next hc =>
      rw [getD_eq_headD_drop, List.headD_append_of_ne_nil]
      intro hn
      have := List.drop_eq_nil_iff.mp hn
      omega
    · next hc =>
      rw [ih h.2, List.drop_eq_nil_of_le (by omega)]; rfl

theorem take_succ_drop (chars : List Rune) (i : Nat) (h : i < chars.length) :
    (chars.take (i + 1)).drop i = [chars.getD i EOFChar] := by
  rw [List.drop_take]
  have e : i + 1 - i = 1 := by omega
  rw [e, List.getD_eq_getElem?_getD, List.getElem?_eq_getElem h]
  rw [List.drop_eq_getElem_cons h]
  rfl

theorem Stream.next_spec {s : Stream} (h : s.WF) :
    s.next.1 = s.rem.headD EOFChar ∧
      Adv (if s.rem = [] then 0 else 1) s s.next.2 := by
  induction s with
  | base b =>
    simp only [Stream.next, Base.next, Stream.rem]
    have hw : b.cursor ≤ b.chars.length := h
    split
    · next hc =>
      have hn : b.chars.drop b.cursor = [] := List.drop_eq_nil_of_le hc
      simp only [hn, if_true]
      exact ⟨rfl, Adv.refl h⟩
    · next hc =>
      have hn : b.chars.drop b.cursor ≠ [] := by
        intro hn; have := List.drop_eq_nil_iff.mp hn; omega
      simp only [hn, if_false, getD_eq_headD_drop]
      refine ⟨trivial, rfl, rfl, ?_, ?_⟩
      · show b.cursor + 1 ≤ _; omega
      · rintro ⟨f, h1, h2, h3, h4⟩
        refine ⟨max f (b.cursor + 1), ?_, ?_, ?_, ?_⟩
        · show b.cursor + 1 ≤ _; omega
        · show _ ≤ b.cursor + 1 + 1; omega
        · show _ ≤ b.chars.length; omega
        · show posUpdate _ _ _ = linesOf (b.chars.take _)
          rw [h4, ← posUpdate_take b.chars f b.cursor (b.cursor + 1) h1 h3 (by omega),
            take_succ_drop _ _ (by omega), getD_eq_headD_drop]
  | pre p c u ih =>
    have ih := ih h.2
    simp only [Stream.next, Stream.rem]
    split
    · next hc =>
      have hn : p.drop c ≠ [] := by
        intro hn; have := List.drop_eq_nil_iff.mp hn; omega
      rw [List.headD_append_of_ne_nil _ _ _ hn, getD_eq_headD_drop]
      simp only [List.append_eq_nil_iff, hn, false_and, if_false]
      refine ⟨trivial, rfl, h.1, by omega, ?_⟩
      have e : 1 - (p.length - c) = 0 := by omega
      rw [e]; exact Adv.refl h.2
    · next hc =>
      have hn : p.drop c = [] := List.drop_eq_nil_of_le (by omega)
      simp only [hn, List.nil_append]
      refine ⟨ih.1, rfl, h.1, ?_, ?_⟩
      · have := h.1; omega
      · have := h.1
        have e : p.length - c = 0 := by omega
        simpa [e] using ih.2

/-- `Next` when something is left. -/
theorem Stream.next_cons {s : Stream} (h : s.WF) {c l} (hr : s.rem = c :: l) :
    s.next.1 = c ∧ Adv 1 s s.next.2 ∧ s.next.2.rem = l := by
  have := s.next_spec h
  simp only [hr, List.headD_cons, List.cons_ne_nil, if_false] at this
  refine ⟨this.1, this.2, ?_⟩
  rw [this.2.rem, hr]; rfl

/-- `Next` at the end. -/
theorem Stream.next_nil {s : Stream} (h : s.WF) (hr : s.rem = []) :
    s.next.1 = EOFChar ∧ Adv 0 s s.next.2 ∧ s.next.2.rem = [] := by
  have := s.next_spec h
  simp only [hr, if_true] at this
  refine ⟨this.1, this.2, ?_⟩
  rw [this.2.rem, hr]; rfl

theorem eof_not_space : isWhiteSpace EOFChar = false := by decide

theorem Stream.size_eq {s : Stream} : s.size = s.rem.length := by
  induction s with
  | base b => simp [Stream.size, Stream.rem]
  | pre p c u ih => simp [Stream.size, Stream.rem, ih]

/-- The loop of `SkipSpaces` stops only at a character that is no white space: the bound on its
rounds is never the reason. -/
theorem skipLoop_spec (n : Nat) (s : Stream) (h : s.WF) (hn : s.rem.length ≤ n) :
    (Stream.skipLoop n s).1 = s.rem.takeWhile isWhiteSpace ∧
      Adv (s.rem.takeWhile isWhiteSpace).length s (Stream.skipLoop n s).2 := by
  induction n generalizing s with
  | zero =>
    have : s.rem = [] := List.eq_nil_of_length_eq_zero (by omega)
    simp only [Stream.skipLoop, this, List.takeWhile_nil]
    exact ⟨trivial, Adv.refl h⟩
  | succ n ih =>
    simp only [Stream.skipLoop]
    have hp := Stream.peek_rem h
    cases hr : s.rem with
    | nil =>
      rw [hr] at hp
      change s.peek = EOFChar at hp
      rw [if_pos hp]
      exact ⟨rfl, Adv.refl h⟩
    | cons c l =>
      obtain ⟨h1, h2, h3⟩ := Stream.next_cons h hr
      rw [hr] at hp
      change s.peek = c at hp
      by_cases hc : c = EOFChar
      · rw [if_pos (hp.trans hc)]
        simp only [hc, List.takeWhile_cons, eof_not_space]
        exact ⟨rfl, Adv.refl h⟩
      · rw [if_neg (by rw [hp]; exact hc), hp]
        by_cases hw : isWhiteSpace c
        · rw [if_neg (by simp [hw])]
          simp only [List.takeWhile_cons, hw, if_true, List.length_cons]
          have := ih s.next.2 h2.wf.2 (by rw [h3]; rw [hr] at hn; simpa using hn)
          rw [h3] at this
          refine ⟨?_, ?_⟩
          · simp only [h1, this.1]
          · rw [Nat.add_comm]; exact h2.trans this.2
        · rw [if_pos (by simp [hw])]
          simp only [List.takeWhile_cons, hw]
          exact ⟨rfl, Adv.refl h⟩

theorem Stream.skipSpaces_spec {s : Stream} (h : s.WF) :
    s.skipSpaces.1 = s.rem.takeWhile isWhiteSpace ∧
      Adv (s.rem.takeWhile isWhiteSpace).length s s.skipSpaces.2 := by
  cases s with
  | base b =>
    have hw : b.cursor ≤ b.chars.length := h
    simp only [Stream.skipSpaces, Base.skipSpaces, Stream.rem]
    split
    · next hs => simp only [hs, List.length_nil]; exact ⟨trivial, Adv.refl h⟩
    · next hs =>
      refine ⟨rfl, rfl, rfl, ?_, ?_⟩
      · show b.cursor + _ ≤ _
        have := (List.takeWhile_sublist isWhiteSpace (l := b.chars.drop b.cursor)).length_le
        rw [List.length_drop] at this; omega
      · rintro ⟨f, h1, h2, h3, h4⟩
        have hle := (List.takeWhile_sublist isWhiteSpace (l := b.chars.drop b.cursor)).length_le
        rw [List.length_drop] at hle
        have hpos : 0 < ((b.chars.drop b.cursor).takeWhile isWhiteSpace).length := by
          cases hh : (b.chars.drop b.cursor).takeWhile isWhiteSpace with
          | nil => exact absurd hh hs
          | cons => simp
        refine ⟨max f (b.cursor + ((b.chars.drop b.cursor).takeWhile isWhiteSpace).length), ?_, ?_, ?_, ?_⟩
        · show b.cursor + _ ≤ _; omega
        · show _ ≤ b.cursor + _ + 1; omega
        · show _ ≤ b.chars.length; omega
        · show posUpdate _ _ _ = linesOf (b.chars.take _)
          rw [h4, ← posUpdate_take b.chars f b.cursor _ h1 h3 (by omega)]
          congr 1
          rw [List.drop_take]
          have e : b.cursor + ((b.chars.drop b.cursor).takeWhile isWhiteSpace).length - b.cursor =
            ((b.chars.drop b.cursor).takeWhile isWhiteSpace).length := by omega
          rw [e]
          exact List.prefix_iff_eq_take.mp (List.takeWhile_prefix _)
  | pre p c u =>
    simp only [Stream.skipSpaces]
    exact skipLoop_spec _ _ h (by rw [Stream.size_eq]; exact Nat.le_refl _)

theorem Stream.position_adv {s : Stream} (h : s.WF) : Adv 0 s s.position.2 := by
  induction s with
  | base b =>
    simp only [Stream.position, Base.position]
    have hw : b.cursor ≤ b.chars.length := h
    split
    · exact Adv.refl h
    · split
      · exact Adv.refl h
      · refine ⟨rfl, rfl, hw, ?_⟩
        rintro ⟨f, h1, h2, h3, h4⟩
        refine ⟨max f (b.cursor + 1), ?_, ?_, ?_, ?_⟩
        · show b.cursor ≤ _; omega
        · show _ ≤ b.cursor + 1; omega
        · show _ ≤ b.chars.length; omega
        · show posUpdate _ _ _ = linesOf (b.chars.take _)
          rw [h4, ← posUpdate_take b.chars f b.cursor (b.cursor + 1) h1 h3 (by omega),
            take_succ_drop _ _ (by omega)]
  | pre p c u ih =>
    simp only [Stream.position]
    split
    · next hc =>
      refine ⟨rfl, h.1, ?_, ?_⟩
      · have := h.1; omega
      · have := ih h.2; simpa using this
    · exact Adv.refl h

theorem Stream.position_rem {s : Stream} (h : s.WF) : s.position.2.rem = s.rem := by
  simpa using (Stream.position_adv h).rem

/-- `Match` on the list of characters left. -/
def matchL : List Rune → List Rune → List Rune × Bool
  | [], _ => ([], true)
  | _ :: _, [] => ([], false)
  | want :: rest, c :: l =>
    if c ≠ want then ([c], false)
    else (c :: (matchL rest l).1, (matchL rest l).2)

/-- No character is the end marker: true of every text decoded from a Go string. -/
def Valid (l : List Rune) : Prop := ∀ c ∈ l, c ≠ EOFChar

theorem Valid.drop {l : List Rune} (h : Valid l) (k : Nat) : Valid (l.drop k) :=
  fun c hc => h c (List.mem_of_mem_drop hc)

theorem Valid.take {l : List Rune} (h : Valid l) (k : Nat) : Valid (l.take k) :=
  fun c hc => h c (List.mem_of_mem_take hc)

theorem Valid.append {l l' : List Rune} (h : Valid l) (h' : Valid l') : Valid (l ++ l') := by
  intro c hc
  rcases List.mem_append.mp hc with hc | hc
  · exact h c hc
  · exact h' c hc

theorem Valid.headD {l : List Rune} (h : Valid l) : l.headD EOFChar = EOFChar ↔ l = [] := by
  cases l with
  | nil => simp
  | cons c l => simpa using h c (by simp)

theorem Stream.matchRunes_spec (t : List Rune) {s : Stream} (h : s.WF) (hv : Valid s.rem) :
    (s.matchRunes t).1 = (matchL t s.rem).1 ∧ (s.matchRunes t).2.1 = (matchL t s.rem).2 ∧
      Adv (matchL t s.rem).1.length s (s.matchRunes t).2.2 := by
  induction t generalizing s with
  | nil => exact ⟨rfl, rfl, Adv.refl h⟩
  | cons w ws ih =>
    simp only [Stream.matchRunes]
    cases hr : s.rem with
    | nil =>
      obtain ⟨h1, h2, _⟩ := Stream.next_nil h hr
      rw [if_pos h1]
      exact ⟨rfl, rfl, h2⟩
    | cons c l =>
      obtain ⟨h1, h2, h3⟩ := Stream.next_cons h hr
      have hc : c ≠ EOFChar := hv c (by rw [hr]; simp)
      rw [if_neg (by rw [h1]; exact hc), h1]
      simp only [matchL]
      by_cases hw : c = w
      · rw [if_neg (by simpa using hw), if_neg (by simpa using hw)]
        have := ih h2.wf.2 (by rw [h2.rem]; exact hv.drop _)
        rw [h3] at this
        refine ⟨by rw [this.1], this.2.1, ?_⟩
        rw [List.length_cons, Nat.add_comm]
        exact h2.trans this.2.2
      · rw [if_pos hw, if_pos hw]
        exact ⟨rfl, rfl, h2⟩

theorem matchL_prefix (t l : List Rune) : (matchL t l).1 <+: l := by
  induction t generalizing l with
  | nil => exact List.nil_prefix
  | cons w ws ih =>
    cases l with
    | nil => exact List.nil_prefix
    | cons c l =>
      simp only [matchL]
      split
      · exact ⟨l, rfl⟩
      · simpa using ih l

theorem matchL_ok (t l : List Rune) : (matchL t l).2 = true ↔ t <+: l := by
  induction t generalizing l with
  | nil => simp [matchL]
  | cons w ws ih =>
    cases l with
    | nil => simp [matchL]
    | cons c l =>
      simp only [matchL]
      by_cases hw : c = w
      · subst hw; simp [ih]
      · have : w ≠ c := fun e => hw e.symm
        simp [hw, List.cons_prefix_cons, this]

theorem matchL_read_ok (t l : List Rune) (h : t <+: l) : (matchL t l).1 = t := by
  induction t generalizing l with
  | nil => simp [matchL]
  | cons w ws ih =>
    cases l with
    | nil => simp at h
    | cons c l =>
      rw [List.cons_prefix_cons] at h
      obtain ⟨rfl, h⟩ := h
      simp [matchL, ih l h]

end Xbnf
