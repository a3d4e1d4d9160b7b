import Verif.Lemmas.Sim
import Verif.Spec.AnyStream
/-
The methods of a prepend stream over an implementation of `ICharstream` that spells a text: what they
read and what they leave, as for `Stream` in `Verif/Lemmas/Stream.lean`.
-/
namespace Xbnf
namespace G

open Spec (Spells tryMatch)

variable {σ : Type}

/-- The characters left on a stream. -/
def rem (rest : σ → List Rune) : GStream σ → List Rune
  | .base b => rest b
  | .pre p c u => p.drop c ++ rem rest u

/-- The caller's stream is in a good state with at most `w` characters left, cursors are inside the
prepended texts. -/
def WF (w : Nat) (ok : σ → Prop) (rest : σ → List Rune) : GStream σ → Prop
  | .base b => ok b ∧ (rest b).length ≤ w
  | .pre p c u => c ≤ p.length ∧ WF w ok rest u

/-- `s'` is `s` with `k` more characters consumed. -/
def Adv (w : Nat) (ok : σ → Prop) (rest : σ → List Rune) : Nat → GStream σ → GStream σ → Prop
  | k, .base b, .base b' =>
    (ok b ∧ (rest b).length ≤ w) ∧ ok b' ∧ rest b' = (rest b).drop k ∧ k ≤ (rest b).length
  | k, .pre p c u, .pre p' c' u' =>
    p' = p ∧ c ≤ p.length ∧ c' = min (c + k) p.length ∧ Adv w ok rest (k - (p.length - c)) u u'
  | _, _, _ => False

variable {w : Nat} {ok : σ → Prop} {rest : σ → List Rune}

theorem Adv.wf {k s s'} (h : Adv w ok rest k s s') : WF w ok rest s ∧ WF w ok rest s' := by
  induction s generalizing k s' with
  | base b =>
    match s', h with
    | .base b', h =>
      obtain ⟨h1, h2, h3, _⟩ := h
      refine ⟨h1, h2, ?_⟩
      rw [h3, List.length_drop]
      have := h1.2; omega
  | pre p c u ih =>
    match s', h with
    | .pre p' c' u', h =>
      obtain ⟨h1, h2, h3, h4⟩ := h
      have := ih h4
      refine ⟨⟨h2, this.1⟩, ⟨?_, this.2⟩⟩
      rw [h1, h3]; omega

theorem Adv.refl {s : GStream σ} (h : WF w ok rest s) : Adv w ok rest 0 s s := by
  induction s with
  | base b => exact ⟨h, h.1, rfl, Nat.zero_le _⟩
  | pre p c u ih =>
    refine ⟨rfl, h.1, ?_, ?_⟩
    · have := h.1; omega
    · simpa using ih h.2

theorem Adv.trans {i j s t u} (h : Adv w ok rest i s t) (h' : Adv w ok rest j t u) :
    Adv w ok rest (i + j) s u := by
  induction s generalizing i j t u with
  | base b =>
    match t, u, h, h' with
    | .base b', .base b'', h, h' =>
      obtain ⟨h1, h2, h3, h4⟩ := h
      obtain ⟨g1, g2, g3, g4⟩ := h'
      refine ⟨h1, g2, ?_, ?_⟩
      · rw [g3, h3, List.drop_drop]
      · rw [h3, List.length_drop] at g4; omega
  | pre p c v ih =>
    match t, u, h, h' with
    | .pre p' c' v', .pre p'' c'' v'', h, h' =>
      obtain ⟨h1, h2, h3, h4⟩ := h
      obtain ⟨g1, g2, g3, g4⟩ := h'
      subst h1
      refine ⟨g1, h2, by omega, ?_⟩
      have := ih h4 g4
      have e : (i - (p'.length - c)) + (j - (p'.length - c')) = i + j - (p'.length - c) := by omega
      rwa [e] at this

theorem Adv.rem {k s s'} (h : Adv w ok rest k s s') : rem rest s' = (rem rest s).drop k := by
  induction s generalizing k s' with
  | base b =>
    match s', h with
    | .base b', h => exact h.2.2.1
  | pre p c u ih =>
    match s', h with
    | .pre p' c' u', h =>
      obtain ⟨h1, h2, h3, h4⟩ := h
      have := ih h4
      simp only [G.rem, h1, h3, this, List.drop_append, List.drop_drop, List.length_drop]
      congr 1
      by_cases hk : c + k ≤ p.length
      · rw [Nat.min_eq_left hk]
      · rw [Nat.min_eq_right (by omega), List.drop_eq_nil_of_le (by omega), List.drop_eq_nil_of_le (by omega)]

theorem wf_pushBack {s : GStream σ} (h : WF w ok rest s) (p : List Rune) : WF w ok rest (s.pushBack p) := by
  unfold GStream.pushBack
  split
  · exact h
  · exact ⟨Nat.zero_le _, h⟩

theorem rem_pushBack (s : GStream σ) (p : List Rune) : rem rest (s.pushBack p) = p ++ rem rest s := by
  unfold GStream.pushBack
  split
  · simp [*]
  · simp [rem]

theorem Adv.popBack {k s s' p} (h : Adv w ok rest k (s.pushBack p) s') :
    Adv w ok rest (k - p.length) s (s'.popBack p) := by
  unfold GStream.pushBack at h
  unfold GStream.popBack
  split
  · next hp => subst hp; simpa using h
  · next hp =>
    rw [if_neg hp] at h
    match s', h with
    | .pre p' c' u', h => simpa [GStream.under] using h.2.2.2

/-! ### The methods -/

variable {I : Impl σ}

theorem peek_adv (hs : Spells I ok rest) {s : GStream σ} (h : WF w ok rest s) :
    (s.peek I).1 = L.peek (rem rest s) ∧ Adv w ok rest 0 s (s.peek I).2 := by
  induction s with
  | base b =>
    obtain ⟨h1, h2, h3⟩ := hs.peek b h.1
    exact ⟨h1, h, h2, h3, Nat.zero_le _⟩
  | pre p c u ih =>
    simp only [GStream.peek, rem]
    split
    · next hc =>
      refine ⟨?_, Adv.refl h⟩
      rw [getD_eq_headD_drop, L.peek, List.headD_append_of_ne_nil]
      intro hn
      have := List.drop_eq_nil_iff.mp hn
      omega
    · next hc =>
      obtain ⟨h1, h2⟩ := ih h.2
      refine ⟨?_, rfl, h.1, ?_, by simpa using h2⟩
      · rw [h1, List.drop_eq_nil_of_le (by omega)]; rfl
      · have := h.1; omega

theorem next_adv (hs : Spells I ok rest) {s : GStream σ} (h : WF w ok rest s) :
    (s.next I).1 = L.peek (rem rest s) ∧ Adv w ok rest (L.one (rem rest s)) s (s.next I).2 := by
  induction s with
  | base b =>
    obtain ⟨h1, h2, h3⟩ := hs.next b h.1
    refine ⟨h1, h, h2, ?_, ?_⟩
    · rw [h3, rem, L.one]; cases rest b <;> rfl
    · rw [rem, L.one]; cases rest b <;> simp
  | pre p c u ih =>
    obtain ⟨h1, h2⟩ := ih h.2
    simp only [GStream.next, rem]
    split
    · next hc =>
      have hn : p.drop c ≠ [] := by
        intro hn; have := List.drop_eq_nil_iff.mp hn; omega
      have e1 : L.one (p.drop c ++ rem rest u) = 1 := by
        unfold L.one; rw [if_neg]; simp [hn]
      rw [e1]
      refine ⟨?_, rfl, h.1, by omega, ?_⟩
      · rw [L.peek, List.headD_append_of_ne_nil _ _ _ hn, getD_eq_headD_drop]
      · have e : 1 - (p.length - c) = 0 := by omega
        rw [e]; exact Adv.refl h.2
    · next hc =>
      have hn : p.drop c = [] := List.drop_eq_nil_of_le (by omega)
      rw [hn, List.nil_append]
      have := h.1
      refine ⟨h1, rfl, h.1, by omega, ?_⟩
      have e : L.one (rem rest u) - (p.length - c) = L.one (rem rest u) := by omega
      rw [e]; exact h2

theorem cursor_adv (hs : Spells I ok rest) {s : GStream σ} (h : WF w ok rest s) :
    Adv w ok rest 0 s (s.cursor I).2 := by
  induction s with
  | base b =>
    obtain ⟨h2, h3⟩ := hs.cursor b h.1
    exact ⟨h, h2, h3, Nat.zero_le _⟩
  | pre p c u ih =>
    refine ⟨rfl, h.1, ?_, by simpa using ih h.2⟩
    have := h.1; omega

theorem lookup_adv (hs : Spells I ok rest) (idx : Int) {s : GStream σ} (h : WF w ok rest s) :
    Adv w ok rest 0 s (s.positionLookup I idx).2 := by
  induction s with
  | base b =>
    obtain ⟨h2, h3⟩ := hs.positionLookup b idx h.1
    exact ⟨h, h2, h3, Nat.zero_le _⟩
  | pre p c u ih =>
    refine ⟨rfl, h.1, ?_, by simpa using ih h.2⟩
    have := h.1; omega

theorem position_adv (hs : Spells I ok rest) {s : GStream σ} (h : WF w ok rest s) :
    Adv w ok rest 0 s (s.position I).2 := by
  induction s with
  | base b =>
    obtain ⟨h2, h3⟩ := hs.position b h.1
    exact ⟨h, h2, h3, Nat.zero_le _⟩
  | pre p c u ih =>
    have hc := h.1
    simp only [GStream.position]
    split
    · exact ⟨rfl, h.1, by omega, by simpa using ih h.2⟩
    · refine ⟨rfl, h.1, by omega, ?_⟩
      have h1 := cursor_adv hs h.2
      simpa using h1.trans (lookup_adv hs _ h1.wf.2)

theorem skipLoop_adv (hs : Spells I ok rest) (n : Nat) (s : GStream σ) (h : WF w ok rest s)
    (hn : (rem rest s).length < n) :
    ∃ s', GStream.skipLoop I n s = .ok ((rem rest s).takeWhile isWhiteSpace, s') ∧
      Adv w ok rest ((rem rest s).takeWhile isWhiteSpace).length s s' := by
  induction n generalizing s with
  | zero => omega
  | succ n ih =>
    obtain ⟨p1, p2⟩ := peek_adv hs h
    have hpr : rem rest (s.peek I).2 = rem rest s := by simpa using p2.rem
    simp only [GStream.skipLoop]
    rw [p1]
    cases hr : rem rest s with
    | nil => exact ⟨_, if_pos rfl, p2⟩
    | cons c l =>
      have e0 : L.peek (c :: l) = c := rfl
      rw [e0]
      by_cases hc : c = EOFChar
      · subst hc
        rw [if_pos rfl]
        simp only [List.takeWhile_cons, eof_not_space]
        exact ⟨_, rfl, p2⟩
      · rw [if_neg hc]
        by_cases hw : isWhiteSpace c
        · rw [if_neg (by simp [hw])]
          obtain ⟨n1, n2⟩ := next_adv hs p2.wf.2
          have e1 : L.one (rem rest (s.peek I).2) = 1 := by rw [hpr, hr]; rfl
          have e2 : L.peek (rem rest (s.peek I).2) = c := by rw [hpr, hr]; rfl
          rw [e1] at n2
          rw [e2] at n1
          have e3 : rem rest ((s.peek I).2.next I).2 = l := by rw [n2.rem, hpr, hr]; rfl
          obtain ⟨s', g1, g2⟩ := ih _ n2.wf.2 (by rw [e3]; rw [hr] at hn; simpa using hn)
          rw [e3] at g1 g2
          refine ⟨s', ?_, ?_⟩
          · rw [g1, n1, List.takeWhile_cons, if_pos hw]; rfl
          · rw [List.takeWhile_cons, if_pos hw, List.length_cons, Nat.add_comm]
            have := p2.trans (n2.trans g2)
            rwa [Nat.zero_add] at this
        · rw [if_pos (by simp [hw])]
          simp only [List.takeWhile_cons, hw]
          exact ⟨_, rfl, p2⟩

theorem rem_le {s : GStream σ} (h : WF w ok rest s) : (rem rest s).length ≤ s.left + w := by
  induction s with
  | base b => simpa [rem, GStream.left] using h.2
  | pre p c u ih =>
    have := ih h.2
    simp only [rem, GStream.left, List.length_append, List.length_drop]; omega

/-- White space is skipped, whatever is pushed back; the bound is never the reason to stop. -/
theorem skipSpaces_adv (hs : Spells I ok rest) {s : GStream σ} (h : WF w ok rest s) :
    ∃ s', s.skipSpaces I w = .ok ((rem rest s).takeWhile isWhiteSpace, s') ∧
      Adv w ok rest ((rem rest s).takeWhile isWhiteSpace).length s s' := by
  cases s with
  | base b =>
    obtain ⟨h1, h2, h3⟩ := hs.skipSpaces b h.1
    refine ⟨.base (I.skipSpaces b).2, by rw [GStream.skipSpaces, h1]; rfl, h, h2, ?_, ?_⟩
    · rw [h3]; exact (drop_takeWhile_length _ _).symm
    · exact (List.takeWhile_sublist isWhiteSpace).length_le
  | pre p c u => exact skipLoop_adv hs _ _ h (by have := rem_le h; omega)

theorem matchLoop_adv (hs : Spells I ok rest) (t : List Rune) {s : GStream σ} (h : WF w ok rest s) :
    (s.matchLoop I t).1 = (L.matchK t (rem rest s)).1 ∧
      (s.matchLoop I t).2.1 = (L.matchK t (rem rest s)).2.1 ∧
      Adv w ok rest (L.matchK t (rem rest s)).2.2 s (s.matchLoop I t).2.2 := by
  induction t generalizing s with
  | nil => exact ⟨rfl, rfl, Adv.refl h⟩
  | cons x xs ih =>
    obtain ⟨n1, n2⟩ := next_adv hs h
    simp only [GStream.matchLoop]
    rw [n1]
    cases hr : rem rest s with
    | nil =>
      rw [hr] at n2
      exact ⟨rfl, rfl, n2⟩
    | cons c l =>
      rw [hr] at n2
      have e0 : L.peek (c :: l) = c := rfl
      rw [e0]
      simp only [L.matchK]
      have n2 : Adv w ok rest 1 s (s.next I).2 := n2
      have e3 : rem rest (s.next I).2 = l := by rw [n2.rem, hr]; rfl
      by_cases hc : c = EOFChar
      · rw [if_pos hc, if_pos hc]
        exact ⟨rfl, rfl, n2⟩
      · rw [if_neg hc, if_neg hc]
        by_cases hw : c = x
        · rw [if_neg (by simpa using hw), if_neg (by simpa using hw)]
          have := ih n2.wf.2
          rw [e3] at this
          refine ⟨by rw [this.1], this.2.1, ?_⟩
          rw [Nat.add_comm]
          exact n2.trans this.2.2
        · rw [if_pos hw, if_pos hw]
          exact ⟨rfl, rfl, n2⟩

theorem matchK_tryMatch (t l : List Rune) (hv : ∀ c ∈ l, c ≠ EOFChar) :
    L.matchK t l = ((tryMatch t l).1, (tryMatch t l).2, (tryMatch t l).1.length) := by
  induction t generalizing l with
  | nil => cases l <;> rfl
  | cons x t ih =>
    cases l with
    | nil => rfl
    | cons c l =>
      simp only [L.matchK, tryMatch]
      rw [if_neg (hv c (by simp))]
      by_cases hc : c = x
      · rw [if_neg (by simpa using hc), if_pos hc, ih l (fun a ha => hv a (by simp [ha]))]
        simp
      · rw [if_pos hc, if_neg hc]; rfl

theorem tryMatch_le (t l : List Rune) : (tryMatch t l).1.length ≤ l.length := by
  induction t generalizing l with
  | nil => cases l <;> simp [tryMatch]
  | cons x t ih =>
    cases l with
    | nil => simp [tryMatch]
    | cons c l =>
      simp only [tryMatch]
      split
      · simpa using ih l
      · simp

theorem matchRunes_adv (hs : Spells I ok rest) (t : List Rune) {s : GStream σ} (h : WF w ok rest s) :
    (s.matchRunes I t).1 = (L.matchK t (rem rest s)).1 ∧
      (s.matchRunes I t).2.1 = (L.matchK t (rem rest s)).2.1 ∧
      Adv w ok rest (L.matchK t (rem rest s)).2.2 s (s.matchRunes I t).2.2 := by
  cases s with
  | base b =>
    obtain ⟨h1, h2, h3⟩ := hs.matchRunes b t h.1
    simp only [GStream.matchRunes, rem]
    rw [matchK_tryMatch _ _ (hs.chars b h.1), h1]
    exact ⟨rfl, rfl, h, h2, h3, tryMatch_le _ _⟩
  | pre p c u => exact matchLoop_adv hs t h

end G
end Xbnf
