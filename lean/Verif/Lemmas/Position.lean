import Verif.Lemmas.Stream
import Verif.Spec.Text
/-
The line table gives the line and column of a character, except for the characters before the
first newline once a newline is in the table.
-/
namespace Xbnf
open Spec

theorem nlIdx_append (i : Int) (a b : List Rune) :
    nlIdx i (a ++ b) = nlIdx i a ++ nlIdx (i + a.length) b := by
  induction a generalizing i with
  | nil => simp [nlIdx]
  | cons c cs ih =>
    have e : i + 1 + (cs.length : Int) = i + ((c :: cs).length : Int) := by
      simp only [List.length_cons]; push_cast; omega
    simp only [List.cons_append, nlIdx, ih, e]
    split <;> simp

theorem nlIdx_length (i : Int) (l : List Rune) : (nlIdx i l).length = l.count newline := by
  induction l generalizing i with
  | nil => rfl
  | cons c cs ih =>
    simp only [nlIdx, List.count_cons]
    split
    · next h => simp [h, ih]
    · next h => simp [h, ih]

theorem nlIdx_bounds (i : Int) (l : List Rune) : ∀ x ∈ nlIdx i l, i ≤ x ∧ x < i + l.length := by
  induction l generalizing i with
  | nil => intro x hx; simp [nlIdx] at hx
  | cons c cs ih =>
    intro x hx
    simp only [nlIdx] at hx
    simp only [List.length_cons]
    push_cast
    split at hx
    · rcases List.mem_cons.mp hx with rfl | hx
      · omega
      · have := ih _ _ hx; omega
    · have := ih _ _ hx; omega

theorem nlIdx_sorted (i : Int) (l : List Rune) : (nlIdx i l).Pairwise (· < ·) := by
  induction l generalizing i with
  | nil => simp [nlIdx]
  | cons c cs ih =>
    simp only [nlIdx]
    split
    · refine List.pairwise_cons.mpr ⟨?_, ih _⟩
      intro x hx
      have := nlIdx_bounds _ _ x hx
      omega
    · exact ih _

theorem nlIdx_last (i : Int) (l : List Rune) :
    ((l.reverse.takeWhile (fun c => c ≠ newline)).length : Int) =
      i + l.length - 1 - (nlIdx i l).getLastD (i - 1) := by
  have key : ∀ r : List Rune, ((r.takeWhile (fun c => c ≠ newline)).length : Int) =
      i + r.length - 1 - (nlIdx i r.reverse).getLastD (i - 1) := by
    intro r
    induction r with
    | nil => simp [nlIdx]
    | cons c r ih =>
      simp only [List.reverse_cons, nlIdx_append, nlIdx]
      by_cases h : c = newline
      · simp only [h, if_true, List.getLastD_eq_getLast?, List.takeWhile_cons]
        simp
        omega
      · simp only [h, if_false, List.append_nil, List.takeWhile_cons]
        simp only [ne_eq, h, not_false_eq_true, decide_true, if_true, List.length_cons]
        simp only [ne_eq] at ih
        push_cast
        rw [ih]
        omega
  have := key l.reverse
  simpa using this

/-- The newlines of a text before and after an index. -/
theorem posOf_eq (l : List Rune) (i : Nat) (h : i ≤ l.length) :
    posOf l i = ⟨1 + (nlIdx 0 (l.take i)).length, i - (nlIdx 0 (l.take i)).getLastD (-1)⟩ := by
  unfold posOf lineOf colOf
  rw [nlIdx_length]
  have := nlIdx_last 0 (l.take i)
  rw [List.length_take, Nat.min_eq_left h] at this
  rw [this]
  congr 1
  simp; omega

theorem searchLine_eq (lines : List Int) (idx : Int) (k : Nat) :
    ∀ m, k ≤ m → (k = 0 ∨ lines.getD k 0 ≤ idx) →
      (∀ j, k < j → j ≤ m → idx < lines.getD j 0) → searchLine lines idx m = k := by
  intro m
  induction m with
  | zero => intro h1 _ _; simp [searchLine]; omega
  | succ m ih =>
    intro h1 h2 h3
    simp only [searchLine]
    by_cases hk : k = m + 1
    · subst hk
      rcases h2 with h2 | h2
      · omega
      · rw [if_pos h2]
    · have := h3 (m + 1) (by omega) (by omega)
      rw [if_neg (by omega)]
      exact ih (by omega) h2 (fun j hj hj' => h3 j hj (by omega))

theorem getD_app_lt (a b : List Int) (i : Nat) (h : i < a.length) :
    (a ++ b).getD i 0 = a.getD i 0 := by
  simp [List.getD_eq_getElem?_getD, List.getElem?_append_left h]

theorem getD_app_ge (a b : List Int) (i : Nat) (h : a.length ≤ i) :
    (a ++ b).getD i 0 = b.getD (i - a.length) 0 := by
  simp [List.getD_eq_getElem?_getD, List.getElem?_append_right h]

theorem getD_mem (a : List Int) (i : Nat) (h : i < a.length) : a.getD i 0 ∈ a := by
  simp [List.getD_eq_getElem?_getD, List.getElem?_eq_getElem h]

theorem getLastD_eq_getD (a : List Int) (d : Int) (h : a ≠ []) :
    a.getLastD d = a.getD (a.length - 1) 0 := by
  have : a.length - 1 < a.length := by
    have := List.length_pos_iff.mpr h; omega
  rw [List.getLastD_eq_getLast?, List.getLast?_eq_getElem?, List.getD_eq_getElem?_getD,
    List.getElem?_eq_getElem this]
  rfl

/-- What `posLookup` returns for a table made of the newlines `A` before the index, the newlines `B`
from the index on, and the last index. -/
theorem posLookup_split (A B : List Int) (idx last : Int) (h0 : 0 ≤ idx) (hl : idx ≤ last)
    (hA : ∀ x ∈ A, x < idx) (hB : ∀ x ∈ B, idx ≤ x ∧ x ≤ last) (hBs : B.Pairwise (· < ·)) :
    posLookup (A ++ B ++ [last]) idx =
      (if A = [] ∧ B ≠ [] ∧ B.headD 0 ≠ idx then some ⟨2, idx - B.headD 0⟩
       else some ⟨1 + A.length, idx - A.getLastD (-1)⟩) := by
  have hlen : (A ++ B ++ [last]).length - 1 = A.length + B.length := by simp
  have hlast : (A ++ B ++ [last]).getD (A.length + B.length) 0 = last := by
    rw [getD_app_ge _ _ _ (by simp)]; simp
  have hAget : ∀ i, i < A.length → (A ++ B ++ [last]).getD i 0 = A.getD i 0 := by
    intro i hi
    rw [getD_app_lt _ _ _ (by simp; omega), getD_app_lt _ _ _ hi]
  have hBget : ∀ i, i < B.length → (A ++ B ++ [last]).getD (A.length + i) 0 = B.getD i 0 := by
    intro i hi
    rw [getD_app_lt _ _ _ (by simp; omega), getD_app_ge _ _ _ (by omega)]
    congr 1; omega
  unfold posLookup
  rw [if_neg (by omega), if_neg (by simp)]
  simp only [hlen, hlast]
  rw [if_neg (by omega)]
  generalize hlines : A ++ B ++ [last] = lines at *
  by_cases hm : A.length + B.length = 0
  · have hA0 : A = [] := List.eq_nil_of_length_eq_zero (by omega)
    have hB0 : B = [] := List.eq_nil_of_length_eq_zero (by omega)
    subst hA0; subst hB0
    simp
  · rw [if_neg hm]
    cases B with
    | nil =>
      have hAne : A ≠ [] := by intro e; subst e; simp at hm
      have hApos : 0 < A.length := List.length_pos_iff.mpr hAne
      have hAl : A.getD (A.length - 1) 0 < idx := hA _ (getD_mem _ _ (by omega))
      simp only [List.length_nil, Nat.add_zero] at *
      have hne : last ≠ lines.getD (A.length - 1) 0 := by
        rw [hAget _ (by omega)]; omega
      have hc : ¬ (A = [] ∧ ([] : List Int) ≠ [] ∧ ([] : List Int).headD 0 ≠ idx) := by simp
      rw [if_neg hne, if_neg hc]
      rw [getLastD_eq_getD _ _ hAne]
      by_cases hi : idx = last
      · have hs : searchLine lines idx A.length = A.length :=
          searchLine_eq _ _ _ _ (by omega) (Or.inr (by rw [hlast]; omega)) (by intro j; omega)
        rw [hs, hlast, if_pos hi, if_pos (by omega), hAget _ (by omega)]
        congr 2; omega
      · have hs : searchLine lines idx A.length = A.length - 1 := by
          refine searchLine_eq _ _ _ _ (by omega) (Or.inr (by rw [hAget _ (by omega)]; omega)) ?_
          intro j hj hj'
          have : j = A.length := by omega
          rw [this, hlast]; omega
        rw [hs, hAget _ (by omega), if_neg (by omega)]
        congr 2; omega
    | cons x B' =>
      have hx := hB x (by simp)
      have hB' : ∀ y ∈ B', x < y := (List.pairwise_cons.mp hBs).1
      have h0get : lines.getD A.length 0 = x := by
        have := hBget 0 (by simp)
        simpa using this
      -- everything after position A.length that is searched is greater than idx
      generalize hmax : (if last = lines.getD (A.length + (x :: B').length - 1) 0
        then A.length + (x :: B').length - 1 else A.length + (x :: B').length) = mx
      have hmx : A.length ≤ mx ∧ mx ≤ A.length + (x :: B').length := by
        rw [← hmax]; split <;> (simp only [List.length_cons]; omega)
      have hgt : ∀ j, A.length < j → j ≤ mx → idx < lines.getD j 0 := by
        intro j hj hj'
        by_cases hjm : j < A.length + (x :: B').length
        · have hh := hBget (j - A.length) (by omega)
          have e : A.length + (j - A.length) = j := by omega
          rw [e] at hh
          rw [hh]
          have e2 : j - A.length = (j - A.length - 1) + 1 := by omega
          rw [e2, List.getD_cons_succ]
          have := hB' _ (getD_mem B' (j - A.length - 1) (by simp only [List.length_cons] at hjm; omega))
          omega
        · have hje : j = A.length + (x :: B').length := by omega
          rw [hje, hlast]
          have hmm : mx = A.length + (x :: B').length := by omega
          rw [hmm] at hmax
          split at hmax
          · simp only [List.length_cons] at hmax; omega
          · next hne =>
            -- last differs from the last newline, which is at least idx
            have hh := hBget ((x :: B').length - 1) (by simp)
            have e : A.length + ((x :: B').length - 1) = A.length + (x :: B').length - 1 := by
              simp only [List.length_cons]; omega
            rw [e] at hh
            have hmem := getD_mem (x :: B') ((x :: B').length - 1) (by simp)
            have := hB _ hmem
            rw [hh] at hne
            omega
      by_cases hxi : x = idx
      · have hs : searchLine lines idx mx = A.length :=
          searchLine_eq _ _ _ _ hmx.1 (Or.inr (by rw [h0get]; omega)) hgt
        have hc : ¬ (A = [] ∧ x :: B' ≠ [] ∧ (x :: B').headD 0 ≠ idx) := by simp [hxi]
        rw [hs, h0get, if_pos hxi.symm, if_neg hc]
        by_cases hA0 : A = []
        · subst hA0
          simp
        · have hApos : 0 < A.length := List.length_pos_iff.mpr hA0
          rw [if_pos hApos, hAget _ (by omega), getLastD_eq_getD _ _ hA0]
          congr 2; omega
      · by_cases hA0 : A = []
        · subst hA0
          have hs : searchLine lines idx mx = 0 :=
            searchLine_eq _ _ _ _ (by omega) (Or.inl rfl) hgt
          simp only [List.length_nil] at h0get
          have hc : ([] : List Int) = [] ∧ x :: B' ≠ [] ∧ (x :: B').headD 0 ≠ idx := by simp [hxi]
          rw [hs, h0get, if_neg (fun e => hxi e.symm), if_pos hc]
          rfl
        · have hApos : 0 < A.length := List.length_pos_iff.mpr hA0
          have hAl : A.getD (A.length - 1) 0 < idx := hA _ (getD_mem _ _ (by omega))
          have hs : searchLine lines idx mx = A.length - 1 := by
            refine searchLine_eq _ _ _ _ (by omega) (Or.inr (by rw [hAget _ (by omega)]; omega)) ?_
            intro j hj hj'
            by_cases hja : j = A.length
            · rw [hja, h0get]; omega
            · exact hgt j (by omega) hj'
          have hc : ¬ (A = [] ∧ x :: B' ≠ [] ∧ (x :: B').headD 0 ≠ idx) := by simp [hA0]
          rw [hs, hAget _ (by omega), if_neg (by omega), if_neg hc, getLastD_eq_getD _ _ hA0]
          congr 2; omega

/-- Index of the first newline (the length if there is none). -/
def firstNewline (l : List Rune) : Nat := l.findIdx (fun c => c == newline)

theorem nlIdx_head (i : Int) (l : List Rune) (h : newline ∈ l) :
    ∃ B, nlIdx i l = (i + firstNewline l) :: B := by
  induction l generalizing i with
  | nil => simp at h
  | cons c cs ih =>
    simp only [nlIdx, firstNewline, List.findIdx_cons]
    by_cases hc : c = newline
    · simp [hc]
    · have hm : newline ∈ cs := by
        rcases List.mem_cons.mp h with h | h
        · exact absurd h.symm hc
        · exact h
      obtain ⟨B, hB⟩ := ih (i + 1) hm
      refine ⟨B, ?_⟩
      have : (c == newline) = false := by simpa using hc
      simp only [hc, if_false, this, cond_false, hB, firstNewline]
      push_cast
      congr 1
      omega

theorem nlIdx_nil (i : Int) (l : List Rune) : nlIdx i l = [] ↔ newline ∉ l := by
  have := nlIdx_length i l
  rw [← List.length_eq_zero_iff, this, List.count_eq_zero]

/-- The complete answer of the line table of a text. -/
theorem posLookup_linesOf (l : List Rune) (i : Nat) (h : i < l.length) :
    posLookup (linesOf l) i =
      if newline ∉ l.take (i + 1) ∧ newline ∈ l then some ⟨2, (i : Int) - firstNewline l⟩
      else some (posOf l i) := by
  have hsplit : l = l.take i ++ l.drop i := (List.take_append_drop i l).symm
  have hnl : nlIdx 0 l = nlIdx 0 (l.take i) ++ nlIdx i (l.drop i) := by
    conv => lhs; rw [hsplit]
    rw [nlIdx_append]
    congr 2
    rw [List.length_take]; omega
  rw [linesOf_eq, hnl, posLookup_split _ _ _ _ (by omega) (by omega)]
  · rw [posOf_eq _ _ (by omega)]
    have hiff : (nlIdx 0 (l.take i) = [] ∧ nlIdx (i : Int) (l.drop i) ≠ [] ∧
        (nlIdx (i : Int) (l.drop i)).headD 0 ≠ i) ↔
        (newline ∉ l.take (i + 1) ∧ newline ∈ l) := by
      have hd : l.drop i = l[i] :: l.drop (i + 1) := List.drop_eq_getElem_cons h
      have ht : l.take (i + 1) = l.take i ++ [l[i]] := by
        rw [List.take_append_getElem]
      rw [nlIdx_nil, Ne, nlIdx_nil, ht]
      constructor
      · rintro ⟨h1, h2, h3⟩
        have h2' : newline ∈ l.drop i := by simpa using h2
        refine ⟨?_, List.mem_of_mem_drop h2'⟩
        intro hm
        rcases List.mem_append.mp hm with hm | hm
        · exact h1 hm
        · have : l[i] = newline := (List.mem_singleton.mp hm).symm
          apply h3
          rw [hd]
          simp [nlIdx, this]
      · rintro ⟨h1, h2⟩
        have h1a : newline ∉ l.take i := fun hm => h1 (List.mem_append_left _ hm)
        have h1b : l[i] ≠ newline := fun e => h1 (by simp [e])
        refine ⟨h1a, ?_, ?_⟩
        · intro hm
          rw [hsplit] at h2
          rcases List.mem_append.mp h2 with h2 | h2
          · exact h1a h2
          · exact hm h2
        · have h2d : newline ∈ l.drop (i + 1) := by
            have : newline ∈ l.take i ++ l.drop i := by rwa [← hsplit]
            rcases List.mem_append.mp this with hm | hm
            · exact absurd hm h1a
            · rw [hd] at hm
              rcases List.mem_cons.mp hm with hm | hm
              · exact absurd hm.symm h1b
              · exact hm
          obtain ⟨B, hB⟩ := nlIdx_head ((i : Int) + 1) _ h2d
          rw [hd]
          simp only [nlIdx, h1b, if_false, hB, List.headD_cons]
          omega
    by_cases hc : newline ∉ l.take (i + 1) ∧ newline ∈ l
    · rw [if_pos (hiff.mpr hc), if_pos hc]
      obtain ⟨h1, -, -⟩ := hiff.mpr hc
      obtain ⟨B, hB⟩ := nlIdx_head 0 l hc.2
      rw [hnl, h1, List.nil_append] at hB
      rw [hB]
      simp
    · rw [if_neg (fun x => hc (hiff.mp x)), if_neg hc]
  · intro x hx
    have := nlIdx_bounds _ _ x hx
    rw [List.length_take] at this; omega
  · intro x hx
    have := nlIdx_bounds _ _ x hx
    rw [List.length_drop] at this; omega
  · exact nlIdx_sorted _ _

theorem posOf_take (l : List Rune) (i f : Nat) (h : i ≤ f) : posOf (l.take f) i = posOf l i := by
  unfold posOf lineOf colOf
  rw [List.take_take, Nat.min_eq_left h]

end Xbnf
