import Verif.Props.Streams
import Verif.Lemmas.Ref
import Verif.Spec.Places
/-
Where the trees of an evaluation are in the text.
-/
namespace Xbnf
open Spec L Props

/-! ### Streams at an index of a text -/

/-- The characters of the stream at the bottom. -/
def Stream.whole : Stream → List Rune
  | .base b => b.chars
  | .pre _ _ u => u.whole

/-- The stream is at index `i` of the text. -/
structure Here (text : List Rune) (i : Nat) (s : Stream) : Prop where
  wf : s.WF
  whole : s.whole = text
  lines : s.LinesOK
  cursor : s.cursor = i
  rem : s.rem = text.drop i
  le : i ≤ text.length

theorem here_ofChars (text : List Rune) : Here text 0 (Stream.ofChars text) :=
  ⟨Nat.zero_le _, rfl, Base.linesOK_ofChars text, rfl, rfl, Nat.zero_le _⟩

theorem Adv.whole {k s s'} (h : Adv k s s') : s'.whole = s.whole := by
  induction s generalizing k s' with
  | base b =>
    match s', h with
    | .base b', h => exact h.1
  | pre p c u ih =>
    match s', h with
    | .pre p' c' u', h => exact ih (s' := u') h.2.2.2

theorem Adv.cursor {k s s'} (h : Adv k s s') : s'.cursor = s.cursor + k := by
  induction s generalizing k s' with
  | base b =>
    match s', h with
    | .base b', h =>
      simp only [Stream.cursor, h.2.1]
      omega
  | pre p c u ih =>
    match s', h with
    | .pre p' c' u', h =>
      obtain ⟨rfl, h2, rfl, h4⟩ := h
      have := ih h4
      simp only [Stream.cursor, this]
      omega

theorem Here.adv {text : List Rune} {i k : Nat} {s s' : Stream} (h : Here text i s) (ha : Adv k s s') : Here text (i + k) s' := by
  have hle := ha.le
  rw [h.rem, List.length_drop] at hle
  have hl := h.le
  refine ⟨ha.wf.2, ha.whole.trans h.whole, ha.linesOK h.lines, ?_, ?_, by omega⟩
  · rw [ha.cursor, h.cursor]; omega
  · rw [ha.rem, h.rem, List.drop_drop]

theorem whole_pushBack (s : Stream) (p : List Rune) : (s.pushBack p).whole = s.whole := by
  unfold Stream.pushBack
  split <;> rfl

theorem cursor_pushBack (s : Stream) (p : List Rune) : (s.pushBack p).cursor = s.cursor - p.length := by
  unfold Stream.pushBack
  split
  · simp [*]
  · simp [Stream.cursor]

/-- Pushing back the characters since `a`. -/
theorem Here.push {text : List Rune} {a i : Nat} {s : Stream} (h : Here text i s) (ha : a ≤ i) {p : List Rune}
    (hp : p = sl text a i) : Here text a (s.pushBack p) := by
  have hl := h.le
  refine ⟨Stream.wf_pushBack h.wf _, (whole_pushBack _ _).trans h.whole, (Stream.linesOK_pushBack _ _).2 h.lines, ?_, ?_, by omega⟩
  · rw [cursor_pushBack, h.cursor, hp, sl_length hl]; omega
  · rw [Stream.rem_pushBack, h.rem, hp, sl_append_drop ha]

theorem Here.pos {text : List Rune} {i : Nat} {s : Stream} (h : Here text i s) : Here text i s.position.2 := by
  have := h.adv (Stream.position_adv h.wf)
  rwa [Nat.add_zero] at this

theorem Here.valid {text : List Rune} {i : Nat} {s : Stream} (_ : Here text i s) (hv : Valid text) : Valid (text.drop i) := hv.drop i

theorem Stream.cursor_le_whole : ∀ {u : Stream}, u.WF → u.cursor ≤ (u.whole.length : Int)
  | .base b, h => by
    simp only [Stream.cursor, Stream.whole]
    simp only [Stream.WF] at h
    omega
  | .pre p c u, h => by
    have := Stream.cursor_le_whole h.2
    have := h.1
    simp only [Stream.cursor, Stream.whole]
    omega

/-- Looking up an index that was passed. -/
theorem lookup_reported {text : List Rune} {i k : Nat} : ∀ {s : Stream}, s.WF → s.whole = text → s.LinesOK → s.cursor = i →
    i ≤ text.length → k < i → Reported text k (s.positionLookup k)
  | .base b, _, hw, hl, hc, hle, hk => by
    simp only [Stream.whole] at hw
    simp only [Stream.cursor] at hc
    simp only [Stream.positionLookup]
    unfold Reported
    rw [if_pos (by omega)]
    by_cases h0 : k = 0
    · subst h0
      left
      simp [Base.positionLookup, posOf, lineOf, colOf]
    · obtain ⟨f, g1, g2, g3⟩ := positionLookup_eq b hl k (by omega) (by omega)
      rw [g3, hw]
      split
      · rename_i hn
        right
        refine ⟨by omega, hn.1, List.mem_of_mem_take hn.2, _, ?_, rfl⟩
        have : ¬ firstNewline (text.take f) ≤ k := by
          intro hle'
          apply hn.1
          have hlt : firstNewline (text.take f) < (text.take f).length := by
            unfold firstNewline
            rw [List.findIdx_lt_length]
            exact ⟨newline, hn.2, by simp⟩
          have hget : (text.take f)[firstNewline (text.take f)] = newline := by
            have := List.findIdx_getElem (xs := text.take f) (p := fun c => c == newline) (w := hlt)
            unfold firstNewline
            simpa using this
          rw [List.getElem_take] at hget
          rw [← hget]
          rw [List.mem_take_iff_getElem]
          rw [List.length_take] at hlt
          exact ⟨firstNewline (text.take f), by omega, rfl⟩
        omega
      · left; rfl
  | .pre p c u, hwf, hw, hl, hc, hle, hk => by
    simp only [Stream.positionLookup]
    have : u.cursor = (i + (p.length - c) : Nat) := by
      simp only [Stream.cursor] at hc
      have := hwf.1
      omega
    have hur : u.cursor ≤ (text.length : Int) := by
      clear this hc
      simp only [Stream.whole] at hw
      rw [← hw]
      exact Stream.cursor_le_whole hwf.2
    exact lookup_reported (s := u) hwf.2 hw hl this (by omega) (by omega)
theorem Here.lookup {text : List Rune} {i k : Nat} {s : Stream} (h : Here text i s) (hk : k < i) :
    Reported text k (s.positionLookup k) := lookup_reported h.wf h.whole h.lines h.cursor h.le hk

theorem position_reported {text : List Rune} : ∀ {s : Stream} {i : Nat}, s.WF → s.whole = text → s.LinesOK → s.cursor = i →
    Reported text i s.position.1
  | .base b, i, hwf, hw, hl, hc => by
    simp only [Stream.whole] at hw
    simp only [Stream.cursor] at hc
    have hc : b.cursor = i := by omega
    simp only [Stream.position, base_position b hl, hw, hc]
    unfold Reported
    split
    · left; rfl
    · rfl
  | .pre p c u, i, hwf, hw, hl, hc => by
    simp only [Stream.position]
    have h1 := hwf.1
    simp only [Stream.cursor] at hc
    split
    · exact position_reported (s := u) hwf.2 hw hl (by omega)
    · rename_i hlt
      rw [hc]
      have hle := Stream.cursor_le_whole hwf.2
      have hw' : u.whole = text := hw
      rw [hw'] at hle
      have hcur : u.cursor = ((i + (p.length - c) : Nat) : Int) := by omega
      exact lookup_reported (i := i + (p.length - c)) hwf.2 hw hl hcur (by omega) (by omega)

theorem Here.position {text : List Rune} {i : Nat} {s : Stream} (h : Here text i s) : Reported text i s.position.1 :=
  position_reported h.wf h.whole h.lines h.cursor

/-! ### Leaves -/

theorem gap_of {text : List Rune} {i j : Nat} {b : Bool} (hi : i ≤ text.length)
    (hj : j ≤ (L.spaces b (text.drop i)).length) : Gap text i (i + j) := by
  have hpre : L.spaces b (text.drop i) <+: text.drop i := by
    rw [spaces_blank]; exact blank_prefix _ _
  have hlen := hpre.length_le
  rw [List.length_drop] at hlen
  refine ⟨by omega, by omega, fun c hc => ?_⟩
  have : (text.take (i + j)).drop i = (L.spaces b (text.drop i)).take j := by
    rw [← List.take_drop]
    rw [List.prefix_iff_eq_take.1 hpre, List.take_take, Nat.min_eq_left hj]
  rw [this] at hc
  exact blank_ws (spaces_blank b _ ▸ List.mem_of_mem_take hc)

theorem prefix_get {a b : List Rune} (h : a <+: b) {k : Nat} (hk : k < a.length) : b[k]? = some a[k] := by
  obtain ⟨t, rfl⟩ := h
  rw [List.getElem?_append_left hk, List.getElem?_eq_getElem hk]

theorem get_of_peek {text : List Rune} {i : Nat} {c : Rune} (h : L.peek (text.drop i) = c) (hc : c ≠ EOFChar) : text[i]? = some c := by
  unfold L.peek at h
  rw [List.headD_eq_head?_getD, List.head?_drop] at h
  cases hg : text[i]? with
  | none => rw [hg] at h; exact absurd h.symm hc
  | some d => rw [hg] at h; exact congrArg some h

theorem evalEOF_laid {text : List Rune} {i : Nat} {s : Stream} (hv : Valid text) (h : Here text i s) {b : RuleBase} {flag : Int}
    {nd : Node} (hn : (evalEOF b flag s).1.node = some nd) : Laid text i [nd] (i + (evalEOF b flag s).1.used) := by
  obtain ⟨h1, h2⟩ := skip_spec flag h.wf
  unfold evalEOF at hn ⊢
  generalize hsk : (if flag = SUGGEST_SKIP then s.skipSpaces else ([], s)) = sk at *
  rw [h.rem] at h1 h2
  have hh := h.adv h2
  simp only at hn ⊢
  split at hn
  · rename_i hp
    rw [if_pos hp]
    simp only [Option.some.injEq] at hn
    subst hn
    rw [L.peek_eq hh.wf, hh.rem, peek_eof (hv.drop _), List.drop_eq_nil_iff] at hp
    have hle := hh.le
    have he : i + (L.spaces (decide (flag = SUGGEST_SKIP)) (text.drop i)).length = text.length := by omega
    have hpos := hh.position
    unfold Reported at hpos
    rw [if_neg (by omega)] at hpos
    have hend : i + ({ node := none, read := sk.1, sticky := true } : Res).used = text.length := by
      simp only [Res.used, h1, List.length_nil]; omega
    simp only [Res.used] at hend ⊢
    rw [hend]
    exact .eof rfl rfl (he ▸ gap_of h.le (Nat.le_refl _)) rfl hpos .nil
  · cases hn

theorem leafNode_children (rt b st ch p) : (leafNode rt b st ch p).children = [] := rfl

theorem evalChar_laid {text : List Rune} {i : Nat} {s : Stream} (h : Here text i s) {b : RuleBase} {t : Rune}
    (ht : t ≠ EOFChar) {flag : Int} {nd : Node} (hn : (evalChar b t flag s).1.node = some nd) :
    Laid text i [nd] (i + (evalChar b t flag s).1.used) := by
  have hp := h.pos
  obtain ⟨h1, h2⟩ := skip_spec flag hp.wf
  rw [hp.rem] at h1 h2
  have hh := hp.adv h2
  unfold evalChar at hn ⊢
  split at hn
  · cases hn
  rename_i hpk
  rw [if_neg hpk]
  simp only at hn ⊢
  generalize hsk : (if flag = SUGGEST_SKIP then s.position.2.skipSpaces else ([], s.position.2)) = sk at *
  generalize hws : L.spaces (decide (flag = SUGGEST_SKIP)) (text.drop i) = ws at *
  have hpre : ws <+: text.drop i := by
    rw [← hws, spaces_blank]; exact blank_prefix _ _
  have hlen := hpre.length_le
  rw [List.length_drop] at hlen
  have hle := hh.le
  by_cases hc : flag = SUGGEST_SKIP ∧ isWhiteSpace t = true ∧ sk.1 ≠ []
  · rw [if_pos hc] at hn ⊢
    cases hf : sk.1.findIdx? (fun c => c == t) with
    | none => rw [hf] at hn; cases hn
    | some k =>
      rw [hf] at hn
      simp only [Option.some.injEq] at hn ⊢
      subst hn
      rw [h1, List.findIdx?_eq_some_iff_getElem] at hf
      obtain ⟨hk, hkt, _⟩ := hf
      have hget : text[i + k]? = some t := by
        have : (text.drop i)[k]? = some t := by
          rw [prefix_get hpre hk]
          simpa using hkt
        rwa [List.getElem?_drop] at this
      have hend : (({ node := none, read := sk.1, unused := sk.1.drop (k + 1), sticky := true } : Res)).used = k + 1 := by
        simp only [Res.used, List.length_drop, h1]; omega
      simp only [Res.used] at hend ⊢
      rw [hend]
      have hcur : sk.2.cursor - (sk.1.length : Int) + k = ((i + k : Nat) : Int) := by
        rw [hh.cursor, h1]; omega
      refine .char rfl rfl (gap_of h.le (b := decide (flag = SUGGEST_SKIP)) (by rw [hws]; omega)) hget rfl ?_ .nil
      show Reported text (i + k) (sk.2.positionLookup (sk.2.cursor - (sk.1.length : Int) + k))
      rw [hcur]
      exact hh.lookup (by omega)
  · rw [if_neg hc] at hn ⊢
    split at hn
    · cases hn
    · rename_i hpt
      rw [if_neg hpt]
      simp only [Option.some.injEq] at hn ⊢
      subst hn
      have hn2 := next_one hh.pos.wf
      rw [hh.pos.rem] at hn2
      have hpt : L.peek (text.drop (i + ws.length)) = t := by
        rw [L.peek_eq hh.wf, hh.rem] at hpt
        exact Classical.byContradiction hpt
      rw [hpt] at hn2
      have hend : (({ node := none, read := sk.1 ++ [sk.2.position.2.next.1], sticky := true } : Res)).used = ws.length + 1 := by
        simp only [Res.used, List.length_append, h1, List.length_singleton, List.length_nil]; omega
      simp only [Res.used] at hend ⊢
      rw [hend]
      refine .char rfl rfl (gap_of h.le (b := decide (flag = SUGGEST_SKIP)) (by rw [hws]; omega)) (c := t) ?_ ?_ hh.position .nil
      · exact get_of_peek hpt ht
      · show [sk.2.position.2.next.1] = [t]
        rw [hn2.1]

theorem evalRange_laid {text : List Rune} {i : Nat} {s : Stream} (h : Here text i s) {b : RuleBase} {x y : Rune}
    (hx : ¬ x < 0) {flag : Int} {nd : Node} (hn : (evalRange b x y flag s).1.node = some nd) :
    Laid text i [nd] (i + (evalRange b x y flag s).1.used) := by
  obtain ⟨h1, h2⟩ := skip_spec flag h.wf
  rw [h.rem] at h1 h2
  have hh := h.adv h2
  unfold evalRange at hn ⊢
  split at hn
  · cases hn
  rename_i hpk
  rw [if_neg hpk]
  have hposn : if i = 0 then s.positionLookup (s.cursor - 1) = none else Reported text (i - 1) (s.positionLookup (s.cursor - 1)) := by
    split
    · rename_i hi
      subst hi
      rw [h.cursor]
      exact lookup_neg s _ (by decide)
    · rename_i hi
      have : s.cursor - 1 = ((i - 1 : Nat) : Int) := by rw [h.cursor]; omega
      rw [this]
      exact h.lookup (by omega)
  simp only at hn ⊢
  generalize s.positionLookup (s.cursor - 1) = pos at *
  generalize hsk : (if flag = SUGGEST_SKIP then s.skipSpaces else ([], s)) = sk at *
  generalize hws : L.spaces (decide (flag = SUGGEST_SKIP)) (text.drop i) = ws at *
  have hpre : ws <+: text.drop i := by
    rw [← hws, spaces_blank]; exact blank_prefix _ _
  have hlen := hpre.length_le
  rw [List.length_drop] at hlen
  have hle := hh.le
  cases hf : sk.1.findIdx? (fun c => decide (x ≤ c) && decide (c ≥ y)) with
  | some k =>
    rw [hf] at hn
    simp only [Option.some.injEq] at hn ⊢
    subst hn
    rw [h1, List.findIdx?_eq_some_iff_getElem] at hf
    obtain ⟨hk, hkt, _⟩ := hf
    have hend : (({ node := none, read := sk.1, unused := sk.1.drop (k + 1), sticky := true } : Res)).used = k + 1 := by
      simp only [Res.used, List.length_drop, h1]; omega
    simp only [Res.used] at hend ⊢
    rw [hend]
    refine .range rfl rfl (gap_of h.le (b := decide (flag = SUGGEST_SKIP)) (by rw [hws]; omega)) (c := ws[k]) ?_ ?_ hposn .nil
    · have := prefix_get hpre hk
      rwa [List.getElem?_drop] at this
    · show [sk.1.getD k EOFChar] = _
      rw [h1, List.getD_eq_getElem?_getD, List.getElem?_eq_getElem hk]
      rfl
  | none =>
    rw [hf] at hn
    simp only at hn ⊢
    split at hn
    · rename_i hpt
      rw [if_pos hpt]
      simp only [Option.some.injEq] at hn ⊢
      subst hn
      have hn2 := next_one hh.pos.wf
      rw [hh.pos.rem] at hn2
      have hpeek : sk.2.position.2.peek = L.peek (text.drop (i + ws.length)) := by rw [L.peek_eq hh.pos.wf, hh.pos.rem]
      rw [hpeek] at hpt
      have hend : (({ node := none, read := sk.1 ++ [sk.2.position.2.next.1], sticky := true } : Res)).used = ws.length + 1 := by
        simp only [Res.used, List.length_append, h1, List.length_singleton, List.length_nil]; omega
      simp only [Res.used] at hend ⊢
      rw [hend]
      refine .range rfl rfl (gap_of h.le (b := decide (flag = SUGGEST_SKIP)) (by rw [hws]; omega))
        (c := L.peek (text.drop (i + ws.length))) ?_ ?_ hposn .nil
      · refine get_of_peek rfl (fun e => ?_)
        rw [e] at hpt
        unfold Rune EOFChar at *
        omega
      · show [sk.2.position.2.next.1] = _
        rw [hn2.1]
    · cases hn
where
  lookup_neg : ∀ (s : Stream) (k : Int), k < 0 → s.positionLookup k = none
    | .base b, k, h => by
      simp only [Stream.positionLookup, Base.positionLookup]
      rw [if_neg (by omega)]
      split
      · rfl
      · unfold posLookup
        rw [if_pos h]
    | .pre _ _ u, k, h => by
      simp only [Stream.positionLookup]
      exact lookup_neg u k h

/-- A literal that was found. -/
theorem matchText_spec {text : List Rune} {i : Nat} {s : Stream} (hv : Valid text) (h : Here text i s) {t : List Rune} {skip : Bool}
    (hm : (matchText t skip s).2.2.1 = true) :
    ∃ d, d ≤ t.length ∧ d ≤ (L.spaces skip (text.drop i)).length ∧
      t <+: text.drop (i + (L.spaces skip (text.drop i)).length - d) ∧
      (matchText t skip s).1 = L.spaces skip (text.drop i) ∧
      (matchText t skip s).2.1.length = (L.spaces skip (text.drop i)).length + t.length - d ∧
      Adv ((L.spaces skip (text.drop i)).length + t.length - d) s (matchText t skip s).2.2.2 ∧
      (d = 0 ∨ ∃ c, t.head? = some c ∧ isWhiteSpace c = true) := by
  cases skip with
  | false =>
    have hs : L.spaces false (text.drop i) = [] := rfl
    rw [hs]
    obtain ⟨h1, h2, h3⟩ := matchRunes_sim t h.wf
    rw [h.rem, matchK_ref t (hv.drop i)] at h1 h2 h3
    have e1 : (matchText t false s).1 = [] := rfl
    have e2 : (matchText t false s).2.1 = (s.matchRunes t).1 := rfl
    have e3 : (matchText t false s).2.2.1 = (s.matchRunes t).2.1 := rfl
    have e4 : (matchText t false s).2.2.2 = (s.matchRunes t).2.2 := rfl
    rw [e3, h2] at hm
    split at hm
    · rename_i hp
      rw [if_pos hp] at h1 h3
      refine ⟨0, Nat.zero_le _, Nat.zero_le _, ?_, e1, ?_, ?_, .inl rfl⟩
      · simpa using List.isPrefixOf_iff_prefix.1 hp
      · rw [e2, h1]; simp
      · rw [e4]; simpa using h3
    · cases hm
  | true =>
    obtain ⟨h1, h2⟩ := s.skipSpaces_spec h.wf
    rw [h.rem] at h1 h2
    have hsp : L.spaces true (text.drop i) = (text.drop i).takeWhile isWhiteSpace := rfl
    rw [hsp]
    have hpre : (text.drop i).takeWhile isWhiteSpace <+: text.drop i := List.takeWhile_prefix _
    have hws : ∀ c ∈ (text.drop i).takeWhile isWhiteSpace, isWhiteSpace c = true := fun c hc => mem_takeWhile_imp hc
    generalize (text.drop i).takeWhile isWhiteSpace = ws at *
    have hh := h.adv h2
    unfold matchText at hm ⊢
    simp only [if_true] at hm ⊢
    rw [h1] at hm ⊢
    split at hm
    · cases hm
    rename_i c1
    rw [if_neg c1]
    split at hm
    · cases hm
    rename_i c2
    rw [if_neg c2]
    simp only at hm ⊢
    have c2 : ws.drop (ws.length - (leadingWhiteSpace t).length) = leadingWhiteSpace t := Classical.byContradiction c2
    obtain ⟨m1, m2, m3⟩ := matchRunes_sim (t.drop (leadingWhiteSpace t).length) hh.wf
    rw [hh.rem, matchK_ref _ (hv.drop _)] at m1 m2 m3
    rw [m2] at hm
    split at hm
    · rename_i hp
      rw [if_pos hp] at m1 m3
      have hp := List.isPrefixOf_iff_prefix.1 hp
      have hlead : leadingWhiteSpace t <+: t := List.takeWhile_prefix _
      have hll := hlead.length_le
      refine ⟨(leadingWhiteSpace t).length, hll, by omega, ?_, trivial, ?_, ?_, ?_⟩
      · have e1 : leadingWhiteSpace t ++ t.drop (leadingWhiteSpace t).length = t := by
          conv => lhs; lhs; rw [List.prefix_iff_eq_take.1 hlead]
          rw [List.take_append_drop]
        have e2 : text.drop (i + ws.length - (leadingWhiteSpace t).length) =
            leadingWhiteSpace t ++ text.drop (i + ws.length) := by
          have : text.drop i = ws ++ text.drop (i + ws.length) := by
            rw [← List.drop_drop]
            conv => rhs; lhs; rw [List.prefix_iff_eq_take.1 hpre]
            rw [List.take_append_drop]
          have e : i + ws.length - (leadingWhiteSpace t).length = i + (ws.length - (leadingWhiteSpace t).length) := by omega
          rw [e, ← List.drop_drop, this, List.drop_append_of_le_length (by omega), c2]
        rw [e2]
        conv => lhs; rw [← e1]
        exact (List.prefix_append_right_inj _).2 hp
      · rw [m1]; simp; omega
      · have := h2.trans m3
        rw [List.length_drop] at this
        have e : ws.length + (t.length - (leadingWhiteSpace t).length) = ws.length + t.length - (leadingWhiteSpace t).length := by omega
        rwa [e] at this
      · cases t with
        | nil => left; rfl
        | cons c t =>
          cases hc : isWhiteSpace c with
          | true => right; exact ⟨c, rfl, hc⟩
          | false => left; simp [leadingWhiteSpace, hc]
    · cases hm

theorem evalChars_laid {text : List Rune} {i : Nat} {s : Stream} (hv : Valid text) (h : Here text i s) {b : RuleBase} {t : List Rune}
    {flag : Int} {nd : Node} (hn : (evalChars b t flag s).1.node = some nd) :
    Laid text i [nd] (i + (evalChars b t flag s).1.used) := by
  have hp := h.pos
  unfold evalChars at hn ⊢
  split at hn
  · cases hn
  rename_i hpk
  rw [if_neg hpk]
  simp only at hn ⊢
  split at hn
  · rename_i hm
    rw [if_pos hm]
    simp only [Option.some.injEq] at hn ⊢
    subst hn
    obtain ⟨d, d1, d2, d3, d4, d5, d6, d7⟩ := matchText_spec hv hp hm
    have hh := hp.adv d6
    simp only [Res.used, List.length_nil, Nat.sub_zero]
    rw [d5, d4]
    have hgap := gap_of (b := decide (flag = SUGGEST_SKIP)) h.le (Nat.sub_le (L.spaces (decide (flag = SUGGEST_SKIP)) (text.drop i)).length d)
    generalize (L.spaces (decide (flag = SUGGEST_SKIP)) (text.drop i)).length = w at *
    have e : i + w - d = i + (w - d) := by omega
    rw [e] at d3
    have e2 : i + (w + t.length - d) = i + (w - d) + t.length := by omega
    rw [e2]
    refine .literal rfl rfl hgap d3 ?_ .nil
    intro c hc hw
    have hd : d = 0 := by
      rcases d7 with d7 | ⟨c', h1, h2⟩
      · exact d7
      · change t.head? = some c at hc
        rw [hc] at h1
        cases h1
        rw [hw] at h2
        cases h2
    subst hd
    have ht : 0 < t.length := by
      cases t with
      | nil => cases hc
      | cons => simp
    have hcur : s.position.2.cursor + (w : Int) = ((i + (w - 0) : Nat) : Int) := by
      rw [hp.cursor]; omega
    show Reported text (i + (w - 0)) (Stream.positionLookup _ (s.position.2.cursor + (w : Int)))
    rw [hcur]
    exact hh.lookup (by omega)
  · cases hn

theorem evalString_laid {text : List Rune} {i : Nat} {s : Stream} (hv : Valid text) (h : Here text i s) {b : RuleBase} {t : List Rune}
    {flag : Int} {nd : Node} (hn : (evalString b t flag s).1.node = some nd) :
    Laid text i [nd] (i + (evalString b t flag s).1.used) := by
  have hp := h.pos
  unfold evalString at hn ⊢
  split at hn
  · cases hn
  rename_i hpk
  rw [if_neg hpk]
  simp only at hn ⊢
  split at hn
  · rename_i hm
    rw [if_pos hm]
    simp only [Option.some.injEq] at hn ⊢
    subst hn
    generalize decide (flag = SUGGEST_SKIP ∨ flag = SUGGEST_NOT_SKIP) = skip at *
    obtain ⟨d, d1, d2, d3, d4, d5, d6, d7⟩ := matchText_spec hv hp hm
    have hh := hp.adv d6
    simp only [Res.used, List.length_nil, Nat.sub_zero]
    rw [d5]
    have hgap := gap_of (b := skip) h.le (Nat.sub_le (L.spaces skip (text.drop i)).length d)
    generalize (L.spaces skip (text.drop i)).length = w at *
    have e : i + w - d = i + (w - d) := by omega
    rw [e] at d3
    have e2 : i + (w + t.length - d) = i + (w - d) + t.length := by omega
    rw [e2]
    refine .string rfl rfl hgap d3 ?_ .nil
    intro hne
    have ht : 0 < t.length := List.length_pos_iff.2 hne
    show Reported text (i + (w - d)) (Stream.positionLookup _ (Stream.cursor _ - (t.length : Int)))
    have hcur : (matchText t skip s.position.2).2.2.2.cursor - (t.length : Int) = ((i + (w - d) : Nat) : Int) := by
      rw [hh.cursor]; omega
    rw [hcur]
    exact hh.lookup (by omega)
  · cases hn

/-! ### Composite rules -/

theorem Laid.append {text : List Rune} {i j k : Nat} {ns ms : List Node} (h : Laid text i ns j) (g : Laid text j ms k) :
    Laid text i (ns ++ ms) k := by
  induction h with
  | nil => exact g
  | char ht hc hg hk h hp _ ih => exact .char ht hc hg hk h hp (ih g)
  | string ht hc hg h hp _ ih => exact .string ht hc hg h hp (ih g)
  | literal ht hc hg h hp _ ih => exact .literal ht hc hg h hp (ih g)
  | range ht hc hg hk h hp _ ih => exact .range ht hc hg hk h hp (ih g)
  | eof ht hc hg h hp _ ih => exact .eof ht hc hg h hp (ih g)
  | group ht h hc hm hp _ _ ih => exact .group ht h hc hm hp (ih g)
  | inner ht h hm hp _ _ ih => exact .inner ht h hm hp (ih g)
  | block ht h hc ho hmt hmc hm hmp hcl hp _ _ _ ih => exact .block ht h hc ho hmt hmc hm hmp hcl hp (ih g)

/-- Only type, children, characters and position matter. -/
theorem laid_marks {text : List Rune} {i j : Nat} {n m : Node} (h : Laid text i [n] j) (h1 : m.ruleType = n.ruleType)
    (h2 : m.children = n.children) (h3 : m.chars = n.chars) (h4 : m.pos = n.pos) : Laid text i [m] j := by
  cases h with
  | char ht hc hg hk h hp hs => exact .char (h1.trans ht) (h2.trans hc) hg hk (h3.trans h) (h4 ▸ hp) hs
  | string ht hc hg h hp hs => exact .string (h1.trans ht) (h2.trans hc) hg (h3 ▸ h) (h3 ▸ h4 ▸ hp) (h3 ▸ hs)
  | literal ht hc hg h hp hs => exact .literal (h1.trans ht) (h2.trans hc) hg (h3 ▸ h) (h3 ▸ h4 ▸ hp) (h3 ▸ hs)
  | range ht hc hg hk h hp hs => exact .range (h1.trans ht) (h2.trans hc) hg hk (h3.trans h) (h4 ▸ hp) hs
  | eof ht hc hg h hp hs => exact .eof (h1.trans ht) (h2.trans hc) hg (h3.trans h) (h4.trans hp) hs
  | group ht h hc hm hp hs => exact .group (h1.trans ht) (h3.trans h) (h2.trans hc) hm (h4.trans hp) hs
  | inner ht h hm hp hs => exact .inner (h1 ▸ ht) (h3.trans h) (h2 ▸ hm) (by rw [h4, hp, h2]) hs
  | block ht h hc ho hmt hmc hm hmp hcl hp hs =>
    exact .block (h1.trans ht) (h3.trans h) (h2.trans hc) ho hmt hmc hm hmp hcl (h4.trans hp) hs

theorem firstOf_append (ns : List Node) (n : Node) : firstOf (ns ++ [n]) = firstPos (firstOf ns) n.pos := by
  unfold firstOf firstPos
  rw [List.findSome?_append]
  cases List.findSome? (fun x => x.pos) ns <;> simp

/-- What the answer of the reference says about a call on a stream with the characters `l` left. -/
def Know (l : List Rune) (s : Stream) : Ans → Exec (Res × Stream) → Prop
  | .oof, _ => True
  | .risky, _ => True
  | .fail n _, x => n ≤ l.length ∧ ∃ res s', x = .ok (res, s') ∧ Adv n s s' ∧ res.node = none ∧
      res.read = l.take n ∧ res.unused = l.take n
  | .ambiguous n, x => n ≤ l.length ∧ ∃ res s', x = .ok (res, s') ∧ Adv n s s' ∧ res.node = none ∧
      res.read = l.take n ∧ res.unused = []
  | .hit nd u n st, x => u ≤ n ∧ n ≤ l.length ∧ ∃ res s' nd', x = .ok (res, s') ∧ Adv n s s' ∧ res.node = some nd' ∧
      nd'.erase = nd ∧ res.read = l.take n ∧ res.unused = (l.take n).drop u ∧ res.sticky = st

def EvKnow (run : Runner) (ev : Evaluator) : Prop :=
  ∀ r flag s l, s.WF → s.rem = l → Valid l → Know l s (run r flag l) (ev r flag s)

theorem know_of {run : Runner} {ev : Evaluator} {evL : L.Ev} (h1 : EvSim ev evL) (h2 : EvRef run evL) : EvKnow run ev := by
  rintro r flag s l hw rfl hv
  have g1 := h1 r flag s hw
  have g2 := h2 r flag s.rem hv
  revert g1 g2
  generalize run r flag s.rem = a
  generalize ev r flag s = x
  generalize evL r flag s.rem = y
  intro g1 g2
  cases a with
  | oof => trivial
  | risky => trivial
  | fail n st =>
    obtain ⟨g2, rfl⟩ := g2
    match x, g1 with
    | .ok (res, s'), g1 =>
      obtain ⟨e, hadv⟩ := g1
      simp only [Res.core, Res.mk.injEq] at e
      refine ⟨g2, res, s', rfl, hadv, ?_, e.2.2.2.1, e.2.2.2.2.1⟩
      exact Option.map_eq_none_iff.1 e.1
  | ambiguous n =>
    obtain ⟨g2, rfl⟩ := g2
    match x, g1 with
    | .ok (res, s'), g1 =>
      obtain ⟨e, hadv⟩ := g1
      simp only [Res.core, Res.mk.injEq] at e
      refine ⟨g2, res, s', rfl, hadv, ?_, e.2.2.2.1, e.2.2.2.2.1⟩
      exact Option.map_eq_none_iff.1 e.1
  | hit nd u n st =>
    obtain ⟨g2, g3, rfl⟩ := g2
    match x, g1 with
    | .ok (res, s'), g1 =>
      obtain ⟨e, hadv⟩ := g1
      simp only [Res.core, Res.mk.injEq] at e
      obtain ⟨nd', h1, h2⟩ := Option.map_eq_some_iff.1 e.1
      exact ⟨g2, g3, res, s', nd', rfl, hadv, h1, h2, e.2.2.2.1, e.2.2.2.2.1, e.2.2.2.2.2⟩

/-- The trees of the evaluator are where the reference says. -/
def EvLaid (run : Runner) (ev : Evaluator) : Prop :=
  ∀ r flag text i s nd u n st, Valid text → Here text i s → run r flag (text.drop i) = .hit nd u n st →
    ∀ res s' nd', ev r flag s = .ok (res, s') → res.node = some nd' → Laid text i [nd'] (i + u)

/-- One step of a loop. -/
theorem step_laid {run : Runner} {ev : Evaluator} (hk : EvKnow run ev) (hl : EvLaid run ev) {text : List Rune} {i pos look : Nat}
    (hv : Valid text) {st : SeqState} (h : L.At (text.drop i) pos look st) {s : Stream} (hs : Here text (i + look) s) {r : Rule}
    {nd : Node} {u n : Nat} {sy : Bool} (hr : run r st.flag ((text.drop i).drop pos) = .hit nd u n sy) :
    u ≤ n ∧ pos + n ≤ (text.drop i).length ∧ ∃ res cs nd' un, ev r st.flag (s.pushBack st.unused) = .ok (res, cs) ∧
      Here text (i + pos + n) cs ∧
      Here text (i + max look (pos + n)) (cs.popBack st.unused) ∧
      res.node = some nd' ∧ nd'.erase = nd ∧ res.sticky = sy ∧ Laid text (i + pos) [nd'] (i + pos + u) ∧
      account st.read st.unused res = .ok ((text.drop i).take (max look (pos + n)), un) ∧
      (¬ (pos + n < look ∧ look - pos < 2 * u) → un = sl (text.drop i) (pos + u) (max look (pos + n))) := by
  have h1 := h.le
  have h2 := h.len
  have hun : st.unused = sl text (i + pos) (i + look) := by
    rw [h.unused]
    unfold sl
    rw [List.take_drop, List.drop_drop]
  have hin := hs.push (a := i + pos) (by omega) hun
  have hd : (text.drop i).drop pos = text.drop (i + pos) := List.drop_drop
  rw [hd] at hr
  have hkn := hk r st.flag _ _ hin.wf hin.rem (hv.drop _)
  rw [hr] at hkn
  obtain ⟨k1, k2, res, cs, nd', k3, k4, k5, k6, k7, k8, k9⟩ := hkn
  rw [List.length_drop] at k2 h2
  obtain ⟨un, e1, e2⟩ := account_ref (l := text.drop i) (n := n) (u := u) (pos := pos) (look := look) (r := res)
    h1 h.len (by rw [List.length_drop]; omega) k1 (by rw [hd]; exact k7) (by rw [hd]; exact k8)
  rw [← h.read, ← h.unused] at e1
  refine ⟨k1, by rw [List.length_drop]; omega, res, cs, nd', un, k3, hin.adv k4, ?_, k5, k6, k9, ?_, e1, e2⟩
  · have := hs.adv k4.popBack
    have hlen : st.unused.length = look - pos := by rw [h.unused, sl_length h.len]
    rw [hlen] at this
    have e : i + look + (n - (look - pos)) = i + max look (pos + n) := by omega
    rwa [e] at this
  · exact hl r st.flag text (i + pos) _ nd u n sy hv hin hr res cs nd' k3 k5

theorem concatLoop_laid {run : Runner} {ev : Evaluator} (hk : EvKnow run ev) (hl : EvLaid run ev) (sf : Rule) (b : RuleBase) {text : List Rune}
    {i : Nat} (hv : Valid text) (rs : List Rule) (pos look : Nat) (st : SeqState) (h : L.At (text.drop i) pos look st) (s : Stream)
    (hs : Here text (i + look) s) (hn : Laid text i st.nodes (i + pos)) (hp : st.pos = firstOf st.nodes)
    {nd : Node} {u n : Nat} {sy : Bool}
    (hr : seqAt run b (text.drop i) rs pos look st.sticky st.flag (eraseL st.nodes) = .hit nd u n sy)
    {res : Res} {s' : Stream} {nd' : Node} (he : concatLoop ev sf rs st s = .ok (res, s')) (hnd : res.node = some nd') :
    Laid text i [nd'] (i + u) := by
  induction rs generalizing pos look st s res s' with
  | nil =>
    simp only [seqAt, Ans.hit.injEq] at hr
    simp only [concatLoop, Exec.ok.injEq, Prod.mk.injEq] at he
    obtain ⟨_, rfl, _⟩ := hr
    obtain ⟨rfl, _⟩ := he
    simp only [Option.some.injEq] at hnd
    subst hnd
    exact .inner (by simp [branchNode]) rfl hn hp .nil
  | cons r rs ih =>
    simp only [seqAt] at hr
    cases hrr : run r st.flag ((text.drop i).drop pos) with
    | oof => rw [hrr] at hr; cases hr
    | risky => rw [hrr] at hr; cases hr
    | fail => rw [hrr] at hr; cases hr
    | ambiguous => rw [hrr] at hr; cases hr
    | hit nd1 u1 n1 st1 =>
      rw [hrr] at hr
      simp only at hr
      split at hr
      · cases hr
      rename_i hrisk
      obtain ⟨g0, g1, res1, cs, nd1', un, g2, g3, g3', g4, g5, g6, g7, g8, g9⟩ := step_laid hk hl hv h hs hrr
      unfold concatLoop at he
      rw [g2, Exec.ok_bind] at he
      simp only at he
      rw [g8, Exec.ok_bind] at he
      simp only [g4] at he
      have hun := g9 (fun hc => hrisk ⟨hc.1, .inr hc.2⟩)
      subst hun
      have hi := g3.le
      have hfl : nextFlag st.flag nd1' res1.sticky = flagAfter st.flag nd1 st1 := by
        rw [← flagAfter_eq, ← nextFlag_erase, g5, g6]
      have hle := h.le
      have hnodes : eraseL (st.nodes ++ [nd1']) = eraseL st.nodes ++ [nd1] := by
        rw [eraseL_append]; simp [eraseL, g5]
      generalize hq : concatLoop ev sf rs _ cs = q at he
      cases q with
      | panic => cases he
      | oof => cases he
      | ok q =>
        obtain ⟨out, cs'⟩ := q
        simp only [Exec.ok_bind, Exec.ok.injEq, Prod.mk.injEq] at he
        obtain ⟨rfl, _⟩ := he
        have hlaid : Laid text i (st.nodes ++ [nd1']) (i + (pos + u1)) := by
          have := Laid.append hn g7
          rwa [Nat.add_assoc] at this
        by_cases hlt : pos + n1 < look
        · have hrs : rs = [] := Classical.byContradiction (fun hc => hrisk ⟨hlt, .inl hc⟩)
          subst hrs
          simp only [seqAt, Ans.hit.injEq] at hr
          simp only [concatLoop, Exec.ok.injEq, Prod.mk.injEq] at hq
          obtain ⟨_, rfl, _⟩ := hr
          obtain ⟨rfl, _⟩ := hq
          simp only [Option.some.injEq] at hnd
          subst hnd
          exact .inner (by simp [branchNode]) rfl hlaid (by simp only [branchNode]; rw [firstOf_append, ← hp]) .nil
        · have hm : max look (pos + n1) = pos + n1 := by omega
          rw [hm] at hr hq
          rw [Nat.add_assoc] at g3
          refine ih (pos + u1) (pos + n1) _ ⟨by omega, g1, rfl, rfl⟩ cs g3 hlaid (by rw [firstOf_append, ← hp]) ?_ hq hnd
          simp only [hnodes, hfl]
          rw [g6]
          exact hr

theorem repFinish_laid {sf : Rule} {b : RuleBase} {mn pos look : Nat} {text : List Rune} {i : Nat} {st : SeqState} {why : Option Res} {s : Stream}
    (hn : Laid text i st.nodes (i + pos)) (hp : st.pos = firstOf st.nodes) {sy0 : Bool} {nd : Node} {u n : Nat} {sy : Bool}
    {ns : List Node} (hr : repEnd b mn pos look sy0 ns = .hit nd u n sy) {nd' : Node}
    (hnd : (repFinish sf mn st why s).node = some nd') : Laid text i [nd'] (i + u) := by
  unfold repEnd at hr
  unfold repFinish at hnd
  split at hr
  · cases hr
  simp only [Ans.hit.injEq] at hr
  obtain ⟨_, rfl, _⟩ := hr
  simp only at hnd
  split at hnd
  · cases hnd
  simp only [Option.some.injEq] at hnd
  subst hnd
  exact .inner (by simp [branchNode]) rfl hn hp .nil

theorem repLoop_laid {run : Runner} {ev : Evaluator} (hk : EvKnow run ev) (hl : EvLaid run ev) (sf : Rule) (b : RuleBase) (r : Rule) (mn mx : Nat)
    {text : List Rune} {i : Nat} (hv : Valid text) (fuel pos look : Nat) (st : SeqState) (h : L.At (text.drop i) pos look st)
    (s : Stream) (hs : Here text (i + look) s) (hn : Laid text i st.nodes (i + pos)) (hp : st.pos = firstOf st.nodes)
    {nd : Node} {u n : Nat} {sy : Bool}
    (hr : repAt run b r mn mx st.flag (text.drop i) fuel pos look st.sticky (eraseL st.nodes) = .hit nd u n sy)
    {st' : SeqState} {why : Option Res} {s' s'' : Stream} {nd' : Node} (he : repLoop ev r mx fuel st s = .ok (st', why, s'))
    (hnd : (repFinish sf mn st' why s'').node = some nd') : Laid text i [nd'] (i + u) := by
  induction fuel generalizing pos look st s st' s' with
  | zero => simp only [repAt] at hr; cases hr
  | succ fuel ih =>
    have hle := h.le
    have hun0 : st.unused = sl text (i + pos) (i + look) := by
      rw [h.unused]
      unfold sl
      rw [List.take_drop, List.drop_drop]
    have hin := hs.push (a := i + pos) (by omega) hun0
    have hd : (text.drop i).drop pos = text.drop (i + pos) := List.drop_drop
    have hpk : (s.pushBack st.unused).peek = EOFChar ↔ (text.drop i).drop pos = [] := by
      rw [L.peek_eq hin.wf, hin.rem, hd]
      exact peek_eof (hv.drop _)
    simp only [repAt] at hr
    unfold repLoop at he
    simp only at he
    by_cases hnil : (text.drop i).drop pos = []
    · rw [if_pos hnil] at hr
      rw [if_pos (hpk.2 hnil)] at he
      simp only [Exec.ok.injEq, Prod.mk.injEq] at he
      obtain ⟨rfl, rfl, _⟩ := he
      exact repFinish_laid hn hp hr hnd
    rw [if_neg hnil] at hr
    rw [if_neg (fun e => hnil (hpk.1 e))] at he
    cases hrr : run r st.flag ((text.drop i).drop pos) with
    | oof => rw [hrr] at hr; cases hr
    | risky => rw [hrr] at hr; cases hr
    | ambiguous => rw [hrr] at hr; cases hr
    | fail n1 st1 =>
      have hkn := hk r st.flag _ _ hin.wf hin.rem (hv.drop _)
      rw [hd] at hrr
      rw [hrr] at hkn
      rw [hd, hrr] at hr
      obtain ⟨k1, res, cs, k2, k3, k4, k5, k6⟩ := hkn
      rw [k2, Exec.ok_bind] at he
      simp only [k4] at he
      generalize hq : account st.read st.unused res = q at he
      cases q with
      | panic => cases he
      | oof => cases he
      | ok q =>
        simp only [Exec.ok_bind, Exec.ok.injEq, Prod.mk.injEq] at he
        obtain ⟨rfl, rfl, _⟩ := he
        exact repFinish_laid (st := { st with read := q.1, unused := q.2, sticky := st.sticky && res.sticky }) hn hp hr hnd
    | hit nd1 u1 n1 st1 =>
      rw [hrr] at hr
      simp only at hr
      obtain ⟨g0, g1, res1, cs, nd1', un, g2, g3, g3', g4, g5, g6, g7, g8, g9⟩ := step_laid hk hl hv h hs hrr
      rw [g2, Exec.ok_bind] at he
      simp only at he
      rw [g8, Exec.ok_bind] at he
      simp only [g4, List.length_append, List.length_singleton] at he
      have hnodes : eraseL (st.nodes ++ [nd1']) = eraseL st.nodes ++ [nd1] := by
        rw [eraseL_append]; simp [eraseL, g5]
      have hlen : (eraseL st.nodes).length = st.nodes.length := by rw [eraseL_eq_map, List.length_map]
      rw [hlen] at hr
      have hlaid : Laid text i (st.nodes ++ [nd1']) (i + (pos + u1)) := by
        have := Laid.append hn g7
        rwa [Nat.add_assoc] at this
      have hfp : firstPos st.pos nd1'.pos = firstOf (st.nodes ++ [nd1']) := by rw [firstOf_append, ← hp]
      by_cases hmax : mx > 0 ∧ st.nodes.length + 1 = mx
      · rw [if_pos hmax] at hr he
        split at hr
        · cases hr
        rename_i hrisk
        simp only [Exec.ok.injEq, Prod.mk.injEq] at he
        obtain ⟨rfl, rfl, _⟩ := he
        exact repFinish_laid (st := { st with read := _, unused := _, sticky := _, pos := firstPos st.pos nd1'.pos, nodes := st.nodes ++ [nd1'] })
          hlaid hfp hr hnd
      · rw [if_neg hmax] at hr he
        split at hr
        · cases hr
        rename_i hrisk
        have hun := g9 (fun hc => hrisk hc.1)
        subst hun
        have hm : max look (pos + n1) = pos + n1 := by omega
        rw [hm] at hr he
        generalize hq : repLoop ev r mx fuel _ cs = q at he
        cases q with
        | panic => cases he
        | oof => cases he
        | ok q =>
          obtain ⟨o1, o2, o3⟩ := q
          simp only [Exec.ok_bind, Exec.ok.injEq, Prod.mk.injEq] at he
          obtain ⟨rfl, rfl, _⟩ := he
          rw [Nat.add_assoc] at g3
          refine ih (pos + u1) (pos + n1) _ ⟨by omega, g1, rfl, rfl⟩ cs g3 hlaid hfp ?_ hq hnd
          simp only [hnodes, g6]
          exact hr

theorem choiceGroup_laid {run : Runner} {ev : Evaluator} (hk : EvKnow run ev) (hl : EvLaid run ev) (flag : Int) {text : List Rune} {i : Nat}
    (hv : Valid text) (rs : List Rule) (look : Nat) (hle : look ≤ (text.drop i).length) (st : ChoiceState) (hst : st.read = (text.drop i).take look)
    (s : Stream) (hs : Here text (i + look) s) {sy : Bool} {hits : List (Node × Nat × Bool)} {look' : Nat} {sy' : Bool}
    (hr : altsAt run flag (text.drop i) rs look sy = .ok hits look' sy') :
    look' ≤ (text.drop i).length ∧
    ∃ ms st' s', choiceGroup ev flag rs st s = .ok (ms, st', s') ∧ st'.read = (text.drop i).take look' ∧ Here text (i + look') s' ∧
      L.HitsRef hits (ms.map Res.core) ∧ ∀ r ∈ ms, ∀ nd, r.node = some nd → ∃ u : Nat, r.countUsed = u ∧ Laid text i [nd] (i + u) := by
  induction rs generalizing look st s sy hits look' sy' with
  | nil =>
    simp only [altsAt, Alts.ok.injEq] at hr
    obtain ⟨rfl, rfl, rfl⟩ := hr
    exact ⟨hle, [], st, s, rfl, hst, hs, trivial, by simp⟩
  | cons r rs ih =>
    have hsl : (text.drop i).take look = sl text i (i + look) := take_drop_sl _ _ _
    have hin := hs.push (a := i) (by omega) (hst.trans hsl)
    have hkn := hk r flag _ _ hin.wf hin.rem (hv.drop _)
    have hlen : st.read.length = look := by rw [hst, List.length_take]; omega
    simp only [altsAt] at hr
    have hread : ∀ n, n ≤ (text.drop i).length → ∀ rd, rd = (text.drop i).take n →
        (if st.read.length < rd.length then rd else st.read) = (text.drop i).take (max look n) := by
      rintro n hn rd rfl
      rw [hlen, List.length_take, Nat.min_eq_left hn]
      split
      · congr 1; omega
      · rw [hst]; congr 1; omega
    have hpop : ∀ n cs, Adv n (s.pushBack st.read) cs → Here text (i + max look n) (cs.popBack st.read) := by
      intro n cs hadv
      have := hs.adv hadv.popBack
      rw [hlen] at this
      have e : i + look + (n - look) = i + max look n := by omega
      rwa [e] at this
    unfold choiceGroup
    cases hrr : run r flag (text.drop i) with
    | oof => rw [hrr] at hr; cases hr
    | risky => rw [hrr] at hr; cases hr
    | fail n st1 =>
      rw [hrr] at hr hkn
      obtain ⟨k1, res, cs, k2, k3, k4, k5, k6⟩ := hkn
      rw [k2, Exec.ok_bind]
      simp only [k4]
      split
      · exact ih (max look n) (by omega) _ (hread n k1 _ k5) _ (hpop n cs k3) hr
      · exact ih (max look n) (by omega) _ (hread n k1 _ k5) _ (hpop n cs k3) hr
    | ambiguous n =>
      rw [hrr] at hr hkn
      obtain ⟨k1, res, cs, k2, k3, k4, k5, k6⟩ := hkn
      rw [k2, Exec.ok_bind]
      simp only [k4]
      split
      · exact ih (max look n) (by omega) _ (hread n k1 _ k5) _ (hpop n cs k3) hr
      · exact ih (max look n) (by omega) _ (hread n k1 _ k5) _ (hpop n cs k3) hr
    | hit nd u n st1 =>
      rw [hrr] at hr hkn
      obtain ⟨k0, k1, res, cs, nd', k2, k3, k4, k5, k6, k7, k8⟩ := hkn
      simp only at hr
      split at hr
      · rename_i hits1 look1 sy1 hrs
        simp only [Alts.ok.injEq] at hr
        obtain ⟨rfl, rfl, rfl⟩ := hr
        rw [k2, Exec.ok_bind]
        simp only [k4]
        obtain ⟨h1, ms, st', s', h2, h3, h4, h5, h6⟩ := ih (max look n) (by omega)
          ⟨if st.read.length < res.read.length then res.read else st.read, st.sticky && res.sticky, st.maxErr, st.maxErrCursor⟩
          (hread n k1 _ k6) _ (hpop n cs k3) hrs
        rw [h2, Exec.ok_bind]
        have hcu : res.countUsed = (u : Int) := by
          simp only [Res.countUsed, k6, k7, List.length_take, List.length_drop] at k1 ⊢
          omega
        refine ⟨h1, res :: ms, st', s', rfl, h3, h4, ⟨⟨?_, hcu, k8⟩, h5⟩, ?_⟩
        · rw [Res.core_node, k4, Option.map_some, k5]
        · intro r' hr' nd1 hnd1
          rcases List.mem_cons.1 hr' with rfl | hr'
          · refine ⟨u, hcu, ?_⟩
            exact hl r flag text i _ nd u n st1 hv hin hrr r' cs nd1 k2 hnd1
          · exact h6 r' hr' nd1 hnd1
      · rename_i hne
        exact absurd hr (hne _ _ _)

theorem choiceLoop_laid {run : Runner} {ev : Evaluator} (hk : EvKnow run ev) (hl : EvLaid run ev) (sf : Rule) (b : RuleBase) (flag : Int) {text : List Rune} {i : Nat}
    (hv : Valid text) (gs : List (List Rule)) (look : Nat) (hle : look ≤ (text.drop i).length) (st : ChoiceState) (hst : st.read = (text.drop i).take look)
    (s : Stream) (hs : Here text (i + look) s) {sy0 : Bool} {nd : Node} {u n : Nat} {sy : Bool}
    (hr : choiceAt run b flag (text.drop i) gs look sy0 = .hit nd u n sy)
    {res : Res} {s' : Stream} {nd' : Node} (he : choiceLoop ev sf flag gs st s = .ok (res, s')) (hnd : res.node = some nd') :
    Laid text i [nd'] (i + u) := by
  induction gs generalizing look st s sy0 with
  | nil => simp only [choiceAt] at hr; cases hr
  | cons g gs ih =>
    simp only [choiceAt] at hr
    unfold choiceLoop at he
    cases ha : altsAt run flag (text.drop i) g look sy0 with
    | oof => rw [ha] at hr; cases hr
    | risky => rw [ha] at hr; cases hr
    | ok hits look1 sy1 =>
      rw [ha] at hr
      obtain ⟨h1, ms, st1, s1, h2, h3, h4, h5, h6⟩ := choiceGroup_laid hk hl flag hv g look hle st hst s hs ha
      rw [h2, Exec.ok_bind] at he
      simp only at he hr
      have hpb := pick_best h5
      rw [pick_core] at hpb
      cases hb : best hits with
      | tie => rw [hb] at hr; cases hr
      | order => rw [hb] at hr; cases hr
      | none =>
        rw [hb] at hr hpb
        simp only at hr
        have hpk : pick ms = .none := by
          cases hp : pick ms with
          | none => rfl
          | found r => rw [hp] at hpb; cases hpb.1
          | ambiguous => rw [hp] at hpb; cases hpb.1
        rw [hpk] at he
        exact ih look1 h1 st1 h3 s1 h4 hr he
      | one nd1 u1 st2 =>
        rw [hb] at hr hpb
        simp only [Ans.hit.injEq] at hr
        obtain ⟨_, rfl, _⟩ := hr
        obtain ⟨_, r, q1, q2, q3, q4⟩ := hpb
        cases hp : pick ms with
        | none => rw [hp] at q1; cases q1
        | ambiguous => rw [hp] at q1; cases q1
        | found r1 =>
          rw [hp] at q1 he
          simp only [Pick.core, Pick.found.injEq] at q1
          subst q1
          rw [Res.core_count] at q3
          simp only at he
          generalize sliceFrom st1.read r1.countUsed = q at he
          cases q with
          | panic => cases he
          | oof => cases he
          | ok q =>
            simp only [Exec.ok_bind, Exec.ok.injEq, Prod.mk.injEq] at he
            obtain ⟨rfl, _⟩ := he
            simp only [Option.map_eq_some_iff] at hnd
            obtain ⟨nd2, hn2, rfl⟩ := hnd
            obtain ⟨u', hu', hlaid⟩ := h6 r1 (pick_mem hp) nd2 hn2
            have : u' = u1 := by rw [q3] at hu'; exact Int.ofNat_inj.1 hu'.symm
            subst this
            exact .inner (by simp [branchNode]) rfl hlaid (by simp [branchNode, firstOf]) .nil

/-! ### Blocks -/

/-- The loop of a block that is closed. -/
theorem blockLoop_laid {run : Runner} {ev : Evaluator} {evL : L.Ev} (h1 : EvSim ev evL) (h2 : EvRef run evL) (hl : EvLaid run ev)
    (b : RuleBase) (v : Bool) (close : Rule) (escape : Option Rule) (excludes : List Rule) (opn : Node) (start : Nat) {text : List Rune} {i : Nat}
    (hv : Valid text) (fuel pos look : Nat) (hsp : start ≤ pos) (hple : i + pos ≤ text.length) (bs : BlockState)
    (hc : bs.content = sl (text.drop i) start pos) (hbs : escape = none → bs.unused = []) (s : Stream) (hs : Here text (i + pos) s)
    {nd : Node} {u n : Nat} {sy : Bool}
    (hr : blockAt run b v close escape excludes opn start (text.drop i) fuel pos look = .hit nd u n sy)
    {e : BlockEnd} {s' : Stream} (he : blockLoop ev close escape excludes fuel bs s = .ok (e, s')) :
    ∃ U un rc m nd' uc, e = .closed U un rc (sl (text.drop i) start m) ∧ start ≤ m ∧ i + m ≤ text.length ∧ rc.node = some nd' ∧
      Laid text (i + m) [nd'] (i + m + uc) ∧ u = if v then m else m + uc := by
  induction fuel generalizing pos look bs s s' with
  | zero => simp only [blockAt] at hr; cases hr
  | succ fuel ih =>
    have hk := know_of h1 h2
    have hd : (text.drop i).drop pos = text.drop (i + pos) := List.drop_drop
    have hvd : Valid (text.drop (i + pos)) := hv.drop _
    simp only [blockAt, hd] at hr
    cases hee : escapeAt run escape excludes.isEmpty (text.drop (i + pos)) with
    | oof => rw [hee] at hr; cases hr
    | risky => rw [hee] at hr; cases hr
    | ambiguous => rw [hee] at hr; cases hr
    | hit => rw [hee] at hr; cases hr
    | fail ne ste =>
      rw [hee] at hr
      simp only at hr
      obtain ⟨e1, e2, _⟩ := blockEscape_ref h2 escape excludes.isEmpty bs hbs _ hvd hee
      unfold blockLoop at he
      -- the escape does not match
      obtain ⟨⟨esc, ech, used, u1, s1⟩, hq, he⟩ := Exec.of_bind he
      have hesc : esc = false ∧ ech = [] ∧ u1 = (text.drop (i + pos)).take ne ∧ Adv ne s s1 := by
        cases escape with
        | none =>
          simp only [escapeAt, Ans.fail.injEq] at hee
          obtain ⟨rfl, _⟩ := hee
          simp only [Exec.ok.injEq, Prod.mk.injEq] at hq
          obtain ⟨rfl, rfl, _, rfl, rfl⟩ := hq
          exact ⟨rfl, rfl, by rw [hbs rfl]; rfl, Adv.refl hs.wf⟩
        | some e =>
          have hkn := hk e NOT_SKIP s _ hs.wf hs.rem hvd
          simp only [escapeAt] at hee
          simp only at hq
          cases hrr : run e NOT_SKIP (text.drop (i + pos)) with
          | oof => rw [hrr] at hee; cases hee
          | risky => rw [hrr] at hee; cases hee
          | hit => rw [hrr] at hee; cases hee
          | fail n1 st1 =>
            rw [hrr] at hkn hee
            obtain ⟨k1, res, cs, k2, k3, k4, k5, k6⟩ := hkn
            simp only at hee
            split at hee
            · cases hee
            simp only [Ans.fail.injEq] at hee
            obtain ⟨rfl, _⟩ := hee
            rw [k2, Exec.ok_bind] at hq
            simp only [k4, Option.isSome_none, Bool.false_eq_true, if_false, Exec.ok.injEq, Prod.mk.injEq] at hq
            obtain ⟨rfl, rfl, _, rfl, rfl⟩ := hq
            exact ⟨rfl, rfl, k5, k3⟩
          | ambiguous n1 =>
            rw [hrr] at hkn hee
            obtain ⟨k1, res, cs, k2, k3, k4, k5, k6⟩ := hkn
            simp only at hee
            split at hee
            · cases hee
            simp only [Ans.fail.injEq] at hee
            obtain ⟨rfl, _⟩ := hee
            rw [k2, Exec.ok_bind] at hq
            simp only [k4, Option.isSome_none, Bool.false_eq_true, if_false, Exec.ok.injEq, Prod.mk.injEq] at hq
            obtain ⟨rfl, rfl, _, rfl, rfl⟩ := hq
            exact ⟨rfl, rfl, k5, k3⟩
      obtain ⟨rfl, rfl, hu1, hadv1⟩ := hesc
      have hs1 : Here text (i + pos) (s1.pushBack u1) :=
        (hs.adv hadv1).push (by omega) (by rw [hu1, take_drop_sl])
      simp only at he
      -- nothing excluded is found
      obtain ⟨⟨rx, cs1⟩, hq2, he⟩ := Exec.of_bind he
      have hx := blockExclude_ref h2 excludes (text.drop (i + pos)) hvd
      have hsim : SimG (fun (x : Option Res × Stream) (y : Option Res × Nat) => x.1.map Res.core = y.1 ∧ Adv y.2 (s1.pushBack u1) x.2)
          (.ok (rx, cs1)) (L.blockExclude evL excludes (text.drop (i + pos))) := by
        rw [← hq2, ← hs1.rem]
        unfold L.blockExclude
        split
        · refine SimG.bind (mostGreedy_sim h1 NOT_SKIP excludes _ hs1.wf) ?_
          rintro ⟨res, cs⟩ ⟨res', k⟩ ⟨e, hadv⟩
          exact ⟨by simpa using e, hadv⟩
        · exact ⟨rfl, Adv.refl hs1.wf⟩
      cases hex : excludeAt run excludes (text.drop (i + pos)) with
      | oof => rw [hex] at hr; cases hr
      | risky => rw [hex] at hr; cases hr
      | ambiguous => rw [hex] at hr; cases hr
      | hit =>
        rw [hex] at hr
        simp only at hr
        split at hr <;> cases hr
      | fail nx xst =>
        rw [hex] at hr hx
        simp only at hr
        obtain ⟨x1, rx', x2, x3, x4⟩ := hx
        have x4 := x4 ne e2
        rw [x2] at hsim
        obtain ⟨r1, hadv2⟩ := hsim
        simp only at r1 hadv2 he
        subst r1
        have hbind : rx.bind (fun r => r.node.map (fun _ => r)) = none := by
          cases rx with
          | none => rfl
          | some r => cases hn : r.node <;> simp [Res.core, hn] at x3 ⊢
        rw [hbind] at he
        simp only at he
        have hs2 : ∀ u2, u2 = (text.drop (i + pos)).take nx → Here text (i + pos) (cs1.pushBack u2) := fun u2 hu =>
          (hs1.adv hadv2).push (by omega) (by rw [hu, take_drop_sl])
        rw [← hu1] at x4
        rcases rx with _ | r0
        all_goals
          simp only [exclRead_none, exclRead_some] at x4
          have hs2 := hs2 _ x4
          -- the close
          obtain ⟨⟨rc, cs2⟩, hq3, he⟩ := Exec.of_bind he
          have hkn := hk close NOT_SKIP _ _ hs2.wf hs2.rem hvd
          cases hrr : run close NOT_SKIP (text.drop (i + pos)) with
          | oof => rw [hrr] at hr; cases hr
          | risky => rw [hrr] at hr; cases hr
          | ambiguous => rw [hrr] at hr; cases hr
          | hit cnd uc nc cst =>
            rw [hrr] at hr hkn
            obtain ⟨k0, k1, res, cs, nd', k2, k3, k4, k5, k6, k7, k8⟩ := hkn
            simp only at hr
            split at hr
            · cases hr
            simp only [Ans.hit.injEq] at hr
            rw [hq3] at k2
            simp only [Exec.ok.injEq, Prod.mk.injEq] at k2
            obtain ⟨rfl, rfl⟩ := k2
            simp only [k4] at he
            obtain ⟨cu, _, he⟩ := Exec.of_bind he
            simp only [Bool.false_eq_true, if_false, Exec.ok.injEq, Prod.mk.injEq] at he
            obtain ⟨rfl, _⟩ := he
            refine ⟨_, _, rc, pos, nd', uc, by rw [hc], hsp, hple, k4, ?_, hr.2.1.symm⟩
            exact hl close NOT_SKIP text (i + pos) _ cnd uc nc cst hv hs2 hrr rc cs2 nd' hq3 k4
          | fail nc cst =>
            rw [hrr] at hr hkn
            obtain ⟨k1, res, cs, k2, k3, k4, k5, k6⟩ := hkn
            rw [hq3] at k2
            simp only [Exec.ok.injEq, Prod.mk.injEq] at k2
            obtain ⟨rfl, rfl⟩ := k2
            simp only [k4] at he hr
            have hs3 : Here text (i + pos) (cs2.pushBack rc.unused) :=
              (hs2.adv k3).push (by omega) (by rw [k6, take_drop_sl])
            have hpk : (cs2.pushBack rc.unused).peek = EOFChar ↔ text.drop (i + pos) = [] := by
              rw [L.peek_eq hs3.wf, hs3.rem]
              exact peek_eof hvd
            split at hr
            · cases hr
            rename_i hne
            rw [if_neg (fun e => hne (hpk.1 e))] at he
            obtain ⟨⟨out, cs3⟩, hq4, he⟩ := Exec.of_bind he
            simp only [Exec.ok.injEq, Prod.mk.injEq] at he
            obtain ⟨rfl, _⟩ := he
            have hn1 := next_one hs3.wf
            rw [hs3.rem] at hn1
            have hone : L.one (text.drop (i + pos)) = 1 := if_neg hne
            rw [hone] at hn1
            have hlt : i + pos < text.length := by
              have : (text.drop (i + pos)).length ≠ 0 := fun h => hne (List.eq_nil_of_length_eq_zero h)
              rw [List.length_drop] at this
              omega
            have hs4 := hs3.adv hn1.2
            refine ih (pos + 1) _ (by omega) (by omega) _ ?_ (fun _ => rfl) _ (by rw [← Nat.add_assoc]; exact hs4) hr hq4
            show bs.content ++ [] ++ [] ++ [(cs2.pushBack rc.unused).next.1] = _
            have hpk1 : [L.peek (text.drop (i + pos))] = sl (text.drop i) pos (pos + 1) := by
              rw [← take_drop_sl, hd, List.drop_eq_getElem_cons hlt]
              rfl
            rw [List.append_nil, List.append_nil, hc, hn1.1, hpk1, sl_append hsp (by omega)]

theorem evalBlock_laid {run : Runner} {ev : Evaluator} {evL : L.Ev} (h1 : EvSim ev evL) (h2 : EvRef run evL) (hl : EvLaid run ev)
    (fuel : Nat) (b : RuleBase) (o : Rule) (v : Bool) (c : Rule) (e : Option Rule) (xs : List Rule) (flag : Int)
    {text : List Rune} {i : Nat} {s : Stream} (hv : Valid text) (hs : Here text i s) {nd : Node} {u n : Nat} {sy : Bool}
    (hr : (match run o flag (text.drop i) with
      | .fail n _ => .fail n false
      | .hit nd u n _ =>
        if u < n ∧ e = none then .risky
        else blockAt run b v c e xs nd u (text.drop i) fuel u n
      | a => a : Ans) = .hit nd u n sy)
    {res : Res} {s' : Stream} {nd' : Node} (he : evalBlock ev fuel b o v c e xs flag s = .ok (res, s')) (hnd : res.node = some nd') :
    Laid text i [nd'] (i + u) := by
  have hk := know_of h1 h2
  have hkn := hk o flag s _ hs.wf hs.rem (hv.drop _)
  cases hrr : run o flag (text.drop i) with
  | oof => rw [hrr] at hr; cases hr
  | risky => rw [hrr] at hr; cases hr
  | fail => rw [hrr] at hr; cases hr
  | ambiguous => rw [hrr] at hr; cases hr
  | hit ond ou on ost =>
    rw [hrr] at hr hkn
    simp only at hr
    split at hr
    · cases hr
    rename_i hrisk
    obtain ⟨k0, k1, ro, s1, ond', k2, k3, k4, k5, k6, k7, k8⟩ := hkn
    unfold evalBlock at he
    rw [k2, Exec.ok_bind] at he
    simp only [k4] at he
    obtain ⟨used, hq, he⟩ := Exec.of_bind he
    rw [List.length_drop] at k1
    have hle := hs.le
    have hs1 : Here text (i + ou) (s1.pushBack ro.unused) := (hs.adv k3).push (by omega) (by rw [k7, take_drop_sl, sl_drop])
    obtain ⟨⟨be, cs⟩, hq2, he⟩ := Exec.of_bind he
    obtain ⟨U, un, rc, m, cnd, uc, rfl, b2, b3, b4, b5, b6⟩ := blockLoop_laid h1 h2 hl b v c e xs ond ou hv fuel ou on (Nat.le_refl _) (by omega)
      { used := used, unused := ro.unused }
      (by show [] = _; unfold sl; rw [List.drop_eq_nil_of_le]; rw [List.length_take]; omega)
      (fun h => by
        have : ¬ ou < on := fun hlt => hrisk ⟨hlt, h⟩
        show ro.unused = []
        rw [k7, List.drop_eq_nil_of_le]
        rw [List.length_take]; omega)
      _ hs1.pos hr hq2
    simp only [Exec.ok.injEq, Prod.mk.injEq] at he
    obtain ⟨rfl, _⟩ := he
    simp only [Option.some.injEq] at hnd
    subst hnd
    have hol := hl o flag text i s ond ou on ost hv hs hrr ro s1 ond' k2 k4
    have hlen : (sl (text.drop i) ou m).length = m - ou := sl_length (by rw [List.length_drop]; omega)
    refine .block (o := ond') (m := { ruleType := .chars, chars := sl (text.drop i) ou m, pos := (s1.pushBack ro.unused).position.1, sticky := true })
      (cl := if v then [] else rc.node.toList) rfl rfl rfl hol rfl rfl ?_ ?_ (k := i + u) ?_ rfl .nil
    · show sl (text.drop i) ou m <+: _
      have : sl (text.drop i) ou m = (text.drop (i + ou)).take (m - ou) := by
        rw [← List.drop_drop, take_drop_sl]; congr 1; omega
      rw [this]
      exact List.take_prefix _ _
    · exact hs1.position
    · show Laid text (i + ou + (sl (text.drop i) ou m).length) _ _
      rw [hlen]
      have e1 : i + ou + (m - ou) = i + m := by omega
      rw [e1, b6]
      cases v with
      | true => exact .nil
      | false =>
        simp only [b4, Bool.false_eq_true, if_false]
        rw [← Nat.add_assoc]
        exact b5

/-- The trees of evaluations are laid out in the text. -/
theorem eval_laid (env : Env) (fuel : Nat) : EvLaid (Spec.run env fuel) (eval env fuel) := by
  induction fuel with
  | zero => intro r flag text i s nd u n st hv hs hr; simp only [Spec.run] at hr; cases hr
  | succ fuel ih =>
    intro r flag text i s nd u n st hv hs hr res s' nd' he hnd
    have hk := know_of (eval_sim env fuel) (eval_ref env fuel)
    have hk1 := know_of (eval_sim env (fuel + 1)) (eval_ref env (fuel + 1)) r flag s _ hs.wf hs.rem (hv.drop _)
    rw [hr] at hk1
    obtain ⟨k0, k1, res1, s1, nd1, k2, k3, k4, k5, k6, k7, k8⟩ := hk1
    rw [he] at k2
    simp only [Exec.ok.injEq, Prod.mk.injEq] at k2
    obtain ⟨rfl, rfl⟩ := k2
    rw [hnd] at k4
    cases k4
    have hused : res.used = u := by
      simp only [Res.used, k6, k7, List.length_take, List.length_drop] at k1 ⊢
      omega
    cases r with
    | eof b =>
      simp only [eval, Exec.ok.injEq] at he
      have := evalEOF_laid (b := b) (flag := flag) (nd := nd') hv hs (by rw [he]; exact hnd)
      rw [he, hused] at this
      exact this
    | char b t x =>
      simp only [Spec.run] at hr
      split at hr
      · cases hr
      rename_i ht
      simp only [eval, Exec.ok.injEq] at he
      have := evalChar_laid (b := b) (flag := flag) (nd := nd') hs ht (by rw [he]; exact hnd)
      rw [he, hused] at this
      exact this
    | range b x xs y ys =>
      simp only [Spec.run] at hr
      split at hr
      · cases hr
      rename_i hx
      simp only [eval, Exec.ok.injEq] at he
      have := evalRange_laid (b := b) (y := y) (flag := flag) (nd := nd') hs (fun h => hx (Or.inl h)) (by rw [he]; exact hnd)
      rw [he, hused] at this
      exact this
    | chars b t =>
      simp only [eval, Exec.ok.injEq] at he
      have := evalChars_laid (b := b) (t := t) (flag := flag) (nd := nd') hv hs (by rw [he]; exact hnd)
      rw [he, hused] at this
      exact this
    | str b t =>
      simp only [eval, Exec.ok.injEq] at he
      have := evalString_laid (b := b) (t := t) (flag := flag) (nd := nd') hv hs (by rw [he]; exact hnd)
      rw [he, hused] at this
      exact this
    | group b r =>
      simp only [eval] at he
      obtain ⟨⟨res1, s1⟩, hq, he⟩ := Exec.of_bind he
      simp only [Exec.ok.injEq, Prod.mk.injEq] at he
      obtain ⟨rfl, _⟩ := he
      simp only [Spec.run] at hr
      unfold groupRes at hnd
      cases hrr : Spec.run env fuel r flag (text.drop i) with
      | oof => rw [hrr] at hr; cases hr
      | risky => rw [hrr] at hr; cases hr
      | fail => rw [hrr] at hr; cases hr
      | ambiguous => rw [hrr] at hr; cases hr
      | hit nd2 u2 n2 st2 =>
        rw [hrr] at hr
        simp only [Ans.hit.injEq] at hr
        obtain ⟨_, rfl, _⟩ := hr
        split at hnd
        · rename_i hx; rw [hx] at hnd; cases hnd
        rename_i n1 hx
        simp only [Option.some.injEq] at hnd
        subst hnd
        exact .group rfl rfl rfl (ih r flag text i s nd2 u2 n2 st2 hv hs hrr res1 s1 n1 hq hx) rfl .nil
    | option b r =>
      simp only [eval] at he
      obtain ⟨⟨res1, s1⟩, hq, he⟩ := Exec.of_bind he
      simp only [Exec.ok.injEq, Prod.mk.injEq] at he
      obtain ⟨rfl, _⟩ := he
      simp only [Spec.run] at hr
      have hkr := hk r flag s _ hs.wf hs.rem (hv.drop _)
      unfold optionRes at hnd
      cases hrr : Spec.run env fuel r flag (text.drop i) with
      | oof => rw [hrr] at hr; cases hr
      | risky => rw [hrr] at hr; cases hr
      | fail n2 st2 =>
        rw [hrr] at hr hkr
        simp only [Ans.hit.injEq] at hr
        obtain ⟨_, rfl, _⟩ := hr
        obtain ⟨q1, res2, s2, q2, q3, q4, _⟩ := hkr
        rw [hq] at q2
        simp only [Exec.ok.injEq, Prod.mk.injEq] at q2
        obtain ⟨rfl, rfl⟩ := q2
        simp only [q4, Option.some.injEq] at hnd
        subst hnd
        exact .inner (by simp [branchNode]) rfl .nil rfl .nil
      | ambiguous => rw [hrr] at hr; cases hr
      | hit nd2 u2 n2 st2 =>
        rw [hrr] at hr hkr
        simp only [Ans.hit.injEq] at hr
        obtain ⟨_, rfl, _⟩ := hr
        obtain ⟨_, q1, res2, s2, nd3, q2, q3, q4, _⟩ := hkr
        rw [hq] at q2
        simp only [Exec.ok.injEq, Prod.mk.injEq] at q2
        obtain ⟨rfl, rfl⟩ := q2
        simp only [q4, Option.some.injEq] at hnd
        subst hnd
        exact .inner (by simp [branchNode]) rfl (ih r flag text i s nd2 u2 n2 st2 hv hs hrr res1 s1 nd3 hq q4)
          (by simp [branchNode, firstOf]) .nil
    | rep b r mn mx =>
      simp only [eval, evalRep] at he
      obtain ⟨⟨st1, why, s1⟩, hq, he⟩ := Exec.of_bind he
      simp only [Exec.ok.injEq, Prod.mk.injEq] at he
      obtain ⟨rfl, _⟩ := he
      exact repLoop_laid hk ih _ b r mn mx hv fuel 0 0 { flag := flag } (at_zero _ _) s hs .nil rfl hr hq hnd
    | choice b gs => exact choiceLoop_laid hk ih _ b flag hv gs 0 (Nat.zero_le _) {} rfl s hs hr he hnd
    | concat b rs => exact concatLoop_laid hk ih _ b hv rs 0 0 { flag := flag } (at_zero _ _) s hs .nil rfl hr he hnd
    | block b o v c e xs => exact evalBlock_laid (eval_sim env fuel) (eval_ref env fuel) ih fuel b o v c e xs flag hv hs hr he hnd
    | ref b name =>
      simp only [eval, Spec.run] at he hr
      cases hx : env name with
      | none => rw [hx] at hr; cases hr
      | some r =>
        rw [hx] at hr he
        simp only at hr he
        obtain ⟨⟨res1, s1⟩, hq, he⟩ := Exec.of_bind he
        simp only [Exec.ok.injEq, Prod.mk.injEq] at he
        obtain ⟨rfl, _⟩ := he
        unfold refRes at hnd
        cases hrr : Spec.run env fuel r flag (text.drop i) with
        | oof => rw [hrr] at hr; cases hr
        | risky => rw [hrr] at hr; cases hr
        | fail => rw [hrr] at hr; cases hr
        | ambiguous => rw [hrr] at hr; cases hr
        | hit nd2 u2 n2 st2 =>
          rw [hrr] at hr
          simp only [Ans.hit.injEq] at hr
          obtain ⟨_, rfl, _⟩ := hr
          split at hnd
          · rename_i hx; rw [hx] at hnd; cases hnd
          rename_i n1 hx
          simp only [Option.some.injEq] at hnd
          have := ih r flag text i s nd2 u2 n2 st2 hv hs hrr res1 s1 n1 hq hx
          exact laid_marks this (by rw [← hnd]) (by rw [← hnd]) (by rw [← hnd]) (by rw [← hnd])

end Xbnf
