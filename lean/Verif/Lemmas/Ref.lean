import Verif.Lemmas.Safe
import Verif.Spec.Peg
/-
The evaluators do what the reference semantics says, wherever that says something.
-/
namespace Xbnf
open Spec

/-- The outcome of an evaluation on `l` is what the answer says. -/
def Ref (l : List Rune) : Ans → Exec (Res × Nat) → Prop
  | .oof, _ => True
  | .risky, _ => True
  | .fail n st, x => n ≤ l.length ∧ x = .ok ({ read := l.take n, unused := l.take n, sticky := st }, n)
  | .ambiguous n, x => n ≤ l.length ∧ x = .ok ({ read := l.take n }, n)
  | .hit nd u n st, x => u ≤ n ∧ n ≤ l.length ∧
      x = .ok ({ node := some nd, read := l.take n, unused := (l.take n).drop u, sticky := st }, n)

def EvRef (run : Runner) (ev : L.Ev) : Prop :=
  ∀ r flag l, Valid l → Ref l (run r flag l) (ev r flag l)

namespace L

theorem peek_eof {l : List Rune} (h : Valid l) : peek l = EOFChar ↔ l = [] := Valid.headD h

theorem spaces_blank (b : Bool) (l : List Rune) : spaces b l = blank b l := by cases b <;> rfl

theorem blank_prefix (b : Bool) (l : List Rune) : blank b l <+: l := by
  unfold blank
  split
  · exact List.takeWhile_prefix _
  · exact List.nil_prefix

theorem take_blank (b : Bool) (l : List Rune) : l.take (blank b l).length = blank b l :=
  (List.prefix_iff_eq_take.1 (blank_prefix b l)).symm

theorem take_blank_succ (b : Bool) (l : List Rune) {c : Rune} {t : List Rune}
    (h : l.drop (blank b l).length = c :: t) :
    l.take ((blank b l).length + 1) = blank b l ++ [c] := by
  have : l.take ((blank b l).length + 1) = l.take (blank b l).length ++
      (l.drop (blank b l).length).take 1 := by rw [List.take_add]
  rw [this, h, take_blank]; rfl

theorem len_of_drop {l : List Rune} {n : Nat} {c : Rune} {t : List Rune} (h : l.drop n = c :: t) :
    n + 1 ≤ l.length := by
  have := congrArg List.length h
  simp only [List.length_drop, List.length_cons] at this
  omega

theorem blank_ws {b : Bool} {l : List Rune} {c : Rune} (h : c ∈ blank b l) :
    isWhiteSpace c = true := by
  unfold blank at h
  split at h
  · exact mem_takeWhile_imp h
  · simp at h

theorem after_blank {l : List Rune} {c : Rune} {t : List Rune}
    (h : l.drop (blank true l).length = c :: t) : isWhiteSpace c = false := by
  simp only [blank, if_true, drop_takeWhile_length] at h
  have := List.head?_dropWhile_not isWhiteSpace l
  rw [h] at this
  simpa using this

theorem evalEOF_ref (b : RuleBase) (flag : Int) {l : List Rune} (h : Valid l) :
    Ref l (eofAt b (decide (flag = SUGGEST_SKIP)) l) (.ok (evalEOF b flag l)) := by
  unfold eofAt evalEOF
  have hp := peek_eof (h.drop (blank (decide (flag = SUGGEST_SKIP)) l).length)
  have hl := (blank_prefix (decide (flag = SUGGEST_SKIP)) l).length_le
  simp only [spaces_blank]
  by_cases hc : l.drop (blank (decide (flag = SUGGEST_SKIP)) l).length = []
  · rw [if_pos hc, if_pos (hp.2 hc)]
    exact ⟨Nat.le_refl _, hl, by rw [take_blank]; simp⟩
  · rw [if_neg hc, if_neg (fun e => hc (hp.1 e))]
    exact ⟨hl, by rw [take_blank]⟩

theorem evalChar_ref (b : RuleBase) (t : Rune) (ht : t ≠ EOFChar) (flag : Int) {l : List Rune}
    (h : Valid l) :
    Ref l (oneAt .char b (decide (flag = SUGGEST_SKIP)) (fun c => c == t) l)
      (.ok (evalChar b t flag l)) := by
  unfold oneAt evalChar
  simp only [spaces_blank]
  generalize hw : blank (decide (flag = SUGGEST_SKIP)) l = ws
  have hpre : ws <+: l := hw ▸ blank_prefix _ _
  have htk : l.take ws.length = ws := hw ▸ take_blank _ _
  have hl := hpre.length_le
  by_cases hnil : l = []
  · subst hnil
    have : ws = [] := List.prefix_nil.1 hpre
    subst this
    rw [if_pos ((peek_eof h).2 rfl)]
    exact ⟨Nat.le_refl _, rfl⟩
  · rw [if_neg (fun e => hnil ((peek_eof h).1 e))]
    have hpk : peek (l.drop ws.length) = EOFChar ↔ _ := peek_eof (h.drop ws.length)
    by_cases hcond : flag = SUGGEST_SKIP ∧ isWhiteSpace t = true ∧ ws ≠ []
    · rw [if_pos hcond]
      cases hi : ws.findIdx? (fun c => c == t) with
      | some i =>
        have hi' := findIdx?_some hi
        refine ⟨by omega, hl, ?_⟩
        rw [htk, hi'.2]
        rfl
      | none =>
        simp only
        have hns : ∀ c t', l.drop ws.length = c :: t' → (c == t) = false := by
          intro c t' hd
          have := after_blank (l := l) (c := c) (t := t')
            (by rw [← hd, ← hw, hcond.1]; simp)
          simp only [beq_eq_false_iff_ne, ne_eq]
          rintro rfl
          rw [hcond.2.1] at this; cases this
        split
        · exact ⟨hl, by rw [htk]⟩
        · rename_i c t' hd
          rw [if_neg (by rw [hns c t' hd]; simp)]
          exact ⟨hl, by rw [htk]⟩
    · rw [if_neg hcond]
      have hnone : ws.findIdx? (fun c => c == t) = none := by
        rw [List.findIdx?_eq_none_iff]
        intro c hc
        simp only [beq_eq_false_iff_ne, ne_eq]
        rintro rfl
        apply hcond
        refine ⟨?_, blank_ws (hw ▸ hc), List.ne_nil_of_mem hc⟩
        rw [← hw] at hc
        unfold blank at hc
        split at hc
        · rename_i hf; simpa using hf
        · simp at hc
      rw [hnone]
      simp only
      split
      · rename_i hd
        rw [if_pos (by rw [hpk.2 hd]; exact fun e => ht e.symm)]
        exact ⟨hl, by rw [htk]⟩
      · rename_i c t' hd
        have hpc : peek (l.drop ws.length) = c := by rw [hd]; rfl
        rw [hpc]
        by_cases hct : c = t
        · subst hct
          simp only [beq_self_eq_true, if_true, ne_eq, not_true_eq_false, if_false]
          have h1 := len_of_drop hd
          have h2 : l.take (ws.length + 1) = ws ++ [c] := by
            rw [← hw]; exact take_blank_succ _ _ (hw ▸ hd)
          refine ⟨Nat.le_refl _, h1, ?_⟩
          have h3 : one (l.drop ws.length) = 1 := by unfold one; rw [hd]; rfl
          rw [h2, h3]
          simp only [Exec.ok.injEq, Prod.mk.injEq, and_true]
          simp [leafNode, leaf]
        · simp only [beq_iff_eq, hct, if_false, ne_eq, not_false_eq_true, if_true]
          exact ⟨hl, by rw [htk]⟩
where
  findIdx?_some {ws : List Rune} {t : Rune} {i : Nat} (hi : ws.findIdx? (fun c => c == t) = some i) :
      i < ws.length ∧ ws.getD i EOFChar = t := by
    rw [List.findIdx?_eq_some_iff_getElem] at hi
    obtain ⟨hi, hp, _⟩ := hi
    refine ⟨hi, ?_⟩
    rw [List.getD_eq_getElem?_getD, List.getElem?_eq_getElem hi]
    simpa using hp

theorem evalRange_ref (b : RuleBase) (x y : Rune) (hx : ¬ x < 0) (flag : Int) {l : List Rune}
    (h : Valid l)
    (hq : (blank (decide (flag = SUGGEST_SKIP)) l).any
      (fun c => decide (x ≤ c ∧ y ≤ c) != between x y c) = false) :
    Ref l (oneAt .chars b (decide (flag = SUGGEST_SKIP)) (between x y) l)
      (.ok (evalRange b x y flag l)) := by
  unfold oneAt evalRange
  simp only [spaces_blank]
  generalize hw : blank (decide (flag = SUGGEST_SKIP)) l = ws at hq ⊢
  have hpre : ws <+: l := hw ▸ blank_prefix _ _
  have htk : l.take ws.length = ws := hw ▸ take_blank _ _
  have hl := hpre.length_le
  have hfind : ws.findIdx? (fun c => decide (x ≤ c) && decide (c ≥ y)) =
      ws.findIdx? (between x y) := by
    clear hw hpre htk hl
    induction ws with
    | nil => rfl
    | cons c ws ih =>
      simp only [List.any_cons, Bool.or_eq_false_iff] at hq
      rw [List.findIdx?_cons, List.findIdx?_cons, ih hq.2]
      have : (decide (x ≤ c) && decide (c ≥ y)) = between x y c := by
        have := hq.1
        simp only [bne_eq_false_iff_eq] at this
        rw [← this]
        simp
      rw [this]
  by_cases hnil : l = []
  · subst hnil
    have : ws = [] := List.prefix_nil.1 hpre
    subst this
    rw [if_pos ((peek_eof h).2 rfl)]
    exact ⟨Nat.le_refl _, rfl⟩
  · rw [if_neg (fun e => hnil ((peek_eof h).1 e)), hfind]
    cases hi : ws.findIdx? (between x y) with
    | some i =>
      rw [List.findIdx?_eq_some_iff_getElem] at hi
      obtain ⟨hi, hp, _⟩ := hi
      refine ⟨by omega, hl, ?_⟩
      rw [htk]; rfl
    | none =>
      simp only
      have hpk : peek (l.drop ws.length) = EOFChar ↔ _ := peek_eof (h.drop ws.length)
      split
      · rename_i hd
        rw [if_neg (by rw [hpk.2 hd]; rintro ⟨e, _⟩; unfold Rune EOFChar at *; omega)]
        exact ⟨hl, by rw [htk]⟩
      · rename_i c t' hd
        have hpc : peek (l.drop ws.length) = c := by rw [hd]; rfl
        rw [hpc]
        by_cases hct : x ≤ c ∧ c ≤ y
        · have hr : between x y c = true := by simp [between, hct.1, hct.2]
          rw [if_pos hr, if_pos hct]
          have h1 := len_of_drop hd
          have h2 : l.take (ws.length + 1) = ws ++ [c] := by
            rw [← hw]; exact take_blank_succ _ _ (hw ▸ hd)
          refine ⟨Nat.le_refl _, h1, ?_⟩
          have h3 : one (l.drop ws.length) = 1 := by unfold one; rw [hd]; rfl
          rw [h2, h3]
          simp only [Exec.ok.injEq, Prod.mk.injEq, and_true]
          simp [leafNode, leaf]
        · have hr : ¬ between x y c = true := by
            simp only [between, Bool.and_eq_true, decide_eq_true_eq]; exact hct
          rw [if_neg hr, if_neg hct]
          exact ⟨hl, by rw [htk]⟩

theorem matchK_eq (t : List Rune) {l : List Rune} (h : Valid l) :
    matchK t l = ((matchL t l).1, (matchL t l).2, (matchL t l).1.length) := by
  induction t generalizing l with
  | nil => rfl
  | cons w t ih =>
    cases l with
    | nil => rfl
    | cons c l =>
      have hc : c ≠ EOFChar := h c (by simp)
      simp only [matchK, matchL]
      rw [if_neg hc]
      by_cases hw : c = w
      · rw [if_neg (fun e => e hw), if_neg (fun e => e hw)]
        rw [ih (fun c hc => h c (by simp [hc]))]
        simp
      · rw [if_pos hw, if_pos hw]; rfl

theorem matchL_length (t l : List Rune) (h : ¬ t <+: l) :
    (matchL t l).1 = l.take (min l.length ((commonPrefix t l).length + 1)) := by
  induction t generalizing l with
  | nil => exact absurd List.nil_prefix h
  | cons w ws ih =>
    cases l with
    | nil => simp [matchL]
    | cons c l =>
      simp only [matchL, commonPrefix]
      by_cases hw : c = w
      · subst hw
        have : ¬ ws <+: l := fun e => h (by simpa using e)
        have := ih l this
        simp only [ne_eq, not_true_eq_false, if_false, if_true, List.length_cons]
        rw [this, Nat.add_min_add_right]
        simp
      · have : w ≠ c := fun e => hw e.symm
        simp only [ne_eq, hw, not_false_eq_true, if_true, this, if_false, List.length_nil,
          List.length_cons]
        have hm : min (l.length + 1) (0 + 1) = 1 := by omega
        rw [hm]
        simp

/-- `Match` on a valid list: succeeds iff the text is a prefix. -/
theorem matchK_ref (t : List Rune) {l : List Rune} (h : Valid l) :
    matchK t l = if t.isPrefixOf l then (t, true, t.length)
      else (l.take (min l.length ((commonPrefix t l).length + 1)), false,
        min l.length ((commonPrefix t l).length + 1)) := by
  rw [matchK_eq t h]
  by_cases hp : t <+: l
  · rw [if_pos (List.isPrefixOf_iff_prefix.2 hp), matchL_read_ok t l hp, (matchL_ok t l).2 hp]
  · rw [if_neg (fun e => hp (List.isPrefixOf_iff_prefix.1 e))]
    have h2 : (matchL t l).2 = false := by
      cases hm : (matchL t l).2 with
      | false => rfl
      | true => exact absurd ((matchL_ok t l).1 hm) hp
    rw [h2, matchL_length t l hp, List.length_take, Nat.min_eq_left (Nat.min_le_left _ _)]

theorem suffix_cond (lead ws : List Rune) :
    lead.isSuffixOf ws = true ↔
      ¬ ws.length < lead.length ∧ ws.drop (ws.length - lead.length) = lead := by
  rw [List.isSuffixOf_iff_suffix]
  constructor
  · intro h
    have := h.length_le
    exact ⟨by omega, (List.suffix_iff_eq_drop.1 h).symm⟩
  · rintro ⟨_, h2⟩
    exact List.suffix_iff_eq_drop.2 h2.symm

theorem evalText_ref (rt : RType) (b : RuleBase) (sticky skip : Bool) (text : List Rune)
    {l : List Rune} (h : Valid l) :
    Ref l (textAt rt b sticky skip text l) (.ok (evalText rt b sticky skip text l)) := by
  unfold textAt evalText
  by_cases hnil : l = []
  · subst hnil
    rw [if_pos ((peek_eof h).2 rfl)]
    exact ⟨Nat.le_refl _, rfl⟩
  · rw [if_neg (fun e => hnil ((peek_eof h).1 e))]
    simp only [if_neg hnil]
    have hl := (blank_prefix skip l).length_le
    have htk := take_blank skip l
    -- the match of the rest
    have key : ∀ rest, Ref l
        (if rest.isPrefixOf (l.drop (blank skip l).length) then
          .hit (leaf rt b sticky text) ((blank skip l).length + rest.length)
            ((blank skip l).length + rest.length) sticky
        else .fail ((blank skip l).length + min (l.drop (blank skip l).length).length
          ((commonPrefix rest (l.drop (blank skip l).length)).length + 1)) sticky)
        (.ok (if (matchK rest (l.drop (blank skip l).length)).2.1 then
            ({ node := some (leafNode rt b sticky text none),
               read := blank skip l ++ (matchK rest (l.drop (blank skip l).length)).1,
               sticky := sticky },
             (blank skip l).length + (matchK rest (l.drop (blank skip l).length)).2.2)
          else
            ({ read := blank skip l ++ (matchK rest (l.drop (blank skip l).length)).1,
               unused := blank skip l ++ (matchK rest (l.drop (blank skip l).length)).1,
               sticky := sticky },
             (blank skip l).length + (matchK rest (l.drop (blank skip l).length)).2.2))) := by
      intro rest
      rw [matchK_ref rest (h.drop _)]
      by_cases hp : rest.isPrefixOf (l.drop (blank skip l).length) = true
      · simp only [hp, if_true]
        have hp' := List.isPrefixOf_iff_prefix.1 hp
        have hlen := hp'.length_le
        rw [List.length_drop] at hlen
        have ht : l.take ((blank skip l).length + rest.length) = blank skip l ++ rest := by
          rw [List.take_add, htk, ← List.prefix_iff_eq_take.1 hp']
        refine ⟨Nat.le_refl _, by omega, ?_⟩
        rw [ht]
        simp only [Exec.ok.injEq, Prod.mk.injEq, and_true]
        rw [List.drop_eq_nil_of_le (by simp)]
        rfl
      · simp only [hp, Bool.false_eq_true, if_false]
        refine ⟨?_, ?_⟩
        · rw [List.length_drop]; omega
        · rw [List.take_add, htk]
    cases skip with
    | true =>
      simp only [matchText, if_true]
      have hb : l.takeWhile isWhiteSpace = blank true l := rfl
      have hlead : leadingWhiteSpace text = text.takeWhile isWhiteSpace := rfl
      rw [hb, hlead]
      by_cases hs : (text.takeWhile isWhiteSpace).isSuffixOf (blank true l) = true
      · have hs' := (suffix_cond _ _).1 hs
        have hne : ¬ ((blank true l).drop ((blank true l).length -
            (text.takeWhile isWhiteSpace).length) ≠ text.takeWhile isWhiteSpace) := fun e => e hs'.2
        rw [if_pos hs, if_neg hs'.1, if_neg hne]
        exact key _
      · rw [if_neg hs]
        have : ∀ (A : List Rune × Bool × Nat),
            (if (blank true l).length < (text.takeWhile isWhiteSpace).length then
              (blank true l, false, (blank true l).length)
            else if (blank true l).drop ((blank true l).length -
                (text.takeWhile isWhiteSpace).length) ≠ text.takeWhile isWhiteSpace then
              (blank true l, false, (blank true l).length)
            else A) = (blank true l, false, (blank true l).length) := by
          intro A
          split
          · rfl
          · rename_i h1
            rw [if_pos]
            intro h2
            exact hs ((suffix_cond _ _).2 ⟨h1, h2⟩)
        rw [this]
        exact ⟨hl, by rw [htk]; rfl⟩
    | false =>
      have hm : matchText text false l = matchK text l := rfl
      have hb : blank false l = [] := rfl
      have := key text
      simp only [hb, List.length_nil, List.drop_zero, Nat.zero_add, List.nil_append] at this
      simp only [hm, hb, Bool.false_eq_true, if_false, List.length_nil, List.drop_zero,
        Nat.zero_add]
      exact this

/-! ### Concatenation and repetition -/

/-- The characters from `a` to `b`. -/
def sl (l : List Rune) (a b : Nat) : List Rune := (l.take b).drop a

theorem sl_append_drop {l : List Rune} {a b : Nat} (h : a ≤ b) : sl l a b ++ l.drop b = l.drop a := by
  unfold sl
  by_cases hb : b ≤ l.length
  · conv => rhs; rw [← List.take_append_drop b l]
    rw [List.drop_append_of_le_length (by rw [List.length_take]; omega)]
  · rw [List.take_of_length_le (by omega), List.drop_eq_nil_of_le (as := l) (i := b) (by omega),
      List.append_nil]

theorem sl_length {l : List Rune} {a b : Nat} (h : b ≤ l.length) : (sl l a b).length = b - a := by
  unfold sl
  rw [List.length_drop, List.length_take]; omega

theorem take_drop_sl (l : List Rune) (a n : Nat) : (l.drop a).take n = sl l a (a + n) := by
  unfold sl
  rw [List.take_drop]

theorem sl_drop (l : List Rune) (a b n : Nat) : (sl l a b).drop n = sl l (a + n) b := by
  unfold sl
  rw [List.drop_drop]

theorem take_append_sl {l : List Rune} {a b : Nat} (h : a ≤ b) : l.take a ++ sl l a b = l.take b := by
  unfold sl
  have : l.take a = (l.take b).take a := by rw [List.take_take, Nat.min_eq_left h]
  rw [this, List.take_append_drop]

theorem sl_append {l : List Rune} {a b c : Nat} (h : a ≤ b) (h' : b ≤ c) :
    sl l a b ++ sl l b c = sl l a c := by
  have h1 : sl l b c = (sl l a c).drop (b - a) := by rw [sl_drop]; congr 1; omega
  have h2 : sl l a b = (sl l a c).take (b - a) := by
    unfold sl
    rw [List.take_drop]
    have : a + (b - a) = b := by omega
    rw [this, List.take_take, Nat.min_eq_left h']
  rw [h1, h2, List.take_append_drop]

theorem account_ref {l : List Rune} {pos look n u : Nat} {r : Res} (h1 : pos ≤ look)
    (h2 : look ≤ l.length) (hn : pos + n ≤ l.length) (hu : u ≤ n)
    (hread : r.read = (l.drop pos).take n) (hun : r.unused = ((l.drop pos).take n).drop u) :
    ∃ un, account (l.take look) (sl l pos look) r = .ok (l.take (max look (pos + n)), un) ∧
      (¬ (pos + n < look ∧ look - pos < 2 * u) → un = sl l (pos + u) (max look (pos + n))) := by
  rw [take_drop_sl] at hread hun
  rw [sl_drop] at hun
  have hrl : r.read.length = n := by rw [hread, sl_length hn]; omega
  have hul : r.unused.length = n - u := by rw [hun, sl_length hn]; omega
  have hll : (sl l pos look).length = look - pos := sl_length h2
  unfold account
  rw [hrl, hll]
  by_cases hgt : n > look - pos
  · rw [if_pos hgt, sliceFrom_all _ _ (by rw [hrl]; omega), Exec.ok_bind]
    have hm : max look (pos + n) = pos + n := by omega
    refine ⟨r.unused, ?_, fun _ => ?_⟩
    · rw [hread, sl_drop, hm]
      have : pos + (look - pos) = look := by omega
      rw [this, take_append_sl (by omega)]
    · rw [hun, hm]
  · rw [if_neg hgt, Res.charsUsed_eq (by omega), Exec.ok_bind]
    have hused : r.used = u := by unfold Res.used; omega
    rw [hused, List.length_take, hrl, Nat.min_eq_left hu, sliceFrom_all _ _ (by rw [hll]; omega),
      Exec.ok_bind]
    have hm : max look (pos + n) = look := by omega
    rw [hm, sl_drop, sl_length h2]
    split
    · refine ⟨_, rfl, fun hc => ?_⟩
      have : pos + n = look := by omega
      rw [hun, this]
    · exact ⟨_, rfl, fun _ => rfl⟩

/-- The state of a loop that has used `pos` and looked at `look` characters of `l`. -/
structure At (l : List Rune) (pos look : Nat) (st : SeqState) : Prop where
  le : pos ≤ look
  len : look ≤ l.length
  read : st.read = l.take look
  unused : st.unused = sl l pos look

/-- The result of a loop entered with `look` characters looked at. -/
def RefFrom (l : List Rune) (look : Nat) : Ans → Exec (Res × Nat) → Prop
  | .oof, _ => True
  | .risky, _ => True
  | .fail n st, x => look ≤ n ∧ n ≤ l.length ∧
      x = .ok ({ read := l.take n, unused := l.take n, sticky := st }, n - look)
  | .ambiguous _, _ => False
  | .hit nd u n st, x => look ≤ n ∧ u ≤ n ∧ n ≤ l.length ∧
      x = .ok ({ node := some nd, read := l.take n, unused := sl l u n, sticky := st }, n - look)

theorem RefFrom.ref {l : List Rune} {a : Ans} {x} (h : RefFrom l 0 a x) : Ref l a x := by
  cases a with
  | oof => trivial
  | risky => trivial
  | fail n st => exact ⟨h.2.1, h.2.2⟩
  | ambiguous => exact h.elim
  | hit nd u n st => exact ⟨h.2.1, h.2.2.1, h.2.2.2⟩

theorem flagAfter_eq (flag : Int) (n : Node) (st : Bool) : nextFlag flag n st = flagAfter flag n st := by
  unfold nextFlag flagAfter
  by_cases h : n.ruleType = .option ∧ n.children = [] ∧ n.chars = []
  · rw [if_pos h, if_neg]
    simp [h.1, h.2.1, h.2.2]
  · rw [if_neg h, if_pos]
    apply Classical.byContradiction
    intro hc
    apply h
    simp only [ne_eq, not_or, Decidable.not_not] at hc
    refine ⟨hc.1, ?_, ?_⟩
    · apply List.eq_nil_of_length_eq_zero; omega
    · apply List.eq_nil_of_length_eq_zero; omega

theorem concatLoop_ref {run : Runner} {ev : Ev} (hev : EvRef run ev) (b : RuleBase) (l : List Rune)
    (hv : Valid l) (rs : List Rule) (pos look : Nat) (st : SeqState) (h : At l pos look st) :
    RefFrom l look (seqAt run b l rs pos look st.sticky st.flag st.nodes)
      (concatLoop ev b rs st (l.drop look)) := by
  induction rs generalizing pos look st with
  | nil =>
    refine ⟨Nat.le_refl _, h.le, h.len, ?_⟩
    simp only [concatLoop, h.read, h.unused, Nat.sub_self]
    rfl
  | cons r rs ih =>
    have h1 := h.le
    have h2 := h.len
    have hs := hev r st.flag (l.drop pos) (hv.drop pos)
    have hin : st.unused ++ l.drop look = l.drop pos := by rw [h.unused, sl_append_drop h1]
    simp only [seqAt, concatLoop, hin]
    have hull : st.unused.length = look - pos := by rw [h.unused, sl_length h2]
    cases hr : run r st.flag (l.drop pos) with
    | oof => trivial
    | risky => trivial
    | fail n stk =>
      rw [hr] at hs
      obtain ⟨g1, g2⟩ := hs
      rw [List.length_drop] at g1
      rw [g2, Exec.ok_bind]
      simp only
      obtain ⟨un, e1, e2⟩ := account_ref (n := n) (u := 0) (pos := pos) (look := look)
        (r := { read := (l.drop pos).take n, unused := (l.drop pos).take n, sticky := stk })
        h1 h2 (by omega) (Nat.zero_le _) rfl rfl
      rw [h.read, h.unused, e1, Exec.ok_bind, ← h.unused, hull]
      refine ⟨by omega, by omega, ?_⟩
      have : n - (look - pos) = max look (pos + n) - look := by omega
      rw [this]
    | ambiguous n =>
      rw [hr] at hs
      obtain ⟨g1, g2⟩ := hs
      rw [List.length_drop] at g1
      rw [g2, Exec.ok_bind]
      simp only
      obtain ⟨un, e1, e2⟩ := account_ref (n := n) (u := n) (pos := pos) (look := look)
        (r := { read := (l.drop pos).take n }) h1 h2 (by omega) (Nat.le_refl _) rfl
        (List.drop_eq_nil_of_le (by rw [List.length_take]; omega)).symm
      rw [h.read, h.unused, e1, Exec.ok_bind, ← h.unused, hull]
      refine ⟨by omega, by omega, ?_⟩
      have : n - (look - pos) = max look (pos + n) - look := by omega
      rw [this, Bool.and_false]
    | hit nd u n stk =>
      rw [hr] at hs
      obtain ⟨g0, g1, g2⟩ := hs
      rw [List.length_drop] at g1
      simp only
      split
      · trivial
      · rename_i hnr
        rw [g2, Exec.ok_bind]
        simp only
        obtain ⟨un, e1, e2⟩ := account_ref (n := n) (u := u) (pos := pos) (look := look)
          (r := { node := some nd, read := (l.drop pos).take n,
                  unused := ((l.drop pos).take n).drop u, sticky := stk })
          h1 h2 (by omega) g0 rfl rfl
        have hun := e2 (fun hc => hnr ⟨hc.1, .inr hc.2⟩)
        rw [h.read, h.unused, e1, Exec.ok_bind, ← h.unused, hull, hun, List.drop_drop]
        by_cases hlt : pos + n < look
        · -- the last part, and it looked less far
          have hrs : rs = [] := Classical.byContradiction (fun hc => hnr ⟨hlt, .inl hc⟩)
          subst hrs
          have hm : max look (pos + n) = look := by omega
          rw [hm]
          have h2u : ¬ look - pos < 2 * u := fun hc => hnr ⟨hlt, .inr hc⟩
          simp only [concatLoop, Exec.ok_bind, seqAt]
          refine ⟨Nat.le_refl _, by omega, h2, ?_⟩
          have : n + 0 - (look - pos) = look - look := by omega
          rw [this]
          rfl
        · have hm : max look (pos + n) = pos + n := by omega
          rw [hm]
          have := ih (pos + u) (pos + n)
            { read := l.take (pos + n), unused := sl l (pos + u) (pos + n),
              sticky := st.sticky && stk, pos := none, flag := nextFlag st.flag nd stk,
              nodes := st.nodes ++ [nd] } ⟨by omega, by omega, rfl, rfl⟩
          simp only [flagAfter_eq] at this ⊢
          revert this
          generalize seqAt run b l rs (pos + u) (pos + n) _ _ _ = a
          intro this
          cases a with
          | oof => trivial
          | risky => trivial
          | ambiguous => exact this.elim
          | fail m stk' =>
            obtain ⟨i1, i2, i3⟩ := this
            rw [i3, Exec.ok_bind]
            refine ⟨by omega, i2, ?_⟩
            have : n + (m - (pos + n)) - (look - pos) = m - look := by omega
            simp only [this]
          | hit nd' u' m stk' =>
            obtain ⟨i1, i2, i3, i4⟩ := this
            rw [i4, Exec.ok_bind]
            refine ⟨by omega, i2, i3, ?_⟩
            have : n + (m - (pos + n)) - (look - pos) = m - look := by omega
            simp only [this]

theorem repEnd_ref (b : RuleBase) (mn : Nat) (l : List Rune) (pos look look' : Nat) (st : SeqState)
    (hl : look' ≤ look) (h : At l pos look st) :
    RefFrom l look' (repEnd b mn pos look st.sticky st.nodes)
      (.ok (repFinish b mn st, look - look')) := by
  unfold repEnd repFinish
  split
  · exact ⟨hl, h.len, by rw [h.read]⟩
  · exact ⟨hl, h.le, h.len, by rw [h.read, h.unused]; rfl⟩

theorem repLoop_ref {run : Runner} {ev : Ev} (hev : EvRef run ev) (b : RuleBase) (r : Rule)
    (mn mx : Nat) (l : List Rune) (hv : Valid l) (fuel : Nat) (pos look : Nat) (st : SeqState)
    (h : At l pos look st) :
    RefFrom l look (repAt run b r mn mx st.flag l fuel pos look st.sticky st.nodes)
      (repLoop ev r mx fuel st (l.drop look) >>= fun x => .ok (repFinish b mn x.1, x.2)) := by
  induction fuel generalizing pos look st with
  | zero => trivial
  | succ fuel ih =>
    have h1 := h.le
    have h2 := h.len
    have hs := hev r st.flag (l.drop pos) (hv.drop pos)
    have hin : st.unused ++ l.drop look = l.drop pos := by rw [h.unused, sl_append_drop h1]
    have hpk := peek_eof (hv.drop pos)
    simp only [repAt, repLoop, hin]
    have hull : st.unused.length = look - pos := by rw [h.unused, sl_length h2]
    by_cases hnil : l.drop pos = []
    · rw [if_pos hnil, if_pos (hpk.2 hnil), Exec.ok_bind]
      have := repEnd_ref b mn l pos look look st (Nat.le_refl _) h
      rw [Nat.sub_self] at this
      exact this
    · rw [if_neg hnil, if_neg (fun e => hnil (hpk.1 e))]
      cases hr : run r st.flag (l.drop pos) with
      | oof => trivial
      | risky => trivial
      | ambiguous n => trivial
      | fail n stk =>
        rw [hr] at hs
        obtain ⟨g1, g2⟩ := hs
        rw [List.length_drop] at g1
        rw [g2, Exec.ok_bind]
        simp only
        obtain ⟨un, e1, e2⟩ := account_ref (n := n) (u := 0) (pos := pos) (look := look)
          (r := { read := (l.drop pos).take n, unused := (l.drop pos).take n, sticky := stk })
          h1 h2 (by omega) (Nat.zero_le _) rfl rfl
        rw [h.read, h.unused, e1, Exec.ok_bind, ← h.unused, hull, e2 (by omega), Nat.add_zero,
          Exec.ok_bind]
        have := repEnd_ref b mn l pos (max look (pos + n)) look
          { st with read := l.take (max look (pos + n)), unused := sl l pos (max look (pos + n)), sticky := st.sticky && stk }
          (by omega) ⟨by omega, by omega, rfl, rfl⟩
        have hk : max look (pos + n) - look = n - (look - pos) := by omega
        rw [hk] at this
        exact this
      | hit nd u n stk =>
        rw [hr] at hs
        obtain ⟨g0, g1, g2⟩ := hs
        rw [List.length_drop] at g1
        rw [g2, Exec.ok_bind]
        simp only
        obtain ⟨un, e1, e2⟩ := account_ref (n := n) (u := u) (pos := pos) (look := look)
          (r := { node := some nd, read := (l.drop pos).take n,
                  unused := ((l.drop pos).take n).drop u, sticky := stk })
          h1 h2 (by omega) g0 rfl rfl
        rw [h.read, h.unused, e1, Exec.ok_bind, ← h.unused, hull]
        simp only [List.length_append, List.length_singleton]
        by_cases hmax : mx > 0 ∧ st.nodes.length + 1 = mx
        · rw [if_pos hmax, if_pos hmax]
          split
          · trivial
          · rename_i hnr
            rw [e2 hnr, Exec.ok_bind]
            have := repEnd_ref b mn l (pos + u) (max look (pos + n)) look
              { st with read := l.take (max look (pos + n)), unused := sl l (pos + u) (max look (pos + n)), sticky := st.sticky && stk, pos := none, nodes := st.nodes ++ [nd] }
              (by omega) ⟨by omega, by omega, rfl, rfl⟩
            have hk : max look (pos + n) - look = n - (look - pos) := by omega
            rw [hk] at this
            exact this
        · rw [if_neg hmax, if_neg hmax]
          split
          · trivial
          · rename_i hlt
            rw [e2 (fun hc => hlt hc.1), List.drop_drop]
            have hm : max look (pos + n) = pos + n := by omega
            rw [hm]
            have := ih (pos + u) (pos + n)
              { st with read := l.take (pos + n), unused := sl l (pos + u) (pos + n), sticky := st.sticky && stk, pos := none, nodes := st.nodes ++ [nd] }
              ⟨by omega, by omega, rfl, rfl⟩
            simp only at this ⊢
            revert this
            generalize repAt run b r mn mx st.flag l fuel (pos + u) (pos + n) _ _ = a
            generalize repLoop ev r mx fuel _ (l.drop (pos + n)) = x
            intro this
            cases x with
            | panic => cases a <;> first | trivial | (exact this.elim) | (cases this.2.2; done) | (cases this.2.2.2)
            | oof => cases a <;> first | trivial | (exact this.elim) | (cases this.2.2; done) | (cases this.2.2.2)
            | ok y =>
              rw [Exec.ok_bind, Exec.ok_bind]
              rw [Exec.ok_bind] at this
              have hk : ∀ m, pos + n ≤ m → y.2 = m - (pos + n) →
                  n + y.2 - (look - pos) = m - look := by intro m; omega
              cases a with
              | oof => trivial
              | risky => trivial
              | ambiguous => exact this.elim
              | fail m stk' =>
                obtain ⟨i1, i2, i3⟩ := this
                simp only [Exec.ok.injEq, Prod.mk.injEq] at i3
                exact ⟨by omega, i2, by rw [i3.1, hk m i1 i3.2]⟩
              | hit nd' u' m stk' =>
                obtain ⟨i1, i2, i3, i4⟩ := this
                simp only [Exec.ok.injEq, Prod.mk.injEq] at i4
                exact ⟨by omega, i2, i3, by rw [i4.1, hk m i1 i4.2]⟩

/-! ### Choice -/

/-- The results of the alternatives that matched, against their hits. -/
def HitsRef : List (Node × Nat × Bool) → List Res → Prop
  | [], [] => True
  | h :: hs, r :: rs => (r.node = some h.1 ∧ r.countUsed = h.2.1 ∧ r.sticky = h.2.2) ∧ HitsRef hs rs
  | _, _ => False

theorem longest_mem (hits : List (Node × Nat × Bool)) (h : hits ≠ []) :
    ∃ x ∈ hits, x.2.1 = longest hits := by
  induction hits with
  | nil => exact absurd rfl h
  | cons x xs ih =>
    by_cases hx : xs = []
    · subst hx; exact ⟨x, by simp, by simp [longest]⟩
    · obtain ⟨y, hy, hyl⟩ := ih hx
      have e : longest (x :: xs) = max x.2.1 (longest xs) := rfl
      rw [e]
      by_cases hc : longest xs ≤ x.2.1
      · exact ⟨x, by simp, by omega⟩
      · exact ⟨y, by simp [hy], by omega⟩

theorem le_longest {hits : List (Node × Nat × Bool)} {x} (h : x ∈ hits) : x.2.1 ≤ longest hits := by
  induction hits with
  | nil => cases h
  | cons y ys ih =>
    have e : longest (y :: ys) = max y.2.1 (longest ys) := rfl
    rw [e]
    rcases List.mem_cons.1 h with rfl | h
    · omega
    · have := ih h; omega

theorem pickLoop_some (m : Int) (b : Res) (r : Res) (rs : List Res) :
    pickLoop m (some b) (r :: rs) =
      if r.countUsed < m then pickLoop m (some b) rs
      else if r.countUsed = m then .ambiguous b r else pickLoop r.countUsed (some r) rs := by
  simp [pickLoop]

theorem pickLoop_tie {hs : List (Node × Nat × Bool)} {rs : List Res} (h : HitsRef hs rs) (m : Nat)
    (b : Res) (ht : runningTie (some m) hs = true) : ∃ x y, pickLoop m (some b) rs = .ambiguous x y := by
  induction hs generalizing rs m b with
  | nil => cases ht
  | cons x xs ih =>
    match rs, h with
    | r :: rs, h =>
      obtain ⟨⟨_, h2, _⟩, h4⟩ := h
      rw [pickLoop_some, h2]
      simp only [runningTie, Bool.or_eq_true, beq_iff_eq] at ht
      by_cases h1 : x.2.1 < m
      · rw [if_pos (by omega)]
        have : max m x.2.1 = m := by omega
        rw [this] at ht
        exact ih h4 m b (ht.resolve_left (by omega))
      · rw [if_neg (by omega)]
        by_cases h3 : x.2.1 = m
        · rw [if_pos (by omega)]
          exact ⟨_, _, rfl⟩
        · rw [if_neg (by omega)]
          have : max m x.2.1 = x.2.1 := by omega
          rw [this] at ht
          exact ih h4 _ _ (ht.resolve_left h3)

theorem pickLoop_one {hs : List (Node × Nat × Bool)} {rs : List Res} (h : HitsRef hs rs)
    (x : Node × Nat × Bool) (b : Res)
    (hb : b.node = some x.1 ∧ b.countUsed = x.2.1 ∧ b.sticky = x.2.2)
    (ht : runningTie (some x.2.1) hs = false) :
    ∃ y r, pickLoop x.2.1 (some b) rs = .found r ∧
      (r.node = some y.1 ∧ r.countUsed = y.2.1 ∧ r.sticky = y.2.2) ∧
      (∀ z ∈ x :: hs, z.2.1 ≤ y.2.1) ∧ (x :: hs).filter (fun z => z.2.1 == y.2.1) = [y] := by
  induction hs generalizing rs x b with
  | nil =>
    match rs, h with
    | [], _ => exact ⟨x, b, rfl, hb, by simp, by simp⟩
  | cons w ws ih =>
    match rs, h with
    | r :: rs, h =>
      obtain ⟨hr, h4⟩ := h
      rw [pickLoop_some, hr.2.1]
      simp only [runningTie, Bool.or_eq_false_iff, beq_eq_false_iff_ne, ne_eq] at ht
      by_cases h1 : w.2.1 < x.2.1
      · rw [if_pos (by omega)]
        have : max x.2.1 w.2.1 = x.2.1 := by omega
        rw [this] at ht
        obtain ⟨y, r', e1, e2, e3, e4⟩ := ih h4 x b hb ht.2
        refine ⟨y, r', e1, e2, ?_, ?_⟩
        · intro z hz
          simp only [List.mem_cons] at hz
          have hx := e3 x (by simp)
          rcases hz with rfl | rfl | hz
          · exact hx
          · omega
          · exact e3 z (by simp [hz])
        · have hx := e3 x (by simp)
          have hw : (w.2.1 == y.2.1) = false := by
            simp only [beq_eq_false_iff_ne, ne_eq]; omega
          have hc : (w :: ws).filter (fun z => z.2.1 == y.2.1) = ws.filter (fun z => z.2.1 == y.2.1) := by
            rw [List.filter_cons, if_neg (by rw [hw]; simp)]
          rw [List.filter_cons] at e4 ⊢
          rw [hc]
          exact e4
      · rw [if_neg (by omega), if_neg (by omega)]
        have : max x.2.1 w.2.1 = w.2.1 := by omega
        rw [this] at ht
        obtain ⟨y, r', e1, e2, e3, e4⟩ := ih h4 w r hr ht.2
        have hw := e3 w (by simp)
        refine ⟨y, r', e1, e2, ?_, ?_⟩
        · intro z hz
          simp only [List.mem_cons] at hz
          rcases hz with rfl | rfl | hz
          · omega
          · exact hw
          · exact e3 z (by simp [hz])
        · have hx : (x.2.1 == y.2.1) = false := by
            simp only [beq_eq_false_iff_ne, ne_eq]; omega
          rw [List.filter_cons, if_neg (by rw [hx]; simp)]
          exact e4

theorem pick_cons {r : Res} (rs : List Res) {u : Nat} (hu : r.countUsed = u) :
    pick (r :: rs) = pickLoop u (some r) rs := by
  cases rs with
  | nil => rfl
  | cons x xs =>
    show pickLoop 0 none (r :: x :: xs) = _
    simp only [pickLoop, hu]
    rw [if_neg (by omega)]
    simp

theorem pick_best {hits : List (Node × Nat × Bool)} {ms : List Res} (h : HitsRef hits ms) :
    match best hits with
    | .none => pick ms = .none ∧ hits = []
    | .tie => ∃ x y, pick ms = .ambiguous x y
    | .order => True
    | .one nd u st => (nd, u, st) ∈ hits ∧
        ∃ r, pick ms = .found r ∧ r.node = some nd ∧ r.countUsed = u ∧ r.sticky = st := by
  cases hits with
  | nil =>
    match ms, h with
    | [], _ => exact ⟨rfl, rfl⟩
  | cons x xs =>
    match ms, h with
    | r :: rs, h =>
      obtain ⟨hr, h4⟩ := h
      have hp := pick_cons rs hr.2.1
      have htie : runningTie none (x :: xs) = runningTie (some x.2.1) xs := rfl
      cases ht : runningTie (some x.2.1) xs with
      | true =>
        have := pickLoop_tie h4 x.2.1 r ht
        unfold best
        rw [htie, ht]
        obtain ⟨y, hy, hyl⟩ := longest_mem (x :: xs) (by simp)
        split
        · rename_i e
          split at e
          · rename_i hf
            rw [List.filter_eq_nil_iff] at hf
            exact absurd (by simpa using hyl) (hf y hy)
          · simp at e
          · cases e
        · rw [hp]; exact this
        · trivial
        · rename_i e
          split at e <;> simp at e
      | false =>
        obtain ⟨y, r', e1, e2, e3, e4⟩ := pickLoop_one h4 x r hr ht
        have hl : longest (x :: xs) = y.2.1 := by
          obtain ⟨z, hz, hzl⟩ := longest_mem (x :: xs) (by simp)
          have hy : y ∈ x :: xs := (List.mem_filter.1 (show y ∈ (x :: xs).filter (fun z => z.2.1 == y.2.1) by rw [e4]; simp)).1
          have := le_longest hy
          have := e3 z hz
          omega
        unfold best
        rw [htie, ht, hl, e4]
        simp only [Bool.false_eq_true, if_false]
        exact ⟨(List.mem_filter.1 (show y ∈ (x :: xs).filter (fun z => z.2.1 == y.2.1) by rw [e4]; simp)).1, r', by rw [hp, e1], e2⟩

/-- The alternatives of one group, against the loops over them. -/
theorem choiceGroup_ref {run : Runner} {ev : Ev} (hev : EvRef run ev) (flag : Int) (l : List Rune)
    (hv : Valid l) (rs : List Rule) (look : Nat) (hl : look ≤ l.length) (sticky : Bool)
    {hits : List (Node × Nat × Bool)} {look' : Nat} {sticky' : Bool}
    (h : altsAt run flag l rs look sticky = .ok hits look' sticky') :
    look ≤ look' ∧ look' ≤ l.length ∧ (∀ x ∈ hits, x.2.1 ≤ look') ∧ ∃ ms, HitsRef hits ms ∧
      choiceGroup ev flag rs (l.take look) sticky (l.drop look) =
        .ok (ms, l.take look', sticky', look' - look) := by
  induction rs generalizing look sticky hits look' sticky' with
  | nil =>
    simp only [altsAt, Alts.ok.injEq] at h
    obtain ⟨rfl, rfl, rfl⟩ := h
    exact ⟨Nat.le_refl _, hl, by simp, [], trivial, by simp [choiceGroup]⟩
  | cons r rs ih =>
    have hs := hev r flag l hv
    simp only [choiceGroup, List.take_append_drop, List.length_take, Nat.min_eq_left hl]
    simp only [altsAt] at h
    have hread : ∀ n, n ≤ l.length →
        (if look < min n l.length then l.take n else l.take look) = l.take (max look n) := by
      intro n hn
      split
      · congr 1; omega
      · congr 1; omega
    have hdrop : ∀ n, (l.drop look).drop (n - look) = l.drop (max look n) := by
      intro n; rw [List.drop_drop]; congr 1; omega
    cases hr : run r flag l with
    | oof => rw [hr] at h; cases h
    | risky => rw [hr] at h; cases h
    | fail n st =>
      rw [hr] at h hs
      obtain ⟨g1, g2⟩ := hs
      obtain ⟨i1, i2, i3, ms, i4, i5⟩ := ih (max look n) (by omega) (sticky && st) h
      refine ⟨by omega, i2, i3, ms, i4, ?_⟩
      rw [g2, Exec.ok_bind]
      simp only [List.length_take, hread n g1, hdrop, i5, Exec.ok_bind, Option.isSome_none,
        Bool.false_eq_true, if_false]
      have : n - look + (look' - max look n) = look' - look := by omega
      rw [this]
    | ambiguous n =>
      rw [hr] at h hs
      obtain ⟨g1, g2⟩ := hs
      obtain ⟨i1, i2, i3, ms, i4, i5⟩ := ih (max look n) (by omega) false h
      refine ⟨by omega, i2, i3, ms, i4, ?_⟩
      rw [g2, Exec.ok_bind]
      simp only [List.length_take, hread n g1, hdrop, Bool.and_false, i5, Exec.ok_bind,
        Option.isSome_none, Bool.false_eq_true, if_false]
      have : n - look + (look' - max look n) = look' - look := by omega
      rw [this]
    | hit nd u n st =>
      rw [hr] at h hs
      obtain ⟨g0, g1, g2⟩ := hs
      simp only at h
      split at h
      · rename_i hits1 look1 sticky1 ha
        simp only [Alts.ok.injEq] at h
        obtain ⟨rfl, rfl, rfl⟩ := h
        obtain ⟨i1, i2, i3, ms, i4, i5⟩ := ih (max look n) (by omega) (sticky && st) ha
        refine ⟨by omega, i2, ?_,
          { node := some nd, read := l.take n, unused := (l.take n).drop u, sticky := st } :: ms,
          ⟨⟨?_, ?_, ?_⟩, i4⟩, ?_⟩
        · intro x hx
          rcases List.mem_cons.1 hx with rfl | hx
          · simp only; omega
          · exact i3 x hx
        · rfl
        · simp only [Res.countUsed, List.length_take, List.length_drop]; omega
        · rfl
        · rw [g2, Exec.ok_bind]
          simp only [List.length_take, hread n g1, hdrop, i5, Exec.ok_bind, Option.isSome_some,
            if_true]
          have : n - look + (look1 - max look n) = look1 - look := by omega
          rw [this]
      · rename_i hne
        exact absurd h (hne _ _ _)

theorem greedyLoop_ref {run : Runner} {ev : Ev} (hev : EvRef run ev) (flag : Int) (l : List Rune)
    (hv : Valid l) (rs : List Rule) (look : Nat) (hl : look ≤ l.length) (sticky : Bool)
    {hits : List (Node × Nat × Bool)} {look' : Nat} {sticky' : Bool}
    (h : altsAt run flag l rs look sticky = .ok hits look' sticky') :
    look ≤ look' ∧ look' ≤ l.length ∧ (∀ x ∈ hits, x.2.1 ≤ look') ∧ ∃ ms, HitsRef hits ms ∧
      greedyLoop ev flag rs (l.take look) (l.drop look) =
        .ok (ms, l.take look', look' - look) := by
  obtain ⟨h1, h2, h3, ms, h4, h5⟩ := choiceGroup_ref hev flag l hv rs look hl sticky h
  refine ⟨h1, h2, h3, ms, h4, ?_⟩
  have key : ∀ (rs : List Rule) (read : List Rune) (st : Bool) (l : List Rune) {ms m st' k},
      choiceGroup ev flag rs read st l = .ok (ms, m, st', k) →
      greedyLoop ev flag rs read l = .ok (ms, m, k) := by
    intro rs
    induction rs with
    | nil =>
      intro read st l ms m st' k h
      simp only [choiceGroup, Exec.ok.injEq, Prod.mk.injEq] at h
      obtain ⟨rfl, rfl, rfl, rfl⟩ := h
      rfl
    | cons r rs ih =>
      intro read st l ms m st' k h
      simp only [choiceGroup, greedyLoop] at h ⊢
      cases he : ev r flag (read ++ l) with
      | panic => rw [he] at h; cases h
      | oof => rw [he] at h; cases h
      | ok y =>
        rw [he, Exec.ok_bind] at h
        rw [Exec.ok_bind]
        generalize hc : choiceGroup ev flag rs _ _ _ = z at h
        cases z with
        | panic => cases h
        | oof => cases h
        | ok z =>
          rw [ih _ _ _ hc, Exec.ok_bind]
          rw [Exec.ok_bind] at h
          simp only [Exec.ok.injEq, Prod.mk.injEq] at h ⊢
          exact ⟨h.1, h.2.1, h.2.2.2⟩
  exact key _ _ _ _ h5

theorem choiceLoop_ref {run : Runner} {ev : Ev} (hev : EvRef run ev) (b : RuleBase) (flag : Int)
    (l : List Rune) (hv : Valid l) (gs : List (List Rule)) (look : Nat) (hl : look ≤ l.length)
    (sticky : Bool) :
    match choiceAt run b flag l gs look sticky with
    | .oof | .risky => True
    | .fail n st => look ≤ n ∧ n ≤ l.length ∧
        choiceLoop ev b flag gs (l.take look) sticky (l.drop look) =
          .ok ({ read := l.take n, unused := l.take n, sticky := st }, n - look)
    | .ambiguous n => look ≤ n ∧ n ≤ l.length ∧
        choiceLoop ev b flag gs (l.take look) sticky (l.drop look) =
          .ok ({ read := l.take n }, n - look)
    | .hit nd u n st => look ≤ n ∧ u ≤ n ∧ n ≤ l.length ∧
        choiceLoop ev b flag gs (l.take look) sticky (l.drop look) =
          .ok ({ node := some nd, read := l.take n, unused := (l.take n).drop u, sticky := st },
            n - look) := by
  induction gs generalizing look sticky with
  | nil => exact ⟨Nat.le_refl _, hl, by simp [choiceLoop]⟩
  | cons g gs ih =>
    simp only [choiceAt]
    cases ha : altsAt run flag l g look sticky with
    | oof => trivial
    | risky => trivial
    | ok hits look1 sticky1 =>
      obtain ⟨h1, h2, h3, ms, h4, h5⟩ := choiceGroup_ref hev flag l hv g look hl sticky ha
      have hp := pick_best h4
      simp only [choiceLoop]
      rw [h5, Exec.ok_bind]
      simp only
      cases hb : best hits with
      | none =>
        rw [hb] at hp
        simp only [hp.1]
        have hd : (l.drop look).drop (look1 - look) = l.drop look1 := by
          rw [List.drop_drop]; congr 1; omega
        rw [hd]
        have := ih look1 h2 sticky1
        revert this
        generalize choiceAt run b flag l gs look1 sticky1 = a
        intro this
        cases a with
        | oof => trivial
        | risky => trivial
        | fail n st =>
          obtain ⟨i1, i2, i3⟩ := this
          refine ⟨by omega, i2, ?_⟩
          rw [i3, Exec.ok_bind]
          have : look1 - look + (n - look1) = n - look := by omega
          rw [this]
        | ambiguous n =>
          obtain ⟨i1, i2, i3⟩ := this
          refine ⟨by omega, i2, ?_⟩
          rw [i3, Exec.ok_bind]
          have : look1 - look + (n - look1) = n - look := by omega
          rw [this]
        | hit nd u n st =>
          obtain ⟨i1, i2, i3, i4⟩ := this
          refine ⟨by omega, i2, i3, ?_⟩
          rw [i4, Exec.ok_bind]
          have : look1 - look + (n - look1) = n - look := by omega
          rw [this]
      | tie =>
        rw [hb] at hp
        obtain ⟨_, _, hp⟩ := hp
        exact ⟨h1, h2, by rw [hp]⟩
      | order => trivial
      | one nd u st =>
        rw [hb] at hp
        obtain ⟨q1, r, q2, q3, q4, q5⟩ := hp
        have hu := h3 _ q1
        simp only at hu
        refine ⟨h1, hu, h2, ?_⟩
        rw [q2]
        simp only [q4]
        rw [sliceFrom_all _ _ (by rw [List.length_take]; omega), Exec.ok_bind, q3]
        rfl

/-! ### Blocks -/

theorem blockEscape_ref {run : Runner} {ev : Ev} (hev : EvRef run ev) (escape : Option Rule)
    (noEx : Bool) (bs : BlockState) (hbs : escape = none → bs.unused = []) (d : List Rune)
    (hv : Valid d) {ne : Nat} {st : Bool} (h : escapeAt run escape noEx d = .fail ne st) :
    ne ≤ d.length ∧ (noEx = true → ne = 0) ∧
      blockEscape ev escape bs d = .ok (false, [], bs.used, d.take ne, ne) := by
  cases escape with
  | none =>
    simp only [escapeAt, Ans.fail.injEq] at h
    obtain ⟨rfl, rfl⟩ := h
    exact ⟨by omega, fun _ => rfl, by simp [blockEscape, hbs rfl]⟩
  | some e =>
    have hs := hev e NOT_SKIP d hv
    simp only [escapeAt] at h
    cases hr : run e NOT_SKIP d with
    | oof => rw [hr] at h; cases h
    | risky => rw [hr] at h; cases h
    | hit => rw [hr] at h; cases h
    | fail n st' =>
      rw [hr] at h hs
      obtain ⟨g1, g2⟩ := hs
      simp only at h
      split at h
      · cases h
      · rename_i hc
        simp only [Ans.fail.injEq] at h
        obtain ⟨rfl, rfl⟩ := h
        refine ⟨g1, ?_, ?_⟩
        · intro hn; subst hn; simpa using hc
        · simp only [blockEscape]
          rw [g2, Exec.ok_bind]; rfl
    | ambiguous n =>
      rw [hr] at h hs
      obtain ⟨g1, g2⟩ := hs
      simp only at h
      split at h
      · cases h
      · rename_i hc
        simp only [Ans.fail.injEq] at h
        obtain ⟨rfl, rfl⟩ := h
        refine ⟨g1, ?_, ?_⟩
        · intro hn; subst hn; simpa using hc
        · simp only [blockEscape]
          rw [g2, Exec.ok_bind]; rfl

theorem blockExclude_ref {run : Runner} {ev : Ev} (hev : EvRef run ev) (excludes : List Rule)
    (d : List Rune) (hv : Valid d) :
    match excludeAt run excludes d with
    | .fail nx _ => nx ≤ d.length ∧ ∃ rx, blockExclude ev excludes d = .ok (rx, nx) ∧
        rx.bind (fun r => r.node.map (fun _ => r)) = none ∧
        ∀ ne, (excludes.isEmpty = true → ne = 0) → exclRead rx (d.take ne) = d.take nx
    | .hit nd u nx st => u ≤ nx ∧ nx ≤ d.length ∧ blockExclude ev excludes d =
        .ok (some { node := some nd, read := d.take nx, unused := (d.take nx).drop u, sticky := st }, nx)
    | _ => True := by
  unfold excludeAt
  cases ha : altsAt run NOT_SKIP d excludes 0 true with
  | oof => trivial
  | risky => trivial
  | ok hits look st =>
    obtain ⟨h1, h2, h3, ms, h4, h5⟩ := greedyLoop_ref hev NOT_SKIP d hv excludes 0 (by omega) true ha
    have hp := pick_best h4
    simp only
    cases excludes with
    | nil =>
      simp only [altsAt, Alts.ok.injEq] at ha
      obtain ⟨rfl, rfl, rfl⟩ := ha
      refine ⟨by omega, none, rfl, rfl, ?_⟩
      intro ne hne
      rw [hne rfl]; simp [exclRead]
    | cons x xs =>
      have hl : (x :: xs).length > 0 := by simp
      rw [List.take_zero, List.drop_zero, Nat.sub_zero] at h5
      cases hb : best hits with
      | none =>
        rw [hb] at hp
        refine ⟨h2, some { read := d.take look, unused := d.take look }, ?_, rfl, ?_⟩
        · unfold blockExclude mostGreedy
          rw [if_pos hl, h5, Exec.ok_bind]
          simp only [hp.1]
          rfl
        · intro ne _; rfl
      | tie => trivial
      | order => trivial
      | one nd u st' =>
        rw [hb] at hp
        obtain ⟨q1, r, q2, q3, q4, q5⟩ := hp
        have hu := h3 _ q1
        simp only at hu
        refine ⟨hu, h2, ?_⟩
        unfold blockExclude mostGreedy
        rw [if_pos hl, h5, Exec.ok_bind]
        simp only [q2, q4]
        rw [sliceFrom_all _ _ (by rw [List.length_take]; omega), Exec.ok_bind, Exec.ok_bind]
        simp only [q3, q5]

/-- What the loop over the characters of a block owes to the reference. -/
def BlockRef (b : RuleBase) (v : Bool) (opn : Node) (l : List Rune) (pos look : Nat) :
    Ans → Exec (BlockEnd × Nat) → Prop
  | .oof, _ => True
  | .risky, _ => True
  | .ambiguous _, _ => False
  | .fail n st, x => st = false ∧ look ≤ n ∧ n ≤ l.length ∧ ∃ K, max look (pos + K) = n ∧
      ((∃ t, x = .ok (.excluded t (l.take n), K)) ∨ ∃ a c, a ++ c = l.take n ∧ x = .ok (.eof a c, K))
  | .hit nd u n st, x => st = false ∧ look ≤ n ∧ u ≤ n ∧ n ≤ l.length ∧ ∃ K, max look (pos + K) = n ∧
      ∃ U un rc content, x = .ok (.closed U un rc content, K) ∧ U ++ un = l.take n ∧
        (if v then rc.read else un) = (l.take n).drop u ∧
        nd = branchNode .block b false
          ([opn, { ruleType := .chars, chars := content, sticky := true }] ++
            (if v then [] else rc.node.toList)) none

theorem blockLoop_ref {run : Runner} {ev : Ev} (hev : EvRef run ev) (b : RuleBase) (v : Bool)
    (close : Rule) (escape : Option Rule) (excludes : List Rule) (opn : Node) (start : Nat)
    (l : List Rune) (hv : Valid l) (fuel pos look : Nat) (hsp : start ≤ pos) (hpl : pos ≤ look)
    (hl : look ≤ l.length) (bs : BlockState) (hu : bs.used = l.take start)
    (hc : bs.content = sl l start pos) (hbs : escape = none → bs.unused = []) :
    BlockRef b v opn l pos look
      (blockAt run b v close escape excludes opn start l fuel pos look)
      (blockLoop ev close escape excludes fuel bs (l.drop pos)) := by
  induction fuel generalizing pos look bs with
  | zero => trivial
  | succ fuel ih =>
    have hvd : Valid (l.drop pos) := hv.drop _
    have hdl : (l.drop pos).length = l.length - pos := List.length_drop
    simp only [blockAt]
    cases he : escapeAt run escape excludes.isEmpty (l.drop pos) with
    | oof => trivial
    | risky => trivial
    | ambiguous => trivial
    | hit => trivial
    | fail ne ste =>
      obtain ⟨e1, e2, e3⟩ := blockEscape_ref hev escape excludes.isEmpty bs hbs _ hvd he
      simp only
      have hx := blockExclude_ref hev excludes (l.drop pos) hvd
      have heq : (l.drop pos).take ne ++ (l.drop pos).drop ne = l.drop pos := List.take_append_drop _ _
      cases hex : excludeAt run excludes (l.drop pos) with
      | oof => trivial
      | risky => trivial
      | ambiguous => trivial
      | hit xnd xu nx xst =>
        rw [hex] at hx
        obtain ⟨x1, x2, x3⟩ := hx
        simp only
        split
        · trivial
        · rename_i hnx
          refine ⟨rfl, by omega, by omega, ne + (nx - ne), by omega, Or.inl ⟨(sl l pos (pos + nx)).take ({ node := some xnd, read := sl l pos (pos + nx), unused := (sl l pos (pos + nx)).drop xu, sticky := xst } : Res).used, ?_⟩⟩
          unfold blockLoop
          rw [e3, Exec.ok_bind]
          simp only [heq]
          rw [x3, Exec.ok_bind]
          simp only [Option.bind_some, Option.map_some]
          rw [Res.charsUsed_eq (by simp), Exec.ok_bind]
          simp only [Bool.false_eq_true, if_false, List.length_take, Nat.min_eq_left e1]
          rw [hu, hc, take_append_sl hsp, take_drop_sl, take_append_sl (by omega)]
      | fail nx xst =>
        rw [hex] at hx
        obtain ⟨x1, rx, x2, x3, x4⟩ := hx
        have x4 := x4 ne e2
        simp only
        have hcl := hev close NOT_SKIP (l.drop pos) hvd
        have heq2 : (l.drop pos).take nx ++ (l.drop pos).drop nx = l.drop pos :=
          List.take_append_drop _ _
        cases hr : run close NOT_SKIP (l.drop pos) with
        | oof => trivial
        | risky => trivial
        | ambiguous => trivial
        | hit cnd u n cst =>
          rw [hr] at hcl
          obtain ⟨c1, c2, c3⟩ := hcl
          simp only
          split
          · trivial
          · rename_i hn
            refine ⟨rfl, by omega, ?_, by omega, ne + (nx + (n - nx) - ne), by omega,
              l.take (pos + u), sl l (pos + u) (pos + n),
              { node := some cnd, read := (l.drop pos).take n, unused := ((l.drop pos).take n).drop u, sticky := cst },
              sl l start pos, ?_, ?_, ?_, ?_⟩
            · cases v <;> simp <;> omega
            · unfold blockLoop
              rw [e3, Exec.ok_bind]
              simp only [heq]
              rw [x2, Exec.ok_bind]
              simp only [x3, x4, heq2]
              rw [c3, Exec.ok_bind]
              simp only
              rw [Res.charsUsed_eq (by simp), Exec.ok_bind]
              rw [List.length_take, List.length_take, Nat.min_eq_left e1, Nat.min_eq_left x1]
              simp only [Bool.false_eq_true, if_false, List.length_take, Res.used, List.length_drop]
              have hnn : min n (l.drop pos).length = n := Nat.min_eq_left c2
              have hnu : n - (n - u) = u := by omega
              rw [List.length_drop] at hnn
              have : ((l.drop pos).take n).take u = sl l pos (pos + u) := by
                rw [List.take_take, Nat.min_eq_left c1, take_drop_sl]
              rw [hnn, hnu, this, hu, hc, take_append_sl hsp, take_append_sl (by omega),
                take_drop_sl, sl_drop]
            · exact take_append_sl (by omega)
            · cases v
              · rfl
              · simp only [if_true]
                rw [take_drop_sl]; rfl
            · have : (l.drop start).take (pos - start) = sl l start pos := by
                rw [take_drop_sl]; congr 1; omega
              rw [this]
              cases v <;> rfl
        | fail n cst =>
          rw [hr] at hcl
          obtain ⟨c1, c2⟩ := hcl
          simp only
          have heq3 : (l.drop pos).take n ++ (l.drop pos).drop n = l.drop pos :=
            List.take_append_drop _ _
          have hstep : blockLoop ev close escape excludes (fuel + 1) bs (l.drop pos) =
              (if peek (l.drop pos) = EOFChar then
                .ok (.eof (bs.used ++ (bs.content ++ [])) ((l.drop pos).take n),
                  ne + (nx + (n - nx) - ne))
              else (do
                let (out, k4) ← blockLoop ev close escape excludes fuel
                  { used := bs.used, unused := [], content := bs.content ++ [] ++ [] ++ [peek (l.drop pos)] }
                  ((l.drop pos).drop (one (l.drop pos)))
                .ok (out, ne + (nx + (n + (one (l.drop pos) + k4 - n) - nx) - ne)))) := by
            conv => lhs; unfold blockLoop
            rw [e3, Exec.ok_bind]
            simp only [heq]
            rw [x2, Exec.ok_bind]
            simp only [x3, x4, heq2]
            rw [c2, Exec.ok_bind]
            simp only [heq3, List.length_take, Nat.min_eq_left e1, Nat.min_eq_left x1,
              Nat.min_eq_left c1]
          rw [hstep]
          by_cases hd : l.drop pos = []
          · rw [if_pos hd, if_pos ((peek_eof hvd).2 hd)]
            have hlp : l.length = pos := by
              have := congrArg List.length hd
              simp only [List.length_drop, List.length_nil] at this
              omega
            rw [hd] at e1 x1 c1
            simp only [List.length_nil, Nat.le_zero] at e1 x1 c1
            subst e1 x1 c1
            refine ⟨rfl, by omega, by omega, _, ?_, Or.inr ⟨_, _, ?_, rfl⟩⟩
            · omega
            · rw [hu, hc, List.append_nil, take_append_sl hsp, hlp]; simp
          · rw [if_neg hd, if_neg (fun h => hd ((peek_eof hvd).1 h))]
            have hone : one (l.drop pos) = 1 := if_neg hd
            have hpos : pos < l.length := by
              have : (l.drop pos).length ≠ 0 := fun h => hd (List.eq_nil_of_length_eq_zero h)
              omega
            have hpk : [peek (l.drop pos)] = sl l pos (pos + 1) := by
              rw [← take_drop_sl, List.drop_eq_getElem_cons hpos]
              rfl
            have hi := ih (pos + 1) (max (max (max look (pos + ne)) (pos + nx)) (max (pos + n) (pos + 1)))
              (by omega) (by omega) (by omega)
              { used := bs.used, unused := [], content := bs.content ++ [] ++ [] ++ [peek (l.drop pos)] }
              hu (by
                show bs.content ++ [] ++ [] ++ [peek (l.drop pos)] = _
                rw [List.append_nil, List.append_nil, hc, hpk, sl_append hsp (by omega)])
              (fun _ => rfl)
            revert hi
            rw [hone, List.drop_drop]
            generalize blockAt run b v close escape excludes opn start l fuel (pos + 1) _ = a
            generalize blockLoop ev close escape excludes fuel _ (l.drop (pos + 1)) = x
            intro hi
            cases a with
            | oof => trivial
            | risky => trivial
            | ambiguous => exact hi.elim
            | fail m st =>
              obtain ⟨i1, i2, i3, K, i4, i5⟩ := hi
              refine ⟨i1, by omega, i3, ne + (nx + (n + (1 + K - n) - nx) - ne), by omega, ?_⟩
              rcases i5 with ⟨t, i5⟩ | ⟨p, q, i5, i6⟩
              · left; exact ⟨t, by rw [i5, Exec.ok_bind]⟩
              · right; exact ⟨p, q, i5, by rw [i6, Exec.ok_bind]⟩
            | hit nd u m st =>
              obtain ⟨i1, i2, i3, i4, K, i5, U, un, rc, ct, i6, i7⟩ := hi
              exact ⟨i1, by omega, i3, i4, ne + (nx + (n + (1 + K - n) - nx) - ne), by omega,
                U, un, rc, ct, by rw [i6, Exec.ok_bind], i7⟩

theorem evalBlock_ref {run : Runner} {ev : Ev} (hev : EvRef run ev) (fuel : Nat) (b : RuleBase)
    (o : Rule) (v : Bool) (c : Rule) (e : Option Rule) (xs : List Rule) (flag : Int) (l : List Rune)
    (hv : Valid l) :
    Ref l (match run o flag l with
      | .fail n _ => .fail n false
      | .hit nd u n _ =>
        if u < n ∧ e = none then .risky
        else blockAt run b v c e xs nd u l fuel u n
      | a => a) (evalBlock ev fuel b o v c e xs flag l) := by
  have hs := hev o flag l hv
  unfold evalBlock
  cases hr : run o flag l with
  | oof => trivial
  | risky => trivial
  | fail n st =>
    rw [hr] at hs
    obtain ⟨g1, g2⟩ := hs
    rw [g2, Exec.ok_bind]
    exact ⟨g1, rfl⟩
  | ambiguous n =>
    rw [hr] at hs
    obtain ⟨g1, g2⟩ := hs
    rw [g2, Exec.ok_bind]
    exact ⟨g1, rfl⟩
  | hit nd u n st =>
    rw [hr] at hs
    obtain ⟨g0, g1, g2⟩ := hs
    rw [g2, Exec.ok_bind]
    simp only
    split
    · trivial
    · rename_i hr
      have hcu : (Res.countUsed { node := some nd, read := l.take n, unused := (l.take n).drop u, sticky := st }) = (u : Int) := by
        simp only [Res.countUsed, List.length_take, List.length_drop]; omega
      rw [hcu, sliceTo_all _ _ (by rw [List.length_take]; omega), Exec.ok_bind]
      have hstr : (l.take n).drop u ++ l.drop n = l.drop u := sl_append_drop g0
      rw [hstr, List.take_take, Nat.min_eq_left g0]
      have hun : ((l.take n).drop u).length = n - u := sl_length g1
      rw [hun]
      have hb := blockLoop_ref hev b v c e xs nd u l hv fuel u n (Nat.le_refl _) g0 g1
        { used := l.take u, unused := (l.take n).drop u } rfl
        (by show [] = _; unfold sl; rw [List.drop_eq_nil_of_le]; rw [List.length_take]; omega)
        (fun he => List.eq_nil_of_length_eq_zero (by
          have : ¬ u < n := fun hlt => hr ⟨hlt, he⟩
          rw [hun]; omega))
      revert hb
      generalize blockAt run b v c e xs nd u l fuel u n = a
      generalize blockLoop ev c e xs fuel _ (l.drop u) = x
      intro hb
      cases a with
      | oof => trivial
      | risky => trivial
      | ambiguous => exact hb.elim
      | fail m st =>
        obtain ⟨rfl, i2, i3, K, i4, i5⟩ := hb
        have hk : n + (K - (n - u)) = m := by omega
        refine ⟨i3, ?_⟩
        rcases i5 with ⟨t, i5⟩ | ⟨p, q, i5, i6⟩
        · rw [i5, Exec.ok_bind]; simp only [hk]
        · rw [i6, Exec.ok_bind]; simp only [hk, i5]
      | hit nd' u' m st =>
        obtain ⟨rfl, i2, i3, i4, K, i5, U, un, rc, ct, i6, i7, i8, rfl⟩ := hb
        have hk : n + (K - (n - u)) = m := by omega
        refine ⟨i3, i4, ?_⟩
        rw [i6, Exec.ok_bind]
        simp only [hk, i7, i8]

/-! ### All rules -/

theorem seqAt_pos {run : Runner} {b l rs pos look st flag nodes nd u n s}
    (h : seqAt run b l rs pos look st flag nodes = .hit nd u n s) : nd.pos = none := by
  induction rs generalizing pos look st flag nodes with
  | nil =>
    simp only [seqAt, Ans.hit.injEq] at h
    rw [← h.1]; rfl
  | cons r rs ih =>
    simp only [seqAt] at h
    repeat' split at h
    all_goals first
      | cases h; done
      | exact ih h

theorem repAt_pos {run : Runner} {b r mn mx flag l fuel pos look st nodes nd u n s}
    (h : repAt run b r mn mx flag l fuel pos look st nodes = .hit nd u n s) : nd.pos = none := by
  induction fuel generalizing pos look st nodes flag with
  | zero => cases h
  | succ fuel ih =>
    simp only [repAt, repEnd] at h
    repeat' split at h
    all_goals first
      | cases h; done
      | exact ih h
      | (simp only [Ans.hit.injEq] at h; rw [← h.1]; rfl)

theorem choiceAt_pos {run : Runner} {b flag l gs look st nd u n s}
    (h : choiceAt run b flag l gs look st = .hit nd u n s) : nd.pos = none := by
  induction gs generalizing look st with
  | nil => cases h
  | cons g gs ih =>
    simp only [choiceAt] at h
    repeat' split at h
    all_goals first
      | cases h; done
      | exact ih h
      | (simp only [Ans.hit.injEq] at h; rw [← h.1]; rfl)

theorem blockAt_pos {run : Runner} {b v c e xs o start l fuel pos look nd u n s}
    (h : blockAt run b v c e xs o start l fuel pos look = .hit nd u n s) : nd.pos = none := by
  induction fuel generalizing pos look with
  | zero => cases h
  | succ fuel ih =>
    simp only [blockAt] at h
    repeat' split at h
    all_goals first
      | cases h; done
      | exact ih h
      | (simp only [Ans.hit.injEq] at h; rw [← h.1]; rfl)

theorem run_pos {env : Name → Option Rule} {fuel r flag l nd u n s}
    (h : Spec.run env fuel r flag l = .hit nd u n s) : nd.pos = none := by
  induction fuel generalizing r nd u n s flag l with
  | zero => cases h
  | succ fuel ih =>
    cases r with
    | rep b r mn mx => exact repAt_pos h
    | concat b rs => exact seqAt_pos h
    | choice b gs => exact choiceAt_pos h
    | block b o v c e xs =>
      simp only [Spec.run] at h
      repeat' split at h
      all_goals first
        | exact blockAt_pos h
        | cases h; done
        | exact ih h
    | ref b name =>
      simp only [Spec.run] at h
      split at h
      · cases h
      · split at h
        · rename_i hr
          simp only [Ans.hit.injEq] at h
          have := ih hr
          rw [← h.1]
          exact this
        · exact ih h
    | _ =>
      simp only [Spec.run, eofAt, oneAt, textAt] at h
      repeat' split at h
      all_goals first
        | (cases h; done)
        | exact ih h
        | (simp only [Ans.hit.injEq] at h; obtain ⟨rfl, _⟩ := h; rfl)

theorem at_zero (l : List Rune) (flag : Int) : At l 0 0 { flag := flag } :=
  ⟨by omega, by omega, by simp, by simp [sl]⟩

/-- The evaluators do exactly what the reference says, unless the reference calls the input risky. -/
theorem eval_ref (env : Env) (fuel : Nat) : EvRef (Spec.run env fuel) (L.eval env fuel) := by
  induction fuel with
  | zero => intro r flag l hv; trivial
  | succ fuel ih =>
    intro r flag l hv
    cases r with
    | eof b => exact evalEOF_ref b flag hv
    | char b t s =>
      simp only [Spec.run]
      split
      · trivial
      · rename_i ht; exact evalChar_ref b t ht flag hv
    | range b x s y t =>
      simp only [Spec.run]
      split
      · trivial
      · rename_i hx
        exact evalRange_ref b x y (fun h => hx (Or.inl h)) flag hv
          (by rw [← Bool.not_eq_true]; exact fun h => hx (Or.inr h))
    | chars b t => exact evalText_ref .chars b true _ t hv
    | str b t => exact evalText_ref .string b false _ t hv
    | group b r =>
      have hs := ih r flag l hv
      simp only [Spec.run, L.eval]
      cases hr : Spec.run env fuel r flag l with
      | oof => trivial
      | risky => trivial
      | fail n st =>
        rw [hr] at hs; rw [hs.2, Exec.ok_bind]; exact ⟨hs.1, rfl⟩
      | ambiguous n =>
        rw [hr] at hs; rw [hs.2, Exec.ok_bind]; exact ⟨hs.1, rfl⟩
      | hit nd u n st =>
        rw [hr] at hs; rw [hs.2.2, Exec.ok_bind]; exact ⟨hs.1, hs.2.1, rfl⟩
    | option b r =>
      have hs := ih r flag l hv
      simp only [Spec.run, L.eval]
      cases hr : Spec.run env fuel r flag l with
      | oof => trivial
      | risky => trivial
      | fail n st =>
        rw [hr] at hs; rw [hs.2, Exec.ok_bind]; exact ⟨by omega, hs.1, rfl⟩
      | ambiguous n => trivial
      | hit nd u n st =>
        rw [hr] at hs; rw [hs.2.2, Exec.ok_bind]
        refine ⟨hs.1, hs.2.1, ?_⟩
        simp only [optionRes, run_pos hr]; rfl
    | rep b r mn mx =>
      exact (repLoop_ref ih b r mn mx l hv fuel 0 0 { flag := flag } (at_zero l flag)).ref
    | choice b gs =>
      have hs := choiceLoop_ref ih b flag l hv gs 0 (by omega) true
      simp only [Spec.run, L.eval]
      revert hs
      rw [List.take_zero, List.drop_zero]
      generalize choiceAt _ _ _ _ _ _ _ = a
      intro hs
      cases a with
      | oof => trivial
      | risky => trivial
      | fail n st => exact hs.2
      | ambiguous n => exact hs.2
      | hit nd u n st => exact hs.2
    | concat b rs => exact (concatLoop_ref ih b l hv rs 0 0 { flag := flag } (at_zero l flag)).ref
    | block b o v c e xs => exact evalBlock_ref ih fuel b o v c e xs flag l hv
    | ref b name =>
      simp only [Spec.run, L.eval]
      cases env name with
      | none => exact ⟨by omega, by simp⟩
      | some r =>
        have hs := ih r flag l hv
        simp only
        cases hr : Spec.run env fuel r flag l with
        | oof => trivial
        | risky => trivial
        | fail n st => rw [hr] at hs; rw [hs.2, Exec.ok_bind]; exact ⟨hs.1, rfl⟩
        | ambiguous n => rw [hr] at hs; rw [hs.2, Exec.ok_bind]; exact ⟨hs.1, rfl⟩
        | hit nd u n st =>
          rw [hr] at hs; rw [hs.2.2, Exec.ok_bind]; refine ⟨hs.1, hs.2.1, ?_⟩
          simp only [refRes, Spec.flip]
          cases b.virt <;> cases b.nondata <;> cases b.tokenized <;> simp

end L
end Xbnf
