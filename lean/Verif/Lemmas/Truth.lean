import Verif.Lemmas.Blame
/-
Every error of the definition parser tells the truth about the text, second part: repetition bounds, brackets, choices
and the parser itself.
-/
namespace Xbnf.Props.Blame
open Xbnf Xbnf.Spec

theorem ch_lt : ch '<' = 60 := rfl
theorem ch_gt : ch '>' = 62 := rfl
theorem ch_comma : ch ',' = 44 := rfl

theorem letter_space {c : Rune} (h : isLetter c = true ∨ c = ch '_') : isWhiteSpace c = false := by
  have hb : 65 ≤ c ∧ c ≤ 122 := by
    rcases h with h | h
    · unfold isLetter at h
      unfold Rune at *
      simp only [Bool.or_eq_true, Bool.and_eq_true, decide_eq_true_eq] at h
      omega
    · subst h; decide
  cases hw : isWhiteSpace c with
  | false => rfl
  | true =>
    have : ∀ x ∈ whiteSpaceTable, ¬ (65 ≤ x ∧ x ≤ 122) := by decide
    exact absurd hb (this c (by simpa [isWhiteSpace] using hw))

theorem inReference_blame {T u : List Rune} {st : PState} (h : On T u st) (hp : isLetter (peekR st.rest) = true ∨ peekR st.rest = ch '_')
    (name : Name) : wpe (inReference name) st (fun _ st' => Further T u st') (Truth T) := by
  have hw := letter_space hp
  have hn : ∀ (u : List Rune) (st : PState), On T u st → wpe nameChars st (fun _ st' => Further T u st') (Truth T) := by
    intro u st h
    refine ⟨st.rest.takeWhile isNameChar, ?_⟩
    unfold On at *
    show T = _ ++ st.rest.dropWhile isNameChar
    rw [h, List.append_assoc, List.takeWhile_append_dropWhile]
  unfold inReference
  rw [wpe_bind]
  show wpe _ { st with rest := skipR st.rest } _ _
  have hs : skipR st.rest = st.rest := by
    unfold skipR
    cases hr : st.rest with
    | nil => rfl
    | cons c l => rw [hr] at hw; rw [List.dropWhile_cons, if_neg (by rw [show isWhiteSpace c = false from hw]; simp)]
  rw [hs, wpe_bind]
  show wpe _ { st with rest := st.rest.tail } _ _
  rw [if_neg (by rintro ⟨a, b⟩; rcases hp with hp | hp; · rw [hp] at a; cases a
                 · exact b hp)]
  obtain ⟨l, hr⟩ := peek_cons (l := st.rest) rfl (by
    intro hc; rw [hc] at hp; revert hp; decide)
  have h1 : On T (u ++ [peekR st.rest]) { st with rest := st.rest.tail } := by
    unfold On at *
    show T = _ ++ st.rest.tail
    rw [hr] at h ⊢
    simpa [peekR] using h
  rw [wpe_bind]
  refine wpe_mono (hn _ _ h1) ?_ (fun _ _ h => h)
  intro cs st2 h2
  show wpe (if _ then _ else _) st2 _ _
  split
  · rw [wpe_pure]; exact h2.trans
  · rw [wpe_bind]
    exact h2.trans

/-! ## Bounds -/

theorem decimal_snoc (ds : List Rune) (d : Rune) : decimal (ds ++ [d]) = 10 * decimal ds + (d - 48).toNat := by
  unfold decimal
  rw [List.foldl_append]
  show _ * 10 + _ = _
  omega

theorem specLoop_blame {T u : List Rune} (hu : 60 ∈ u) (comma : Bool) : ∀ (n : Nat) (src : List Rune) (st : PState), On T (u ++ src) st →
    Number src (decimal (src.filter isDigit)) → wpe (specLoop comma n (src.filter isDigit)) st
      (fun p st' => ∃ src', On T (u ++ src' ++ [if p.2 then 44 else 62]) st' ∧ Number src' (decimal p.1) ∧
        p.1 = src'.filter isDigit ∧ (comma = false → p.2 = false)) (Truth T)
  | 0, _, _, _, _ => trivial
  | n + 1, src, st, h, hn => by
    unfold specLoop
    rw [wpe_bind]
    refine wpe_next h ?_ ?_
    · intro c st1 hr h1
      split
      · rename_i hc
        have hd : isDigit c = false := by rcases hc with rfl | rfl | rfl <;> decide
        have hf : (src ++ [c]).filter isDigit = src.filter isDigit := by simp [List.filter_append, List.filter, hd]
        rw [← hf]
        exact specLoop_blame hu comma n (src ++ [c]) st1 (by rwa [← List.append_assoc]) (by rw [hf]; exact .blank hn hc)
      rename_i hw
      split
      · rename_i hc
        rw [wpe_pure]
        exact ⟨src, by simpa [hc.2, ch_comma] using h1, hn, rfl, fun hf => absurd hf (by simp [hc.1])⟩
      split
      · rename_i hc
        rw [wpe_pure]
        exact ⟨src, by simpa [hc, ch_gt] using h1, hn, rfl, fun _ => rfl⟩
      rename_i hg
      split
      · rename_i hc
        have hf : (src ++ [c]).filter isDigit = src.filter isDigit ++ [c] := by simp [List.filter_append, List.filter, hc]
        rw [← hf]
        refine specLoop_blame hu comma n (src ++ [c]) st1 (by rwa [← List.append_assoc]) ?_
        rw [hf, decimal_snoc]
        have hd := (digit_iff c).1 hc
        unfold Digit at hd
        unfold Rune at *
        have hk : c = 48 + (((c - 48).toNat : Nat) : Int) := by omega
        have := Number.digit hn (k := (c - 48).toNat) (by omega)
        rwa [← hk] at this
      · rename_i hc
        refine ⟨_, h1, .specChar (List.mem_append_left _ (List.mem_append_left _ hu)) ?_ ?_ (.inl (by simp))⟩
        · rw [← digit_iff]; exact hc
        · exact ⟨fun e => hw (.inl e), fun e => hw (.inr (.inl e)), fun e => hw (.inr (.inr e)), hg⟩
    · intro _ st1 hr h1
      rw [if_neg (by decide), if_neg (by rintro ⟨_, h⟩; revert h; decide), if_neg (by decide), if_neg (by decide)]
      exact ⟨_, h1, .specChar (List.mem_append_left _ hu) (by rw [← digit_iff]; decide) (by decide) (.inr ⟨rfl, hr⟩)⟩

theorem inRepeatSpec_blame {T u : List Rune} {st : PState} (h : On T u st) (hp : peekR st.rest = ch '<') (n : Nat) :
    wpe (inRepeatSpec n) st (fun _ st' => Further T u st') (Truth T) := by
  obtain ⟨l, hr⟩ := peek_cons hp (by decide)
  unfold inRepeatSpec
  rw [wpe_bind]
  refine wpe_next_cons h hr ?_
  intro st1 _ h1
  rw [if_neg (by simp), wpe_bind]
  refine wpe_skip h1 ?_
  intro w st2 _ h2
  have hm : (60 : Rune) ∈ u ++ [ch '<'] ++ w := List.mem_append_left _ (List.mem_append_right _ (.head _))
  rw [wpe_bind]
  refine wpe_mono (specLoop_blame hm true n [] st2 (by simpa using h2) .nil) ?_ (fun _ _ h => h)
  rintro ⟨ds, t⟩ st3 ⟨src, h3, n3, rfl, _⟩
  show wpe (if decimal (src.filter isDigit) ≥ 2 ^ 32 then _ else _) st3 _ _
  split
  · rename_i hb
    refine ⟨_, h3, .specNumber (t := if t then 44 else 62) ⟨u ++ [ch '<'] ++ w, by simp⟩ ?_ n3 hb⟩
    cases t <;> simp
  · cases t with
    | false =>
      rw [wpe_bind]
      show wpe (pure [] : P (List Rune)) st3 _ _
      rw [wpe_pure, if_neg (by decide)]
      show wpe (if _ then _ else _) st3 _ _
      rw [if_neg (by rintro ⟨h, _⟩; exact h rfl), wpe_pure]
      exact ⟨[ch '<'] ++ w ++ src ++ [62], by simpa using h3⟩
    | true =>
      rw [wpe_bind]
      show wpe (specLoop false n [] >>= _) st3 _ _
      rw [wpe_bind]
      refine wpe_mono (specLoop_blame (u := u ++ [ch '<'] ++ w ++ src ++ [44]) (by simp [ch_lt]) false n [] st3
        (by simpa using h3) .nil) ?_ (fun _ _ h => h)
      rintro ⟨ds, t⟩ st4 ⟨src', h4, n4, rfl, ht⟩
      have ht := ht rfl
      dsimp only at ht
      subst ht
      show wpe (if decimal (src'.filter isDigit) ≥ 2 ^ 32 then _ else _) st4 _ _
      split
      · rename_i hb
        exact ⟨_, h4, .specNumber (t := 62) ⟨u ++ [ch '<'] ++ w ++ src ++ [44], by simp⟩ (.inr rfl) n4 hb⟩
      · show wpe (if _ then _ else _) st4 _ _
        split
        · rename_i hb
          exact ⟨_, h4, .specOrder (s1 := src) (s2 := src') ⟨u ++ [ch '<'] ++ w, by simp⟩ n3 n4 hb.1 hb.2⟩
        · rw [wpe_pure]
          exact ⟨[ch '<'] ++ w ++ src ++ [44] ++ src' ++ [62], by simpa using h4⟩

/-! ## Brackets -/

theorem fresh_bracket {u : List Rune} {c : Rune} (hc : c ∈ [40, 91, 123, 60, 94]) : Fresh (u ++ [c]) :=
  ⟨u ++ [c], [], by simp, fun _ h => (by cases h), .inr (.inl ⟨c, by simp, hc⟩)⟩

theorem fresh_block {u : List Rune} (h : 60 ∈ u) : Fresh u := ⟨u, [], by simp, fun _ h => (by cases h), .inr (.inr h)⟩

theorem fresh_idle {u : List Rune} {c : Rune} (h : Fresh u) (hc : Idle c) : Fresh (u ++ [c]) := by
  obtain ⟨a, g, rfl, hg, ha⟩ := h
  refine ⟨a, g ++ [c], by simp, ?_, ha⟩
  intro x hx
  rcases List.mem_append.1 hx with hx | hx
  · exact hg x hx
  · rw [List.mem_singleton.1 hx]; exact hc

/-- Where `parse` stops: at the end of the text, in front of a terminator, or after a comment. -/
def Stops (terms u rest : List Rune) : Prop := (rest = [] ∨ rest.head? = some EOFChar) ∨ (∃ t ∈ terms, rest.head? = some t) ∨ Commented u

/-- What the nested parser is known to do. -/
def Honest (T : List Rune) (p : List Rune → P Rule) : Prop := ∀ terms u st, (∀ t ∈ terms, t ≠ EOFChar → t ∈ [41, 93, 125, 32, 62, 33]) → On T u st →
  Fresh u → wpe (p terms) st (fun _ st' => ∃ v, On T (u ++ v) st' ∧ Stops terms (u ++ v) st'.rest) (Truth T)

theorem commented_more {u : List Rune} (h : Commented u) (v : List Rune) : Commented (u ++ v) := by
  obtain ⟨a, b, rfl⟩ := h; exact ⟨a, b ++ v, by simp⟩

/-- After the inner rule of a bracket, something else than the closing bracket was read. -/
theorem unclosed {T u v : List Rune} {st : PState} {c : Rune} {e : PErr} {Q : Rune → PState → Prop} (h : On T (u ++ v) st)
    (hs : Stops [c] (u ++ v) st.rest) (hc : c ≠ EOFChar)
    (hE : ∀ u' rest, (∃ w, u' = u ++ w) → Ended u' rest ∨ Commented u' → Cause e u' rest)
    (hQ : ∀ st', Further T u st' → Q c st') :
    wpe pNext st (fun d st' => if d ≠ c then Truth T e st' else Q d st') (Truth T) := by
  refine wpe_next h ?_ ?_
  · intro d st1 hr h1
    split
    · rename_i hd
      refine ⟨_, h1, hE _ _ ⟨v ++ [d], by simp⟩ ?_⟩
      rcases hs with hs | ⟨t, ht, hs⟩ | hs
      · rcases hs with hs | hs
        · rw [hr] at hs; cases hs
        · rw [hr] at hs
          simp only [List.head?_cons, Option.some.injEq] at hs
          exact .inl (.inr (.inl (by simp [hs])))
      · rw [hr, List.mem_singleton.1 ht] at hs
        simp only [List.head?_cons, Option.some.injEq] at hs
        exact absurd hs hd
      · exact .inr (commented_more hs _)
    · rename_i hd
      have hd := Classical.not_not.1 hd
      subst hd
      exact hQ _ ⟨v ++ [d], by simpa using h1⟩
  · intro _ st1 hr h1
    rw [if_pos (fun h => hc h.symm)]
    exact ⟨_, h1, hE _ _ ⟨v, rfl⟩ (.inl (.inl hr))⟩

theorem inGroup_blame {T u : List Rune} {st : PState} {p : List Rune → P Rule} (hp : Honest T p) (h : On T u st)
    (hc : peekR st.rest = ch '(') : wpe (inGroup p) st (fun _ st' => Further T u st') (Truth T) := by
  obtain ⟨l, hr⟩ := peek_cons hc (by decide)
  unfold inGroup
  rw [wpe_bind]
  refine wpe_next_cons h hr ?_
  intro st1 _ h1
  rw [if_neg (by simp), wpe_bind]
  refine wpe_mono (hp _ _ st1 (by decide) h1 (fresh_bracket (by decide))) ?_ (fun _ _ h => h)
  rintro r st2 ⟨v, h2, hs⟩
  rw [wpe_bind]
  refine wpe_mono (unclosed (Q := fun _ st' => Further T u st') (e := .groupEnd) h2 hs (by decide) ?_ (fun _ h => h.trans)) ?_ (fun _ _ h => h)
  · rintro u' rest ⟨w, rfl⟩ he
    exact .groupEnd (List.mem_append_left _ (List.mem_append_right _ (.head _))) he
  · intro d st3 h3
    split at h3
    · rename_i hd; rw [if_pos hd]; exact h3
    · rename_i hd; rw [if_neg hd]; exact h3

theorem inOption_blame {T u : List Rune} {st : PState} {p : List Rune → P Rule} (hp : Honest T p) (h : On T u st)
    (hc : peekR st.rest = ch '[') : wpe (inOption p) st (fun _ st' => Further T u st') (Truth T) := by
  obtain ⟨l, hr⟩ := peek_cons hc (by decide)
  unfold inOption
  rw [wpe_bind]
  refine wpe_next_cons h hr ?_
  intro st1 _ h1
  rw [if_neg (by simp), wpe_bind]
  refine wpe_mono (hp _ _ st1 (by decide) h1 (fresh_bracket (by decide))) ?_ (fun _ _ h => h)
  rintro r st2 ⟨v, h2, hs⟩
  rw [wpe_bind]
  refine wpe_mono (unclosed (Q := fun _ st' => Further T u st') (e := .optionEnd) h2 hs (by decide) ?_ (fun _ h => h.trans)) ?_ (fun _ _ h => h)
  · rintro u' rest ⟨w, rfl⟩ he
    exact .optionEnd (List.mem_append_left _ (List.mem_append_right _ (.head _))) he
  · intro d st3 h3
    split at h3
    · rename_i hd; rw [if_pos hd]; exact h3
    · rename_i hd; rw [if_neg hd]; exact h3

theorem inRepetition_blame {T u : List Rune} {st : PState} {p : List Rune → P Rule} (hp : Honest T p) (n : Nat) (h : On T u st)
    (hc : peekR st.rest = ch '{') : wpe (inRepetition p n) st (fun _ st' => Further T u st') (Truth T) := by
  obtain ⟨l, hr⟩ := peek_cons hc (by decide)
  unfold inRepetition
  rw [wpe_bind]
  refine wpe_next_cons h hr ?_
  intro st1 _ h1
  rw [if_neg (by simp), wpe_bind]
  refine wpe_mono (hp _ _ st1 (by decide) h1 (fresh_bracket (by decide))) ?_ (fun _ _ h => h)
  rintro r st2 ⟨v, h2, hs⟩
  rw [wpe_bind]
  refine wpe_mono (unclosed (Q := fun _ st' => Further T u st') (e := .repEnd) h2 hs (by decide) ?_ (fun _ h => h.trans)) ?_ (fun _ _ h => h)
  · rintro u' rest ⟨w, rfl⟩ he
    exact .repEnd (List.mem_append_left _ (List.mem_append_right _ (.head _))) he
  · intro d st3 h3
    split at h3
    · rename_i hd; rw [if_pos hd]; exact h3
    · rename_i hd
      obtain ⟨x, h3⟩ := h3
      rw [if_neg hd, wpe_bind, wpe_peek]
      have one : ∀ r' : Rule, wpe (pNext >>= fun _ => pure r') st3 (fun _ st' => Further T u st') (Truth T) := by
        intro r'
        rw [wpe_bind]
        exact wpe_next h3 (fun c st' _ h' => Further.trans (v := x) ⟨[c], h'⟩) (fun _ st' _ h' => ⟨x, h'⟩)
      split
      · exact one _
      split
      · exact one _
      split
      · rename_i hs
        rw [wpe_bind]
        refine wpe_mono (inRepeatSpec_blame h3 hs n) ?_ (fun _ _ h => h)
        rintro ⟨mn, mx⟩ st4 h4
        exact h4.trans
      · exact ⟨x, h3⟩

theorem excludeLoop_blame {T : List Rune} {p : List Rune → P Rule} (hp : Honest T p) : ∀ (n : Nat) (acc : List Rule) (u : List Rune) (st : PState),
    On T u st → 60 ∈ u → wpe (excludeLoop p n acc) st (fun _ st' => Further T u st') (Truth T)
  | 0, _, _, _, _, _ => trivial
  | n + 1, acc, u, st, h, hu => by
    unfold excludeLoop
    rw [wpe_bind]
    refine wpe_skip h ?_
    intro w st1 _ h1
    rw [wpe_bind, wpe_peek]
    split
    · exact ⟨w, h1⟩
    · rename_i hc
      obtain ⟨l, hr⟩ := peek_cons (Classical.not_not.1 hc) (by decide)
      rw [wpe_bind]
      refine wpe_next_cons h1 hr ?_
      intro st2 _ h2
      rw [wpe_bind]
      have hm : (60 : Rune) ∈ u ++ w ++ [ch '^'] := List.mem_append_left _ (List.mem_append_left _ hu)
      refine wpe_mono (hp _ _ st2 (by decide) h2 (fresh_block hm)) ?_ (fun _ _ h => h)
      rintro r st3 ⟨v, h3, _⟩
      refine wpe_mono (excludeLoop_blame hp n _ _ st3 h3 (List.mem_append_left _ hm)) ?_ (fun _ _ h => h)
      intro _ st4 h4
      exact h4.trans.trans.trans

/-- `cs.Next()` where only '>' is right. -/
theorem blockEnd_blame {T u : List Rune} {st : PState} (h : On T u st) (hu : 60 ∈ u) (r : Rule) :
    wpe (pNext >>= fun q => if q ≠ ch '>' then P.fail (.blockEnd q) else pure r) st (fun _ st' => Further T u st') (Truth T) := by
  rw [wpe_bind]
  refine wpe_next h ?_ ?_
  · intro c st1 _ h1
    split
    · rename_i hc
      exact ⟨_, h1, .blockEnd (List.mem_append_left _ hu) hc (.inl (by simp))⟩
    · exact ⟨[c], h1⟩
  · intro _ st1 hr h1
    rw [if_pos (by decide)]
    exact ⟨_, h1, .blockEnd hu (by decide) (.inr ⟨rfl, hr⟩)⟩

theorem blockTail_blame {T u : List Rune} {st : PState} {p : List Rune → P Rule} (hp : Honest T p) (n : Nat) (o : Rule) (e : Option Rule)
    (h : On T u st) (hu : 60 ∈ u) : wpe (blockTail p n o e) st (fun _ st' => Further T u st') (Truth T) := by
  unfold blockTail
  rw [wpe_bind]
  refine wpe_mono (excludeLoop_blame hp n [] u st h hu) ?_ (fun _ _ h => h)
  rintro ex st1 ⟨v, h1⟩
  have hv : (60 : Rune) ∈ u ++ v := List.mem_append_left _ hu
  rw [wpe_bind]
  refine wpe_mono (hp _ _ st1 (by decide) h1 (fresh_block hv)) ?_ (fun _ _ h => h)
  rintro cl st2 ⟨w, h2, _⟩
  have hw : (60 : Rune) ∈ u ++ v ++ w := List.mem_append_left _ hv
  rw [wpe_bind]
  refine wpe_next h2 ?_ ?_
  · intro c st3 _ h3
    have hc : (60 : Rune) ∈ u ++ v ++ w ++ [c] := List.mem_append_left _ hw
    split
    · rw [wpe_bind]
      refine wpe_skip h3 ?_
      intro x st4 _ h4
      refine wpe_mono (blockEnd_blame h4 (List.mem_append_left _ hc) _) ?_ (fun _ _ h => h)
      intro _ st5 h5
      exact h5.trans.trans.trans.trans
    split
    · rename_i hc'
      exact ⟨_, h3, .blockEnd hc hc' (.inl (by simp))⟩
    · exact Further.trans (Further.trans ⟨[c], h3⟩)
  · intro _ st3 hr h3
    rw [if_neg (by decide), if_pos (by decide)]
    exact ⟨_, h3, .blockEnd hw (by decide) (.inr ⟨rfl, hr⟩)⟩

theorem inBlock_blame {T u : List Rune} {st : PState} {p : List Rune → P Rule} (hp : Honest T p) (ha : ∀ ts, Ahead (p ts)) (n : Nat) (h : On T u st)
    (hc : peekR st.rest = ch '<') : wpe (inBlock p n) st (fun _ st' => Further T u st') (Truth T) := by
  obtain ⟨l, hr⟩ := peek_cons hc (by decide)
  unfold inBlock
  rw [wpe_bind]
  refine wpe_next_cons h hr ?_
  intro st1 _ h1
  have m1 : (60 : Rune) ∈ u ++ [ch '<'] := List.mem_append_right _ (.head _)
  rw [if_neg (by simp), wpe_bind, wpe_mapErr]
  refine wpe_mono (wpe_both (hp _ _ st1 (by decide) h1 (fresh_bracket (by decide))) ((ha _).on h1)) ?_ ?_
  rotate_left
  · rintro e st2 ⟨⟨u', h2, hc⟩, hu⟩
    obtain ⟨w, rfl⟩ := hu u' h2
    exact ⟨_, h2, .blockOpen (List.mem_append_left _ m1) hc⟩
  rintro opn st2 ⟨⟨v, h2, _⟩, _⟩
  have m2 := List.mem_append_left v m1
  rw [wpe_bind]
  refine wpe_skip h2 ?_
  intro w st3 _ h3
  have m3 := List.mem_append_left w m2
  rw [wpe_bind, wpe_peek]
  split
  · rw [wpe_bind]
    refine wpe_mono (hp _ _ st3 (by decide) h3 (fresh_block m3)) ?_ (fun _ _ h => h)
    rintro r st4 ⟨x, h4, _⟩
    have m4 := List.mem_append_left x m3
    rw [wpe_bind]
    refine wpe_skip h4 ?_
    intro y st5 _ h5
    have m5 := List.mem_append_left y m4
    rw [wpe_bind, wpe_peek]
    split
    · rename_i hp
      obtain ⟨l, hr⟩ := peek_cons (l := st5.rest) rfl (by rcases hp with hp | hp <;> rw [hp] <;> decide)
      rw [wpe_bind]
      refine wpe_next_cons h5 hr ?_
      intro st6 _ h6
      have m6 := List.mem_append_left [peekR st5.rest] m5
      split
      · rw [wpe_bind]
        refine wpe_skip h6 ?_
        intro z st7 _ h7
        refine wpe_mono (blockEnd_blame h7 (List.mem_append_left z m6) _) ?_ (fun _ _ h => h)
        intro _ st8 h8
        exact h8.trans.trans.trans.trans.trans.trans.trans
      · exact Further.trans (Further.trans (Further.trans (Further.trans (Further.trans ⟨_, h6⟩))))
    · refine wpe_mono (blockTail_blame hp n _ _ h5 m5) ?_ (fun _ _ h => h)
      intro _ st8 h8
      exact h8.trans.trans.trans.trans.trans
  · refine wpe_mono (blockTail_blame hp n _ _ h3 m3) ?_ (fun _ _ h => h)
    intro _ st8 h8
    exact h8.trans.trans.trans

theorem begins_cases {c : Rune} (h1 : c ≠ ch '\'') (h2 : c ≠ ch '\\') (h3 : c ≠ ch '"') (h4 : c ≠ ch '[') (h5 : c ≠ ch '{') (h6 : c ≠ ch '<')
    (h7 : c ≠ ch '(') (h8 : ¬ (isLetter c = true ∨ c = ch '_')) : ¬ Begins c := by
  rintro (h | h | h | h | h | h | h | h | h)
  · exact h1 h
  · exact h2 h
  · exact h3 h
  · exact h4 h
  · exact h5 h
  · exact h6 h
  · exact h7 h
  · exact h8 (.inl ((letter_iff c).2 h))
  · exact h8 (.inr h)

theorem primary_blame {T u : List Rune} {st : PState} {p : List Rune → P Rule} (hp : Honest T p) (ha : ∀ ts, Ahead (p ts)) (n : Nat) (name : Name)
    (other : Rune → PErr) (h : On T u st) (hother : ¬ Begins (peekR st.rest) → Truth T (other (peekR st.rest)) st) :
    wpe (primary other p n name (peekR st.rest)) st (fun _ st' => Further T u st') (Truth T) := by
  unfold primary
  split
  · rename_i hc; exact inChar_blame h hc n
  split
  · rename_i hc; exact inUnicode_blame h hc
  split
  · rename_i hc; exact inString_blame h hc n
  split
  · rename_i hc; exact inOption_blame hp h hc
  split
  · rename_i hc; exact inRepetition_blame hp n h hc
  split
  · rename_i hc; exact inBlock_blame hp ha n h hc
  split
  · rename_i hc; exact inGroup_blame hp h hc
  split
  · rename_i hc; exact inReference_blame h hc name
  · rename_i h1 h2 h3 h4 h5 h6 h7 h8
    exact hother (begins_cases h1 h2 h3 h4 h5 h6 h7 h8)

/-! ## Choices and the parser -/

theorem parseOneLoop_blame {T : List Rune} {prim : Rune → P Rule}
    (hp : ∀ u st, On T u st → peekR st.rest ≠ EOFChar → wpe (prim (peekR st.rest)) st (fun _ st' => Further T u st') (Truth T)) :
    ∀ (n : Nat) (tk nd v : Bool) (u : List Rune) (st : PState), On T u st →
      wpe (parseOneLoop prim n tk nd v) st (fun _ st' => Further T u st') (Truth T)
  | 0, _, _, _, _, _, _ => trivial
  | n + 1, tk, nd, v, u, st, h => by
    have ih := parseOneLoop_blame hp n
    unfold parseOneLoop
    rw [wpe_bind, wpe_peek]
    split
    · rename_i hc
      obtain ⟨l, hr⟩ := peek_cons (l := st.rest) rfl (by rcases hc with h | h | h | h <;> rw [h] <;> decide)
      rw [wpe_bind]
      refine wpe_next_cons h hr ?_
      intro st1 _ h1
      exact wpe_mono (ih tk nd v _ st1 h1) (fun _ _ h => h.trans) (fun _ _ h => h)
    split
    · rename_i hc
      exact ⟨u, h, .eof (ended_peek hc)⟩
    rename_i hE
    split
    · rename_i hc
      obtain ⟨l, hr⟩ := peek_cons (l := st.rest) rfl hE
      rw [wpe_bind]
      refine wpe_next_cons h hr ?_
      intro st1 _ h1
      rw [wpe_bind, wpe_peek]
      split
      · rename_i hd
        exact ⟨_, h1, .annotation hc (just_self _ _) (peek_head hd (by decide))⟩
      · exact wpe_mono (ih _ _ _ _ st1 h1) (fun _ _ h => h.trans) (fun _ _ h => h)
    · rw [wpe_bind]
      exact wpe_mono (hp u st h hE) (fun _ _ h => h) (fun _ _ h => h)

/-- Not a choice: a single rule. -/
def Few (gs : List (List Rule)) : Prop := gs.length < 1 ∨ (gs.length = 1 ∧ (gs.headD []).length < 2)

theorem choiceParse_blame {T : List Rune} {one : P Rule} (ho : ∀ u st, On T u st → wpe one st (fun _ st' => Further T u st') (Truth T)) :
    ∀ (n : Nat) (gs : List (List Rule)) (rs : List Rule) (u : List Rune) (st : PState), On T u st → rs ≠ [] →
      (¬ Few (gs ++ [rs]) ∨ peekR st.rest = ch '|' ∨ peekR st.rest = ch '>') →
      wpe (choiceParse one n gs rs) st (fun gs' st' => Further T u st' ∧ ¬ Few gs') (Truth T)
  | 0, _, _, _, _, _, _, _ => trivial
  | n + 1, gs, rs, u, st, h, hrs, he => by
    have ih := choiceParse_blame ho n
    unfold choiceParse
    rw [wpe_bind, wpe_peek]
    split
    · rename_i hc
      obtain ⟨l, hr⟩ := peek_cons (l := st.rest) rfl (by rw [hc]; decide)
      rw [wpe_bind]
      refine wpe_next_cons h hr ?_
      intro st1 _ h1
      refine wpe_mono (ih gs rs _ st1 h1 hrs (.inl ?_)) (fun _ _ h => ⟨h.1.trans, h.2⟩) (fun _ _ h => h)
      rcases he with he | he | he
      · exact he
      · rw [hc] at he; exact absurd he (by decide)
      · rw [hc] at he; exact absurd he (by decide)
    split
    · rename_i hc
      obtain ⟨l, hr⟩ := peek_cons (l := st.rest) rfl (by rw [hc]; decide)
      rw [wpe_bind]
      refine wpe_next_cons h hr ?_
      intro st1 _ h1
      rw [wpe_bind]
      refine wpe_mono (ho _ st1 h1) ?_ (fun _ _ h => h)
      rintro r st2 ⟨v, h2⟩
      refine wpe_mono (ih gs _ _ st2 h2 (by simp) (.inl ?_)) (fun _ _ h => ⟨h.1.trans.trans, h.2⟩) (fun _ _ h => h)
      have : 0 < rs.length := List.length_pos_iff.2 hrs
      unfold Few
      cases gs with
      | nil => simp; omega
      | cons a b => simp
    split
    · rename_i hc
      obtain ⟨l, hr⟩ := peek_cons (l := st.rest) rfl (by rw [hc]; decide)
      rw [if_neg (fun hl => hrs (List.length_eq_zero_iff.1 hl)), wpe_bind]
      refine wpe_next_cons h hr ?_
      intro st1 _ h1
      rw [wpe_bind]
      refine wpe_mono (ho _ st1 h1) ?_ (fun _ _ h => h)
      rintro r st2 ⟨v, h2⟩
      refine wpe_mono (ih _ _ _ st2 h2 (by simp) (.inl ?_)) (fun _ _ h => ⟨h.1.trans.trans, h.2⟩) (fun _ _ h => h)
      unfold Few
      simp
    · rename_i h1 h2 h3
      rw [wpe_pure]
      refine ⟨Further.refl h, ?_⟩
      rcases he with he | he | he
      · exact he
      · exact absurd he h2
      · exact absurd he h3

theorem inChoice_blame {T u : List Rune} {st : PState} {one : P Rule} (ho : ∀ u st, On T u st → wpe one st (fun _ st' => Further T u st') (Truth T))
    (n : Nat) (r : Rule) (h : On T u st) (hp : peekR st.rest = ch '|' ∨ peekR st.rest = ch '>') :
    wpe (inChoice one n r) st (fun _ st' => Further T u st') (Truth T) := by
  unfold inChoice
  rw [wpe_bind]
  refine wpe_mono (choiceParse_blame ho n [] [r] u st h (by simp) (.inr hp)) ?_ (fun _ _ h => h)
  rintro gs st1 ⟨h1, hf⟩
  unfold Few at hf
  rw [if_neg hf]
  exact h1

theorem finish_blame {T : List Rune} {rules : List Rule} {st : PState} {Q : PState → Prop} (hE : rules = [] → Truth T .noRule st) (hQ : Q st) :
    wpe (finish rules) st (fun _ st' => Q st') (Truth T) := by
  match rules with
  | [] => exact hE rfl
  | [_] => exact hQ
  | _ :: _ :: _ => exact hQ

theorem parseLoop_blame {T : List Rune} {prim : Rune → P Rule} {one : P Rule} {terms : List Rune} (hts : ∀ t ∈ terms, t ≠ EOFChar → t ∈ [41, 93, 125, 32, 62, 33])
    (hp : ∀ u st, On T u st → peekR st.rest ≠ EOFChar → ¬ Idle (peekR st.rest) → peekR st.rest ≠ 124 ∧ peekR st.rest ≠ 62 →
      wpe (prim (peekR st.rest)) st (fun _ st' => Further T u st') (Truth T))
    (ho : ∀ u st, On T u st → wpe one st (fun _ st' => Further T u st') (Truth T)) :
    ∀ (n : Nat) (rules : List Rule) (tk nd v : Bool) (u : List Rune) (st : PState), On T u st → (rules = [] → Fresh u) →
      wpe (parseLoop prim one terms n rules tk nd v) st (fun _ st' => ∃ v, On T (u ++ v) st' ∧ Stops terms (u ++ v) st'.rest) (Truth T)
  | 0, _, _, _, _, _, _, _, _ => trivial
  | n + 1, rules, tk, nd, v, u, st, h, hf => by
    have ih := parseLoop_blame hts hp ho n
    have back : ∀ (a : List Rune) st', (∃ v, On T (u ++ a ++ v) st' ∧ Stops terms (u ++ a ++ v) st'.rest) →
        ∃ v, On T (u ++ v) st' ∧ Stops terms (u ++ v) st'.rest := by
      rintro a st' ⟨v, h1, h2⟩
      exact ⟨a ++ v, by rwa [← List.append_assoc], by rwa [← List.append_assoc]⟩
    unfold parseLoop
    rw [wpe_bind, wpe_peek]
    split
    · rename_i hc
      refine finish_blame (Q := fun st' => ∃ v, On T (u ++ v) st' ∧ Stops terms (u ++ v) st'.rest) ?_ ⟨[], by simpa using h, .inl ?_⟩
      · intro hr
        exact ⟨u, h, .noRule (hf hr) (.inl (ended_peek hc))⟩
      · cases hr : st.rest with
        | nil => exact .inl rfl
        | cons c l => rw [hr] at hc; exact .inr (by rw [show c = EOFChar from hc]; rfl)
    rename_i hE
    obtain ⟨l, hl⟩ := peek_cons (l := st.rest) rfl hE
    have hh : st.rest.head? = some (peekR st.rest) := by rw [hl]; rfl
    split
    · rename_i hc
      have hm : peekR st.rest ∈ terms := by simpa using hc
      refine finish_blame (Q := fun st' => ∃ v, On T (u ++ v) st' ∧ Stops terms (u ++ v) st'.rest) ?_
        ⟨[], by simpa using h, .inr (.inl ⟨_, hm, hh⟩)⟩
      intro hr
      exact ⟨u, h, .noRule (hf hr) (.inr ⟨_, hh, hts _ hm hE⟩)⟩
    split
    · rename_i hc
      rw [wpe_bind]
      refine wpe_next_cons h hl ?_
      intro st1 _ h1
      exact wpe_mono (ih _ _ _ _ _ st1 h1 (fun hr => fresh_idle (hf hr) (.inl hc))) (fun _ st' => back _ st') (fun _ _ h => h)
    rename_i hw
    split
    · rename_i hc
      rw [wpe_bind]
      refine wpe_next_cons h hl ?_
      intro st1 _ h1
      rw [wpe_bind, wpe_peek]
      split
      · rename_i hd
        exact ⟨_, h1, .annotation hc (just_self _ _) (peek_head hd (by decide))⟩
      · exact wpe_mono (ih _ _ _ _ _ st1 h1 (fun hr => fresh_idle (hf hr) (.inr hc))) (fun _ st' => back _ st') (fun _ _ h => h)
    rename_i hi
    have hidle : ¬ Idle (peekR st.rest) := by
      rintro (h | h)
      · exact hw h
      · exact hi h
    split
    · rename_i hc
      split
      · rename_i hlast
        have hr : rules = [] := by simpa using hlast
        refine ⟨u, h, .choiceOperand (hf hr) ?_⟩
        rw [hh]
        rcases hc with hc | hc
        · exact .inl (by rw [hc]; rfl)
        · exact .inr (by rw [hc]; rfl)
      · rename_i last hlast
        rw [wpe_bind]
        refine wpe_mono (inChoice_blame ho n last h hc) ?_ (fun _ _ h => h)
        rintro r st1 ⟨w, h1⟩
        exact wpe_mono (ih _ _ _ _ _ st1 h1 (by simp)) (fun _ st' => back _ st') (fun _ _ h => h)
    rename_i hbar
    split
    · rename_i hc
      rw [wpe_bind]
      refine wpe_next_cons h hl ?_
      intro st1 _ h1
      rw [hc] at h1 ⊢
      rw [wpe_bind]
      refine wpe_next h1 ?_ ?_
      · intro d st2 _ h2
        split
        · rename_i hd
          exact ⟨_, h2, .slash (d := d) ⟨u, by simp; rfl⟩ hd⟩
        · rename_i hd
          have hd := Classical.not_not.1 hd
          subst hd
          rw [wpe_bind]
          have hs : wpe skipComment st2 (fun _ st' => Further T (u ++ [ch '/'] ++ [ch '/']) st') (Truth T) := by
            obtain ⟨v, hv⟩ := Ahead.comment st2
            refine ⟨v, ?_⟩
            unfold On at *
            rw [List.append_assoc _ v, ← hv]; exact h2
          refine wpe_mono hs ?_ (fun _ _ h => h)
          rintro _ st3 ⟨w, h3⟩
          have h3' : On T (u ++ 47 :: 47 :: w) st3 := by simpa [show ch '/' = 47 from rfl] using h3
          refine finish_blame (Q := fun st' => ∃ v, On T (u ++ v) st' ∧ Stops terms (u ++ v) st'.rest) ?_
            ⟨_, h3', .inr (.inr ⟨u, w, rfl⟩)⟩
          intro hr
          exact ⟨_, h3', .noRuleComment (hf hr)⟩
      · intro _ st2 hr2 h2
        rw [if_pos (by decide)]
        exact ⟨_, h2, hr2 ▸ .lastSlash (just_self _ _)⟩
    · rename_i hc
      rw [wpe_bind]
      refine wpe_mono (hp u st h hE hidle ⟨fun hc => hbar (.inl hc), fun hc => hbar (.inr hc)⟩) ?_ (fun _ _ h => h)
      rintro r st1 ⟨w, h1⟩
      exact wpe_mono (ih _ _ _ _ _ st1 h1 (by simp)) (fun _ st' => back _ st') (fun _ _ h => h)

theorem parse_honest {T : List Rune} (name : Name) : ∀ n, Honest T (parse n name)
  | 0 => fun _ _ _ _ _ _ => trivial
  | n + 1 => by
    have hp := parse_honest (T := T) name n
    intro terms u st hts h hf
    unfold parse
    rw [wpe_bind]
    refine wpe_skip h ?_
    intro w st1 hw h1
    have hf1 : Fresh (u ++ w) := by
      obtain ⟨a, g, rfl, hg, ha⟩ := hf
      refine ⟨a, g ++ w, by simp, ?_, ha⟩
      intro x hx
      rcases List.mem_append.1 hx with hx | hx
      · exact hg x hx
      · exact .inl (hw x hx)
    refine wpe_mono (parseLoop_blame hts ?_ ?_ n [] false false false _ st1 h1 (fun _ => hf1)) ?_ (fun _ _ h => h)
    · intro u st h hE hi ho
      refine primary_blame hp (parse_ahead n name) n name .invalidChar h ?_
      intro hb
      exact ⟨u, h, .invalidChar (peek_head rfl hE) hb hi ho⟩
    · intro u st h
      refine parseOneLoop_blame ?_ n false false false u st h
      intro u st h hE
      refine primary_blame hp (parse_ahead n name) n name .notARule h ?_
      intro hb
      exact ⟨u, h, .notARule (peek_head rfl hE) hb⟩
    · rintro _ st2 ⟨v, h2, h3⟩
      exact ⟨w ++ v, by rwa [← List.append_assoc], by rwa [← List.append_assoc]⟩

/-- Every error of the definition parser is true. -/
theorem parse_truth {n : Nat} {name : Name} {T : List Rune} {us : List (Name × Name)} {e : PErr} {st : PState}
    (h : parse n name [EOFChar] ⟨T, us⟩ = .err e st) : ∃ u, T = u ++ st.rest ∧ Cause e u st.rest := by
  have := parse_honest (T := T) name n [EOFChar] [] ⟨T, us⟩ (by decide) rfl ⟨[], [], rfl, fun _ h => (by cases h), .inl rfl⟩
  unfold wpe at this
  rw [h] at this
  exact this

end Xbnf.Props.Blame
