import Verif.Lemmas.Syntax
/-
Whatever is written in the notation of `Spec/Syntax.lean` is accepted, and gives the rule written.
-/
namespace Xbnf.Props
open Spec

/-- From the text `inp`, and whatever has been recorded, `x` returns `a` and leaves the text `out`. -/
def Yields {α : Type} (x : P α) (inp : List Rune) (a : α) (out : List Rune) : Prop :=
  ∀ us, ∃ us', x ⟨inp, us⟩ = .ok a ⟨out, us'⟩

theorem Yields.bind {α β : Type} {x : P α} {f : α → P β} {inp m out : List Rune} {a : α} {b : β}
    (h : Yields x inp a m) (h' : Yields (f a) m b out) : Yields (x >>= f) inp b out := by
  intro us
  obtain ⟨us1, h1⟩ := h us
  obtain ⟨us2, h2⟩ := h' us1
  exact ⟨us2, by rw [P.bind_apply, h1]; exact h2⟩

theorem Yields.mapErr {α : Type} (f : PErr → PErr) {x : P α} {inp out : List Rune} {a : α} (h : Yields x inp a out) : Yields (x.mapErr f) inp a out := by
  intro us
  obtain ⟨us', h⟩ := h us
  exact ⟨us', mapErr_ok.2 h⟩

theorem Yields.pure {α : Type} (a : α) (inp : List Rune) : Yields (Pure.pure a : P α) inp a inp := fun us => ⟨us, rfl⟩

theorem Yields.next (c : Rune) (l : List Rune) : Yields pNext (c :: l) c l := fun us => ⟨us, rfl⟩

theorem Yields.peek (l : List Rune) : Yields pPeek l (peekR l) l := fun us => ⟨us, rfl⟩

theorem Yields.skip (l : List Rune) : Yields pSkip l () (skipR l) := fun us => ⟨us, rfl⟩

theorem Yields.pos {α : Type} {c : Prop} [Decidable c] {x y : P α} {inp out : List Rune} {a : α} (hc : c) (h : Yields x inp a out) :
    Yields (if c then x else y) inp a out := by rw [if_pos hc]; exact h

theorem Yields.neg {α : Type} {c : Prop} [Decidable c] {x y : P α} {inp out : List Rune} {a : α} (hc : ¬ c) (h : Yields y inp a out) :
    Yields (if c then x else y) inp a out := by rw [if_neg hc]; exact h

theorem Yields.escape {ds : List Rune} {v : Rune} (h : Hex4 ds v) (out : List Rune) : Yields parseUnicodeEscape (117 :: ds ++ out) v out :=
  fun us => ⟨us, C39_escape.2 ⟨ds, h, rfl⟩⟩

theorem head_peek {l : List Rune} {c : Rune} (h : l.head? ≠ some c) (hc : c ≠ EOFChar) : peekR l ≠ c := by
  cases l with
  | nil => exact fun h0 => hc h0.symm
  | cons x l =>
    intro h0
    exact h (by rw [show x = c from h0]; rfl)

theorem range_yields {e : List Rune} {d : Rune} {du : Bool} (h : RangeEnd e d du) (c : Rune) (u : Bool) (out : List Rune) :
    Yields (inRange c u) (45 :: (e ++ out)) (.range {} c u d du) out := by
  refine .bind (.next 45 _) (.neg (by simp [ch]) ?_)
  cases h with
  | quoted hc =>
    refine .bind (.next 39 _) (.pos rfl (.bind (.next _ _) (.bind (.neg hc (.pure _ _)) (.bind (.next _ _) (.neg (by simp [ch]) (.pure _ _))))))
  | @quotedCode ds v h =>
    have he : Yields parseUnicodeEscape ((117 :: ds ++ [39]) ++ out) d (39 :: out) := by
      have := Yields.escape h (39 :: out)
      simpa using this
    exact .bind (.next 39 _) (.pos rfl (.bind (.next 92 _) (.bind (.pos rfl (.bind (.peek _) (.pos rfl (.bind he (.pure _ _)))))
      (.bind (.next _ _) (.neg (by simp [ch]) (.pure _ _))))))
  | code h =>
    refine .bind (.next 92 _) (.neg (by simp [ch]) (.pos rfl (.bind (.escape h _) (.pure _ _))))

theorem char_yields {src : List Rune} {c : Rune} {u : Bool} {out : List Rune} (h : Spelling 39 src [c] u) (hd : out.head? ≠ some 45) {n : Nat}
    (hn : src.length < n) : Yields (inChar n) (39 :: src ++ 39 :: out) (.char {} c u) out := by
  intro us
  refine ⟨us, ?_⟩
  rw [inChar_eq h hn, charOf, P.bind_apply]
  simp only [pPeek]
  rw [if_neg (show ¬ peekR out = ch '-' from head_peek hd (by decide))]
  rfl

theorem chars_yields {src val : List Rune} {u : Bool} {out : List Rune} (h : Spelling 39 src val u) (h2 : 2 ≤ val.length) {n : Nat}
    (hn : src.length < n) : Yields (inChar n) (39 :: src ++ 39 :: out) (.chars {} val) out := by
  intro us
  refine ⟨us, ?_⟩
  rw [inChar_eq h hn]
  match val, h2 with
  | a :: b :: val, _ => rfl

theorem charRange_yields {src : List Rune} {c : Rune} {u : Bool} {e : List Rune} {d : Rune} {du : Bool} {out : List Rune}
    (h : Spelling 39 src [c] u) (he : RangeEnd e d du) {n : Nat} (hn : src.length < n) :
    Yields (inChar n) (39 :: src ++ 39 :: 45 :: (e ++ out)) (.range {} c u d du) out := by
  intro us
  obtain ⟨us', hr⟩ := range_yields he c u out us
  refine ⟨us', ?_⟩
  rw [inChar_eq h hn, charOf, P.bind_apply]
  simp only [pPeek]
  rw [if_pos (show peekR (45 :: (e ++ out)) = ch '-' from rfl)]
  exact hr

theorem code_yields {ds : List Rune} {v : Rune} {out : List Rune} (h : Hex4 ds v) (hd : out.head? ≠ some 45) :
    Yields inUnicode (92 :: 117 :: ds ++ out) (.char {} v true) out := by
  intro us
  refine ⟨us, ?_⟩
  rw [inUnicode_eq h, if_neg (show ¬ peekR out = ch '-' from head_peek hd (by decide))]
  rfl

theorem codeRange_yields {ds : List Rune} {v : Rune} {e : List Rune} {d : Rune} {du : Bool} {out : List Rune} (h : Hex4 ds v) (he : RangeEnd e d du) :
    Yields inUnicode (92 :: 117 :: ds ++ 45 :: (e ++ out)) (.range {} v true d du) out := by
  intro us
  obtain ⟨us', hr⟩ := range_yields he v true out us
  refine ⟨us', ?_⟩
  rw [inUnicode_eq h, if_pos (show peekR (45 :: (e ++ out)) = ch '-' from rfl)]
  exact hr

theorem nameStart_plain {c : Rune} (h : Letter c ∨ c = 95) : isWhiteSpace c = false ∧ (isLetter c = true ∨ c = ch '_') := by
  constructor
  · exact (starts_plain (c := c) (by unfold Starts; rcases h with h | h <;> simp [h])).2.1
  · rw [letter_iff]; exact h

theorem reference_yields {c : Rune} {cs out : List Rune} (name : Name) (hc : Letter c ∨ c = 95) (hcs : ∀ d ∈ cs, Letter d ∨ Digit d ∨ d = 95)
    (ho : ∀ d, out.head? = some d → ¬ (Letter d ∨ Digit d ∨ d = 95)) :
    Yields (inReference name) (c :: cs ++ out) (if c :: cs = runes "EOF" then eofRule else .ref {} (c :: cs)) out := by
  obtain ⟨h1, h2⟩ := nameStart_plain hc
  have hskip : skipR (c :: cs ++ out) = c :: (cs ++ out) := List.dropWhile_cons_of_neg (by rw [h1]; simp)
  have hs : Yields pSkip (c :: cs ++ out) () (c :: (cs ++ out)) := by rw [← hskip]; exact .skip _
  have hall : ∀ d ∈ cs, isNameChar d = true := fun d hd => (nameChar_iff d).2 (hcs d hd)
  have hd : out.dropWhile isNameChar = out ∧ out.takeWhile isNameChar = [] := by
    cases out with
    | nil => exact ⟨rfl, rfl⟩
    | cons x l =>
      have : ¬ isNameChar x = true := by rw [nameChar_iff]; exact ho x rfl
      exact ⟨List.dropWhile_cons_of_neg this, List.takeWhile_cons_of_neg this⟩
  have hn : Yields nameChars (cs ++ out) cs out := by
    intro us
    refine ⟨us, ?_⟩
    show Out.ok ((cs ++ out).takeWhile isNameChar) (PState.mk ((cs ++ out).dropWhile isNameChar) us) = _
    rw [List.takeWhile_append_of_pos hall, List.dropWhile_append_of_pos hall, hd.1, hd.2, List.append_nil]
  refine .bind hs (.bind (.next _ _) (.neg ?_ (.bind hn ?_)))
  · rintro ⟨h3, h4⟩
    rcases h2 with h2 | h2
    · rw [h2] at h3; cases h3
    · exact h4 h2
  · show Yields (if c :: cs = runes "EOF" then _ else _ : P Rule) _ _ _
    by_cases he : c :: cs = runes "EOF"
    · rw [if_pos he, if_pos he]; exact .pure _ _
    · rw [if_neg he, if_neg he]
      exact .bind (fun us => ⟨_, rfl⟩) (.pure _ _)

theorem number_decimal {ds : List Rune} {n : Nat} (h : Number ds n) : ∀ (comma : Bool) (t : Bool) (ht : t = true → comma = true) (out : List Rune),
    ∀ f, ds.length < f → ∃ bs, decimal bs = n ∧ Yields (specLoop comma f []) (ds ++ (if t then 44 else 62) :: out) (bs, t) out := by
  intro comma t ht out
  -- the loop goes over the digits one by one
  suffices hs : ∃ bs, decimal bs = n ∧ ∀ f us, specLoop comma (f + ds.length) [] ⟨ds ++ (if t then 44 else 62) :: out, us⟩ =
      specLoop comma f bs ⟨(if t then 44 else 62) :: out, us⟩ by
    obtain ⟨bs, h1, h2⟩ := hs
    intro f hf
    refine ⟨bs, h1, fun us => ⟨us, ?_⟩⟩
    obtain ⟨k, rfl⟩ := Nat.exists_eq_add_of_lt hf
    rw [show ds.length + k + 1 = (k + 1) + ds.length by omega, h2, specLoop]
    cases t with
    | true =>
      rw [P.bind_apply]
      simp only [pNext, peekR, List.headD, if_true]
      rw [if_neg (by decide), if_pos ⟨ht rfl, rfl⟩]
      rfl
    | false =>
      rw [P.bind_apply]
      simp only [pNext, peekR, List.headD, Bool.false_eq_true, if_false]
      rw [if_neg (by decide), if_neg (by simp [ch]), if_pos (show (62 : Rune) = ch '>' from rfl)]
      rfl
  generalize (if t then (44 : Rune) else 62) :: out = tail
  induction h generalizing tail with
  | nil => exact ⟨[], rfl, fun f us => rfl⟩
  | @digit ds n k h hk ih =>
    obtain ⟨bs, h1, h2⟩ := ih ((48 + (k : Int)) :: tail)
    refine ⟨bs ++ [48 + (k : Int)], ?_, fun f us => ?_⟩
    · rw [decimal_snoc, h1]
      have : ((48 + (k : Int) : Rune) - 48).toNat = k := by unfold Rune; omega
      rw [this]; omega
    · rw [List.length_append, List.append_assoc, show f + (ds.length + [(48 + (k : Int) : Rune)].length) = (f + 1) + ds.length by simp; omega]
      refine (h2 (f + 1) us).trans ?_
      rw [specLoop, P.bind_apply]
      simp only [pNext, peekR, List.headD]
      rw [if_neg (by unfold Rune; omega), if_neg (by rw [show ch ',' = 44 from rfl]; unfold Rune; omega),
        if_neg (by rw [show ch '>' = 62 from rfl]; unfold Rune; omega), if_pos (by unfold isDigit; simp only [Bool.and_eq_true, decide_eq_true_eq]; unfold Rune; omega)]
      rfl
  | @blank ds n c h hc ih =>
    obtain ⟨bs, h1, h2⟩ := ih (c :: tail)
    refine ⟨bs, h1, fun f us => ?_⟩
    rw [List.length_append, List.append_assoc, show f + (ds.length + [c].length) = (f + 1) + ds.length by simp; omega]
    refine (h2 (f + 1) us).trans ?_
    rw [specLoop, P.bind_apply]
    simp only [pNext, peekR, List.headD]
    rw [if_pos hc]
    rfl

theorem blankDigit_white {c : Rune} (h : c = 32 ∨ c = 9 ∨ c = 10) : isWhiteSpace c = true := by
  rcases h with rfl | rfl | rfl <;> decide

theorem number_skip {ds : List Rune} {n : Nat} (h : Number ds n) : Number (skipR ds) n := by
  have key : ∀ (l : List Rune) (x : Rune), skipR (l ++ [x]) = if skipR l = [] then skipR [x] else skipR l ++ [x] := by
    intro l x
    unfold skipR
    rw [List.dropWhile_append]
    cases hl : l.dropWhile isWhiteSpace with
    | nil => simp
    | cons a as => simp
  induction h with
  | nil => exact .nil
  | @digit ds n k h hk ih =>
    rw [key]
    split
    · rename_i h0
      rw [h0] at ih
      have : skipR [48 + (k : Int)] = [48 + (k : Int)] := by
        refine List.dropWhile_cons_of_neg ?_
        intro hw
        have := white_range hw
        unfold Rune at this
        omega
      rw [this]
      exact .digit ih hk
    · exact .digit ih hk
  | @blank ds n c h hc ih =>
    rw [key]
    split
    · rename_i h0
      rw [h0] at ih
      have : skipR [c] = [] := List.dropWhile_cons_of_pos (blankDigit_white hc)
      rw [this]
      exact ih
    · exact .blank ih hc

theorem skip_blank {a b : List Rune} (h : Blank a b) : skipR a = skipR b := by
  obtain ⟨w, rfl, hw⟩ := h
  unfold skipR
  rw [List.dropWhile_append_of_pos hw]

theorem skip_append (l : List Rune) (c : Rune) (r : List Rune) (hc : isWhiteSpace c = false) : skipR (l ++ c :: r) = skipR l ++ c :: r := by
  induction l with
  | nil => exact List.dropWhile_cons_of_neg (by rw [hc]; simp)
  | cons x l ih =>
    unfold skipR at *
    by_cases hx : isWhiteSpace x = true
    · rw [List.cons_append, List.dropWhile_cons_of_pos hx, List.dropWhile_cons_of_pos hx, ih]
    · rw [List.cons_append, List.dropWhile_cons_of_neg hx, List.dropWhile_cons_of_neg hx]; rfl

theorem bounds_yields {inp : List Rune} {mn mx : Nat} {out : List Rune} (h : Bounds inp mn mx out) (r : Rule) {n : Nat} (hn : inp.length < n) :
    Yields (do
      let d ← pPeek
      if d = ch '*' then do
        let _ ← pNext
        pure (.rep {} r 0 0)
      else if d = ch '+' then do
        let _ ← pNext
        pure (.rep {} r 1 0)
      else if d = ch '<' then do
        let (mn, mx) ← inRepeatSpec n
        pure (.rep {} r mn mx)
      else pure (.rep {} r 0 0) : P Rule) inp (.rep {} r mn mx) out := by
  refine .bind (.peek _) ?_
  cases h with
  | none h1 h2 h3 =>
    exact .neg (head_peek h1 (by decide)) (.neg (head_peek h2 (by decide)) (.neg (head_peek h3 (by decide)) (.pure _ _)))
  | star => exact .pos rfl (.bind (.next _ _) (.pure _ _))
  | plus => exact .neg (show ¬ (43 : Rune) = 42 by decide) (.pos rfl (.bind (.next _ _) (.pure _ _)))
  | @min inp ds _ _ hw hd hlt =>
    refine .neg (show ¬ (60 : Rune) = 42 by decide) (.neg (show ¬ (60 : Rune) = 43 by decide) (.pos rfl (.bind (a := (mn, 0)) (m := out) ?_ (.pure _ _))))
    have hl : (skipR ds).length < n := by
      obtain ⟨w, rfl, _⟩ := hw
      have := (List.dropWhile_sublist isWhiteSpace (l := ds)).length_le
      unfold skipR
      simp only [List.length_cons, List.length_append] at hn
      omega
    obtain ⟨bs, hb, hy⟩ := number_decimal (number_skip hd) true false (fun h => by cases h) out n hl
    refine .bind (.next _ _) (.neg (by decide) (.bind (.skip _) ?_))
    rw [skip_blank hw, skip_append _ _ _ (by decide)]
    refine .bind hy ?_
    simp only
    refine .neg (by rw [hb]; omega) (.bind (.neg (by simp) (.pure _ _)) ?_)
    refine .neg (by decide) (.neg (by simp [decimal]) ?_)
    rw [hb]
    exact .pure _ _
  | @minMax inp ds _ es _ _ hw hd hlt he hlt' hle =>
    refine .neg (show ¬ (60 : Rune) = 42 by decide) (.neg (show ¬ (60 : Rune) = 43 by decide) (.pos rfl (.bind (a := (mn, mx)) (m := out) ?_ (.pure _ _))))
    have hl : (skipR ds).length < n ∧ es.length < n := by
      obtain ⟨w, rfl, _⟩ := hw
      have := (List.dropWhile_sublist isWhiteSpace (l := ds)).length_le
      unfold skipR
      simp only [List.length_cons, List.length_append] at hn
      omega
    obtain ⟨bs, hb, hy⟩ := number_decimal (number_skip hd) true true (fun _ => rfl) (es ++ 62 :: out) n hl.1
    obtain ⟨bs', hb', hy'⟩ := number_decimal he false false (fun h => by cases h) out n hl.2
    refine .bind (.next _ _) (.neg (by decide) (.bind (.skip _) ?_))
    rw [skip_blank hw, List.append_assoc, List.cons_append, skip_append _ _ _ (by decide)]
    refine .bind hy ?_
    simp only
    refine .neg (by rw [hb]; omega) (.bind (a := bs') (.pos trivial (.bind hy' (.pure _ _))) ?_)
    refine .neg (by rw [hb']; omega) (.neg (by rw [hb, hb']; omega) ?_)
    rw [hb, hb']
    exact .pure _ _

/-! ## Parts -/

/-- With fuel enough, a definition is accepted. -/
def DefOK (terms inp : List Rune) (r : Rule) (out : List Rune) : Prop :=
  ∃ N, ∀ n, N ≤ n → ∀ name, Yields (parse n name terms) inp r out

/-- With fuel enough, a part is accepted; `b` are its annotations. -/
def PartOK (b : RuleBase) (inp : List Rune) (r : Rule) (out : List Rune) : Prop :=
  ∃ r0 : Rule, r0.base.name = [] ∧ r0.setBase b = r ∧
    ∃ N, ∀ n, N ≤ n → ∀ name other, Yields (primary other (parse n name) n name (peekR inp)) inp r0 out

theorem simple_starts {b : RuleBase} {inp : List Rune} {r : Rule} {out : List Rune} (h : Simple b inp r out) : ∃ c l, inp = c :: l ∧ Starts c := by
  unfold Starts
  cases h with
  | char => exact ⟨_, _, rfl, by simp⟩
  | chars => exact ⟨_, _, rfl, by simp⟩
  | charRange => exact ⟨_, _, rfl, by simp⟩
  | code => exact ⟨_, _, rfl, by simp⟩
  | codeRange => exact ⟨_, _, rfl, by simp⟩
  | string => exact ⟨_, _, rfl, by simp⟩
  | eof => exact ⟨69, _, rfl, by unfold Letter; simp⟩
  | ref h hn =>
    obtain ⟨⟨c, cs, rfl, hc, _⟩, _⟩ := h
    exact ⟨c, _, rfl, by simp only [hc, or_true]⟩
  | group => exact ⟨_, _, rfl, by simp⟩
  | option => exact ⟨_, _, rfl, by simp⟩
  | rep => exact ⟨_, _, rfl, by simp⟩
  | block => exact ⟨_, _, rfl, by simp⟩
  | blockExcludes => exact ⟨_, _, rfl, by simp⟩
  | blockEscape => exact ⟨_, _, rfl, by simp⟩

/-- Annotations. -/
def Mark (c : Rune) : Prop := c = 126 ∨ c = 35 ∨ c = 36

theorem mark_plain {c : Rune} (h : Mark c) : isWhiteSpace c = false := by
  rcases h with rfl | rfl | rfl <;> decide

theorem marked_starts {ws : Rune → Prop} (hws : ∀ c, ws c → isWhiteSpace c = true) {inp m : List Rune} {b : RuleBase} (h : Flagged ws inp b m)
    {c : Rune} {l : List Rune} (hm : m = c :: l) (hc : Starts c) : ∃ d l', skipR inp = d :: l' ∧ (Mark d ∨ Starts d) := by
  induction h with
  | none => 
    subst hm
    exact ⟨c, l, List.dropWhile_cons_of_neg (by rw [(starts_plain hc).2.1]; simp), .inr hc⟩
  | white hw _ ih =>
    obtain ⟨d, l', h1, h2⟩ := ih hm
    exact ⟨d, l', (List.dropWhile_cons_of_pos (hws _ hw)).trans h1, h2⟩
  | token => exact ⟨_, _, List.dropWhile_cons_of_neg (by decide), .inl (.inr (.inr rfl))⟩
  | nondata => exact ⟨_, _, List.dropWhile_cons_of_neg (by decide), .inl (.inr (.inl rfl))⟩
  | virt => exact ⟨_, _, List.dropWhile_cons_of_neg (by decide), .inl (.inl rfl)⟩

theorem parts_starts {terms inp : List Rune} {rs : List Rule} {out : List Rune} (h : Parts terms inp rs out) (hne : rs ≠ []) :
    ∃ d l', skipR inp = d :: l' ∧ (Mark d ∨ Starts d) := by
  cases h with
  | nil => exact absurd rfl hne
  | cons hm hs _ _ =>
    obtain ⟨c, l, e, hc⟩ := simple_starts hs
    exact marked_starts (fun _ h => h.1) hm e hc

theorem def_starts {terms inp : List Rune} {r : Rule} {out : List Rune} (h : Definition terms inp r out) :
    ∃ d l', skipR inp = d :: l' ∧ (Mark d ∨ Starts d) := by
  cases h with
  | one hw h _ => rw [skip_blank hw]; exact parts_starts h (by simp)
  | several hw h h2 _ => rw [skip_blank hw]; exact parts_starts h (by intro h0; rw [h0] at h2; cases h2)

theorem start_not {d : Rune} (h : Mark d ∨ Starts d) : d ≠ 94 ∧ d ≠ 62 ∧ d ≠ 33 := by
  unfold Mark Starts Letter at h
  unfold Rune at *
  omega

theorem excludes_starts {inp : List Rune} {xs : List Rule} {out : List Rune} (h : Excludes inp xs out)
    (hd : ∃ d l', skipR out = d :: l' ∧ (Mark d ∨ Starts d)) :
    ∃ d l', skipR inp = d :: l' ∧ d ≠ 62 ∧ d ≠ 33 ∧ (xs ≠ [] → d = 94) := by
  cases h with
  | nil hw =>
    obtain ⟨d, l', h1, h2⟩ := hd
    exact ⟨d, l', (skip_blank hw).trans h1, (start_not h2).2.1, (start_not h2).2.2, fun h => absurd rfl h⟩
  | cons hw _ _ =>
    exact ⟨94, _, (skip_blank hw).trans (List.dropWhile_cons_of_neg (by decide)), by decide, by decide, fun _ => rfl⟩

theorem skip_skip (l : List Rune) : skipR (skipR l) = skipR l := (skip_blank (blank_skip l)).symm

theorem parse_skip (n : Nat) (name : Name) (terms l : List Rune) (us : List (Name × Name)) :
    parse n name terms ⟨skipR l, us⟩ = parse n name terms ⟨l, us⟩ := by
  cases n with
  | zero => rfl
  | succ n =>
    unfold parse
    rw [P.bind_apply, P.bind_apply]
    simp only [pSkip]
    rw [skip_skip]

theorem yields_blank {n : Nat} {name : Name} {terms a b : List Rune} {r : Rule} {out : List Rune} (hb : skipR a = skipR b)
    (h : Yields (parse n name terms) a r out) : Yields (parse n name terms) b r out := by
  intro us
  obtain ⟨us', h⟩ := h us
  exact ⟨us', by rw [← parse_skip, ← hb, parse_skip]; exact h⟩

theorem group_ok {b : RuleBase} {inp : List Rune} {r : Rule} {out : List Rune} (h : DefOK [41] inp r (41 :: out)) :
    PartOK b (40 :: inp) (.group b r) out := by
  obtain ⟨N, h⟩ := h
  refine ⟨.group {} r, rfl, rfl, N, fun n hn name _ => ?_⟩
  show Yields (inGroup (parse n name)) _ _ _
  exact .bind (.next _ _) (.neg (by simp [ch]) (.bind (h n hn name) (.bind (.next _ _) (.neg (by simp [ch]) (.pure _ _)))))

theorem option_ok {b : RuleBase} {inp : List Rune} {r : Rule} {out : List Rune} (h : DefOK [93] inp r (93 :: out)) :
    PartOK b (91 :: inp) (.option b r) out := by
  obtain ⟨N, h⟩ := h
  refine ⟨.option {} r, rfl, rfl, N, fun n hn name _ => ?_⟩
  show Yields (inOption (parse n name)) _ _ _
  exact .bind (.next _ _) (.neg (by simp [ch]) (.bind (h n hn name) (.bind (.next _ _) (.neg (by simp [ch]) (.pure _ _)))))

theorem rep_ok {b : RuleBase} {inp : List Rune} {r : Rule} {mid : List Rune} {mn mx : Nat} {out : List Rune} (h : DefOK [125] inp r (125 :: mid))
    (hb : Bounds mid mn mx out) : PartOK b (123 :: inp) (.rep b r mn mx) out := by
  obtain ⟨N, h⟩ := h
  refine ⟨.rep {} r mn mx, rfl, rfl, N + mid.length + 1, fun n hn name _ => ?_⟩
  show Yields (inRepetition (parse n name) n) _ _ _
  exact .bind (.next _ _) (.neg (by simp [ch]) (.bind (h n (by omega) name) (.bind (.next _ _) (.neg (by simp [ch])
    (bounds_yields hb r (by omega))))))

theorem skip_cons {c : Rune} (hc : isWhiteSpace c = false) (l : List Rune) : skipR (c :: l) = c :: l :=
  List.dropWhile_cons_of_neg (by rw [hc]; simp)

theorem stop_plain {m out : List Rune} {v : Bool} (h : BlockStop m v out) : skipR m = m ∧ (peekR m = ch '>' ∨ peekR m = ch '!') := by
  cases h with
  | close => exact ⟨skip_cons (by decide) _, .inl rfl⟩
  | giveBack => exact ⟨skip_cons (by decide) _, .inr rfl⟩

theorem block_ok {b : RuleBase} {inp : List Rune} {o : Rule} {m1 m2 : List Rune} {c : Rule} {m3 m4 : List Rune} {v : Bool} {out : List Rune}
    (ho : DefOK [32, 62, 33] inp o m1) (hw : Blank m1 m2) (hs : ∃ d l', skipR m2 = d :: l' ∧ (Mark d ∨ Starts d))
    (hc : DefOK [32, 62, 33] m2 c m3) (hw' : Blank m3 m4) (he : BlockStop m4 v out) : PartOK b (60 :: inp) (.block b o v c none []) out := by
  obtain ⟨N1, ho⟩ := ho
  obtain ⟨N2, hc⟩ := hc
  refine ⟨.block {} o v c none [], rfl, rfl, N1 + N2, fun n hn name _ => ?_⟩
  show Yields (inBlock (parse n name) n) _ _ _
  refine .bind (.next _ _) (.neg (by simp [ch]) (.bind (.mapErr _ (ho n (by omega) name)) (.bind (.skip _) (.bind (.peek _) ?_))))
  obtain ⟨d, l', hd, hds⟩ := hs
  rw [skip_blank hw]
  refine .pos (by rw [hd]; exact (start_not hds).1) (.bind (yields_blank (skip_skip m2).symm (hc n (by omega) name)) (.bind (.skip _) (.bind (.peek _) ?_)))
  rw [skip_blank hw', (stop_plain he).1]
  refine .pos (stop_plain he).2 ?_
  cases he with
  | close => exact .bind (.next _ _) (.neg (by simp [ch]) (.pure _ _))
  | giveBack hb =>
    refine .bind (.next _ _) (.pos rfl (.bind (.skip _) ?_))
    rw [skip_blank hb, skip_cons (by decide)]
    exact .bind (.next _ _) (.neg (by simp [ch]) (.pure _ _))

/-- With fuel enough, excludes are accepted. -/
def ExcludesOK (inp : List Rune) (xs : List Rule) (out : List Rune) : Prop :=
  ∃ N, ∀ n, N ≤ n → ∀ k, N ≤ k → ∀ name acc, Yields (excludeLoop (parse n name) k acc) inp (acc ++ xs) (skipR out)

theorem exclude_skip (p : List Rune → P Rule) (n : Nat) (acc : List Rule) (l : List Rune) (us : List (Name × Name)) :
    excludeLoop p n acc ⟨skipR l, us⟩ = excludeLoop p n acc ⟨l, us⟩ := by
  cases n with
  | zero => rfl
  | succ n =>
    unfold excludeLoop
    rw [P.bind_apply, P.bind_apply]
    simp only [pSkip]
    rw [skip_skip]

theorem tail_yields {inp : List Rune} {o : Rule} {esc : Option Rule} {xs : List Rule} {m : List Rune} {c : Rule} {m2 : List Rune} {v : Bool} {out : List Rune}
    (hx : ExcludesOK inp xs m) (hc : DefOK [62, 33] m c m2) (he : BlockStop m2 v out) :
    ∃ N, ∀ n, N ≤ n → ∀ name, Yields (blockTail (parse n name) n o esc) (skipR inp) (.block {} o v c esc xs) out := by
  obtain ⟨N1, hx⟩ := hx
  obtain ⟨N2, hc⟩ := hc
  refine ⟨N1 + N2, fun n hn name => ?_⟩
  have hx' : Yields (excludeLoop (parse n name) n []) (skipR inp) xs (skipR m) := by
    intro us
    obtain ⟨us', h⟩ := hx n (by omega) n (by omega) name [] us
    exact ⟨us', by rw [exclude_skip]; exact h⟩
  refine .bind hx' (.bind (yields_blank (skip_skip m).symm (hc n (by omega) name)) ?_)
  cases he with
  | close => exact .bind (.next _ _) (.neg (by simp [ch]) (.neg (by simp [ch]) (.pure _ _)))
  | giveBack hb =>
    refine .bind (.next _ _) (.pos rfl (.bind (.skip _) ?_))
    rw [skip_blank hb, skip_cons (by decide)]
    exact .bind (.next _ _) (.neg (by simp [ch]) (.pure _ _))

theorem blockExcludes_ok {b : RuleBase} {inp : List Rune} {o : Rule} {m1 : List Rune} {xs : List Rule} {m2 : List Rune} {c : Rule} {m3 : List Rune} {v : Bool}
    {out : List Rune} (ho : DefOK [32, 62, 33] inp o m1) (hx : ExcludesOK m1 xs m2) (hxs : ∃ l', skipR m1 = 94 :: l') (hc : DefOK [62, 33] m2 c m3)
    (he : BlockStop m3 v out) : PartOK b (60 :: inp) (.block b o v c none xs) out := by
  obtain ⟨N1, ho⟩ := ho
  obtain ⟨N2, ht⟩ := tail_yields (o := o) (esc := none) hx hc he
  refine ⟨.block {} o v c none xs, rfl, rfl, N1 + N2, fun n hn name _ => ?_⟩
  show Yields (inBlock (parse n name) n) _ _ _
  refine .bind (.next _ _) (.neg (by simp [ch]) (.bind (.mapErr _ (ho n (by omega) name)) (.bind (.skip _) (.bind (.peek _) ?_))))
  obtain ⟨l', hd⟩ := hxs
  exact .neg (by rw [hd]; simp [ch, peekR]) (ht n (by omega) name)

theorem blockEscape_ok {b : RuleBase} {inp : List Rune} {o : Rule} {m1 m2 : List Rune} {e : Rule} {m3 : List Rune} {xs : List Rule} {m4 : List Rune} {c : Rule}
    {m5 : List Rune} {v : Bool} {out : List Rune} (ho : DefOK [32, 62, 33] inp o m1) (hw : Blank m1 m2)
    (hs : ∃ d l', skipR m2 = d :: l' ∧ (Mark d ∨ Starts d)) (hes : DefOK [32, 62, 33] m2 e m3) (hx : ExcludesOK m3 xs m4)
    (hxs : ∃ d l', skipR m3 = d :: l' ∧ d ≠ 62 ∧ d ≠ 33) (hc : DefOK [62, 33] m4 c m5) (he : BlockStop m5 v out) :
    PartOK b (60 :: inp) (.block b o v c (some e) xs) out := by
  obtain ⟨N1, ho⟩ := ho
  obtain ⟨N2, hes⟩ := hes
  obtain ⟨N3, ht⟩ := tail_yields (o := o) (esc := some e) hx hc he
  refine ⟨.block {} o v c (some e) xs, rfl, rfl, N1 + N2 + N3, fun n hn name _ => ?_⟩
  show Yields (inBlock (parse n name) n) _ _ _
  refine .bind (.next _ _) (.neg (by simp [ch]) (.bind (.mapErr _ (ho n (by omega) name)) (.bind (.skip _) (.bind (.peek _) ?_))))
  obtain ⟨d, l', hd, hds⟩ := hs
  rw [skip_blank hw]
  refine .pos (by rw [hd]; exact (start_not hds).1) (.bind (yields_blank (skip_skip m2).symm (hes n (by omega) name)) (.bind (.skip _) (.bind (.peek _) ?_)))
  obtain ⟨d', l'', hd', h1, h2⟩ := hxs
  exact .neg (by rw [hd']; exact fun h => h.elim h1 h2) (ht n (by omega) name)

theorem excludes_nil_ok {inp out : List Rune} (hw : Blank inp out) (hs : ∃ d l', skipR out = d :: l' ∧ (Mark d ∨ Starts d)) : ExcludesOK inp [] out := by
  refine ⟨1, fun n _ k hk name acc => ?_⟩
  obtain ⟨k, rfl⟩ := Nat.exists_eq_add_of_le' hk
  obtain ⟨d, l', hd, hds⟩ := hs
  rw [List.append_nil]
  refine .bind (.skip _) (.bind (.peek _) ?_)
  rw [skip_blank hw]
  exact .pos (by rw [hd]; exact (start_not hds).1) (.pure _ _)

theorem excludes_cons_ok {inp m : List Rune} {r : Rule} {m2 : List Rune} {rs : List Rule} {out : List Rune} (hw : Blank inp (94 :: m))
    (h : DefOK [32, 62, 33] m r m2) (hs : ExcludesOK m2 rs out) : ExcludesOK inp (r :: rs) out := by
  obtain ⟨N1, h⟩ := h
  obtain ⟨N2, hs⟩ := hs
  refine ⟨N1 + N2 + 1, fun n hn k hk name acc => ?_⟩
  obtain ⟨k, rfl⟩ := Nat.exists_eq_add_of_le' (show 1 ≤ k by omega)
  refine .bind (.skip _) (.bind (.peek _) ?_)
  rw [skip_blank hw, skip_cons (by decide)]
  refine .neg (by simp [ch, peekR]) (.bind (.next _ _) (.bind (h n (by omega) name) ?_))
  have := hs n (by omega) k (by omega) name (acc ++ [r])
  rwa [List.append_assoc] at this

theorem primary_name (other : Rune → PErr) (p : List Rune → P Rule) (n : Nat) (name : Name) {c : Rune} (hc : Letter c ∨ c = 95) : primary other p n name c = inReference name := by
  have hl := (nameStart_plain hc).2
  unfold primary
  have e1 : ch '\'' = 39 := rfl
  have e2 : ch '\\' = 92 := rfl
  have e3 : ch '"' = 34 := rfl
  have e4 : ch '[' = 91 := rfl
  have e5 : ch '{' = 123 := rfl
  have e6 : ch '<' = 60 := rfl
  have e7 : ch '(' = 40 := rfl
  rw [e1, e2, e3, e4, e5, e6, e7]
  unfold Letter at hc
  rw [if_neg, if_neg, if_neg, if_neg, if_neg, if_neg, if_neg, if_pos hl] <;> (unfold Rune at *; omega)

theorem ref_ok {b : RuleBase} {n : Name} {out : List Rune} (h : NameText n out) (hn : n ≠ runes "EOF") : PartOK b (n ++ out) (.ref b n) out := by
  obtain ⟨⟨c, cs, rfl, hc, hcs⟩, ho⟩ := h
  refine ⟨.ref {} (c :: cs), rfl, rfl, 0, fun n _ name other => ?_⟩
  have := reference_yields name hc hcs ho
  rw [if_neg hn] at this
  show Yields (primary other (parse n name) n name c) _ _ _
  rw [primary_name _ _ _ _ hc]
  exact this

theorem eof_ok {b : RuleBase} {out : List Rune} (h : NameText (runes "EOF") out) : PartOK b (runes "EOF" ++ out) (.eof b) out := by
  obtain ⟨⟨c, cs, he, hc, hcs⟩, ho⟩ := h
  refine ⟨eofRule, rfl, rfl, 0, fun n _ name other => ?_⟩
  have := reference_yields name hc hcs ho
  rw [if_pos he.symm] at this
  rw [he]
  show Yields (primary other (parse n name) n name c) _ _ _
  rw [primary_name _ _ _ _ hc]
  exact this

/-! ## Sequences of parts -/

/-- Where a definition may end: no part, no annotation and no comment begins so. -/
def GoodTerms (terms : List Rune) : Prop := ∀ t ∈ terms, ¬ Starts t ∧ ¬ Mark t ∧ t ≠ 47

theorem good_eof : GoodTerms [EOFChar] := by
  intro t ht
  cases List.mem_singleton.1 ht
  refine ⟨?_, ?_, by decide⟩
  · unfold Starts Letter EOFChar; unfold Rune; omega
  · unfold Mark EOFChar; unfold Rune; omega

theorem good_close {t : Rune} (h : t = 41 ∨ t = 93 ∨ t = 125) : GoodTerms [t] := by
  intro x hx
  cases List.mem_singleton.1 hx
  refine ⟨?_, ?_, ?_⟩
  · unfold Starts Letter; unfold Rune at *; omega
  · unfold Mark; unfold Rune at *; omega
  · unfold Rune at *; omega

theorem good_block : GoodTerms [32, 62, 33] ∧ GoodTerms [62, 33] := by
  have h : ∀ t : Rune, t = 32 ∨ t = 62 ∨ t = 33 → ¬ Starts t ∧ ¬ Mark t ∧ t ≠ 47 := by
    intro t ht
    refine ⟨?_, ?_, ?_⟩
    · unfold Starts Letter; unfold Rune at *; omega
    · unfold Mark; unfold Rune at *; omega
    · unfold Rune at *; omega
  constructor
  · intro t ht
    exact h t (by simpa using ht)
  · intro t ht
    exact h t (.inr (by simpa using ht))

theorem white_not_eof {c : Rune} (h : isWhiteSpace c = true) : c ≠ EOFChar := by
  rintro rfl
  revert h
  decide

theorem parseLoop_cons {prim : Rune → P Rule} {one : P Rule} {terms : List Rune} (n : Nat) (rules : List Rule) (tk nd v : Bool) (c : Rune)
    (l : List Rune) (us : List (Name × Name)) (h0 : c ≠ EOFChar) (ht : c ∉ terms) :
    parseLoop prim one terms (n + 1) rules tk nd v ⟨c :: l, us⟩ =
      (if isWhiteSpace c then parseLoop prim one terms n rules tk nd v ⟨l, us⟩
       else if c = ch '~' ∨ c = ch '#' ∨ c = ch '$' then
        (if peekR l = ch '|' then P.fail (.annotation c)
         else parseLoop prim one terms n rules (tk || c == ch '$') (nd || c == ch '#') (v || c == ch '~') : P Rule) ⟨l, us⟩
       else (if c = ch '|' ∨ c = ch '>' then
          match rules.getLast? with
          | none => P.fail .choiceOperand
          | some last => do
            let r ← inChoice one n last
            parseLoop prim one terms n (rules.dropLast ++ [r.setAnnotation tk nd v]) false false false
        else if c = ch '/' then do
          let _ ← pNext
          let d ← pNext
          if d ≠ ch '/' then P.fail (.invalidChar c)
          else do
            skipComment
            finish rules
        else do
          let r ← prim c
          parseLoop prim one terms n (rules ++ [r.setAnnotation tk nd v]) false false false : P Rule) ⟨c :: l, us⟩) := by
  rw [parseLoop, P.bind_apply]
  simp only [pPeek, peekR, List.headD]
  rw [if_neg h0, if_neg (by simpa using ht), ite_apply, ite_apply, P.bind_apply, P.bind_apply]
  rfl

theorem loop_marked {terms : List Rune} (hg : GoodTerms terms) {inp m : List Rune} {b : RuleBase} (h : Flagged (Between terms) inp b m) :
    ∃ j, ∀ (prim : Rune → P Rule) (one : P Rule) k rules tk nd v us, parseLoop prim one terms (k + j) rules tk nd v ⟨inp, us⟩ =
      parseLoop prim one terms k rules (tk || b.tokenized) (nd || b.nondata) (v || b.virt) ⟨m, us⟩ := by
  have hmark : ∀ (c : Rune) (l : List Rune), (c = ch '~' ∨ c = ch '#' ∨ c = ch '$') → l.head? ≠ some 124 →
      ∀ (prim : Rune → P Rule) (one : P Rule) k rules tk nd v us, parseLoop prim one terms (k + 1) rules tk nd v ⟨c :: l, us⟩ =
      parseLoop prim one terms k rules (tk || c == ch '$') (nd || c == ch '#') (v || c == ch '~') ⟨l, us⟩ := by
    intro c l hc hl prim one k rules tk nd v us
    rw [parseLoop_cons _ _ _ _ _ _ _ _ (by rcases hc with rfl | rfl | rfl <;> decide) (fun h => (hg c h).2.1 hc), if_neg, if_pos hc, if_neg]
    · exact head_peek hl (by decide)
    · rw [mark_plain hc]; simp
  induction h with
  | none => exact ⟨0, fun _ _ k rules tk nd v us => by simp⟩
  | @white c l b out hc _ ih =>
    obtain ⟨j, ih⟩ := ih
    refine ⟨j + 1, fun prim one k rules tk nd v us => ?_⟩
    rw [← Nat.add_assoc, parseLoop_cons _ _ _ _ _ _ _ _ (white_not_eof hc.1) hc.2, if_pos hc.1, ih]
  | @token l b out _ hb ih =>
    obtain ⟨j, ih⟩ := ih
    refine ⟨j + 1, fun prim one k rules tk nd v us => ?_⟩
    rw [← Nat.add_assoc, hmark 36 l (.inr (.inr rfl)) hb, ih, Bool.or_assoc, Bool.or_assoc, Bool.or_assoc]
    rfl
  | @nondata l b out _ hb ih =>
    obtain ⟨j, ih⟩ := ih
    refine ⟨j + 1, fun prim one k rules tk nd v us => ?_⟩
    rw [← Nat.add_assoc, hmark 35 l (.inr (.inl rfl)) hb, ih, Bool.or_assoc, Bool.or_assoc, Bool.or_assoc]
    rfl
  | @virt l b out _ hb ih =>
    obtain ⟨j, ih⟩ := ih
    refine ⟨j + 1, fun prim one k rules tk nd v us => ?_⟩
    rw [← Nat.add_assoc, hmark 126 l (.inl rfl) hb, ih, Bool.or_assoc, Bool.or_assoc, Bool.or_assoc]
    rfl

/-- `parseOne`, as `parse` uses it. -/
abbrev oneOf (n : Nat) (name : Name) : P Rule := parseOneLoop (primary .notARule (parse n name) n name) n false false false

/-- The loop of `parse`, with enough fuel, replaces `rules`, read before, by `rules'` while it reads the text from
`inp` to `out`. -/
def LoopStep (terms : List Rune) (rules : List Rule) (inp : List Rune) (rules' : List Rule) (out : List Rune) : Prop :=
  ∃ N j, ∀ n, N ≤ n → ∀ k, N ≤ k → ∀ name init us, ∃ us',
    parseLoop (primary .invalidChar (parse n name) n name) (oneOf n name) terms (k + j) (init ++ rules) false false false ⟨inp, us⟩ =
    parseLoop (primary .invalidChar (parse n name) n name) (oneOf n name) terms k (init ++ rules') false false false ⟨out, us'⟩

theorem LoopStep.refl (terms : List Rune) (rules : List Rule) (inp : List Rune) : LoopStep terms rules inp rules inp :=
  ⟨0, 0, fun _ _ _ _ _ _ us => ⟨us, rfl⟩⟩

theorem LoopStep.trans {terms : List Rune} {r1 r2 r3 : List Rule} {i m o : List Rune} (h : LoopStep terms r1 i r2 m) (h' : LoopStep terms r2 m r3 o) :
    LoopStep terms r1 i r3 o := by
  obtain ⟨N1, j1, h1⟩ := h
  obtain ⟨N2, j2, h2⟩ := h'
  refine ⟨N1 + N2, j2 + j1, fun n hn k hk name init us => ?_⟩
  obtain ⟨us1, e1⟩ := h1 n (by omega) (k + j2) (by omega) name init us
  obtain ⟨us2, e2⟩ := h2 n (by omega) k (by omega) name init us1
  exact ⟨us2, by rw [← Nat.add_assoc, e1, e2]⟩

theorem LoopStep.frame {terms : List Rune} {r1 r2 : List Rule} {i o : List Rune} (h : LoopStep terms r1 i r2 o) (rs : List Rule) :
    LoopStep terms (rs ++ r1) i (rs ++ r2) o := by
  obtain ⟨N, j, h⟩ := h
  refine ⟨N, j, fun n hn k hk name init us => ?_⟩
  obtain ⟨us', e⟩ := h n hn k hk name (init ++ rs) us
  exact ⟨us', by rw [← List.append_assoc, e, List.append_assoc]⟩

theorem annotated {r0 r : Rule} {b : RuleBase} (hb : b.name = []) (h1 : r0.base.name = []) (h2 : r0.setBase b = r) :
    r0.setAnnotation b.tokenized b.nondata b.virt = r := by
  rw [← h2]
  unfold Rule.setAnnotation
  congr 1
  cases b
  simp only at hb
  simp only [hb, h1]

theorem part_step {terms : List Rune} (hg : GoodTerms terms) {inp m1 : List Rune} {b : RuleBase} {r : Rule} {m2 : List Rune}
    (hm : Flagged (Between terms) inp b m1) (hs : ∃ c l, m1 = c :: l ∧ Starts c) (h : PartOK b m1 r m2) : LoopStep terms [] inp [r] m2 := by
  obtain ⟨j, hj⟩ := loop_marked hg hm
  obtain ⟨r0, h1, h2, N, h⟩ := h
  refine ⟨N, 1 + j, fun n hn k hk name init us => ?_⟩
  obtain ⟨us', e⟩ := h n hn name .invalidChar us
  refine ⟨us', ?_⟩
  obtain ⟨c, l, rfl, hc⟩ := hs
  rw [← Nat.add_assoc, hj, parseLoop_prim hc (by
    have : c ∉ terms := fun h => (hg c h).1 hc
    simpa using this), P.bind_apply]
  rw [show primary .invalidChar (parse n name) n name c ⟨c :: l, us⟩ = .ok r0 ⟨m2, us'⟩ from e]
  simp only [Bool.false_or]
  rw [annotated (marked_name hm) h1 h2, List.append_nil]

/-- With fuel enough, alternatives are accepted. -/
def AltsOK (inp : List Rune) (alts : List (Rune × Rule)) (out : List Rune) : Prop :=
  ∃ N, ∀ n, N ≤ n → ∀ k, N ≤ k → ∀ name groups rules, rules ≠ [] →
    Yields (choiceParse (oneOf n name) k groups rules) inp (groups ++ grouped rules alts) out

theorem one_marked {inp m : List Rune} {b : RuleBase} (h : Flagged AfterBar inp b m) :
    ∃ j, ∀ (prim : Rune → P Rule) k tk nd v us, parseOneLoop prim (k + j) tk nd v ⟨inp, us⟩ =
      parseOneLoop prim k (tk || b.tokenized) (nd || b.nondata) (v || b.virt) ⟨m, us⟩ := by
  have hmark : ∀ (c : Rune) (l : List Rune), (c = ch '~' ∨ c = ch '#' ∨ c = ch '$') → l.head? ≠ some 124 →
      ∀ (prim : Rune → P Rule) k tk nd v us, parseOneLoop prim (k + 1) tk nd v ⟨c :: l, us⟩ =
      parseOneLoop prim k (tk || c == ch '$') (nd || c == ch '#') (v || c == ch '~') ⟨l, us⟩ := by
    intro c l hc hl prim k tk nd v us
    rw [parseOneLoop, P.bind_apply]
    simp only [pPeek, peekR, List.headD]
    rw [if_neg (by rcases hc with rfl | rfl | rfl <;> decide), if_neg (by rcases hc with rfl | rfl | rfl <;> decide), if_pos hc, P.bind_apply]
    show (if peekR l = ch '|' then P.fail (.annotation c)
      else parseOneLoop prim k (tk || c == ch '$') (nd || c == ch '#') (v || c == ch '~') : P Rule) ⟨l, us⟩ = _
    rw [if_neg]
    exact head_peek hl (by decide)
  induction h with
  | none => exact ⟨0, fun _ k tk nd v us => by simp⟩
  | @white c l b out hc _ ih =>
    obtain ⟨j, ih⟩ := ih
    refine ⟨j + 1, fun prim k tk nd v us => ?_⟩
    rw [← Nat.add_assoc, parseOneLoop, P.bind_apply]
    simp only [pPeek, peekR, List.headD]
    rw [if_pos (show c = 32 ∨ c = 10 ∨ c = 9 ∨ c = 13 from hc), P.bind_apply]
    exact ih prim k tk nd v us
  | @token l b out _ hb ih =>
    obtain ⟨j, ih⟩ := ih
    refine ⟨j + 1, fun prim k tk nd v us => ?_⟩
    rw [← Nat.add_assoc, hmark 36 l (.inr (.inr rfl)) hb, ih, Bool.or_assoc, Bool.or_assoc, Bool.or_assoc]
    rfl
  | @nondata l b out _ hb ih =>
    obtain ⟨j, ih⟩ := ih
    refine ⟨j + 1, fun prim k tk nd v us => ?_⟩
    rw [← Nat.add_assoc, hmark 35 l (.inr (.inl rfl)) hb, ih, Bool.or_assoc, Bool.or_assoc, Bool.or_assoc]
    rfl
  | @virt l b out _ hb ih =>
    obtain ⟨j, ih⟩ := ih
    refine ⟨j + 1, fun prim k tk nd v us => ?_⟩
    rw [← Nat.add_assoc, hmark 126 l (.inl rfl) hb, ih, Bool.or_assoc, Bool.or_assoc, Bool.or_assoc]
    rfl

theorem one_ok {inp m : List Rune} {b : RuleBase} {r : Rule} {out : List Rune} (hm : Flagged AfterBar inp b m)
    (hs : ∃ c l, m = c :: l ∧ Starts c) (h : PartOK b m r out) : ∃ N, ∀ n, N ≤ n → ∀ name, Yields (oneOf n name) inp r out := by
  obtain ⟨j, hj⟩ := one_marked hm
  obtain ⟨r0, h1, h2, N, h⟩ := h
  refine ⟨N + j + 1, fun n hn name us => ?_⟩
  obtain ⟨us', e⟩ := h n (by omega) name .notARule us
  refine ⟨us', ?_⟩
  obtain ⟨c, l, rfl, hc⟩ := hs
  obtain ⟨p1, p2, p3, p4, p5⟩ := starts_plain hc
  obtain ⟨i, hi⟩ : ∃ i, n = i + 1 + j := ⟨n - 1 - j, by omega⟩
  unfold oneOf
  rw [show parseOneLoop (primary .notARule (parse n name) n name) n = parseOneLoop (primary .notARule (parse n name) n name) (i + 1 + j) by rw [← hi], hj,
    parseOneLoop, P.bind_apply]
  simp only [pPeek, peekR, List.headD]
  have hw : ¬ (c = 32 ∨ c = 10 ∨ c = 9 ∨ c = 13) := by
    intro hw
    have : isWhiteSpace c = true := by rcases hw with rfl | rfl | rfl | rfl <;> decide
    rw [this] at p2; cases p2
  rw [if_neg hw, if_neg p1, if_neg p3, P.bind_apply]
  rw [show primary .notARule (parse n name) n name c ⟨c :: l, us⟩ = .ok r0 ⟨out, us'⟩ from e]
  simp only [Bool.false_or]
  rw [annotated (marked_name hm) h1 h2]
  rfl

theorem choice_spaces {inp out : List Rune} (hw : Spaces inp out) : ∃ j, ∀ (one : P Rule) k groups rules us,
    choiceParse one (k + j) groups rules ⟨inp, us⟩ = choiceParse one k groups rules ⟨out, us⟩ := by
  obtain ⟨w, rfl, hw⟩ := hw
  induction w with
  | nil => exact ⟨0, fun _ _ _ _ _ => rfl⟩
  | cons c w ih =>
    obtain ⟨j, ih⟩ := ih (fun x hx => hw x (List.mem_cons_of_mem _ hx))
    have hc := hw c List.mem_cons_self
    refine ⟨j + 1, fun one k groups rules us => ?_⟩
    rw [← Nat.add_assoc, choiceParse, P.bind_apply]
    simp only [pPeek, peekR, List.cons_append, List.headD]
    rw [if_pos hc, P.bind_apply]
    exact ih one k groups rules us

theorem alts_nil_ok {inp out : List Rune} (hw : Spaces inp out) (h0 : out.head? ≠ some 32) (h1 : out.head? ≠ some 124) (h2 : out.head? ≠ some 62) :
    AltsOK inp [] out := by
  obtain ⟨j, hj⟩ := choice_spaces hw
  refine ⟨j + 1, fun n _ k hk name groups rules _ us => ⟨us, ?_⟩⟩
  obtain ⟨i, rfl⟩ : ∃ i, k = i + 1 + j := ⟨k - 1 - j, by omega⟩
  rw [hj, choiceParse, P.bind_apply]
  simp only [pPeek]
  rw [if_neg (head_peek h0 (by decide)), if_neg (show ¬ peekR out = ch '|' from head_peek h1 (by decide)),
    if_neg (show ¬ peekR out = ch '>' from head_peek h2 (by decide))]
  rfl

theorem alts_cons_ok {inp : List Rune} {op : Rune} {m : List Rune} {r : Rule} {m2 : List Rune} {alts : List (Rune × Rule)} {out : List Rune}
    (hw : Spaces inp (op :: m)) (ho : op = 124 ∨ op = 62) (h : ∃ N, ∀ n, N ≤ n → ∀ name, Yields (oneOf n name) m r m2) (ha : AltsOK m2 alts out) :
    AltsOK inp ((op, r) :: alts) out := by
  obtain ⟨j, hj⟩ := choice_spaces hw
  obtain ⟨N1, h⟩ := h
  obtain ⟨N2, ha⟩ := ha
  refine ⟨N1 + N2 + j + 1, fun n hn k hk name groups rules hr us => ?_⟩
  obtain ⟨i, rfl⟩ : ∃ i, k = i + 1 + j := ⟨k - 1 - j, by omega⟩
  rw [hj]
  revert us
  show Yields (choiceParse (oneOf n name) (i + 1) groups rules) (op :: m) _ out
  refine .bind (.peek _) ?_
  rcases ho with rfl | rfl
  · refine .neg (by simp [peekR]) (.pos rfl (.bind (.next _ _) (.bind (h n (by omega) name) ?_)))
    rw [grouped, if_neg (by decide)]
    exact ha n (by omega) i (by omega) name groups (rules ++ [r]) (by simp)
  · refine .neg (by simp [peekR]) (.neg (by simp [peekR, ch]) (.pos rfl (.neg ?_ (.bind (.next _ _) (.bind (h n (by omega) name) ?_)))))
    · intro h0; exact hr (List.length_eq_zero_iff.1 h0)
    · rw [grouped, if_pos rfl]
      have := ha n (by omega) i (by omega) name (groups ++ [rules]) [r] (by simp)
      rwa [List.append_assoc] at this

theorem alternatives_ne {op : Rune} {m : List Rune} {alts : List (Rune × Rule)} {out : List Rune} (ho : op = 124 ∨ op = 62)
    (h : Alternatives (op :: m) alts out) : alts ≠ [] := by
  cases h with
  | cons => simp
  | nil hw h0 h1 h2 =>
    obtain ⟨w, e, hw⟩ := hw
    cases w with
    | nil =>
      rw [List.nil_append] at e
      rw [← e] at h1 h2
      rcases ho with rfl | rfl
      · exact absurd rfl h1
      · exact absurd rfl h2
    | cons x w =>
      have := hw x List.mem_cons_self
      cases e
      rcases ho with h | h <;> rw [h] at this <;> cases this

theorem grouped_length (g : List Rule) (alts : List (Rune × Rule)) :
    1 ≤ (grouped g alts).length ∧ ((grouped g alts).length = 1 → ((grouped g alts).headD []).length = g.length + alts.length) := by
  induction alts generalizing g with
  | nil => exact ⟨Nat.le_refl _, fun _ => rfl⟩
  | cons a alts ih =>
    obtain ⟨op, r⟩ := a
    rw [grouped]
    split
    · have := (ih [r]).1
      refine ⟨by simp, fun h => ?_⟩
      simp only [List.length_cons] at h
      omega
    · have := ih (g ++ [r])
      refine ⟨this.1, fun h => ?_⟩
      rw [this.2 h]
      simp only [List.length_append, List.length_cons, List.length_nil]
      omega

theorem choice_step {terms : List Rune} (hg : GoodTerms terms) {inp : List Rune} {r : Rule} {b : RuleBase} {op : Rune} {m1 : List Rune}
    {alts : List (Rune × Rule)} {m2 : List Rune} (hm : Flagged (Between terms) inp b (op :: m1)) (ho : op = 124 ∨ op = 62) (hop : op ∉ terms)
    (hne : alts ≠ []) (ha : AltsOK (op :: m1) alts m2) : LoopStep terms [r] inp [.choice b (grouped [r] alts)] m2 := by
  obtain ⟨j, hj⟩ := loop_marked hg hm
  obtain ⟨N, ha⟩ := ha
  refine ⟨N, 1 + j, fun n hn k hk name init us => ?_⟩
  obtain ⟨us', e⟩ := ha n hn k hk name [] [r] (by simp) us
  refine ⟨us', ?_⟩
  rw [← Nat.add_assoc, hj, parseLoop_cons _ _ _ _ _ _ _ _ (by rcases ho with rfl | rfl <;> decide) hop, if_neg (by rcases ho with rfl | rfl <;> decide),
    if_neg (by rcases ho with rfl | rfl <;> decide), if_pos (show op = ch '|' ∨ op = ch '>' from ho)]
  rw [List.getLast?_concat]
  simp only
  rw [P.bind_apply, inChoice, P.bind_apply, e]
  simp only [List.nil_append]
  have hl := grouped_length [r] alts
  have : alts.length ≠ 0 := fun h => hne (List.length_eq_zero_iff.1 h)
  rw [if_neg (by
    rintro (h | ⟨h1, h2⟩)
    · omega
    · have := hl.2 h1
      simp only [List.length_cons, List.length_nil] at this
      omega)]
  show parseLoop _ _ terms k _ false false false ⟨m2, us'⟩ = _
  rw [List.dropLast_concat]
  simp only [Bool.false_or]
  rw [annotated (b := b) (r := .choice b (grouped [r] alts)) (marked_name hm) (r0 := .choice {} (grouped [r] alts)) rfl rfl]

theorem finish_ok {terms : List Rune} (hg : GoodTerms terms) {inp out : List Rune} (h : Finish terms inp out) :
    ∃ N, ∀ n, N ≤ n → ∀ (prim : Rune → P Rule) (one : P Rule) rules us, parseLoop prim one terms n rules false false false ⟨inp, us⟩ = finish rules ⟨out, us⟩ := by
  have hcomment : ∀ (c l : List Rune) b, Flagged (Between terms) inp b (47 :: 47 :: l) → (l.dropWhile (fun c => !(c == newline))).tail = out →
      ∃ N, ∀ n, N ≤ n → ∀ (prim : Rune → P Rule) (one : P Rule) rules us, parseLoop prim one terms n rules false false false ⟨inp, us⟩ = finish rules ⟨out, us⟩ := by
    intro c l b hm hl
    obtain ⟨j, hj⟩ := loop_marked hg hm
    refine ⟨j + 1, fun n hn prim one rules us => ?_⟩
    obtain ⟨i, rfl⟩ : ∃ i, n = i + 1 + j := ⟨n - 1 - j, by omega⟩
    rw [hj, parseLoop_cons _ _ _ _ _ _ _ _ (by decide) (fun h => (hg _ h).2.2 rfl), if_neg (by decide), if_neg (by decide), if_neg (by decide), if_pos (by decide)]
    show finish rules ⟨(l.dropWhile (fun c => !(c == newline))).tail, us⟩ = _
    rw [hl]
  cases h with
  | ended hm h0 =>
    obtain ⟨j, hj⟩ := loop_marked hg hm
    refine ⟨j + 1, fun n hn prim one rules us => ?_⟩
    obtain ⟨i, rfl⟩ : ∃ i, n = i + 1 + j := ⟨n - 1 - j, by omega⟩
    rw [hj, parseLoop, P.bind_apply]
    simp only [pPeek]
    rw [if_pos]
    rcases h0 with rfl | h0
    · rfl
    · cases out with
      | nil => rfl
      | cons x l => cases h0; rfl
  | @term b t l hm ht =>
    obtain ⟨j, hj⟩ := loop_marked hg hm
    refine ⟨j + 1, fun n hn prim one rules us => ?_⟩
    obtain ⟨i, rfl⟩ : ∃ i, n = i + 1 + j := ⟨n - 1 - j, by omega⟩
    rw [hj, parseLoop, P.bind_apply]
    simp only [pPeek, peekR, List.headD]
    by_cases h0 : t = EOFChar
    · rw [if_pos h0]
    · rw [if_neg h0, if_pos (by simpa using ht)]
  | @comment b c l hm hc =>
    refine hcomment c (c ++ 10 :: out) b hm ?_
    rw [List.dropWhile_append_of_pos (p := fun c : Rune => !(c == newline)) (fun x hx => by
      have : x ≠ newline := by rintro rfl; exact hc hx
      simpa using this), List.dropWhile_cons_of_neg (by decide)]
    rfl
  | @lastComment b c hm hc =>
    refine hcomment c _ b hm ?_
    have := List.dropWhile_append_of_pos (p := fun c : Rune => !(c == newline)) (l₁ := c) (l₂ := []) (fun x hx => by
      have : x ≠ newline := by rintro rfl; exact hc hx
      simpa using this)
    rw [List.append_nil] at this
    rw [this]
    rfl

theorem marked_skip {ws : Rune → Prop} (hws : ∀ c, ws c → isWhiteSpace c = true) {inp m : List Rune} {b : RuleBase} (h : Flagged ws inp b m)
    (hm : ∃ c l, m = c :: l ∧ Starts c) : Flagged ws (skipR inp) b m := by
  induction h with
  | none =>
    obtain ⟨c, l, rfl, hc⟩ := hm
    rw [skip_cons (starts_plain hc).2.1]
    exact .none
  | @white c l b out hc _ ih =>
    rw [show skipR (c :: l) = skipR l from List.dropWhile_cons_of_pos (hws _ hc)]
    exact ih hm
  | token h hb _ => rw [skip_cons (by decide)]; exact .token h hb
  | nondata h hb _ => rw [skip_cons (by decide)]; exact .nondata h hb
  | virt h hb _ => rw [skip_cons (by decide)]; exact .virt h hb

theorem def_of_parts {terms : List Rune} (hg : GoodTerms terms) {inp m : List Rune} {rs : List Rule} {m2 out : List Rune} {r : Rule} (hw : Blank inp m)
    (h : LoopStep terms [] (skipR m) rs m2) (hf : Finish terms m2 out) (hmade : ∀ st, finish rs st = .ok r st) : DefOK terms inp r out := by
  obtain ⟨N1, j, h⟩ := h
  obtain ⟨N2, hf⟩ := finish_ok hg hf
  refine ⟨N1 + N2 + j + 1, fun n hn name us => ?_⟩
  obtain ⟨k, rfl⟩ : ∃ k, n = k + j + 1 := ⟨n - 1 - j, by omega⟩
  obtain ⟨us', e⟩ := h (k + j) (by omega) k (by omega) name [] us
  refine ⟨us', ?_⟩
  rw [parse, P.bind_apply]
  simp only [pSkip]
  rw [skip_blank hw]
  refine e.trans ?_
  rw [hf k (by omega), List.nil_append, hmade]

theorem finish_many {rs : List Rule} (h : 2 ≤ rs.length) (st : PState) : finish rs st = .ok (.concat {} rs) st := by
  match rs, h with
  | _ :: _ :: _, _ => rfl

theorem parts_cons_ok {terms : List Rune} (hg : GoodTerms terms) {inp m1 : List Rune} {b : RuleBase} {r r' : Rule} {m2 m3 : List Rune} {rs : List Rule} {out : List Rune}
    (hm : Flagged (Between terms) inp b m1) (hst : ∃ c l, m1 = c :: l ∧ Starts c) (hs : PartOK b m1 r m2)
    (ht : LoopStep terms [r] m2 [r'] m3) (hp : LoopStep terms [] m3 rs out) : LoopStep terms [] inp (r' :: rs) out :=
  (part_step hg hm hst hs).trans (ht.trans (hp.frame [r']))

mutual
theorem simple_ok : ∀ {b : RuleBase} {inp : List Rune} {r : Rule} {out : List Rune}, Simple b inp r out → PartOK b inp r out
  | _, _, _, _, .char (src := src) h hd => ⟨_, rfl, rfl, src.length + 1, fun _ hn _ _ => char_yields h hd hn⟩
  | _, _, _, _, .chars (src := src) h h2 => ⟨_, rfl, rfl, src.length + 1, fun _ hn _ _ => chars_yields h h2 hn⟩
  | _, _, _, _, .charRange (src := src) h he => ⟨_, rfl, rfl, src.length + 1, fun _ hn _ _ => charRange_yields h he hn⟩
  | _, _, _, _, .code h hd => ⟨_, rfl, rfl, 0, fun _ _ _ _ => code_yields h hd⟩
  | _, _, _, _, .codeRange h he => ⟨_, rfl, rfl, 0, fun _ _ _ _ => codeRange_yields h he⟩
  | _, _, _, _, .string (src := src) h => ⟨_, rfl, rfl, src.length + 1, fun _ hn _ _ us => ⟨us, inString_eq h hn _ us⟩⟩
  | _, _, _, _, .eof h => eof_ok h
  | _, _, _, _, .ref h hn => ref_ok h hn
  | _, _, _, _, .group h => group_ok (def_ok h (good_close (.inl rfl)))
  | _, _, _, _, .option h => option_ok (def_ok h (good_close (.inr (.inl rfl))))
  | _, _, _, _, .rep h hs => rep_ok (def_ok h (good_close (.inr (.inr rfl)))) hs
  | _, _, _, _, .block ho hw hc hw' he => block_ok (def_ok ho good_block.1) hw (def_starts hc) (def_ok hc good_block.1) hw' he
  | _, _, _, _, .blockExcludes ho hx hne hc he =>
    blockExcludes_ok (def_ok ho good_block.1) (excludes_ok hx (def_starts hc)) (by
      obtain ⟨d, l', h1, _, _, h2⟩ := excludes_starts hx (def_starts hc)
      rw [h2 hne] at h1
      exact ⟨l', h1⟩) (def_ok hc good_block.2) he
  | _, _, _, _, .blockEscape ho hw hes hx hc he =>
    blockEscape_ok (def_ok ho good_block.1) hw (def_starts hes) (def_ok hes good_block.1) (excludes_ok hx (def_starts hc)) (by
      obtain ⟨d, l', h1, h2, h3, _⟩ := excludes_starts hx (def_starts hc)
      exact ⟨d, l', h1, h2, h3⟩) (def_ok hc good_block.2) he
theorem excludes_ok : ∀ {inp : List Rune} {xs : List Rule} {out : List Rune}, Excludes inp xs out →
    (∃ d l', skipR out = d :: l' ∧ (Mark d ∨ Starts d)) → ExcludesOK inp xs out
  | _, _, _, .nil hw, hd => excludes_nil_ok hw hd
  | _, _, _, .cons hw h hs, hd => excludes_cons_ok hw (def_ok h good_block.1) (excludes_ok hs hd)
theorem def_ok : ∀ {terms inp : List Rune} {r : Rule} {out : List Rune}, Definition terms inp r out → GoodTerms terms → DefOK terms inp r out
  | _, _, _, _, .one hw (.cons hm hs ht .nil) hf, hg =>
    def_of_parts hg hw (parts_cons_ok hg (marked_skip (fun _ h => h.1) hm (simple_starts hs)) (simple_starts hs) (simple_ok hs) (choices_ok ht hg)
      (LoopStep.refl _ _ _)) hf (fun _ => rfl)
  | _, _, _, _, .several hw (.cons hm hs ht hp) h2 hf, hg =>
    def_of_parts hg hw (parts_cons_ok hg (marked_skip (fun _ h => h.1) hm (simple_starts hs)) (simple_starts hs) (simple_ok hs) (choices_ok ht hg)
      (parts_ok hp hg)) hf (finish_many h2)
theorem parts_ok : ∀ {terms inp : List Rune} {rs : List Rule} {out : List Rune}, Parts terms inp rs out → GoodTerms terms → LoopStep terms [] inp rs out
  | _, _, _, _, .nil, _ => LoopStep.refl _ _ _
  | _, _, _, _, .cons hm hs ht hp, hg => parts_cons_ok hg hm (simple_starts hs) (simple_ok hs) (choices_ok ht hg) (parts_ok hp hg)
theorem choices_ok : ∀ {terms : List Rune} {r : Rule} {inp : List Rune} {r' : Rule} {out : List Rune}, Choices terms r inp r' out → GoodTerms terms →
    LoopStep terms [r] inp [r'] out
  | _, _, _, _, _, .nil, _ => LoopStep.refl _ _ _
  | _, _, _, _, _, .cons hm ho hop ha ht, hg => (choice_step hg hm ho hop (alternatives_ne ho ha) (alts_ok ha)).trans (choices_ok ht hg)
theorem alts_ok : ∀ {inp : List Rune} {alts : List (Rune × Rule)} {out : List Rune}, Alternatives inp alts out → AltsOK inp alts out
  | _, _, _, .nil hw h0 h1 h2 => alts_nil_ok hw h0 h1 h2
  | _, _, _, .cons hw ho hm hs ha => alts_cons_ok hw ho (one_ok hm (simple_starts hs) (simple_ok hs)) (alts_ok ha)
end

end Xbnf.Props
