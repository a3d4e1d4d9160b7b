import Verif.Lemmas.Position
/-
Properties C01-C08: streams of characters.
-/
namespace Xbnf.Props
open Spec

/-- One call on a stream of the model: the answer, and the stream after it. -/
def call (c : Call) (s : Stream) : Answer × Stream :=
  match c with
  | .next => (.rune s.next.1, s.next.2)
  | .peek => (.rune s.peek, s)
  | .skipSpaces => (.chars s.skipSpaces.1, s.skipSpaces.2)
  | .matchText t => (.matched (s.matchRunes t).1 (s.matchRunes t).2.1, (s.matchRunes t).2.2)
  | .cursor => (.number s.cursor, s)
  | .position => (.pos s.position.1, s.position.2)
  | .lookup i => (.pos (s.positionLookup i), s)

/-- A history of calls: the answers in order, and the stream after them. -/
def run : List Call → Stream → List Answer × Stream
  | [], s => ([], s)
  | c :: cs, s =>
    let r := call c s
    let r' := run cs r.2
    (r.1 :: r'.1, r'.2)

/-- The streams a program can get hold of: a stream over a text (code points, so never EOFChar),
a stream after any call, and a stream with characters pushed back on it. -/
inductive Built : Stream → Prop
  | ofChars (text : List Rune) : Valid text → Built (Stream.ofChars text)
  | call (s : Stream) (c : Call) : Built s → Built (call c s).2
  | pushBack (s : Stream) (p : List Rune) : Valid p → Built s → Built (s.pushBack p)

/-- Number of characters a call takes when `left` is left. -/
def taken (c : Call) (left : List Rune) : Nat := left.length - (readList c left).2.length

theorem read_suffix (c : Call) (left : List Rune) :
    (readList c left).2 = left.drop (taken c left) := by
  unfold taken
  cases c with
  | next => cases left <;> simp [readList]
  | peek => simp [readList]
  | cursor => simp [readList]
  | position => simp [readList]
  | lookup => simp [readList]
  | skipSpaces =>
    simp only [readList]
    have h : left = left.takeWhile isWhiteSpace ++ left.dropWhile isWhiteSpace :=
      List.takeWhile_append_dropWhile.symm
    have hl : left.length - (left.dropWhile isWhiteSpace).length =
        (left.takeWhile isWhiteSpace).length := by
      have := congrArg List.length h
      rw [List.length_append] at this; omega
    rw [hl, drop_takeWhile_length]
  | matchText t =>
    simp only [readList]
    have key : ∀ n, left.drop n = left.drop (left.length - (left.drop n).length) := by
      intro n
      rw [List.length_drop]
      by_cases hn : n ≤ left.length
      · congr 1; omega
      · rw [List.drop_eq_nil_of_le (by omega), List.drop_eq_nil_of_le (by omega)]
    split <;> exact key _

theorem matchL_fail (t l : List Rune) (h : ¬ t <+: l) :
    (matchL t l).1 = l.take ((commonPrefix t l).length + 1) := by
  induction t generalizing l with
  | nil => exact absurd List.nil_prefix h
  | cons w ws ih =>
    cases l with
    | nil => simp [matchL]
    | cons c l =>
      simp only [matchL, commonPrefix]
      by_cases hw : c = w
      · subst hw
        have : ¬ ws <+: l := fun e => h (by simpa using e)
        simp [ih l this]
      · have : w ≠ c := fun e => hw e.symm
        simp [hw, this]

/-- One call on the model is one call on the list of characters left. -/
theorem call_refines (c : Call) (s : Stream) (h : s.WF) (hv : Valid s.rem) :
    (∀ a, (readList c s.rem).1 = some a → (call c s).1 = a) ∧
      Adv (taken c s.rem) s (call c s).2 := by
  cases c with
  | next =>
    have hn := s.next_spec h
    refine ⟨?_, ?_⟩
    · intro a ha
      simp only [readList, Option.some.injEq] at ha
      simp only [call, hn.1, ha]
    · have : taken .next s.rem = if s.rem = [] then 0 else 1 := by
        unfold taken; cases s.rem <;> simp [readList]
      rw [this]; exact hn.2
  | peek =>
    refine ⟨?_, ?_⟩
    · intro a ha
      simp only [readList, Option.some.injEq] at ha
      simp only [call, s.peek_rem h, ha]
    · have : taken .peek s.rem = 0 := by unfold taken; simp [readList]
      rw [this]; exact Adv.refl h
  | skipSpaces =>
    have hs := s.skipSpaces_spec h
    refine ⟨?_, ?_⟩
    · intro a ha
      simp only [readList, Option.some.injEq] at ha
      simp only [call, hs.1, ha]
    · have : taken .skipSpaces s.rem = (s.rem.takeWhile isWhiteSpace).length := by
        unfold taken
        simp only [readList]
        have h := congrArg List.length
          (List.takeWhile_append_dropWhile (p := isWhiteSpace) (l := s.rem))
        rw [List.length_append] at h; omega
      rw [this]; exact hs.2
  | matchText t =>
    obtain ⟨h1, h2, h3⟩ := s.matchRunes_spec t h hv
    have hpre := matchL_prefix t s.rem
    refine ⟨?_, ?_⟩
    · intro a ha
      simp only [call, h1, h2]
      simp only [readList] at ha
      split at ha
      · next hp =>
        have hp' : t <+: s.rem := List.isPrefixOf_iff_prefix.mp hp
        simp only [Option.some.injEq] at ha
        rw [matchL_read_ok t s.rem hp', (matchL_ok t s.rem).mpr hp', ha]
      · next hp =>
        have hp' : ¬ t <+: s.rem := fun e => hp (List.isPrefixOf_iff_prefix.mpr e)
        simp only [Option.some.injEq] at ha
        have : (matchL t s.rem).2 = false := by
          cases hm : (matchL t s.rem).2 with
          | false => rfl
          | true => exact absurd ((matchL_ok t s.rem).mp hm) hp'
        rw [matchL_fail t s.rem hp', this, ha]
    · have : taken (.matchText t) s.rem = (matchL t s.rem).1.length := by
        unfold taken
        simp only [readList]
        split
        · next hp =>
          have hp' : t <+: s.rem := List.isPrefixOf_iff_prefix.mp hp
          rw [matchL_read_ok t s.rem hp', List.length_drop]
          have := hp'.length_le; omega
        · next hp =>
          have hp' : ¬ t <+: s.rem := fun e => hp (List.isPrefixOf_iff_prefix.mpr e)
          rw [matchL_fail t s.rem hp', List.length_drop, List.length_take]
          omega
      rw [this]; exact h3
  | cursor =>
    refine ⟨by intro a ha; simp [readList] at ha, ?_⟩
    have : taken .cursor s.rem = 0 := by unfold taken; simp [readList]
    rw [this]; exact Adv.refl h
  | position =>
    refine ⟨by intro a ha; simp [readList] at ha, ?_⟩
    have : taken .position s.rem = 0 := by unfold taken; simp [readList]
    rw [this]; exact Stream.position_adv h
  | lookup i =>
    refine ⟨by intro a ha; simp [readList] at ha, ?_⟩
    have : taken (.lookup i) s.rem = 0 := by unfold taken; simp [readList]
    rw [this]; exact Adv.refl h

theorem call_rem (c : Call) (s : Stream) (h : s.WF) (hv : Valid s.rem) :
    (call c s).2.rem = (readList c s.rem).2 := by
  rw [(call_refines c s h hv).2.rem, read_suffix]

theorem Built.ok {s : Stream} (h : Built s) : s.WF ∧ Valid s.rem ∧ s.LinesOK := by
  induction h with
  | ofChars text hv =>
    exact ⟨Nat.zero_le _, by simpa [Stream.ofChars, Stream.rem, Base.ofChars] using hv,
      Base.linesOK_ofChars text⟩
  | call s c hs ih =>
    have := (call_refines c s ih.1 ih.2.1).2
    refine ⟨this.wf.2, ?_, this.linesOK ih.2.2⟩
    rw [this.rem]; exact ih.2.1.drop _
  | pushBack s p hp hs ih =>
    refine ⟨Stream.wf_pushBack ih.1 p, ?_, (Stream.linesOK_pushBack s p).mpr ih.2.2⟩
    rw [Stream.rem_pushBack]; exact hp.append ih.2.1

theorem Built.run {s : Stream} (h : Built s) (cs : List Call) : Built (run cs s).2 := by
  induction cs generalizing s with
  | nil => exact h
  | cons c cs ih => exact ih (h.call s c)

/-- The specification of a whole history. -/
def readAll : List Call → List Rune → List (Option Answer) × List Rune
  | [], left => ([], left)
  | c :: cs, left =>
    let r := readList c left
    let r' := readAll cs r.2
    (r.1 :: r'.1, r'.2)

/-- An answer agrees with the specification where that says something. -/
def Agree : List Answer → List (Option Answer) → Prop
  | [], [] => True
  | a :: as, o :: os => (∀ x, o = some x → a = x) ∧ Agree as os
  | _, _ => False

theorem run_refines (cs : List Call) (s : Stream) (h : s.WF) (hv : Valid s.rem) :
    Agree (run cs s).1 (readAll cs s.rem).1 ∧ (run cs s).2.rem = (readAll cs s.rem).2 := by
  induction cs generalizing s with
  | nil => exact ⟨trivial, rfl⟩
  | cons c cs ih =>
    have h1 := call_refines c s h hv
    have h2 := call_rem c s h hv
    have := ih (call c s).2 h1.2.wf.2 (by rw [h1.2.rem]; exact hv.drop _)
    rw [h2] at this
    exact ⟨⟨h1.1, this.1⟩, this.2⟩

/-! ## C05 (and the general form of C01-C04)

Every history of calls on every stream, with characters pushed back at any depth, answers like
reading from the list of characters left; pushing `p` back puts `p` before what was left. -/

theorem C05_stream_is_list {s : Stream} (h : Built s) (cs : List Call) :
    Agree (run cs s).1 (readAll cs s.rem).1 ∧ (run cs s).2.rem = (readAll cs s.rem).2 :=
  run_refines cs s h.ok.1 h.ok.2.1

theorem C05_pushed_back_first {s : Stream} (h : Built s) (p : List Rune) (hp : Valid p)
    (cs : List Call) :
    Agree (run cs (s.pushBack p)).1 (readAll cs (p ++ s.rem)).1 ∧
      (run cs (s.pushBack p)).2.rem = (readAll cs (p ++ s.rem)).2 := by
  have := C05_stream_is_list (h.pushBack s p hp) cs
  rwa [Stream.rem_pushBack] at this

/-- Non-vacuity: two layers of push-back over a half-read text. -/
example : (run [.next, .matchText [7, 1], .skipSpaces, .next]
    (((run [.next, .next] (Stream.ofChars [1, 2, 32, 4])).2.pushBack [7, 1]).pushBack [9])).1 =
    [.rune 9, .matched [7, 1] true, .chars [32], .rune 4] := by decide

theorem next_untouched {p c u p' c' u'} (h : (Stream.pre p c u).next.2 = .pre p' c' u')
    (hc : c' < p.length) : p' = p ∧ c ≤ c' ∧ u' = u := by
  simp only [Stream.next] at h
  split at h
  · cases h; exact ⟨rfl, by omega, rfl⟩
  · cases h; omega

theorem call_pre (c : Call) (p : List Rune) (k : Nat) (u : Stream) :
    ∃ k' u', (call c (.pre p k u)).2 = .pre p k' u' ∧ k ≤ k' ∧ (k' < p.length → u' = u) := by
  have hnext : ∀ k u, ∃ k' u', (Stream.pre p k u).next.2 = .pre p k' u' ∧ k ≤ k' ∧
      (k' < p.length → u' = u) := by
    intro k u
    simp only [Stream.next]
    split
    · exact ⟨k + 1, u, rfl, by omega, fun _ => rfl⟩
    · exact ⟨k, u.next.2, rfl, Nat.le_refl _, fun h => by omega⟩
  have hskip : ∀ n k u, ∃ k' u', (Stream.skipLoop n (Stream.pre p k u)).2 = .pre p k' u' ∧
      k ≤ k' ∧ (k' < p.length → u' = u) := by
    intro n
    induction n with
    | zero => intro k u; exact ⟨k, u, rfl, Nat.le_refl _, fun _ => rfl⟩
    | succ n ih =>
      intro k u
      simp only [Stream.skipLoop]
      split
      · exact ⟨k, u, rfl, Nat.le_refl _, fun _ => rfl⟩
      · split
        · exact ⟨k, u, rfl, Nat.le_refl _, fun _ => rfl⟩
        · obtain ⟨k1, u1, h1, h2, h3⟩ := hnext k u
          obtain ⟨k2, u2, g1, g2, g3⟩ := ih k1 u1
          rw [h1]
          exact ⟨k2, u2, g1, by omega, fun h => by rw [g3 h, h3 (by omega)]⟩
  have hmatch : ∀ (t : List Rune) k u, ∃ k' u', (Stream.matchRunes t (Stream.pre p k u)).2.2 = .pre p k' u' ∧
      k ≤ k' ∧ (k' < p.length → u' = u) := by
    intro t
    induction t with
    | nil => intro k u; exact ⟨k, u, rfl, Nat.le_refl _, fun _ => rfl⟩
    | cons w ws ih =>
      intro k u
      obtain ⟨k1, u1, h1, h2, h3⟩ := hnext k u
      simp only [Stream.matchRunes]
      split
      · exact ⟨k1, u1, h1, h2, h3⟩
      · split
        · exact ⟨k1, u1, h1, h2, h3⟩
        · obtain ⟨k2, u2, g1, g2, g3⟩ := ih k1 u1
          rw [h1]
          exact ⟨k2, u2, g1, by omega, fun h => by rw [g3 h, h3 (by omega)]⟩
  cases c with
  | next => exact hnext k u
  | peek => exact ⟨k, u, rfl, Nat.le_refl _, fun _ => rfl⟩
  | skipSpaces => exact hskip _ k u
  | matchText t => exact hmatch t k u
  | cursor => exact ⟨k, u, rfl, Nat.le_refl _, fun _ => rfl⟩
  | lookup i => exact ⟨k, u, rfl, Nat.le_refl _, fun _ => rfl⟩
  | position =>
    simp only [call, Stream.position]
    split
    · exact ⟨k, u.position.2, rfl, Nat.le_refl _, fun h => by omega⟩
    · exact ⟨k, u, rfl, Nat.le_refl _, fun _ => rfl⟩

/-- As long as a pushed-back character is unread, no call has touched the stream below. -/
theorem C05_below_untouched (cs : List Call) (p : List Rune) (k : Nat) (u : Stream) :
    ∃ k' u', (run cs (.pre p k u)).2 = .pre p k' u' ∧ k ≤ k' ∧ (k' < p.length → u' = u) := by
  induction cs generalizing k u with
  | nil => exact ⟨k, u, rfl, Nat.le_refl _, fun _ => rfl⟩
  | cons c cs ih =>
    obtain ⟨k1, u1, h1, h2, h3⟩ := call_pre c p k u
    obtain ⟨k2, u2, g1, g2, g3⟩ := ih k1 u1
    refine ⟨k2, u2, ?_, by omega, fun h => by rw [g3 h, h3 (by omega)]⟩
    simp only [run, h1, g1]

example : ∃ k', (run [.next, .position, .peek] (.pre [5, 6] 0 (Stream.ofChars [1]))).2 =
    .pre [5, 6] k' (Stream.ofChars [1]) ∧ k' < 2 := ⟨1, by decide, by decide⟩

/-! ## C01 -/

/-- The calls that do not consume. -/
def observing : Call → Bool
  | .peek | .cursor | .position | .lookup _ => true
  | _ => false

/-- The answers of the calls of `Next` in a history. -/
def nextAnswers : List Call → List Answer → List Answer
  | .next :: cs, a :: as => a :: nextAnswers cs as
  | _ :: cs, _ :: as => nextAnswers cs as
  | _, _ => []

theorem readAll_next (cs : List Call) (hcs : ∀ c ∈ cs, c = .next ∨ observing c = true)
    (as : List Answer) (left : List Rune) (h : Agree as (readAll cs left).1) :
    nextAnswers cs as = (List.range (cs.count .next)).map
      (fun k => Answer.rune (left.getD k EOFChar)) := by
  induction cs generalizing as left with
  | nil => cases as <;> rfl
  | cons c cs ih =>
    cases as with
    | nil => exact h.elim
    | cons a as =>
      obtain ⟨h1, h2⟩ := h
      have hcs' : ∀ c ∈ cs, c = .next ∨ observing c = true :=
        fun c hc => hcs c (List.mem_cons_of_mem _ hc)
      rcases hcs c (by simp) with rfl | ho
      · have := ih hcs' as _ h2
        simp only [nextAnswers, List.count_cons_self, List.range_succ_eq_map, List.map_cons,
          List.map_map, this]
        congr 1
        · have := h1 (.rune (left.headD EOFChar)) (by simp [readList])
          rw [this]; cases left <;> rfl
        · apply List.map_congr_left
          intro k _
          cases left <;> simp [readList]
      · have hne : c ≠ .next := by rintro rfl; simp [observing] at ho
        have hl : (readList c left).2 = left := by cases c <;> simp [observing] at ho <;> rfl
        have hn : nextAnswers (c :: cs) (a :: as) = nextAnswers cs as := by
          cases c <;> first | (exact absurd rfl hne) | rfl
        rw [hn, List.count_cons_of_ne hne]
        exact ih hcs' as left (by simpa only [readAll, hl] using h2)

/-- Over any text, whatever observing calls are mixed in, the `k`-th `Next` (from 0) returns the
`k`-th code point of the text, and EOFChar from the end on. -/
theorem C01_next_reads_text (text : List Rune) (hv : Valid text) (cs : List Call)
    (hcs : ∀ c ∈ cs, c = .next ∨ observing c = true) :
    nextAnswers cs (run cs (Stream.ofChars text)).1 =
      (List.range (cs.count .next)).map (fun k => Answer.rune (text.getD k EOFChar)) := by
  have := C05_stream_is_list (Built.ofChars text hv) cs
  have hr : (Stream.ofChars text).rem = text := by simp [Stream.ofChars, Stream.rem, Base.ofChars]
  rw [hr] at this
  exact readAll_next cs hcs _ _ this.1

example : nextAnswers [.next, .peek, .position, .next, .next, .lookup 1, .next]
    (run [.next, .peek, .position, .next, .next, .lookup 1, .next] (Stream.ofChars [97, 10])).1 =
    [.rune 97, .rune 10, .rune (-1), .rune (-1)] := by decide

/-! ## C02 -/

/-- `Peek` returns what `Next` will return. -/
theorem C02_peek_is_next {s : Stream} (h : Built s) : s.peek = s.next.1 := by
  rw [s.peek_rem h.ok.1, (s.next_spec h.ok.1).1]

/-- `Peek`, `Cursor` and `PositionLookup` leave the stream exactly as it is. -/
theorem C02_observers_pure (s : Stream) (i : Int) :
    (call .peek s).2 = s ∧ (call .cursor s).2 = s ∧ (call (.lookup i) s).2 = s :=
  ⟨rfl, rfl, rfl⟩

/-- After an observing call, every later history reads as the specification says it would have read
without that call. -/
theorem C02_observers_do_not_disturb {s : Stream} (h : Built s) (o : Call)
    (ho : observing o = true) (cs : List Call) :
    Agree (run cs (call o s).2).1 (readAll cs s.rem).1 ∧
      (run cs (call o s).2).2.rem = (run cs s).2.rem := by
  have h1 := C05_stream_is_list (h.call s o) cs
  have h2 := C05_stream_is_list h cs
  have hr : (call o s).2.rem = s.rem := by
    rw [call_rem o s h.ok.1 h.ok.2.1]
    cases o <;> simp [observing] at ho <;> rfl
  rw [hr] at h1
  exact ⟨h1.1, by rw [h1.2, h2.2]⟩

/-- `Position` on a text never changes what a later `Position` returns: see `C06`.  It does change
what `PositionLookup` returns (part of the defect described at `C07`). -/
theorem C02_position_changes_lookup :
    ∃ (text : List Rune) (n : Nat) (i : Int),
      let s := (run (List.replicate n .next) (Stream.ofChars text)).2
      (call .position s).2.positionLookup i ≠ s.positionLookup i :=
  ⟨[97, 98, 10], 2, 1, by decide⟩

/-! ## C03 -/

/-- `SkipSpaces` returns and consumes the white space at the cursor, as long as there is some. -/
theorem C03_skipSpaces {s : Stream} (h : Built s) :
    s.rem = s.skipSpaces.1 ++ s.skipSpaces.2.rem ∧
      (∀ c ∈ s.skipSpaces.1, isWhiteSpace c = true) ∧
      isWhiteSpace s.skipSpaces.2.peek = false := by
  have hs := s.skipSpaces_spec h.ok.1
  have hr : s.skipSpaces.2.rem = s.rem.dropWhile isWhiteSpace := by
    rw [hs.2.rem, drop_takeWhile_length]
  refine ⟨?_, ?_, ?_⟩
  · rw [hs.1, hr, List.takeWhile_append_dropWhile]
  · rw [hs.1]
    intro c hc
    exact mem_takeWhile_imp hc
  · rw [Stream.peek_rem hs.2.wf.2, hr]
    have := List.head?_dropWhile_not isWhiteSpace s.rem
    cases hd : s.rem.dropWhile isWhiteSpace with
    | nil => rfl
    | cons c l => rw [hd] at this; simpa using this

/-- White space is exactly the 25 characters of the table of space.go. -/
theorem C03_whitespace_table (c : Int) :
    isWhiteSpace c = true ↔
      (9 ≤ c ∧ c ≤ 13) ∨ c = 0x20 ∨ c = 0x85 ∨ c = 0xA0 ∨ c = 0x1680 ∨ (0x2000 ≤ c ∧ c ≤ 0x200A) ∨
        c = 0x2028 ∨ c = 0x2029 ∨ c = 0x202F ∨ c = 0x205F ∨ c = 0x3000 := by
  simp only [isWhiteSpace, whiteSpaceTable, List.contains_eq_mem, List.mem_cons, List.not_mem_nil,
    or_false, decide_eq_true_eq]
  unfold Rune
  omega

example : (((Stream.ofChars [9, 10, 65]).pushBack [32]).pushBack [160]).skipSpaces.1 =
    [160, 32, 9, 10] := by decide

/-! ## C04 -/

/-- `Match` succeeds exactly when the text is next; it then takes exactly the text. -/
theorem C04_match_iff {s : Stream} (h : Built s) (t : List Rune) :
    (s.matchRunes t).2.1 = true ↔ t <+: s.rem := by
  rw [(s.matchRunes_spec t h.ok.1 h.ok.2.1).2.1, matchL_ok]

theorem C04_match_reads {s : Stream} (h : Built s) (t : List Rune) :
    s.rem = (s.matchRunes t).1 ++ (s.matchRunes t).2.2.rem ∧
      ((s.matchRunes t).2.1 = true → (s.matchRunes t).1 = t) ∧
      ((s.matchRunes t).2.1 = false →
        (s.matchRunes t).1 = s.rem.take ((commonPrefix t s.rem).length + 1)) := by
  obtain ⟨h1, h2, h3⟩ := s.matchRunes_spec t h.ok.1 h.ok.2.1
  have hpre := matchL_prefix t s.rem
  refine ⟨?_, ?_, ?_⟩
  · rw [h1, h3.rem]
    obtain ⟨q, hq⟩ := hpre
    conv => lhs; rw [← hq]
    conv => rhs; arg 2; arg 2; rw [← hq]
    simp
  · intro ok
    rw [h1, matchL_read_ok t s.rem ((C04_match_iff h t).mp ok)]
  · intro hf
    rw [h1, matchL_fail]
    intro hp
    rw [(C04_match_iff h t).mpr hp] at hf
    cases hf

/-- The common prefix of the specification is a prefix of both, and the longest. -/
theorem C04_commonPrefix (a b : List Rune) :
    commonPrefix a b <+: a ∧ commonPrefix a b <+: b ∧
      ∀ q, q <+: a → q <+: b → q <+: commonPrefix a b := by
  induction a generalizing b with
  | nil => exact ⟨List.nil_prefix, List.nil_prefix, fun q hq _ => hq⟩
  | cons x a ih =>
    cases b with
    | nil => exact ⟨List.nil_prefix, List.nil_prefix, fun q _ hq => hq⟩
    | cons y b =>
      simp only [commonPrefix]
      split
      · next h =>
        subst h
        obtain ⟨h1, h2, h3⟩ := ih b
        refine ⟨by simpa using h1, by simpa using h2, ?_⟩
        intro q hq hq'
        cases q with
        | nil => exact List.nil_prefix
        | cons z q =>
          rw [List.cons_prefix_cons] at hq hq'
          rw [List.cons_prefix_cons]
          exact ⟨hq.1, h3 q hq.2 hq'.2⟩
      · next h =>
        refine ⟨List.nil_prefix, List.nil_prefix, ?_⟩
        intro q hq hq'
        cases q with
        | nil => exact List.nil_prefix
        | cons z q =>
          rw [List.cons_prefix_cons] at hq hq'
          exact absurd (hq.1.symm.trans hq'.1) h

example : (Stream.ofChars [97, 98, 99]).matchRunes [97, 98] =
      ([97, 98], true, .base ⟨[97, 98, 99], 2, [1]⟩) ∧
    ((Stream.ofChars [97, 120, 99]).matchRunes [97, 98]).1 = [97, 120] ∧
    ((Stream.ofChars [97]).matchRunes [97, 98]).1 = [97] := by decide

/-! ## C08 -/

theorem Adv.cursor {k : Nat} {s s' : Stream} (h : Adv k s s') : s'.cursor = s.cursor + k := by
  induction s generalizing k s' with
  | base b =>
    match s', h with
    | .base b', h =>
      simp only [Stream.cursor, h.2.1]; push_cast; rfl
  | pre p c u ih =>
    match s', h with
    | .pre p' c' u', h =>
      obtain ⟨h1, h2, h3, h4⟩ := h
      have := ih h4
      simp only [Stream.cursor, this, h1, h3]
      omega

/-- Every history moves the cursor by exactly the number of characters it consumes, with characters
pushed back at any depth. -/
theorem C08_cursor_counts {s : Stream} (h : Built s) (cs : List Call) :
    (run cs s).2.cursor = s.cursor + (s.rem.length - (run cs s).2.rem.length : Int) := by
  induction cs generalizing s with
  | nil => simp [run]
  | cons c cs ih =>
    have h1 := (call_refines c s h.ok.1 h.ok.2.1).2
    have := ih (h.call s c)
    simp only [run]
    rw [this, Adv.cursor h1, h1.rem_length]
    have := h1.le
    omega

/-- On a text, `Cursor` is the number of characters consumed. -/
theorem C08_cursor_of_text (text : List Rune) (hv : Valid text) (cs : List Call) :
    (run cs (Stream.ofChars text)).2.cursor =
      text.length - ((run cs (Stream.ofChars text)).2.rem.length : Int) := by
  rw [C08_cursor_counts (Built.ofChars text hv) cs]
  simp [Stream.ofChars, Stream.rem, Base.ofChars, Stream.cursor]

/-- Pushing back the characters just read puts the cursor back to where they were read. -/
theorem C08_cursor_after_pushBack {s : Stream} (h : Built s) (cs : List Call) (p : List Rune)
    (hp : s.rem = p ++ (run cs s).2.rem) :
    ((run cs s).2.pushBack p).cursor = s.cursor := by
  have := C08_cursor_counts h cs
  have hl := congrArg List.length hp
  rw [List.length_append] at hl
  have hc : ((run cs s).2.pushBack p).cursor = (run cs s).2.cursor - p.length := by
    unfold Stream.pushBack
    split
    · next e => simp [e]
    · simp [Stream.cursor]
  rw [hc, this]; omega

example : ((run [.next, .skipSpaces] (Stream.ofChars [97, 32, 32, 98])).2.pushBack [32, 32]).cursor
    = 1 := by decide

/-! ## C06 -/

theorem positionLookup_eq (b : Base) (hl : b.LinesOK) (i : Nat)
    (hi : i < b.cursor) (h0 : 0 < i) :
    ∃ f, b.cursor ≤ f ∧ f ≤ b.cursor + 1 ∧
      b.positionLookup i =
        if newline ∉ b.chars.take (i + 1) ∧ newline ∈ b.chars.take f then
          some ⟨2, (i : Int) - firstNewline (b.chars.take f)⟩
        else some (posOf b.chars i) := by
  obtain ⟨f, h1, h2, h3, h4⟩ := hl
  refine ⟨f, h1, h2, ?_⟩
  unfold Base.positionLookup
  rw [if_neg (by omega), if_neg (by omega), h4, posLookup_linesOf _ _ (by rw [List.length_take]; omega),
    List.take_take, Nat.min_eq_left (by omega), posOf_take _ _ _ (by omega)]

/-- A history on a text leaves a stream over the same text. -/
theorem run_base (text : List Rune) (hv : Valid text) (cs : List Call) :
    ∃ b : Base, (run cs (Stream.ofChars text)).2 = .base b ∧ b.chars = text ∧
      b.cursor ≤ text.length ∧ b.LinesOK := by
  suffices H : ∀ (b : Base), b.chars = text → b.cursor ≤ text.length → b.LinesOK →
      ∃ b' : Base, (run cs (.base b)).2 = .base b' ∧ b'.chars = text ∧
        b'.cursor ≤ text.length ∧ b'.LinesOK by
    exact H _ rfl (Nat.zero_le _) (Base.linesOK_ofChars text)
  induction cs with
  | nil => intro b h1 h2 h3; exact ⟨b, rfl, h1, h2, h3⟩
  | cons c cs ih =>
    intro b h1 h2 h3
    have hr : Valid (Stream.base b).rem := by
      show Valid (b.chars.drop b.cursor); rw [h1]; exact hv.drop _
    have h := (call_refines c (.base b) (by show b.cursor ≤ b.chars.length; rw [h1]; exact h2) hr).2
    simp only [run]
    generalize hs : (call c (.base b)).2 = s' at h
    match s', h with
    | .base b', h =>
      obtain ⟨g1, g2, g3, g4⟩ := h
      rw [h1] at g1 g3
      exact ih b' g1 g3 (g4 h3)

/-- With a good line table, `Position` is the line and column of the next character. -/
theorem base_position (b : Base) (h4 : b.LinesOK) :
    b.position.1 =
      if b.cursor < b.chars.length then some (posOf b.chars b.cursor) else none := by
  simp only [Base.position]
  by_cases hlt : b.cursor < b.chars.length
  · rw [if_neg (by omega), if_pos hlt]
    by_cases h0 : b.cursor = 0
    · rw [if_pos h0, h0]
      simp [posOf, lineOf, colOf]
    · rw [if_neg h0]
      obtain ⟨f, g1, g2, g3, g4⟩ := h4
      have hup := posUpdate_take b.chars f b.cursor (b.cursor + 1) g1 g3 (by omega)
      rw [take_succ_drop _ _ (by omega)] at hup
      rw [g4, hup]
      have hm : max f (b.cursor + 1) = b.cursor + 1 := by omega
      rw [hm, posLookup_linesOf _ _ (by rw [List.length_take]; omega), List.take_take, Nat.min_self,
        posOf_take _ _ _ (by omega), if_neg]
      rintro ⟨a, b⟩
      exact a b
  · rw [if_pos (by omega), if_neg hlt]

/-- After every history of calls on a text, `Position` is the line and column of the next character,
and nil at the end. -/
theorem C06_position_correct (text : List Rune) (hv : Valid text) (cs : List Call) (n : Nat)
    (hn : (run cs (Stream.ofChars text)).2.cursor = n) :
    (run cs (Stream.ofChars text)).2.position.1 =
      if n < text.length then some (posOf text n) else none := by
  obtain ⟨b, h1, h2, h3, h4⟩ := run_base text hv cs
  rw [h1] at hn ⊢
  have hn' : b.cursor = n := by
    simp only [Stream.cursor] at hn; omega
  simp only [Stream.position]
  rw [base_position b h4, h2, hn']

example : (run [.next, .next, .position, .skipSpaces] (Stream.ofChars [97, 10, 10, 32, 98])).2.position.1
    = some ⟨3, 2⟩ ∧ posOf [97, 10, 10, 32, 98] 4 = ⟨3, 2⟩ := by decide

/-- The stream at the bottom of all layers. -/
def bottom : Stream → Stream
  | .base b => .base b
  | .pre _ _ u => bottom u

/-- The number of pushed-back characters not read yet. -/
def pending : Stream → Nat
  | .base _ => 0
  | .pre p c u => (p.length - c) + pending u

theorem positionLookup_bottom : ∀ (s : Stream) (i : Int), s.positionLookup i = (bottom s).positionLookup i
  | .base _, _ => rfl
  | .pre _ _ u, i => by simp only [Stream.positionLookup, bottom]; exact positionLookup_bottom u i

/-- With characters pushed back and used up, in any number of layers, `Position` is that of the
stream below. -/
theorem C06_position_above : ∀ (s : Stream), s.WF → pending s = 0 →
    s.position.1 = (bottom s).position.1 ∧ s.cursor = (bottom s).cursor
  | .base _, _, _ => ⟨rfl, rfl⟩
  | .pre p c u, hw, h => by
    simp only [pending] at h
    obtain ⟨h1, h2⟩ := C06_position_above u hw.2 (by omega)
    have := hw.1
    simp only [Stream.position, Stream.cursor, bottom]
    rw [if_pos (by omega)]
    exact ⟨h1, by rw [← h2]; omega⟩

example : pending (Stream.pre [97] 1 (.pre [98] 1 (.base ⟨[97, 98, 99], 2, [1]⟩))) = 0 ∧
    (Stream.pre [97] 1 (.pre [98] 1 (.base ⟨[97, 98, 99], 2, [1]⟩))).position.1 = some ⟨1, 3⟩ := by decide

theorem position_pending : ∀ (s : Stream), s.WF → 0 < pending s →
    s.position.1 = (bottom s).positionLookup s.cursor
  | .pre p c u, hw, h => by
    simp only [pending] at h
    have := hw.1
    simp only [Stream.position, Stream.cursor, bottom]
    by_cases hc : c ≥ p.length
    · rw [if_pos hc, position_pending u hw.2 (by omega)]
      congr 1; omega
    · rw [if_neg hc]
      exact positionLookup_bottom _ _

/-! ## C07

Full statement: for every history on a text and every `i < cursor`, `PositionLookup i` is
`some (posOf text i)`.  It is false: on the first line, once a newline has been read (or peeked at by
`Position`), every index but 0 gets line 2 and a column that is not positive. -/

theorem C07_lookup_counterexample :
    ∃ (text : List Rune) (cs : List Call) (i : Nat),
      let s := (run cs (Stream.ofChars text)).2
      (i : Int) < s.cursor ∧ s.positionLookup i ≠ some (posOf text i) ∧
        s.positionLookup i = some ⟨2, -1⟩ :=
  ⟨[97, 98, 10, 99, 100], [.next, .next, .next, .next], 1, by decide⟩

/-- Correct for every index of a line other than the first, for the newline that ends the first line,
for index 0, and everywhere while no newline has been read or is next.  (What is missing from the
full claim: the other characters of the first line, see `C07_lookup_first_line`.) -/
theorem C07_lookup_correct_partial (text : List Rune) (hv : Valid text) (cs : List Call) (i : Nat)
    (hi : (i : Int) < (run cs (Stream.ofChars text)).2.cursor)
    (hline : i = 0 ∨ newline ∈ text.take (i + 1) ∨
      newline ∉ text.take ((run cs (Stream.ofChars text)).2.cursor.toNat + 1)) :
    (run cs (Stream.ofChars text)).2.positionLookup i = some (posOf text i) := by
  obtain ⟨b, h1, h2, h3, h4⟩ := run_base text hv cs
  rw [h1] at hi hline ⊢
  simp only [Stream.cursor, Int.toNat_natCast] at hi hline
  by_cases h0 : i = 0
  · subst h0
    simp [Stream.positionLookup, Base.positionLookup, posOf, lineOf, colOf]
  · obtain ⟨f, g1, g2, g3⟩ := positionLookup_eq b h4 i (by omega) (by omega)
    simp only [Stream.positionLookup]
    rw [g3, h2, if_neg]
    rintro ⟨a, c⟩
    rcases hline with e | e | e
    · exact h0 e
    · exact a e
    · apply e
      have : text.take f <+: text.take (b.cursor + 1) := by
        have hh : text.take f = (text.take (b.cursor + 1)).take f := by
          rw [List.take_take, Nat.min_eq_left g2]
        rw [hh]; exact List.take_prefix _ _
      exact this.subset c

/-- With characters pushed back and not all read, in any number of layers, `Position` is the line and
column of the character `Cursor` points to.  (Missing from the full claim: as for
`C07_lookup_correct_partial`, the first line once its newline was seen.) -/
theorem C07_position_pushed_back_partial (text : List Rune) (hv : Valid text) (cs : List Call) (s : Stream)
    (hw : s.WF) (hb : bottom s = (run cs (Stream.ofChars text)).2) (hp : 0 < pending s) (i : Nat)
    (hi : s.cursor = i) (hlt : (i : Int) < (bottom s).cursor)
    (hline : i = 0 ∨ newline ∈ text.take (i + 1) ∨ newline ∉ text.take ((bottom s).cursor.toNat + 1)) :
    s.position.1 = some (posOf text i) := by
  rw [position_pending s hw hp, hi, hb]
  rw [hb] at hlt hline
  exact C07_lookup_correct_partial text hv cs i hlt hline

example : let s := ((run [.next, .next, .next, .next] (Stream.ofChars [97, 10, 98, 99])).2.pushBack [98, 99]).next.2
    s.position.1 = some ⟨2, 2⟩ ∧ s.cursor = 3 ∧ 0 < pending s ∧ posOf [97, 10, 98, 99] 3 = ⟨2, 2⟩ := by decide


example : (run [.next, .next, .next, .next] (Stream.ofChars [97, 98, 10, 99, 100])).2.positionLookup 3
    = some ⟨2, 1⟩ := by decide

/-- Exactly where it is wrong: on the first line, before its newline, after that newline was read. -/
theorem C07_lookup_first_line (text : List Rune) (hv : Valid text) (cs : List Call) (i : Nat)
    (h0 : 0 < i) (hi : i < firstNewline text)
    (hc : (firstNewline text : Int) < (run cs (Stream.ofChars text)).2.cursor) :
    (run cs (Stream.ofChars text)).2.positionLookup i =
      some ⟨2, (i : Int) - firstNewline text⟩ := by
  obtain ⟨b, h1, h2, h3, h4⟩ := run_base text hv cs
  rw [h1] at hc ⊢
  simp only [Stream.cursor] at hc
  obtain ⟨f, g1, g2, g3⟩ := positionLookup_eq b h4 i (by omega) h0
  simp only [Stream.positionLookup]
  have hlt : firstNewline text < text.length := by omega
  have hmem : newline ∈ text.take f := by
    have hget : text[firstNewline text] = newline := by
      have := List.findIdx_getElem (xs := text) (p := fun c => c == newline) (w := hlt)
      unfold firstNewline
      simpa using this
    rw [← hget]
    exact List.mem_take_iff_getElem.mpr ⟨firstNewline text, by omega, rfl⟩
  have hfirst : firstNewline (text.take f) = firstNewline text := by
    unfold firstNewline at *
    apply (List.findIdx_eq (by rw [List.length_take]; omega)).mpr
    refine ⟨?_, ?_⟩
    · have := List.findIdx_getElem (xs := text) (p := fun c => c == newline) (w := hlt)
      simpa using this
    · intro j hj
      have := List.not_of_lt_findIdx (xs := text) (p := fun c => c == newline) (i := j) hj
      simpa using this
  have hno : newline ∉ text.take (i + 1) := by
    intro hm
    obtain ⟨j, hj, hje⟩ := List.mem_take_iff_getElem.mp hm
    have := List.not_of_lt_findIdx (xs := text) (p := fun c => c == newline) (i := j)
      (by unfold firstNewline at hi; omega)
    simp [hje] at this
  rw [g3, h2, if_pos ⟨hno, hmem⟩, hfirst]

example : 0 < 1 ∧ 1 < firstNewline [97, 98, 10, 99, 100] ∧ (2 : Int) <
    (run [.next, .next, .next] (Stream.ofChars [97, 98, 10, 99, 100])).2.cursor := by decide

/-- Outside the characters read, the answer is nil (index 0 always gets L1:1, even when nothing was
read, where the property asks for nil). -/
theorem C07_lookup_outside (text : List Rune) (hv : Valid text) (cs : List Call) (i : Int)
    (h0 : i ≠ 0) (hi : i < 0 ∨ (run cs (Stream.ofChars text)).2.cursor ≤ i) :
    (run cs (Stream.ofChars text)).2.positionLookup i = none := by
  obtain ⟨b, h1, h2, h3, h4⟩ := run_base text hv cs
  rw [h1] at hi ⊢
  simp only [Stream.cursor] at hi
  simp only [Stream.positionLookup, Base.positionLookup]
  rw [if_neg h0]
  by_cases hc : i ≥ b.cursor ∨ i ≥ b.chars.length
  · rw [if_pos hc]
  · rw [if_neg hc]
    unfold posLookup
    rw [if_pos (by omega)]

theorem C07_lookup_zero_unread : (Stream.ofChars [97]).positionLookup 0 = some ⟨1, 1⟩ := by decide

end Xbnf.Props
