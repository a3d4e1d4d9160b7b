import Verif.Lemmas.Conc
/-
Property C09: goroutines that share a stream.

`Reaches text (start prog) σ`: the situation `σ` can come about when goroutine `i` makes the calls
`prog i` on one stream over `text`, whatever the scheduler does.
-/
namespace Xbnf.Props
open Spec Conc

/-- Run the schedule: the goroutines make steps in this order. -/
def exec (chars : List Rune) : List Nat → Config → Option Config
  | [], σ => some σ
  | i :: is, σ => (stepOf chars i σ).bind (exec chars is)

theorem exec_reaches {chars : List Rune} {σ0 : Config} : ∀ (is : List Nat) {σ σ' : Config}, Reaches chars σ0 σ → exec chars is σ = some σ' → Reaches chars σ0 σ'
  | [], _, _, hr, h => by cases h; exact hr
  | i :: is, σ, σ', hr, h => by
    rw [exec] at h
    cases hs : stepOf chars i σ with
    | none => rw [hs] at h; cases h
    | some τ =>
      rw [hs] at h
      exact exec_reaches is (.step i hr hs) h

/-! ## For all programs -/

/-- In the order in which they return, the calls `Next`, `Peek`, `SkipSpaces`, `Match` and `Cursor`
answer what they would answer if all calls had been made in this order by one goroutine. -/
theorem C09_as_if_one {text : List Rune} {prog : Nat → List Call} {σ : Config} (h : Reaches text (start prog) σ) :
    List.zipWith masked (calls σ.hist) (answers σ.hist) =
      List.zipWith masked (calls σ.hist) (run (calls σ.hist) (Stream.ofChars text)).1 := by
  obtain ⟨b, hb⟩ := reaches_cursor h
  exact hb.ans

/-- Every goroutine makes its calls in its own order. -/
theorem C09_program_order {text : List Rune} {prog : Nat → List Call} {σ : Config} (h : Reaches text (start prog) σ) (i : Nat) :
    returned i σ.hist <+: prog i ∧
      ((σ.threads i).now = none → (σ.threads i).todo = [] → returned i σ.hist = prog i) := by
  have ho := reaches_order h i
  refine ⟨⟨inFlight (σ.threads i) ++ (σ.threads i).todo, by rw [← List.append_assoc]; exact ho⟩, fun h1 h2 => ?_⟩
  rw [← ho, inFlight, h1, h2]
  simp

theorem agree_masked : ∀ (cs : List Call) (as as' : List Answer) (left : List Rune), as.length = cs.length → as'.length = cs.length →
    List.zipWith masked cs as = List.zipWith masked cs as' → Agree as' (readAll cs left).1 → Agree as (readAll cs left).1
  | [], [], [], _, _, _, _, h => h
  | c :: cs, a :: as, a' :: as', left, h1, h2, he, h => by
    simp only [List.zipWith_cons_cons, List.cons.injEq] at he
    simp only [readAll, Agree] at h ⊢
    refine ⟨fun x hx => ?_, agree_masked cs as as' _ (by simpa using h1) (by simpa using h2) he.2 h.2⟩
    have hl : looks c = false := by
      cases c <;> first | rfl | (simp [readList] at hx; done)
    have := he.1
    simp only [masked, hl] at this
    cases this
    exact h.1 x hx
  | [], _ :: _, _, _, h, _, _, _ => by cases h
  | [], [], _ :: _, _, _, h, _, _ => by cases h
  | _ :: _, [], _, _, h, _, _, _ => by cases h
  | _ :: _, _ :: _, [], _, _, h, _, _ => by cases h

/-- The reading calls of all goroutines together read the text from its beginning, without holes
and without repetition: in the order of return they get what the specification `readList` hands out. -/
theorem C09_reads_text {text : List Rune} (hv : Valid text) {prog : Nat → List Call} {σ : Config} (h : Reaches text (start prog) σ) :
    Agree (answers σ.hist) (readAll (calls σ.hist) text).1 := by
  have hr : (Stream.ofChars text).rem = text := by simp [Stream.ofChars, Stream.rem, Base.ofChars]
  have hs := (C05_stream_is_list (Built.ofChars text hv) (calls σ.hist)).1
  rw [hr] at hs
  exact agree_masked _ _ _ _ (by simp [calls, answers]) (run_length _ _) (C09_as_if_one h) hs

/-- Goroutines that call `Next`, and look around otherwise, get every character of the text once, in
order of return; later calls of `Next` get the end-of-text character. -/
theorem C09_every_character_once {text : List Rune} (hv : Valid text) {prog : Nat → List Call} (hp : ∀ i, ∀ c ∈ prog i, c = .next ∨ observing c = true)
    {σ : Config} (h : Reaches text (start prog) σ) :
    nextAnswers (calls σ.hist) (answers σ.hist) =
      (List.range ((calls σ.hist).count .next)).map (fun k => Answer.rune (text.getD k EOFChar)) := by
  refine readAll_next _ (fun c hc => ?_) _ _ (C09_reads_text hv h)
  simp only [calls, List.mem_map] at hc
  obtain ⟨⟨i, c', a⟩, he, rfl⟩ := hc
  refine hp i _ ((C09_program_order h i).1.subset ?_)
  simp only [returned, List.mem_map, List.mem_filter]
  exact ⟨_, ⟨he, by simp⟩, rfl⟩

/-- A goroutine inside a method can always go on; so as long as a call is left to make, some
goroutine can make a step. -/
theorem C09_no_deadlock {text : List Rune} {prog : Nat → List Call} {σ : Config} (h : Reaches text (start prog) σ) {i : Nat}
    (hi : (σ.threads i).now ≠ none ∨ (σ.threads i).todo ≠ []) : ∃ j σ', stepOf text j σ = some σ' := by
  have hl := reaches_lock h
  have inside {j : Nat} {c : Call} {p : Prog} (hj : (σ.threads j).now = some (c, p)) : ∃ σ', stepOf text j σ = some σ' := by
    unfold stepOf
    rw [hj]
    cases p with
    | ret a =>
      simp only
      by_cases he : exclusive c = true
      · rw [if_pos he]; exact ⟨_, rfl⟩
      · rw [if_neg he]; exact ⟨_, rfl⟩
    | _ => exact ⟨_, rfl⟩
  cases hw : σ.writer with
  | some j =>
    obtain ⟨c, p, hj, -⟩ := (hl.wr j).1 hw
    exact ⟨j, inside hj⟩
  | none =>
    cases hr : σ.readers with
    | cons j js =>
      obtain ⟨c, p, hj, -⟩ := (hl.rd j).1 (by rw [hr]; exact List.mem_cons_self)
      exact ⟨j, inside hj⟩
    | nil =>
      cases hn : (σ.threads i).now with
      | some q => exact ⟨i, inside hn⟩
      | none =>
        cases ht : (σ.threads i).todo with
        | nil => rcases hi with hi | hi <;> contradiction
        | cons c cs =>
          refine ⟨i, ?_⟩
          unfold stepOf
          rw [hn, ht]
          simp only
          by_cases he : exclusive c = true
          · rw [if_pos he, if_pos ⟨hw, hr⟩]; exact ⟨_, rfl⟩
          · rw [if_neg he, if_pos hw]; exact ⟨_, rfl⟩

/-! ## When one goroutine asks for positions -/

/-- All answers, lines and columns included, are those of one goroutine that makes the calls in the
order of their returns, and when nobody is inside a call the stream is left as that goroutine would
have left it.  Missing: programs in which several goroutines ask for positions, for which this is
false (`C09_counterexample`). -/
theorem C09_linearizable_partial {text : List Rune} {prog : Nat → List Call} (ht : Tame prog) {σ : Config} (h : Reaches text (start prog) σ) :
    answers σ.hist = (run (calls σ.hist) (Stream.ofChars text)).1 ∧
      ((∀ i, (σ.threads i).now = none) → .base ⟨text, σ.mem.cursor, σ.mem.lines⟩ = (run (calls σ.hist) (Stream.ofChars text)).2) := by
  obtain ⟨b, hb⟩ := reaches_table ht h
  refine ⟨by rw [hb.hist], fun hn => ?_⟩
  have hw : σ.writer = none := by
    cases hw : σ.writer with
    | none => rfl
    | some j =>
      obtain ⟨c, p, hj, -⟩ := ((reaches_lock h).wr j).1 hw
      rw [hn j] at hj
      cases hj
  rw [hb.hist, hb.clean hw (fun i p hi => by rw [hn i] at hi; cases hi)]
  rfl

/-- So the position such a goroutine asks for is right: it is the line and the column of a character
of the text, namely of the first one not handed out yet, and there is none exactly at the end. -/
theorem C09_position_partial {text : List Rune} (hv : Valid text) {prog : Nat → List Call} (ht : Tame prog) {σ : Config} (h : Reaches text (start prog) σ)
    (before after : History) (i : Nat) (a : Answer) (he : σ.hist = before ++ (i, .position, a) :: after) :
    ∃ n : Nat, (run (calls before) (Stream.ofChars text)).2.cursor = n ∧
      a = .pos (if n < text.length then some (posOf text n) else none) := by
  have hl := (C09_linearizable_partial ht h).1
  obtain ⟨b, h1, h2, h3, h4⟩ := run_base text hv (calls before)
  refine ⟨b.cursor, by rw [h1]; rfl, ?_⟩
  rw [he] at hl
  have key : ∀ (b' : List Call) (as : List Answer) (s : Stream) (cs : List Call) (rest : List Answer), as.length = b'.length →
      as ++ a :: rest = (run (b' ++ .position :: cs) s).1 → a = (call .position (run b' s).2).1 := by
    intro b'
    induction b' with
    | nil =>
      intro as s cs rest hlen hrun
      have : as = [] := List.length_eq_zero_iff.1 hlen
      subst this
      simp only [List.nil_append, run, List.cons.injEq] at hrun
      exact hrun.1
    | cons c b' ih =>
      intro as s cs rest hlen hrun
      cases as with
      | nil => cases hlen
      | cons x as =>
        simp only [List.cons_append, run, List.cons.injEq] at hrun
        exact ih as _ cs rest (by simpa using hlen) hrun.2
  have hfinal := key (calls before) (answers before) (Stream.ofChars text) (calls after) (answers after) (by simp [calls, answers])
    (by simpa [calls, answers] using hl)
  have hpos := C06_position_correct text hv (calls before) b.cursor (by rw [h1]; rfl)
  rw [hfinal, call, hpos]

/-! ## When several do -/

def raceText : List Rune := runes "a\nb"

/-- One goroutine reads and asks where it is, another one asks too. -/
def raceProg : Nat → List Call
  | 0 => [.next, .position, .next, .position]
  | 1 => [.position]
  | _ => []

/-- Both hold the read lock and have seen that the table does not cover the cursor yet; then both
write the newline into it. -/
def raceSchedule : List Nat :=
  List.replicate 17 0 ++ List.replicate 7 1 ++ List.replicate 7 0 ++ List.replicate 7 1 ++ List.replicate 20 0

/-- `Position` changes the table of lines while it holds the lock for reading only
(charstream.go:290, 303).  Two goroutines that ask for the position at the same time can make the
stream count a line twice: the `b` of "a⏎b" is then reported in line 3 (and the newline itself in line 2, column 0), an answer that `Position`
never gives when the calls are made one after the other, in whatever order. -/
theorem C09_counterexample :
    ∃ σ, Reaches raceText (start raceProg) σ ∧
      σ.hist = [(0, .next, .rune 97), (0, .position, .pos (some ⟨1, 2⟩)), (1, .position, .pos (some ⟨2, 0⟩)),
        (0, .next, .rune newline), (0, .position, .pos (some ⟨3, 1⟩))] ∧
      ∀ cs : List Call, (run cs (Stream.ofChars raceText)).2.position.1 ≠ some ⟨3, 1⟩ := by
  have hrun : (exec raceText raceSchedule (start raceProg)).map (·.hist) =
      some [(0, .next, .rune 97), (0, .position, .pos (some ⟨1, 2⟩)), (1, .position, .pos (some ⟨2, 0⟩)),
        (0, .next, .rune newline), (0, .position, .pos (some ⟨3, 1⟩))] := by decide +kernel
  cases he : exec raceText raceSchedule (start raceProg) with
  | none => rw [he] at hrun; cases hrun
  | some σ =>
    rw [he] at hrun
    refine ⟨σ, exec_reaches _ (.refl _) he, by simpa using hrun, fun cs => ?_⟩
    have hv : Valid raceText := by
      intro c hc
      simp [raceText, runes] at hc
      rcases hc with rfl | rfl | rfl <;> decide
    obtain ⟨b, h1, -⟩ := run_base raceText hv cs
    rw [C06_position_correct raceText hv cs b.cursor (by rw [h1]; rfl)]
    have : ∀ n, n < 3 → posOf raceText n ≠ ⟨3, 1⟩ := by decide
    by_cases hn : b.cursor < raceText.length
    · rw [if_pos hn]
      intro e
      exact this _ hn (Option.some.inj e)
    · rw [if_neg hn]
      intro e
      cases e

/-- Three goroutines that read: two with `Next`, one with `SkipSpaces` and `Match`, and one of them asks for positions. -/
def tameProg : Nat → List Call
  | 0 => [.next, .position, .next]
  | 1 => [.peek, .next, .cursor]
  | 2 => [.skipSpaces, .matchText (runes "b")]
  | _ => []

example : Tame tameProg := by
  refine .inr ⟨0, fun i hi c hc => ?_⟩
  match i with
  | 0 => exact absurd rfl hi
  | 1 => simp [tameProg] at hc; rcases hc with rfl | rfl | rfl <;> rfl
  | 2 => simp [tameProg] at hc; rcases hc with rfl | rfl <;> rfl
  | n + 3 => simp [tameProg] at hc

/-- Goroutine 0 reads a character and asks for the position; in the middle of that 1 looks at the
next character; then 2 reads, and 0 finds the text used up. -/
def tameSchedule : List Nat :=
  List.replicate 14 0 ++ [1, 1, 1] ++ List.replicate 8 0 ++ [1] ++ List.replicate 32 2 ++ [0, 0, 0]

example : ((exec (runes "a \nb") tameSchedule (start tameProg)).map fun σ => (σ.hist, σ.mem)) =
    some ([(0, .next, .rune 97), (0, .position, .pos (some ⟨1, 2⟩)), (1, .peek, .rune 32), (2, .skipSpaces, .chars [32, 10]),
      (2, .matchText [98], .matched [98] true), (0, .next, .rune EOFChar)], ⟨4, [2, 3]⟩) := by decide +kernel

/-- A schedule of readers only: every character once. -/
def readProg : Nat → List Call
  | 0 => [.next, .peek, .next]
  | 1 => [.next, .position, .next]
  | _ => []

example : ∀ i, ∀ c ∈ readProg i, c = .next ∨ observing c = true := by
  intro i c hc
  match i with
  | 0 => simp [readProg] at hc; rcases hc with rfl | rfl | rfl <;> simp [observing]
  | 1 => simp [readProg] at hc; rcases hc with rfl | rfl | rfl <;> simp [observing]
  | n + 2 => simp [readProg] at hc

/-- The two alternate; both are inside `Peek` and `Position` at once. -/
example : ((exec (runes "ab") (List.replicate 10 0 ++ List.replicate 10 1 ++ [0, 1, 0, 1, 0, 1, 1, 1, 1]) (start readProg)).map fun σ => σ.hist) =
    some [(0, .next, .rune 97), (1, .next, .rune 98), (0, .peek, .rune EOFChar), (1, .position, .pos none), (1, .next, .rune EOFChar)] := by decide +kernel

end Xbnf.Props
