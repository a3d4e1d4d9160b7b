import Verif.Model.Conc
import Verif.Props.Streams
import Verif.Spec.Concurrency
/-
Goroutines sharing a stream: what a method does when nobody interferes, and the invariant of all
schedules.
-/
namespace Xbnf.Conc
open Spec Props

/-- The whole rest of a method without interruption. -/
def Prog.run : Prog → Mem → Answer × Mem
  | .ret a, m => (a, m)
  | .loadCursor k, m => (k m.cursor).run m
  | .storeCursor n k, m => k.run { m with cursor := n }
  | .loadLines k, m => (k m.lines).run m
  | .storeLine i v k, m => k.run { m with lines := m.lines.set i v }
  | .storeLines l k, m => k.run { m with lines := l }

theorem run_step {p p' : Prog} {m m' : Mem} (h : p.step m = some (p', m')) : p.run m = p'.run m' := by
  cases p <;> simp only [Prog.step] at h <;> cases h <;> rfl

/-- The stream in the memory. -/
def strm (chars : List Rune) (m : Mem) : Stream := .base ⟨chars, m.cursor, m.lines⟩

theorem set_last : ∀ (l : List Int) (v : Int), l.set (l.length - 1) v = setLast l v
  | [], _ => rfl
  | [_], _ => rfl
  | x :: y :: ys, v => by
    have := set_last (y :: ys) v
    simp only [List.length_cons, Nat.add_sub_cancel] at this ⊢
    rw [List.set_cons_succ, this]
    rfl

theorem updateLoop_run (k : Prog) : ∀ (cs : List Rune) (idx : Int) (m : Mem),
    (updateLoop idx cs k).run m = k.run { m with lines := posUpdateLoop m.lines idx cs }
  | [], idx, m => rfl
  | c :: cs, idx, m => by
    have ih := updateLoop_run k cs (idx + 1)
    rw [updateLoop, Prog.run]
    unfold posUpdateLoop
    by_cases h1 : idx > lastLine m.lines
    · by_cases h2 : c = newline
      · simp only [h1, h2, if_true, Prog.run, set_last, ih]
      · simp only [h1, h2, if_true, if_false, Prog.run, set_last, ih]
    · simp only [h1, if_false, ih]

theorem update_run (idx : Int) (cs : List Rune) (k : Prog) (m : Mem) :
    (update idx cs k).run m = k.run { m with lines := posUpdate m.lines idx cs } := by
  unfold update posUpdate
  rw [Prog.run]
  by_cases h : m.lines = []
  · simp only [h, if_true, Prog.run, updateLoop_run]
  · simp only [h, if_false, updateLoop_run]

theorem next_run (chars : List Rune) (k : Rune → Prog) (m : Mem) :
    (next chars k).run m = (k (Base.next ⟨chars, m.cursor, m.lines⟩).1).run
      ⟨(Base.next ⟨chars, m.cursor, m.lines⟩).2.cursor, (Base.next ⟨chars, m.cursor, m.lines⟩).2.lines⟩ := by
  unfold next Base.next
  rw [Prog.run]
  by_cases h : m.cursor ≥ chars.length
  · simp only [h, if_true]
  · simp only [h, if_false, Prog.run, update_run]

/-- How many characters of white space there are from `c` on. -/
def blanks (chars : List Rune) (c : Nat) : Nat := ((chars.drop c).takeWhile isWhiteSpace).length

theorem blanks_step {chars : List Rune} {c : Nat} (h : c < chars.length) :
    blanks chars c = if isWhiteSpace (chars.getD c EOFChar) then blanks chars (c + 1) + 1 else 0 := by
  unfold blanks
  rw [List.drop_eq_getElem_cons h, List.takeWhile_cons, List.getD_eq_getElem?_getD, List.getElem?_eq_getElem h, Option.getD_some]
  split <;> simp

theorem skipLoop_run (chars : List Rune) (k : Prog) : ∀ (n : Nat) (m : Mem), blanks chars m.cursor ≤ n →
    (skipLoop chars n k).run m = k.run { m with cursor := m.cursor + blanks chars m.cursor }
  | 0, m, h => by
    have : blanks chars m.cursor = 0 := by omega
    rw [this]
    rfl
  | n + 1, m, h => by
    rw [skipLoop, Prog.run]
    by_cases h1 : m.cursor < chars.length
    · have hb := blanks_step h1
      rw [if_pos h1, Prog.run]
      by_cases h2 : isWhiteSpace (chars.getD m.cursor EOFChar) = true
      · rw [if_pos h2] at hb ⊢
        rw [Prog.run, Prog.run, skipLoop_run chars k n _ (by show blanks chars (m.cursor + 1) ≤ n; omega)]
        have : m.cursor + 1 + blanks chars (m.cursor + 1) = m.cursor + blanks chars m.cursor := by omega
        show k.run ⟨m.cursor + 1 + blanks chars (m.cursor + 1), m.lines⟩ = _
        rw [this]
      · rw [if_neg h2] at hb ⊢
        rw [hb]
        rfl
    · rw [if_neg h1]
      have : blanks chars m.cursor = 0 := by
        unfold blanks
        rw [List.drop_eq_nil_of_le (by omega)]
        rfl
      rw [this]
      rfl

theorem blanks_le (chars : List Rune) (c : Nat) : blanks chars c ≤ chars.length := by
  unfold blanks
  have := (List.takeWhile_sublist (p := isWhiteSpace) (l := chars.drop c)).length_le
  rw [List.length_drop] at this
  omega

theorem slice (chars : List Rune) (c : Nat) :
    (chars.take (c + blanks chars c)).drop c = (chars.drop c).takeWhile isWhiteSpace := by
  unfold blanks
  rw [List.drop_take, Nat.add_sub_cancel_left]
  exact (List.prefix_iff_eq_take.1 (List.takeWhile_prefix _)).symm

theorem matchLoop_run (chars : List Rune) : ∀ (t res : List Rune) (m : Mem),
    ∃ m', (matchLoop chars t res).run m = (.matched (res ++ ((strm chars m).matchRunes t).1) ((strm chars m).matchRunes t).2.1, m') ∧
      ((strm chars m).matchRunes t).2.2 = strm chars m'
  | [], res, m => ⟨m, by simp [matchLoop, Prog.run, Stream.matchRunes], rfl⟩
  | want :: rest, res, m => by
    rw [matchLoop, next_run]
    have hn : (strm chars m).next = ((Base.next ⟨chars, m.cursor, m.lines⟩).1, .base (Base.next ⟨chars, m.cursor, m.lines⟩).2) := rfl
    have hc : (Base.next ⟨chars, m.cursor, m.lines⟩).2.chars = chars := by unfold Base.next; split <;> rfl
    unfold Stream.matchRunes
    simp only [hn]
    generalize Base.next ⟨chars, m.cursor, m.lines⟩ = q at hc ⊢
    obtain ⟨c, chars', cur, lines⟩ := q
    simp only at hc
    subst hc
    by_cases h1 : c = EOFChar
    · simp only [h1, if_true, Prog.run]
      exact ⟨⟨cur, lines⟩, by simp, rfl⟩
    · by_cases h2 : c = want
      · subst h2
        obtain ⟨m', e1, e2⟩ := matchLoop_run chars' rest (res ++ [c]) ⟨cur, lines⟩
        simp only [h1, ne_eq, not_true_eq_false, if_false]
        refine ⟨m', ?_, e2⟩
        rw [e1]
        simp [strm]
      · simp only [h1, h2, ne_eq, not_false_eq_true, if_true, if_false, Prog.run]
        exact ⟨⟨cur, lines⟩, by simp, rfl⟩

/-- Without interruption a method does what the model of one call says. -/
theorem body_run (chars : List Rune) (c : Call) (m : Mem) :
    call c (strm chars m) = (((body chars c).run m).1, strm chars ((body chars c).run m).2) := by
  cases c with
  | next =>
    have hc : (Base.next ⟨chars, m.cursor, m.lines⟩).2.chars = chars := by unfold Base.next; split <;> rfl
    simp only [body, next_run, Prog.run, call, strm, Stream.next]
    generalize Base.next ⟨chars, m.cursor, m.lines⟩ = q at hc ⊢
    obtain ⟨c, chars', cur, lines⟩ := q
    simp only at hc
    subst hc
    rfl
  | peek =>
    simp only [body, peek, Prog.run, call, strm, Stream.peek, Base.peek]
    by_cases h : m.cursor ≥ chars.length
    · rw [if_pos h, List.getD_eq_getElem?_getD, List.getElem?_eq_none h]; rfl
    · rw [if_neg h]; rfl
  | skipSpaces =>
    simp only [body, skipSpaces, Prog.run, call, strm, Stream.skipSpaces, Base.skipSpaces]
    rw [skipLoop_run _ _ _ _ (blanks_le _ _)]
    simp only [Prog.run]
    have hs := slice chars m.cursor
    by_cases h : (chars.drop m.cursor).takeWhile isWhiteSpace = []
    · have h0 : blanks chars m.cursor = 0 := by unfold blanks; rw [h]; rfl
      rw [if_pos h, h0, if_neg (by omega)]
      rfl
    · have h0 : 0 < blanks chars m.cursor := by unfold blanks; exact List.length_pos_iff.2 h
      rw [if_neg h, if_pos (by omega)]
      simp only [Prog.run, update_run, hs]
      rfl
  | matchText t =>
    obtain ⟨m', e1, e2⟩ := matchLoop_run chars t [] m
    simp only [body, e1, call, e2, List.nil_append]
  | cursor => rfl
  | position =>
    simp only [body, position, Prog.run, call, strm, Stream.position, Base.position]
    by_cases h1 : m.cursor ≥ chars.length
    · simp only [h1, if_true, Prog.run]
    · by_cases h2 : m.cursor = 0
      · simp only [h1, h2, if_true, if_false, Prog.run]
        obtain ⟨cur, lines⟩ := m
        simp only at h1 h2
        subst h2
        rw [if_neg h1, if_neg h1]
        rfl
      · simp only [h1, h2, if_false, Prog.run, update_run]
  | lookup i =>
    simp only [body, lookup, call, strm, Stream.positionLookup, Base.positionLookup]
    by_cases h0 : i = 0
    · simp only [h0, if_true, Prog.run]
    · simp only [h0, if_false, Prog.run]
      by_cases h1 : i ≥ m.cursor ∨ i ≥ chars.length
      · simp only [h1, if_true, Prog.run]
      · simp only [h1, if_false, Prog.run]

/-! ## What a method can touch -/

/-- Reads the cursor only. -/
def Prog.OnlyCursor : Prog → Prop
  | .ret _ => True
  | .loadCursor k => ∀ n, (k n).OnlyCursor
  | _ => False

/-- Writes nothing. -/
def Prog.ReadOnly : Prog → Prop
  | .ret _ => True
  | .loadCursor k => ∀ n, (k n).ReadOnly
  | .loadLines k => ∀ n, (k n).ReadOnly
  | _ => False

/-- Does not write the cursor. -/
def Prog.KeepsCursor : Prog → Prop
  | .ret _ => True
  | .loadCursor k => ∀ n, (k n).KeepsCursor
  | .loadLines k => ∀ n, (k n).KeepsCursor
  | .storeLine _ _ k => k.KeepsCursor
  | .storeLines _ k => k.KeepsCursor
  | .storeCursor _ _ => False

theorem only_run : ∀ (p : Prog), p.OnlyCursor → ∀ {m m' : Mem}, m.cursor = m'.cursor → (p.run m).1 = (p.run m').1
  | .ret _, _, _, _, _ => rfl
  | .loadCursor k, h, m, m', e => by
    show ((k m.cursor).run m).1 = ((k m'.cursor).run m').1
    rw [← e]
    exact only_run (k m.cursor) (h _) e
  | .storeCursor _ _, h, _, _, _ => h.elim
  | .loadLines _, h, _, _, _ => h.elim
  | .storeLine _ _ _, h, _, _, _ => h.elim
  | .storeLines _ _, h, _, _, _ => h.elim

/-- What the body of each method keeps to. -/
def Manners : Call → Prog → Prop
  | .peek, p | .cursor, p => p.OnlyCursor
  | .lookup _, p => p.ReadOnly
  | .position, p => p.KeepsCursor
  | _, _ => True

theorem updateLoop_keeps {k : Prog} (hk : k.KeepsCursor) : ∀ (cs : List Rune) (idx : Int), (updateLoop idx cs k).KeepsCursor
  | [], _ => hk
  | c :: cs, idx => by
    have ih := updateLoop_keeps hk cs (idx + 1)
    rw [updateLoop]
    intro l
    by_cases h1 : idx > lastLine l
    · by_cases h2 : c = newline
      · simp only [h1, h2, if_true]
        exact fun _ => fun _ => ih
      · simp only [h1, h2, if_true, if_false]
        exact fun _ => ih
    · simp only [h1, if_false]
      exact ih

theorem update_keeps {k : Prog} (hk : k.KeepsCursor) (cs : List Rune) (idx : Int) : (update idx cs k).KeepsCursor := by
  intro l
  by_cases h : l = []
  · simp only [h, if_true]
    exact updateLoop_keeps hk cs idx
  · simp only [h, if_false]
    exact updateLoop_keeps hk cs idx

theorem body_manners (chars : List Rune) (c : Call) : Manners c (body chars c) := by
  cases c with
  | next => trivial
  | skipSpaces => trivial
  | matchText t => trivial
  | cursor => exact fun _ => trivial
  | peek =>
    intro n
    by_cases h : n ≥ chars.length
    · simp only [h, if_true]; trivial
    · simp only [h, if_false]; exact fun _ => trivial
  | lookup i =>
    show (lookup chars i).ReadOnly
    unfold lookup
    by_cases h : i = 0
    · simp only [h, if_true]; trivial
    · simp only [h, if_false]
      intro n
      by_cases h1 : i ≥ n ∨ i ≥ chars.length
      · simp only [h1, if_true]; trivial
      · simp only [h1, if_false]; exact fun _ => trivial
  | position =>
    show (position chars).KeepsCursor
    unfold position
    intro n
    by_cases h : n ≥ chars.length
    · simp only [h, if_true]; trivial
    · simp only [h, if_false]
      intro n0
      by_cases h0 : n0 = 0
      · simp only [h0, if_true]; trivial
      · simp only [h0, if_false]
        exact fun _ _ => update_keeps (k := _) (by first | exact fun _ => trivial | exact fun _ _ => trivial) _ _

theorem manners_step {c : Call} {p p' : Prog} {m m' : Mem} (h : Manners c p) (hs : p.step m = some (p', m')) :
    Manners c p' ∧ (exclusive c = false → m'.cursor = m.cursor) ∧ (exclusive c = false → c ≠ .position → m' = m) := by
  cases c <;> cases p <;> simp only [Prog.step] at hs <;> cases hs <;>
    simp only [Manners, Prog.OnlyCursor, Prog.ReadOnly, Prog.KeepsCursor] at h <;>
    simp_all [Manners, exclusive]

/-! ## The lock -/

/-- Who holds the lock is who is inside a method. -/
structure LockInv (σ : Config) : Prop where
  wr : ∀ i, σ.writer = some i ↔ ∃ c p, (σ.threads i).now = some (c, p) ∧ exclusive c = true
  rd : ∀ i, i ∈ σ.readers ↔ ∃ c p, (σ.threads i).now = some (c, p) ∧ exclusive c = false
  nodup : σ.readers.Nodup
  excl : σ.writer ≠ none → σ.readers = []

/-- The ways to make a step. -/
theorem stepOf_cases {chars : List Rune} {i : Nat} {σ σ' : Config} (h : stepOf chars i σ = some σ') :
    (∃ c cs, σ.threads i = ⟨c :: cs, none⟩ ∧ exclusive c = true ∧ σ.writer = none ∧ σ.readers = [] ∧
      σ' = { σ with writer := some i, threads := σ.set i ⟨cs, some (c, body chars c)⟩ }) ∨
    (∃ c cs, σ.threads i = ⟨c :: cs, none⟩ ∧ exclusive c = false ∧ σ.writer = none ∧
      σ' = { σ with readers := i :: σ.readers, threads := σ.set i ⟨cs, some (c, body chars c)⟩ }) ∨
    (∃ c cs a, σ.threads i = ⟨cs, some (c, .ret a)⟩ ∧ exclusive c = true ∧
      σ' = { σ with writer := none, threads := σ.set i ⟨cs, none⟩, hist := σ.hist ++ [(i, c, a)] }) ∨
    (∃ c cs a, σ.threads i = ⟨cs, some (c, .ret a)⟩ ∧ exclusive c = false ∧
      σ' = { σ with readers := σ.readers.erase i, threads := σ.set i ⟨cs, none⟩, hist := σ.hist ++ [(i, c, a)] }) ∨
    (∃ c cs p p' m, σ.threads i = ⟨cs, some (c, p)⟩ ∧ p.step σ.mem = some (p', m) ∧
      σ' = { σ with mem := m, threads := σ.set i ⟨cs, some (c, p')⟩ }) := by
  unfold stepOf at h
  generalize ht : σ.threads i = t at h
  obtain ⟨todo, now⟩ := t
  cases now with
  | none =>
    cases todo with
    | nil => cases h
    | cons c cs =>
      simp only at h
      by_cases he : exclusive c = true
      · rw [if_pos he] at h
        by_cases hw : σ.writer = none ∧ σ.readers = []
        · rw [if_pos hw] at h
          cases h
          exact .inl ⟨c, cs, rfl, he, hw.1, hw.2, rfl⟩
        · rw [if_neg hw] at h
          cases h
      · rw [if_neg he] at h
        by_cases hw : σ.writer = none
        · rw [if_pos hw] at h
          cases h
          exact .inr (.inl ⟨c, cs, rfl, by simpa using he, hw, rfl⟩)
        · rw [if_neg hw] at h
          cases h
  | some q =>
    obtain ⟨c, p⟩ := q
    cases p with
    | ret a =>
      simp only at h
      by_cases he : exclusive c = true
      · rw [if_pos he] at h
        cases h
        exact .inr (.inr (.inl ⟨c, todo, a, rfl, he, rfl⟩))
      · rw [if_neg he] at h
        cases h
        exact .inr (.inr (.inr (.inl ⟨c, todo, a, rfl, by simpa using he, rfl⟩)))
    | _ =>
      simp only [Prog.step] at h
      cases h
      exact .inr (.inr (.inr (.inr ⟨c, todo, _, _, _, rfl, rfl, rfl⟩)))

theorem set_same (σ : Config) (i : Nat) (t : Thread) : σ.set i t i = t := by simp [Config.set]
theorem set_other (σ : Config) {i j : Nat} (t : Thread) (h : j ≠ i) : σ.set i t j = σ.threads j := by simp [Config.set, h]

theorem start_lock (prog : Nat → List Call) : LockInv (start prog) := by
  refine ⟨fun i => ⟨(fun h => by cases h), ?_⟩, fun i => ⟨(fun h => by cases h), ?_⟩, List.nodup_nil, fun _ => rfl⟩
  all_goals (rintro ⟨c, p, h, _⟩; cases h)

theorem lock_step {chars : List Rune} {i : Nat} {σ σ' : Config} (hl : LockInv σ) (h : stepOf chars i σ = some σ') : LockInv σ' := by
  have idle {c : Call} {cs : List Call} (ht : σ.threads i = ⟨c :: cs, none⟩) : i ∉ σ.readers := by
    intro hm
    obtain ⟨c, p, h, _⟩ := (hl.rd i).1 hm
    rw [ht] at h
    cases h
  rcases stepOf_cases h with ⟨c, cs, ht, he, hw, hr, rfl⟩ | ⟨c, cs, ht, he, hw, rfl⟩ | ⟨c, cs, a, ht, he, rfl⟩ | ⟨c, cs, a, ht, he, rfl⟩ | ⟨c, cs, p, p', m, ht, hs, rfl⟩
  · refine ⟨fun j => ?_, fun j => ?_, hl.nodup, fun _ => hr⟩
    · by_cases hj : j = i
      · subst hj
        simp only [set_same]
        exact ⟨fun _ => ⟨c, _, rfl, he⟩, fun _ => trivial⟩
      · simp only [set_other _ _ hj, Option.some.injEq]
        refine ⟨fun h => absurd h.symm hj, fun h => ?_⟩
        have := (hl.wr j).2 h
        rw [hw] at this
        cases this
    · by_cases hj : j = i
      · subst hj
        simp only [set_same]
        refine ⟨fun h => absurd h (idle ht), ?_⟩
        rintro ⟨c', p', h, h'⟩
        cases h
        rw [he] at h'
        cases h'
      · simp only [set_other _ _ hj]
        exact hl.rd j
  · refine ⟨fun j => ?_, fun j => ?_, List.nodup_cons.2 ⟨idle ht, hl.nodup⟩, fun h => absurd hw h⟩
    · by_cases hj : j = i
      · subst hj
        simp only [set_same]
        refine ⟨(fun h => by rw [hw] at h; cases h), ?_⟩
        rintro ⟨c', p', h, h'⟩
        cases h
        rw [he] at h'
        cases h'
      · simp only [set_other _ _ hj]
        exact hl.wr j
    · by_cases hj : j = i
      · subst hj
        simp only [set_same]
        exact ⟨fun _ => ⟨c, _, rfl, he⟩, fun _ => List.mem_cons_self⟩
      · simp only [set_other _ _ hj, List.mem_cons, hj, false_or]
        exact hl.rd j
  · have hwi : σ.writer = some i := (hl.wr i).2 ⟨c, _, by rw [ht], he⟩
    have hr : σ.readers = [] := hl.excl (by rw [hwi]; simp)
    refine ⟨fun j => ?_, fun j => ?_, hl.nodup, fun _ => hr⟩
    · by_cases hj : j = i
      · subst hj
        simp only [set_same]
        exact ⟨(fun h => by cases h), by rintro ⟨_, _, h, _⟩; cases h⟩
      · simp only [set_other _ _ hj]
        refine ⟨(fun h => by cases h), fun h => ?_⟩
        have := (hl.wr j).2 h
        rw [hwi] at this
        cases this
        exact absurd rfl hj
    · by_cases hj : j = i
      · subst hj
        simp only [set_same]
        refine ⟨(fun h => by rw [hr] at h; cases h), by rintro ⟨_, _, h, _⟩; cases h⟩
      · simp only [set_other _ _ hj]
        exact hl.rd j
  · have hmem : i ∈ σ.readers := (hl.rd i).2 ⟨c, _, by rw [ht], he⟩
    refine ⟨fun j => ?_, fun j => ?_, hl.nodup.erase i, fun hw => ?_⟩
    · by_cases hj : j = i
      · subst hj
        simp only [set_same]
        refine ⟨fun h => ?_, by rintro ⟨_, _, h, _⟩; cases h⟩
        rw [hl.excl (by rw [h]; simp)] at hmem
        cases hmem
      · simp only [set_other _ _ hj]
        exact hl.wr j
    · by_cases hj : j = i
      · subst hj
        simp only [set_same]
        refine ⟨fun h => absurd h (by rw [hl.nodup.mem_erase_iff]; simp), by rintro ⟨_, _, h, _⟩; cases h⟩
      · simp only [set_other _ _ hj, hl.nodup.mem_erase_iff, ne_eq, hj, not_false_eq_true, true_and]
        exact hl.rd j
    · rw [hl.excl hw] at hmem
      cases hmem
  · have key (b : Bool) : (∃ c' q, (⟨cs, some (c, p')⟩ : Thread).now = some (c', q) ∧ exclusive c' = b) ↔
        ∃ c' q, (σ.threads i).now = some (c', q) ∧ exclusive c' = b := by
      rw [ht]
      constructor
      · rintro ⟨_, _, h, hb⟩; cases h; exact ⟨_, _, rfl, hb⟩
      · rintro ⟨_, _, h, hb⟩; cases h; exact ⟨_, _, rfl, hb⟩
    refine ⟨fun j => ?_, fun j => ?_, hl.nodup, hl.excl⟩
    · by_cases hj : j = i
      · subst hj
        simp only [set_same]
        rw [key]
        exact hl.wr j
      · simp only [set_other _ _ hj]
        exact hl.wr j
    · by_cases hj : j = i
      · subst hj
        simp only [set_same]
        rw [key]
        exact hl.rd j
      · simp only [set_other _ _ hj]
        exact hl.rd j

theorem reaches_lock {chars : List Rune} {prog : Nat → List Call} {σ : Config} (h : Reaches chars (start prog) σ) : LockInv σ := by
  induction h with
  | refl => exact start_lock prog
  | step i _ hstep ih => exact lock_step ih hstep

theorem inside_none {σ : Config} (hl : LockInv σ) (hw : σ.writer = none) (hr : σ.readers = []) (j : Nat) {c : Call} {p : Prog}
    (h : (σ.threads j).now = some (c, p)) : False := by
  by_cases he : exclusive c = true
  · have := (hl.wr j).2 ⟨c, p, h, he⟩
    rw [hw] at this
    cases this
  · have := (hl.rd j).2 ⟨c, p, h, by simpa using he⟩
    rw [hr] at this
    cases this

/-- A goroutine inside an exclusive method is alone inside. -/
theorem inside_alone {σ : Config} (hl : LockInv σ) {i j : Nat} {c c' : Call} {p p' : Prog} (hi : (σ.threads i).now = some (c, p))
    (he : exclusive c = true) (hj : (σ.threads j).now = some (c', p')) : j = i := by
  have hw := (hl.wr i).2 ⟨c, p, hi, he⟩
  by_cases he' : exclusive c' = true
  · have := (hl.wr j).2 ⟨c', p', hj, he'⟩
    rw [hw] at this
    cases this
    rfl
  · have := (hl.rd j).2 ⟨c', p', hj, by simpa using he'⟩
    rw [hl.excl (by rw [hw]; simp)] at this
    cases this

theorem inside_reading {σ : Config} (hl : LockInv σ) (hw : σ.writer = none) {i : Nat} {c : Call} {p : Prog} (hi : (σ.threads i).now = some (c, p)) :
    exclusive c = false := by
  by_cases he : exclusive c = true
  · have := (hl.wr i).2 ⟨c, p, hi, he⟩
    rw [hw] at this
    cases this
  · simpa using he

theorem reader_no_writer {σ : Config} (hl : LockInv σ) {i : Nat} {c : Call} {p : Prog} (hi : (σ.threads i).now = some (c, p))
    (he : exclusive c = false) : σ.writer = none := by
  cases hw : σ.writer with
  | none => rfl
  | some j =>
    have := (hl.rd i).2 ⟨c, p, hi, he⟩
    rw [hl.excl (by rw [hw]; simp)] at this
    cases this

/-! ## Every goroutine makes its calls in order -/

/-- The call goroutine `i` is in. -/
def inFlight (t : Thread) : List Call := (t.now.map fun q => q.1).toList

theorem returned_snoc (i j : Nat) (hist : List (Nat × Call × Answer)) (c : Call) (a : Answer) :
    returned j (hist ++ [(i, c, a)]) = returned j hist ++ (if i = j then [c] else []) := by
  unfold returned
  rw [List.filter_append, List.map_append]
  by_cases h : i = j <;> simp [h]

theorem order_step {chars : List Rune} {prog : Nat → List Call} {i : Nat} {σ σ' : Config}
    (ho : ∀ j, returned j σ.hist ++ inFlight (σ.threads j) ++ (σ.threads j).todo = prog j) (h : stepOf chars i σ = some σ') (j : Nat) :
    returned j σ'.hist ++ inFlight (σ'.threads j) ++ (σ'.threads j).todo = prog j := by
  have hj := ho j
  by_cases hij : j = i
  · subst hij
    rcases stepOf_cases h with ⟨c, cs, ht, he, hw, hr, rfl⟩ | ⟨c, cs, ht, he, hw, rfl⟩ | ⟨c, cs, a, ht, he, rfl⟩ | ⟨c, cs, a, ht, he, rfl⟩ | ⟨c, cs, p, p', m, ht, hs, rfl⟩ <;>
      rw [ht] at hj <;> simp only [set_same, returned_snoc, if_true] <;> rw [← hj] <;> simp [inFlight]
  · have hij' : i ≠ j := fun e => hij e.symm
    rcases stepOf_cases h with ⟨c, cs, ht, he, hw, hr, rfl⟩ | ⟨c, cs, ht, he, hw, rfl⟩ | ⟨c, cs, a, ht, he, rfl⟩ | ⟨c, cs, a, ht, he, rfl⟩ | ⟨c, cs, p, p', m, ht, hs, rfl⟩ <;>
      simp only [set_other _ _ hij, returned_snoc, if_neg hij', List.append_nil] <;> exact hj

theorem reaches_order {chars : List Rune} {prog : Nat → List Call} {σ : Config} (h : Reaches chars (start prog) σ) (j : Nat) :
    returned j σ.hist ++ inFlight (σ.threads j) ++ (σ.threads j).todo = prog j := by
  induction h generalizing j with
  | refl => simp [start, returned, inFlight]
  | step i _ hstep ih => exact order_step ih hstep j

theorem inside_prog {chars : List Rune} {prog : Nat → List Call} {σ : Config} (h : Reaches chars (start prog) σ) {j : Nat} {c : Call} {p : Prog}
    (hj : (σ.threads j).now = some (c, p)) : c ∈ prog j := by
  rw [← reaches_order h j]
  simp [inFlight, hj]

theorem todo_prog {chars : List Rune} {prog : Nat → List Call} {σ : Config} (h : Reaches chars (start prog) σ) {j : Nat} {c : Call}
    (hj : c ∈ (σ.threads j).todo) : c ∈ prog j := by
  rw [← reaches_order h j]
  exact List.mem_append_right _ hj

/-! ## What the calls that do not look at the table of lines see -/

theorem matchRunes_lines (chars : List Rune) : ∀ (t : List Rune) (m m' : Mem), m.cursor = m'.cursor →
    ((strm chars m).matchRunes t).1 = ((strm chars m').matchRunes t).1 ∧ ((strm chars m).matchRunes t).2.1 = ((strm chars m').matchRunes t).2.1 ∧
      ((strm chars m).matchRunes t).2.2.cursor = ((strm chars m').matchRunes t).2.2.cursor
  | [], m, m', e => ⟨rfl, rfl, by simp [Stream.matchRunes, strm, Stream.cursor, e]⟩
  | w :: t, ⟨n, l⟩, ⟨n', l'⟩, e => by
    simp only at e
    subst e
    simp only [Stream.matchRunes, strm, Stream.next, Base.next]
    by_cases h : n ≥ chars.length
    · simp only [h, if_true]
      first | exact ⟨rfl, rfl, rfl⟩ | exact ⟨trivial, trivial, rfl⟩ | exact ⟨trivial, trivial, trivial⟩
    · simp only [h, if_false]
      by_cases h1 : chars.getD n EOFChar = EOFChar
      · simp only [h1, if_true]
        first | exact ⟨rfl, rfl, rfl⟩ | exact ⟨trivial, trivial, rfl⟩ | exact ⟨trivial, trivial, trivial⟩
      · simp only [h1, if_false]
        by_cases h2 : chars.getD n EOFChar = w
        · have ih := matchRunes_lines chars t ⟨n + 1, posUpdate l n [chars.getD n EOFChar]⟩ ⟨n + 1, posUpdate l' n [chars.getD n EOFChar]⟩ rfl
          simp only [h2, ne_eq, not_true_eq_false, if_false]
          simp only [strm, h2] at ih
          exact ⟨by rw [ih.1], ih.2.1, ih.2.2⟩
        · simp only [h2, ne_eq, not_false_eq_true, if_true]
          first | exact ⟨rfl, rfl, rfl⟩ | exact ⟨trivial, trivial, rfl⟩ | exact ⟨trivial, trivial, trivial⟩

/-- Such a call answers, and moves the cursor, whatever is in the table. -/
theorem call_lines (chars : List Rune) (c : Call) (m m' : Mem) (e : m.cursor = m'.cursor) :
    (looks c = false → (call c (strm chars m)).1 = (call c (strm chars m')).1) ∧ (call c (strm chars m)).2.cursor = (call c (strm chars m')).2.cursor := by
  obtain ⟨n, l⟩ := m
  obtain ⟨n', l'⟩ := m'
  simp only at e
  subst e
  cases c with
  | next =>
    simp only [call, strm, Stream.next, Base.next]
    by_cases h : n ≥ chars.length
    · simp only [h, if_true]; first | exact ⟨fun _ => rfl, rfl⟩ | exact ⟨fun _ => trivial, rfl⟩
    · simp only [h, if_false]; first | exact ⟨fun _ => rfl, rfl⟩ | exact ⟨fun _ => trivial, rfl⟩
  | peek => exact ⟨fun _ => rfl, rfl⟩
  | cursor => exact ⟨fun _ => rfl, rfl⟩
  | lookup i => exact ⟨(fun h => by cases h), rfl⟩
  | position =>
    refine ⟨(fun h => by cases h), ?_⟩
    simp only [call, strm, Stream.position, Base.position]
    by_cases h : n ≥ chars.length
    · simp only [h, if_true]; rfl
    · simp only [h, if_false]
      by_cases h : n = 0
      · simp only [h, if_true]; rfl
      · simp only [h, if_false]; rfl
  | skipSpaces =>
    simp only [call, strm, Stream.skipSpaces, Base.skipSpaces]
    by_cases h : (chars.drop n).takeWhile isWhiteSpace = []
    · simp only [h, if_true]; first | exact ⟨fun _ => rfl, rfl⟩ | exact ⟨fun _ => trivial, rfl⟩
    · simp only [h, if_false]; first | exact ⟨fun _ => rfl, rfl⟩ | exact ⟨fun _ => trivial, rfl⟩
  | matchText t =>
    have h := matchRunes_lines chars t ⟨n, l⟩ ⟨n, l'⟩ rfl
    simp only [call]
    exact ⟨fun _ => by rw [h.1, h.2.1], h.2.2⟩

theorem masked_eq {c : Call} {a a' : Answer} (h : looks c = false → a = a') : masked c a = masked c a' := by
  unfold masked
  cases hc : looks c
  · rw [h hc]
  · rfl

theorem run_snoc (cs : List Call) (c : Call) (s : Stream) :
    run (cs ++ [c]) s = ((run cs s).1 ++ [(call c (run cs s).2).1], (call c (run cs s).2).2) := by
  induction cs generalizing s with
  | nil => simp [run]
  | cons d cs ih => simp [run, ih]

theorem run_length (cs : List Call) (s : Stream) : (run cs s).1.length = cs.length := by
  induction cs generalizing s with
  | nil => rfl
  | cons d cs ih => simp [run, ih]

theorem zipWith_snoc {α β γ : Type} (f : α → β → γ) : ∀ (l : List α) (l' : List β) (a : α) (b : β), l.length = l'.length →
    List.zipWith f (l ++ [a]) (l' ++ [b]) = List.zipWith f l l' ++ [f a b]
  | [], [], _, _, _ => rfl
  | [], _ :: _, _, _, h => by cases h
  | _ :: _, [], _, _, h => by cases h
  | x :: l, y :: l', a, b, h => by simp [zipWith_snoc f l l' a b (by simpa using h)]

theorem calls_snoc (hist) (i : Nat) (c : Call) (a : Answer) : calls (hist ++ [(i, c, a)]) = calls hist ++ [c] := by simp [calls]
theorem answers_snoc (hist) (i : Nat) (c : Call) (a : Answer) : answers (hist ++ [(i, c, a)]) = answers hist ++ [a] := by simp [answers]

theorem strm_call (chars : List Rune) (c : Call) (m : Mem) : ∃ m', (call c (strm chars m)).2 = strm chars m' :=
  ⟨_, by rw [body_run]⟩

/-- Whatever the goroutines do: the cursor moves as if the calls had been made one after the other. -/
structure CursorInv (text : List Rune) (σ : Config) (b : Mem) : Prop where
  state : (run (calls σ.hist) (Stream.ofChars text)).2 = strm text b
  ans : List.zipWith masked (calls σ.hist) (answers σ.hist) = List.zipWith masked (calls σ.hist) (run (calls σ.hist) (Stream.ofChars text)).1
  inside : ∀ i c p, (σ.threads i).now = some (c, p) →
    Manners c p ∧ (looks c = false → (call c (strm text b)).1 = (p.run σ.mem).1) ∧
      (exclusive c = true → (call c (strm text b)).2.cursor = (p.run σ.mem).2.cursor)
  cur : σ.writer = none → σ.mem.cursor = b.cursor

theorem cursor_strm (chars : List Rune) (m : Mem) : (strm chars m).cursor = m.cursor := rfl

theorem cursor_start (text : List Rune) (prog : Nat → List Call) : CursorInv text (start prog) ⟨0, [-1]⟩ :=
  ⟨rfl, rfl, (fun _ _ _ h => by cases h), fun _ => rfl⟩

/-- The methods that do not read leave the cursor. -/
theorem quiet_cursor {c : Call} (he : exclusive c = false) (text : List Rune) (m : Mem) : (call c (strm text m)).2.cursor = m.cursor := by
  cases c with
  | position =>
    simp only [call, strm, Stream.position, Base.position]
    by_cases h : m.cursor ≥ text.length
    · simp only [h, if_true]; rfl
    · simp only [h, if_false]
      by_cases h : m.cursor = 0
      · simp only [h, if_true]; simp [Stream.cursor]
      · simp only [h, if_false]; rfl
  | peek => rfl
  | cursor => rfl
  | lookup i => rfl
  | _ => cases he

theorem only_of {c : Call} {p : Prog} (h : Manners c p) (he : exclusive c = false) (hl : looks c = false) : p.OnlyCursor := by
  cases c <;> first | exact h | (cases he; done) | (cases hl; done)

theorem cursor_step {text : List Rune} {i : Nat} {σ σ' : Config} {b : Mem} (hl : LockInv σ) (hc : CursorInv text σ b) (h : stepOf text i σ = some σ') :
    ∃ b', CursorInv text σ' b' := by
  have entering {c : Call} (hw : σ.writer = none) : Manners c (body text c) ∧ (looks c = false → (call c (strm text b)).1 = ((body text c).run σ.mem).1) ∧
      (exclusive c = true → (call c (strm text b)).2.cursor = ((body text c).run σ.mem).2.cursor) := by
    have hb := body_run text c σ.mem
    have hm := call_lines text c b σ.mem (hc.cur hw).symm
    rw [hb] at hm
    exact ⟨body_manners text c, hm.1, fun _ => hm.2⟩
  rcases stepOf_cases h with ⟨c, cs, ht, he, hw, hr, rfl⟩ | ⟨c, cs, ht, he, hw, rfl⟩ | ⟨c, cs, a, ht, he, rfl⟩ | ⟨c, cs, a, ht, he, rfl⟩ | ⟨c, cs, p, p', m, ht, hs, rfl⟩
  · refine ⟨b, hc.state, hc.ans, fun j c' p' hj => ?_, fun h => by cases h⟩
    by_cases hji : j = i
    · subst hji
      simp only [set_same] at hj
      cases hj
      exact entering hw
    · simp only [set_other _ _ hji] at hj
      exact (inside_none hl hw hr j hj).elim
  · refine ⟨b, hc.state, hc.ans, fun j c' p' hj => ?_, hc.cur⟩
    by_cases hji : j = i
    · subst hji
      simp only [set_same] at hj
      cases hj
      exact entering hw
    · simp only [set_other _ _ hji] at hj
      exact hc.inside j c' p' hj
  · have hi : (σ.threads i).now = some (c, .ret a) := by rw [ht]
    obtain ⟨hm, ha, hcur⟩ := hc.inside i c _ hi
    obtain ⟨b', hb'⟩ := strm_call text c b
    refine ⟨b', ?_, ?_, fun j c' p' hj => ?_, fun _ => ?_⟩
    · simp only [calls_snoc, run_snoc, hc.state, hb']
    · simp only [calls_snoc, answers_snoc, run_snoc]
      rw [zipWith_snoc _ _ _ _ _ (by simp [calls, answers]), zipWith_snoc _ _ _ _ _ (run_length _ _).symm, hc.ans, hc.state]
      rw [masked_eq (a := a) (a' := (call c (strm text b)).1) (fun h => (ha h).symm)]
    · by_cases hji : j = i
      · subst hji
        simp only [set_same] at hj
        cases hj
      · simp only [set_other _ _ hji] at hj
        exact absurd (inside_alone hl hi he hj) hji
    · have := hcur he
      rw [hb', cursor_strm] at this
      simp only [Prog.run] at this
      exact Int.ofNat.inj this.symm
  · have hi : (σ.threads i).now = some (c, .ret a) := by rw [ht]
    obtain ⟨hm, ha, -⟩ := hc.inside i c _ hi
    obtain ⟨b', hb'⟩ := strm_call text c b
    have hcb : b'.cursor = b.cursor := by
      have := quiet_cursor he text b
      rw [hb', cursor_strm] at this
      exact Int.ofNat.inj this
    have hw : σ.writer = none := reader_no_writer hl hi he
    refine ⟨b', ?_, ?_, fun j c' p' hj => ?_, fun h => ?_⟩
    · simp only [calls_snoc, run_snoc, hc.state, hb']
    · simp only [calls_snoc, answers_snoc, run_snoc]
      rw [zipWith_snoc _ _ _ _ _ (by simp [calls, answers]), zipWith_snoc _ _ _ _ _ (run_length _ _).symm, hc.ans, hc.state]
      rw [masked_eq (a := a) (a' := (call c (strm text b)).1) (fun h => (ha h).symm)]
    · by_cases hji : j = i
      · subst hji
        simp only [set_same] at hj
        cases hj
      · simp only [set_other _ _ hji] at hj
        obtain ⟨h1, h2, h3⟩ := hc.inside j c' p' hj
        have hcl := call_lines text c' b' b hcb
        refine ⟨h1, fun hk => by rw [hcl.1 hk]; exact h2 hk, fun hk => by rw [hcl.2]; exact h3 hk⟩
    · exact (hc.cur hw).trans hcb.symm
  · have hi : (σ.threads i).now = some (c, p) := by rw [ht]
    obtain ⟨hm, ha, hcur⟩ := hc.inside i c p hi
    obtain ⟨hm', hk, -⟩ := manners_step hm hs
    have hrun := run_step hs
    refine ⟨b, hc.state, hc.ans, fun j c' q hj => ?_, fun hw => ?_⟩
    · by_cases hji : j = i
      · subst hji
        simp only [set_same] at hj
        cases hj
        rw [hrun] at ha hcur
        exact ⟨hm', ha, hcur⟩
      · simp only [set_other _ _ hji] at hj
        obtain ⟨h1, h2, h3⟩ := hc.inside j c' q hj
        have he : exclusive c = false := by
          cases he : exclusive c
          · rfl
          · exact absurd (inside_alone hl hi he hj) hji
        have he' : exclusive c' = false := by
          cases he' : exclusive c'
          · rfl
          · exact absurd (inside_alone hl hj he' hi).symm hji
        refine ⟨h1, fun hn => ?_, fun hn => by rw [he'] at hn; cases hn⟩
        rw [h2 hn]
        exact only_run q (only_of h1 he' hn) (hk he).symm
    · have he : exclusive c = false := inside_reading hl hw hi
      exact (hk he).trans (hc.cur hw)

theorem reaches_cursor {text : List Rune} {prog : Nat → List Call} {σ : Config} (h : Reaches text (start prog) σ) : ∃ b, CursorInv text σ b := by
  induction h with
  | refl => exact ⟨_, cursor_start text prog⟩
  | step i hr hstep ih =>
    obtain ⟨b, hb⟩ := ih
    exact cursor_step (reaches_lock hr) hb hstep

/-! ## Everything, when the table of lines has one user -/

structure TableInv (text : List Rune) (σ : Config) (b : Mem) : Prop where
  hist : run (calls σ.hist) (Stream.ofChars text) = (answers σ.hist, strm text b)
  inside : ∀ i c p, (σ.threads i).now = some (c, p) →
    Manners c p ∧ (call c (strm text b)).1 = (p.run σ.mem).1 ∧
      (exclusive c = true ∨ c = .position → (call c (strm text b)).2 = strm text (p.run σ.mem).2)
  cur : σ.writer = none → σ.mem.cursor = b.cursor
  clean : σ.writer = none → (∀ i p, (σ.threads i).now ≠ some (.position, p)) → σ.mem = b

theorem table_start (text : List Rune) (prog : Nat → List Call) : TableInv text (start prog) ⟨0, [-1]⟩ :=
  ⟨rfl, (fun _ _ _ h => by cases h), fun _ => rfl, fun _ _ => rfl⟩

theorem quiet_call {c : Call} (he : exclusive c = false) (hp : c ≠ .position) (text : List Rune) (b : Mem) : (call c (strm text b)).2 = strm text b := by
  cases c <;> first | rfl | (cases he; done) | exact absurd rfl hp

theorem strm_inj {text : List Rune} {m m' : Mem} (h : strm text m = strm text m') : m = m' := by
  obtain ⟨n, l⟩ := m
  obtain ⟨n', l'⟩ := m'
  simp only [strm, Stream.base.injEq, Base.mk.injEq, true_and] at h
  rw [h.1, h.2]

theorem table_step {text : List Rune} {prog : Nat → List Call} (ht' : Tame prog) {i : Nat} {σ σ' : Config} {b : Mem} (hreach : Reaches text (start prog) σ)
    (hc : TableInv text σ b) (h : stepOf text i σ = some σ') : ∃ b', TableInv text σ' b' := by
  have hl := reaches_lock hreach
  -- a goroutine that asks for the position has the table for itself
  have owner {i j : Nat} (hi : Call.position ∈ prog i) (hji : j ≠ i) {c : Call} (hj : c ∈ prog j) : looks c = false := by
    rcases ht' with ht' | ⟨o, ho⟩
    · exact absurd hi (ht' i)
    · by_cases hio : i = o
      · subst hio
        exact ho j hji c hj
      · exact absurd (ho i hio _ hi) (by simp [looks])
  rcases stepOf_cases h with ⟨c, cs, ht, he, hw, hr, rfl⟩ | ⟨c, cs, ht, he, hw, rfl⟩ | ⟨c, cs, a, ht, he, rfl⟩ | ⟨c, cs, a, ht, he, rfl⟩ | ⟨c, cs, p, p', m, ht, hs, rfl⟩
  · have hmem : σ.mem = b := hc.clean hw (fun j p hj => inside_none hl hw hr j hj)
    refine ⟨b, hc.hist, fun j c' p' hj => ?_, fun h => (by cases h), fun h => (by cases h)⟩
    by_cases hji : j = i
    · subst hji
      simp only [set_same] at hj
      cases hj
      refine ⟨body_manners text c, ?_⟩
      rw [← hmem, body_run]
      exact ⟨rfl, fun _ => rfl⟩
    · simp only [set_other _ _ hji] at hj
      exact (inside_none hl hw hr j hj).elim
  · have hci : c ∈ prog i := todo_prog hreach (j := i) (by rw [ht]; exact List.mem_cons_self)
    refine ⟨b, hc.hist, fun j c' p' hj => ?_, hc.cur, fun hw' hq => ?_⟩
    · by_cases hji : j = i
      · subst hji
        simp only [set_same] at hj
        cases hj
        refine ⟨body_manners text c, ?_⟩
        by_cases hpos : ∀ k p, (σ.threads k).now ≠ some (.position, p)
        · rw [← hc.clean hw hpos, body_run]
          exact ⟨rfl, fun _ => rfl⟩
        · have hex : ∃ k p, (σ.threads k).now = some (.position, p) := by
            apply Classical.byContradiction
            intro hn
            exact hpos (fun k p hk => hn ⟨k, p, hk⟩)
          obtain ⟨k, p, hk⟩ := hex
          have hjk : j ≠ k := by
            rintro rfl
            rw [ht] at hk
            cases hk
          have hlook := owner (inside_prog hreach hk) hjk hci
          have hb := body_run text c σ.mem
          have hcl := (call_lines text c b σ.mem (hc.cur hw).symm).1 hlook
          rw [hb] at hcl
          refine ⟨hcl, fun hx => ?_⟩
          rcases hx with hx | hx
          · rw [he] at hx; cases hx
          · subst hx; cases hlook
      · simp only [set_other _ _ hji] at hj
        exact hc.inside j c' p' hj
    · refine hc.clean hw (fun j p hj => ?_)
      have hji : j ≠ i := by
        rintro rfl
        rw [ht] at hj
        cases hj
      exact hq j p (by simp only [set_other _ _ hji]; exact hj)
  · have hi : (σ.threads i).now = some (c, .ret a) := by rw [ht]
    obtain ⟨hm, ha, heff⟩ := hc.inside i c _ hi
    refine ⟨σ.mem, ?_, fun j c' p' hj => ?_, fun _ => rfl, fun _ _ => rfl⟩
    · simp only [calls_snoc, answers_snoc, run_snoc, hc.hist, ha, heff (.inl he)]
      rfl
    · by_cases hji : j = i
      · subst hji
        simp only [set_same] at hj
        cases hj
      · simp only [set_other _ _ hji] at hj
        exact absurd (inside_alone hl hi he hj) hji
  · have hi : (σ.threads i).now = some (c, .ret a) := by rw [ht]
    obtain ⟨hm, ha, heff⟩ := hc.inside i c _ hi
    have hw : σ.writer = none := reader_no_writer hl hi he
    by_cases hcp : c = .position
    · subst hcp
      refine ⟨σ.mem, ?_, fun j c' p' hj => ?_, fun _ => rfl, fun _ _ => rfl⟩
      · simp only [calls_snoc, answers_snoc, run_snoc, hc.hist, ha, heff (.inr rfl)]
        rfl
      · by_cases hji : j = i
        · subst hji
          simp only [set_same] at hj
          cases hj
        · simp only [set_other _ _ hji] at hj
          obtain ⟨h1, h2, h3⟩ := hc.inside j c' p' hj
          have hlook := owner (inside_prog hreach hi) hji (inside_prog hreach hj)
          refine ⟨h1, ?_, fun hx => ?_⟩
          · rw [(call_lines text c' σ.mem b (hc.cur hw)).1 hlook]
            exact h2
          · rcases hx with hx | hx
            · rw [inside_reading hl hw hj] at hx; cases hx
            · subst hx; cases hlook
    · refine ⟨b, ?_, fun j c' p' hj => ?_, hc.cur, fun _ hq => hc.clean hw (fun j p hj => ?_)⟩
      · simp only [calls_snoc, answers_snoc, run_snoc, hc.hist, ha, quiet_call he hcp]
        rfl
      · by_cases hji : j = i
        · subst hji
          simp only [set_same] at hj
          cases hj
        · simp only [set_other _ _ hji] at hj
          exact hc.inside j c' p' hj
      · have hji : j ≠ i := by
          rintro rfl
          rw [hi] at hj
          cases hj
          exact hcp rfl
        exact hq j p (by simp only [set_other _ _ hji]; exact hj)
  · have hi : (σ.threads i).now = some (c, p) := by rw [ht]
    obtain ⟨hm, ha, heff⟩ := hc.inside i c p hi
    obtain ⟨hm', hk, hsame⟩ := manners_step hm hs
    have hrun := run_step hs
    refine ⟨b, hc.hist, fun j c' q hj => ?_, fun hw => ?_, fun hw hq => ?_⟩
    · by_cases hji : j = i
      · subst hji
        simp only [set_same] at hj
        cases hj
        rw [hrun] at ha heff
        exact ⟨hm', ha, heff⟩
      · simp only [set_other _ _ hji] at hj
        obtain ⟨h1, h2, h3⟩ := hc.inside j c' q hj
        have he : exclusive c = false := by
          cases he : exclusive c
          · rfl
          · exact absurd (inside_alone hl hi he hj) hji
        have he' : exclusive c' = false := by
          cases he' : exclusive c'
          · rfl
          · exact absurd (inside_alone hl hj he' hi).symm hji
        by_cases hcp : c = .position
        · subst hcp
          have hlook := owner (inside_prog hreach hi) hji (inside_prog hreach hj)
          refine ⟨h1, ?_, fun hx => ?_⟩
          · rw [h2]
            exact only_run q (only_of h1 he' hlook) (hk he).symm
          · rcases hx with hx | hx
            · rw [he'] at hx; cases hx
            · subst hx; cases hlook
        · have := hsame he hcp
          subst this
          exact ⟨h1, h2, h3⟩
    · have he : exclusive c = false := inside_reading hl hw hi
      exact (hk he).trans (hc.cur hw)
    · have he : exclusive c = false := inside_reading hl hw hi
      have hcp : c ≠ .position := by
        rintro rfl
        exact hq i p' (by simp only [set_same])
      have := hsame he hcp
      subst this
      refine hc.clean hw (fun j p hj => ?_)
      have hji : j ≠ i := by
        rintro rfl
        rw [hi] at hj
        cases hj
        exact hcp rfl
      exact hq j p (by simp only [set_other _ _ hji]; exact hj)

theorem reaches_table {text : List Rune} {prog : Nat → List Call} (ht : Tame prog) {σ : Config} (h : Reaches text (start prog) σ) :
    ∃ b, TableInv text σ b := by
  induction h with
  | refl => exact ⟨_, table_start text prog⟩
  | step i hr hstep ih =>
    obtain ⟨b, hb⟩ := ih
    exact table_step ht hr hb hstep

end Xbnf.Conc
