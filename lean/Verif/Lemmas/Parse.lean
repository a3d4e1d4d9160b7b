import Verif.Model.Grammar
import Verif.Spec.Definition
/-
The definition parser: more fuel never changes an answer, and a fuel above the length of the text
always gives one; what is parsed is well-formed and its references are all recorded.
-/
namespace Xbnf.Props
open Spec

/-! ## More fuel -/

/-- `y` does what `x` does, whenever `x` has fuel enough. -/
def Below {α : Type} (x y : P α) : Prop := ∀ st, x st = .oof ∨ x st = y st

theorem Below.refl {α : Type} (x : P α) : Below x x := fun _ => .inr rfl

theorem Below.oof {α : Type} (y : P α) : Below P.oof y := fun _ => .inl rfl

theorem Below.trans {α : Type} {x y z : P α} (h1 : Below x y) (h2 : Below y z) : Below x z := by
  intro st
  rcases h1 st with h | h
  · exact .inl h
  · rw [h]; exact h2 st

theorem P.bind_apply {α β : Type} (x : P α) (f : α → P β) (st : PState) :
    (x >>= f) st = match x st with
      | .ok a st' => f a st'
      | .err e st' => .err e st'
      | .oof => .oof := rfl

theorem Below.bind {α β : Type} {x y : P α} {f g : α → P β} (h : Below x y) (hf : ∀ a, Below (f a) (g a)) :
    Below (x >>= f) (y >>= g) := by
  intro st
  rw [P.bind_apply, P.bind_apply]
  rcases h st with h | h
  · rw [h]; exact .inl rfl
  · rw [h]
    cases y st with
    | ok a st' => exact hf a st'
    | err e st' => exact .inr rfl
    | oof => exact .inl rfl

theorem Below.ite {α : Type} {c : Prop} [Decidable c] {x y x' y' : P α} (h1 : Below x x') (h2 : Below y y') :
    Below (if c then x else y) (if c then x' else y') := by
  split <;> assumption

theorem Below.mapErr {α : Type} {x y : P α} (f : PErr → PErr) (h : Below x y) : Below (x.mapErr f) (y.mapErr f) := by
  intro st
  unfold P.mapErr
  rcases h st with h | h
  · rw [h]; exact .inl rfl
  · rw [h]; exact .inr rfl

theorem mapErr_ok {α : Type} {f : PErr → PErr} {x : P α} {st st' : PState} {a : α} : x.mapErr f st = .ok a st' ↔ x st = .ok a st' := by
  unfold P.mapErr
  cases x st <;> simp

theorem litLoop_below (q : Rune) : ∀ {n m : Nat}, n ≤ m → ∀ buf uni, Below (litLoop q n buf uni) (litLoop q m buf uni)
  | 0, _, _, _, _ => Below.oof _
  | n + 1, m + 1, h, buf, uni => by
    have ih := fun buf uni => litLoop_below q (Nat.le_of_succ_le_succ h) buf uni
    unfold litLoop
    apply Below.bind (Below.refl _); intro c
    apply Below.ite (Below.refl _)
    apply Below.ite (Below.refl _)
    apply Below.ite _ (ih _ _)
    apply Below.bind (Below.refl _); intro d
    apply Below.ite
    · exact Below.bind (Below.refl _) (fun _ => ih _ _)
    · exact Below.bind (Below.refl _) (fun _ => ih _ _)

theorem inChar_below {n m : Nat} (h : n ≤ m) : Below (inChar n) (inChar m) := by
  unfold inChar
  apply Below.bind (Below.refl _); intro o
  apply Below.ite (Below.refl _)
  apply Below.bind (litLoop_below _ h _ _); intro x
  exact Below.refl _

theorem inString_below {n m : Nat} (h : n ≤ m) : Below (inString n) (inString m) := by
  unfold inString
  apply Below.bind (Below.refl _); intro o
  apply Below.ite (Below.refl _)
  apply Below.bind (litLoop_below _ h _ _); intro x
  exact Below.refl _

theorem specLoop_below (c : Bool) : ∀ {n m : Nat}, n ≤ m → ∀ buf, Below (specLoop c n buf) (specLoop c m buf)
  | 0, _, _, _ => Below.oof _
  | n + 1, m + 1, h, buf => by
    have ih := fun buf => specLoop_below c (Nat.le_of_succ_le_succ h) buf
    unfold specLoop
    apply Below.bind (Below.refl _); intro c
    apply Below.ite (ih _)
    apply Below.ite (Below.refl _)
    apply Below.ite (Below.refl _)
    exact Below.ite (ih _) (Below.refl _)

theorem inRepeatSpec_below {n m : Nat} (h : n ≤ m) : Below (inRepeatSpec n) (inRepeatSpec m) := by
  unfold inRepeatSpec
  apply Below.bind (Below.refl _); intro o
  apply Below.ite (Below.refl _)
  apply Below.bind (Below.refl _); intro _
  apply Below.bind (specLoop_below _ h _); intro x
  apply Below.ite (Below.refl _)
  apply Below.bind
  · apply Below.ite
    · apply Below.bind (specLoop_below _ h _); intro y
      exact Below.refl _
    · exact Below.refl _
  · intro y; exact Below.refl _

/-- The nested parser gets better. -/
def BelowP (p q : List Rune → P Rule) : Prop := ∀ ts, Below (p ts) (q ts)

theorem inGroup_below {p q : List Rune → P Rule} (h : BelowP p q) : Below (inGroup p) (inGroup q) := by
  unfold inGroup
  apply Below.bind (Below.refl _); intro o
  apply Below.ite (Below.refl _)
  exact Below.bind (h _) (fun _ => Below.refl _)

theorem inOption_below {p q : List Rune → P Rule} (h : BelowP p q) : Below (inOption p) (inOption q) := by
  unfold inOption
  apply Below.bind (Below.refl _); intro o
  apply Below.ite (Below.refl _)
  exact Below.bind (h _) (fun _ => Below.refl _)

theorem inRepetition_below {p q : List Rune → P Rule} (h : BelowP p q) {n m : Nat} (hn : n ≤ m) :
    Below (inRepetition p n) (inRepetition q m) := by
  unfold inRepetition
  apply Below.bind (Below.refl _); intro o
  apply Below.ite (Below.refl _)
  apply Below.bind (h _); intro r
  apply Below.bind (Below.refl _); intro c
  apply Below.ite (Below.refl _)
  apply Below.bind (Below.refl _); intro d
  apply Below.ite (Below.refl _)
  apply Below.ite (Below.refl _)
  apply Below.ite _ (Below.refl _)
  exact Below.bind (inRepeatSpec_below hn) (fun _ => Below.refl _)

theorem excludeLoop_below {p q : List Rune → P Rule} (h : BelowP p q) : ∀ {n m : Nat}, n ≤ m → ∀ acc,
    Below (excludeLoop p n acc) (excludeLoop q m acc)
  | 0, _, _, _ => Below.oof _
  | n + 1, m + 1, hn, acc => by
    unfold excludeLoop
    apply Below.bind (Below.refl _); intro _
    apply Below.bind (Below.refl _); intro c
    apply Below.ite (Below.refl _)
    apply Below.bind (Below.refl _); intro _
    apply Below.bind (h _); intro r
    exact excludeLoop_below h (Nat.le_of_succ_le_succ hn) _

theorem blockTail_below {p q : List Rune → P Rule} (h : BelowP p q) {n m : Nat} (hn : n ≤ m) (o e) :
    Below (blockTail p n o e) (blockTail q m o e) := by
  unfold blockTail
  apply Below.bind (excludeLoop_below h hn _); intro x
  apply Below.bind (h _); intro c
  exact Below.refl _

theorem inBlock_below {p q : List Rune → P Rule} (h : BelowP p q) {n m : Nat} (hn : n ≤ m) :
    Below (inBlock p n) (inBlock q m) := by
  unfold inBlock
  apply Below.bind (Below.refl _); intro o
  apply Below.ite (Below.refl _)
  apply Below.bind (Below.mapErr _ (h _)); intro opn
  apply Below.bind (Below.refl _); intro _
  apply Below.bind (Below.refl _); intro c
  apply Below.ite
  · apply Below.bind (h _); intro r
    apply Below.bind (Below.refl _); intro _
    apply Below.bind (Below.refl _); intro d
    exact Below.ite (Below.refl _) (blockTail_below h hn _ _)
  · exact blockTail_below h hn _ _

theorem primary_below (other : Rune → PErr) {p q : List Rune → P Rule} (h : BelowP p q) {n m : Nat} (hn : n ≤ m) (name : Name) (c : Rune) :
    Below (primary other p n name c) (primary other q m name c) := by
  unfold primary
  apply Below.ite (inChar_below hn)
  apply Below.ite (Below.refl _)
  apply Below.ite (inString_below hn)
  apply Below.ite (inOption_below h)
  apply Below.ite (inRepetition_below h hn)
  apply Below.ite (inBlock_below h hn)
  apply Below.ite (inGroup_below h)
  exact Below.refl _

theorem parseOneLoop_below {p q : Rune → P Rule} (h : ∀ c, Below (p c) (q c)) : ∀ {n m : Nat}, n ≤ m → ∀ tk nd v,
    Below (parseOneLoop p n tk nd v) (parseOneLoop q m tk nd v)
  | 0, _, _, _, _, _ => Below.oof _
  | n + 1, m + 1, hn, tk, nd, v => by
    have ih := fun tk nd v => parseOneLoop_below h (Nat.le_of_succ_le_succ hn) tk nd v
    unfold parseOneLoop
    apply Below.bind (Below.refl _); intro c
    apply Below.ite
    · exact Below.bind (Below.refl _) (fun _ => ih _ _ _)
    apply Below.ite (Below.refl _)
    apply Below.ite
    · apply Below.bind (Below.refl _); intro _
      apply Below.bind (Below.refl _); intro _
      exact Below.ite (Below.refl _) (ih _ _ _)
    · exact Below.bind (h _) (fun _ => Below.refl _)

theorem choiceParse_below {p q : P Rule} (h : Below p q) : ∀ {n m : Nat}, n ≤ m → ∀ gs rs,
    Below (choiceParse p n gs rs) (choiceParse q m gs rs)
  | 0, _, _, _, _ => Below.oof _
  | n + 1, m + 1, hn, gs, rs => by
    have ih := fun gs rs => choiceParse_below h (Nat.le_of_succ_le_succ hn) gs rs
    unfold choiceParse
    apply Below.bind (Below.refl _); intro c
    apply Below.ite
    · exact Below.bind (Below.refl _) (fun _ => ih _ _)
    apply Below.ite
    · apply Below.bind (Below.refl _); intro _
      exact Below.bind h (fun _ => ih _ _)
    apply Below.ite
    · apply Below.ite (Below.refl _)
      apply Below.bind (Below.refl _); intro _
      exact Below.bind h (fun _ => ih _ _)
    · exact Below.refl _

theorem inChoice_below {p q : P Rule} (h : Below p q) {n m : Nat} (hn : n ≤ m) (r : Rule) :
    Below (inChoice p n r) (inChoice q m r) := by
  unfold inChoice
  exact Below.bind (choiceParse_below h hn _ _) (fun _ => Below.refl _)

theorem parseLoop_below {p q : Rune → P Rule} (h : ∀ c, Below (p c) (q c)) {o o' : P Rule} (ho : Below o o')
    (terms : List Rune) : ∀ {n m : Nat}, n ≤ m → ∀ rs tk nd v,
    Below (parseLoop p o terms n rs tk nd v) (parseLoop q o' terms m rs tk nd v)
  | 0, _, _, _, _, _, _ => Below.oof _
  | n + 1, m + 1, hn, rs, tk, nd, v => by
    have hn' := Nat.le_of_succ_le_succ hn
    have ih := fun rs tk nd v => parseLoop_below h ho terms hn' rs tk nd v
    unfold parseLoop
    apply Below.bind (Below.refl _); intro c
    apply Below.ite (Below.refl _)
    apply Below.ite (Below.refl _)
    apply Below.ite
    · exact Below.bind (Below.refl _) (fun _ => ih _ _ _ _)
    apply Below.ite
    · apply Below.bind (Below.refl _); intro _
      apply Below.bind (Below.refl _); intro _
      exact Below.ite (Below.refl _) (ih _ _ _ _)
    apply Below.ite
    · cases rs.getLast? with
      | none => exact Below.refl _
      | some last => exact Below.bind (inChoice_below ho hn' _) (fun _ => ih _ _ _ _)
    apply Below.ite
    · exact Below.refl _
    · exact Below.bind (h _) (fun _ => ih _ _ _ _)

theorem parse_below : ∀ {n m : Nat}, n ≤ m → ∀ name terms, Below (parse n name terms) (parse m name terms)
  | 0, _, _, _, _ => Below.oof _
  | n + 1, m + 1, hn, name, terms => by
    have hn' := Nat.le_of_succ_le_succ hn
    have hp : ∀ other c, Below (primary other (parse n name) n name c) (primary other (parse m name) m name c) :=
      fun other c => primary_below other (fun ts => parse_below hn' name ts) hn' name c
    unfold parse
    apply Below.bind (Below.refl _); intro _
    exact parseLoop_below (hp _) (parseOneLoop_below (hp _) hn' _ _ _) terms hn' _ _ _ _

/-- An answer does not change with more fuel. -/
theorem parse_more {n m : Nat} (h : n ≤ m) {name terms st} (hne : parse n name terms st ≠ .oof) :
    parse m name terms st = parse n name terms st := by
  rcases parse_below h name terms st with h | h
  · exact absurd h hne
  · exact h.symm

/-! ## Enough fuel, well-formed rules, recorded references -/

/-- `x` comes to an end in `st`; `Q` holds of what it returns, `E` of the state an error leaves. -/
def wp {α : Type} (x : P α) (st : PState) (Q : α → PState → Prop) (E : PState → Prop) : Prop :=
  match x st with
  | .ok a st' => Q a st'
  | .err _ st' => E st'
  | .oof => False

theorem wp_bind {α β : Type} (x : P α) (f : α → P β) (st : PState) (Q : β → PState → Prop) (E : PState → Prop) :
    wp (x >>= f) st Q E ↔ wp x st (fun a st' => wp (f a) st' Q E) E := by
  unfold wp
  rw [P.bind_apply]
  cases x st <;> exact Iff.rfl

theorem wp_pure {α : Type} (a : α) (st : PState) (Q : α → PState → Prop) (E : PState → Prop) :
    wp (pure a) st Q E ↔ Q a st := Iff.rfl

theorem wp_fail {α : Type} (e : PErr) (st : PState) (Q : α → PState → Prop) (E : PState → Prop) :
    wp (P.fail e) st Q E ↔ E st := Iff.rfl

theorem wp_mapErr {α : Type} (f : PErr → PErr) (x : P α) (st : PState) (Q : α → PState → Prop) (E : PState → Prop) :
    wp (x.mapErr f) st Q E ↔ wp x st Q E := by
  unfold wp P.mapErr
  cases x st <;> exact Iff.rfl

theorem wp_peek (st : PState) (Q : Rune → PState → Prop) (E : PState → Prop) :
    wp pPeek st Q E ↔ Q (peekR st.rest) st := Iff.rfl

theorem wp_next (st : PState) (Q : Rune → PState → Prop) (E : PState → Prop) :
    wp pNext st Q E ↔ Q (peekR st.rest) { st with rest := st.rest.tail } := Iff.rfl

theorem wp_skip (st : PState) (Q : Unit → PState → Prop) (E : PState → Prop) :
    wp pSkip st Q E ↔ Q () { st with rest := skipR st.rest } := Iff.rfl

theorem wp_usage (r u : Name) (st : PState) (Q : Unit → PState → Prop) (E : PState → Prop) :
    wp (pUsage r u) st Q E ↔ Q () { st with usages := st.usages ++ [(r, u)] } := Iff.rfl

theorem wp_nameChars (st : PState) (Q : List Rune → PState → Prop) (E : PState → Prop) :
    wp nameChars st Q E ↔ Q (st.rest.takeWhile isNameChar) { st with rest := st.rest.dropWhile isNameChar } := Iff.rfl

theorem wp_comment (st : PState) (Q : Unit → PState → Prop) (E : PState → Prop) :
    wp skipComment st Q E ↔ Q () { st with rest := (st.rest.dropWhile (fun c => !(c == newline))).tail } := Iff.rfl

theorem wp_mono {α : Type} {x : P α} {st : PState} {Q Q' : α → PState → Prop} {E E' : PState → Prop}
    (h : wp x st Q E) (hQ : ∀ a st', Q a st' → Q' a st') (hE : ∀ st', E st' → E' st') : wp x st Q' E' := by
  unfold wp at *
  cases hx : x st with
  | ok a st' => rw [hx] at h; exact hQ a st' h
  | err e st' => rw [hx] at h; exact hE st' h
  | oof => rw [hx] at h; exact h

theorem peek_ne {l : List Rune} {c : Rune} (h : peekR l = c) (hc : c ≠ EOFChar) : l.tail.length + 1 = l.length := by
  cases l with
  | nil => exact absurd h.symm hc
  | cons x xs => rfl

theorem tail_le (l : List Rune) : l.tail.length ≤ l.length := by
  rw [List.length_tail]; omega

theorem skip_le (l : List Rune) : (skipR l).length ≤ l.length := (List.dropWhile_suffix _).length_le

/-- The references of a rule as the parser records them. -/
def tag (name : Name) (l : List Name) : List (Name × Name) := l.map (fun n => (n, name))

theorem tag_append (name : Name) (a b : List Name) : tag name (a ++ b) = tag name a ++ tag name b := List.map_append

/-- What an error leaves: the references seen so far stay recorded. -/
def Left (name : Name) (st st' : PState) : Prop := ∃ l, st'.usages = st.usages ++ tag name l

theorem Left.refl {name : Name} (st : PState) : Left name st st := ⟨[], by simp [tag]⟩

theorem Left.of_eq {name : Name} {st st' : PState} (h : st'.usages = st.usages) : Left name st st' := ⟨[], by simp [h, tag]⟩

theorem Left.trans {name : Name} {a b c : PState} (h1 : Left name a b) (h2 : Left name b c) : Left name a c := by
  obtain ⟨u, hu⟩ := h1
  obtain ⟨v, hv⟩ := h2
  exact ⟨u ++ v, by rw [hv, hu, List.append_assoc, tag_append]⟩

theorem Left.of_tag {a b : PState} {name l} (h : b.usages = a.usages ++ tag name l) : Left name a b := ⟨_, h⟩

/-- A parser of rules that uses at most `N` characters: it ends, it takes characters away, the rule is
well-formed, and exactly its references are recorded. -/
def Contract (N : Nat) (name : Name) (x : P Rule) : Prop := ∀ st, st.rest.length ≤ N →
  wp x st (fun r st' => st'.rest.length < st.rest.length ∧ WellFormed r ∧
    st'.usages = st.usages ++ tag name (refs r)) (Left name st)

/-- A step that records no reference. -/
def Quiet {α : Type} (N : Nat) (x : P α) (Q : α → Prop) : Prop := ∀ st, st.rest.length ≤ N →
  wp x st (fun a st' => st'.rest.length ≤ st.rest.length ∧ Q a ∧ st'.usages = st.usages)
    (fun st' => st'.usages = st.usages)

theorem hexDigits_quiet (N : Nat) : ∀ n, Quiet N (hexDigits n) (fun ds => ds.length = n ∧ ∀ d ∈ ds, isHex d = true)
  | 0, st, h => by
    unfold hexDigits
    rw [wp_pure]
    exact ⟨Nat.le_refl _, ⟨rfl, fun _ h => (by cases h)⟩, rfl⟩
  | n + 1, st, h => by
    unfold hexDigits
    simp only [wp_bind, wp_next]
    split
    · rw [wp_fail]
    · rename_i hc
      rw [wp_bind]
      have hl := tail_le st.rest
      refine wp_mono (hexDigits_quiet N n _ (Nat.le_trans hl h)) ?_ (fun _ h => h)
      intro ds st' hd
      obtain ⟨h1, ⟨h2, h3⟩, h4⟩ := hd
      rw [wp_pure]
      refine ⟨Nat.le_trans h1 hl, ⟨by rw [List.length_cons, h2], ?_⟩, h4⟩
      intro d hd
      rcases List.mem_cons.1 hd with rfl | hd
      · simp only [not_or, Bool.not_eq_false] at hc; exact hc.2
      · exact h3 d hd

theorem parseUnicodeEscape_quiet (N : Nat) : Quiet N parseUnicodeEscape (fun _ => True) := by
  intro st h
  unfold parseUnicodeEscape
  simp only [wp_bind, wp_peek]
  split
  · rw [wp_fail]
  · simp only [wp_bind, wp_next]
    have hl := tail_le st.rest
    refine wp_mono (hexDigits_quiet N 4 _ (Nat.le_trans hl h)) ?_ (fun _ h => h)
    intro ds st' hd
    rw [wp_pure]
    exact ⟨Nat.le_trans hd.1 hl, trivial, hd.2.2⟩

theorem litLoop_quiet (q : Rune) : ∀ n st buf uni, st.rest.length < n →
    wp (litLoop q n buf uni) st (fun _ st' => st'.rest.length < st.rest.length ∧ st'.usages = st.usages)
      (fun st' => st'.usages = st.usages)
  | 0, _, _, _, h => absurd h (Nat.not_lt_zero _)
  | n + 1, st, buf, uni, h => by
    unfold litLoop
    simp only [wp_bind, wp_next]
    by_cases hc : peekR st.rest = EOFChar
    · rw [if_pos hc, wp_fail]
    rw [if_neg hc]
    have hl := peek_ne rfl hc
    by_cases hq : peekR st.rest = q
    · rw [if_pos hq, wp_pure]
      exact ⟨by simp only; omega, rfl⟩
    rw [if_neg hq]
    have again : ∀ st1 : PState, st1.rest.length < st.rest.length → st1.usages = st.usages → ∀ buf uni,
        wp (litLoop q n buf uni) st1 (fun _ st' => st'.rest.length < st.rest.length ∧ st'.usages = st.usages)
          (fun st' => st'.usages = st.usages) := by
      intro st1 h1 h2 buf uni
      refine wp_mono (litLoop_quiet q n st1 buf uni (by omega)) ?_ ?_
      · intro _ st' h; exact ⟨Nat.lt_trans h.1 h1, by rw [h.2, h2]⟩
      · intro st' h; rw [h, h2]
    by_cases hb : peekR st.rest = ch '\\'
    · rw [if_pos hb]
      simp only [wp_bind, wp_peek]
      split
      · rw [wp_bind]
        refine wp_mono (parseUnicodeEscape_quiet st.rest.length _ (by simp only; omega)) ?_ (fun _ h => h)
        intro u st' hu
        exact again st' (by have := hu.1; simp only at this; omega) hu.2.2 _ _
      · simp only [wp_bind, wp_next]
        refine again ⟨st.rest.tail.tail, st.usages⟩ ?_ rfl _ _
        have := tail_le st.rest.tail
        simp only; omega
    · rw [if_neg hb]
      refine again ⟨st.rest.tail, st.usages⟩ ?_ rfl _ _
      simp only; omega

theorem inRange_quiet (N : Nat) (c : Rune) (u : Bool) :
    Quiet N (inRange c u) (fun r => WellFormed r ∧ refs r = []) := by
  intro st h
  unfold inRange
  have t1 := tail_le st.rest
  have t2 := tail_le st.rest.tail
  have t3 := tail_le st.rest.tail.tail
  have t4 := tail_le st.rest.tail.tail.tail
  simp only [wp_bind, wp_next]
  split
  · rw [wp_fail]
  simp only [wp_bind, wp_next]
  split
  · simp only [wp_bind, wp_next]
    split
    · simp only [wp_bind, wp_peek]
      split
      · simp only [wp_bind]
        refine wp_mono (parseUnicodeEscape_quiet N _ (by simp only; omega)) ?_ (fun _ h => h)
        intro u st' hu
        have := hu.1
        simp only at this
        have t5 := tail_le st'.rest
        simp only [wp_pure]
        split
        · rw [wp_fail]; exact hu.2.2
        · rw [wp_pure]
          exact ⟨by simp only; omega, ⟨.range rfl, rfl⟩, hu.2.2⟩
      · rw [wp_fail]
    · simp only [wp_pure]
      split
      · rw [wp_fail]
      · rw [wp_pure]
        exact ⟨by simp only; omega, ⟨.range rfl, rfl⟩, rfl⟩
  · split
    · simp only [wp_bind]
      refine wp_mono (parseUnicodeEscape_quiet N _ (by simp only; omega)) ?_ (fun _ h => h)
      intro u st' hu
      have := hu.1
      simp only at this
      rw [wp_pure]
      exact ⟨by omega, ⟨.range rfl, rfl⟩, hu.2.2⟩
    · rw [wp_fail]

theorem contract_leaf {r : Rule} {name : Name} {st st' : PState} (h : refs r = []) (hu : st'.usages = st.usages) :
    st'.usages = st.usages ++ tag name (refs r) := by
  rw [h, hu]; simp [tag]

theorem inChar_contract {N n : Nat} (hn : N ≤ n) (name : Name) : Contract N name (inChar n) := by
  intro st h
  unfold inChar
  simp only [wp_bind, wp_next]
  split
  · rw [wp_fail]; exact Left.of_eq rfl
  rename_i hq
  have hl := peek_ne (Classical.not_not.1 hq) (by decide)
  rw [wp_bind]
  refine wp_mono (litLoop_quiet _ n _ [] false (by simp only; omega)) ?_ (fun _ h => Left.of_eq h)
  intro x st' hx
  obtain ⟨buf, uni⟩ := x
  obtain ⟨h1, h2⟩ := hx
  simp only at h1 h2 ⊢
  match buf with
  | [] => rw [wp_fail]; exact Left.of_eq h2
  | [c] =>
    simp only [wp_bind, wp_peek]
    split
    · refine wp_mono (inRange_quiet st'.rest.length c uni st' (Nat.le_refl _)) ?_ (fun _ h => Left.of_eq (h.trans h2))
      intro r st2 hr
      exact ⟨by omega, hr.2.1.1, contract_leaf hr.2.1.2 (hr.2.2.trans h2)⟩
    · rw [wp_pure]
      exact ⟨by omega, .char rfl, contract_leaf rfl h2⟩
  | a :: b :: t =>
    simp only [wp_pure]
    exact ⟨by omega, .chars rfl (by simp), contract_leaf rfl h2⟩

theorem inUnicode_contract {N : Nat} (name : Name) : Contract N name inUnicode := by
  intro st h
  unfold inUnicode
  simp only [wp_bind, wp_next, wp_peek]
  split
  · rw [wp_fail]; exact Left.of_eq rfl
  rename_i hq
  simp only [not_or, Classical.not_not] at hq
  have hl := peek_ne hq.1 (by decide)
  rw [wp_bind]
  refine wp_mono (parseUnicodeEscape_quiet N _ (by simp only; omega)) ?_ (fun _ h => Left.of_eq h)
  intro c st' hx
  obtain ⟨h1, _, h2⟩ := hx
  simp only at h1 h2
  simp only [wp_bind, wp_peek]
  split
  · refine wp_mono (inRange_quiet st'.rest.length c true st' (Nat.le_refl _)) ?_ (fun _ h => Left.of_eq (h.trans h2))
    intro r st2 hr
    exact ⟨by omega, hr.2.1.1, contract_leaf hr.2.1.2 (hr.2.2.trans h2)⟩
  · rw [wp_pure]
    exact ⟨by omega, .char rfl, contract_leaf rfl h2⟩

theorem inString_contract {N n : Nat} (hn : N ≤ n) (name : Name) : Contract N name (inString n) := by
  intro st h
  unfold inString
  simp only [wp_bind, wp_next]
  split
  · rw [wp_fail]; exact Left.of_eq rfl
  rename_i hq
  have hl := peek_ne (Classical.not_not.1 hq) (by decide)
  rw [wp_bind]
  refine wp_mono (litLoop_quiet _ n _ [] false (by simp only; omega)) ?_ (fun _ h => Left.of_eq h)
  intro x st' hx
  obtain ⟨buf, uni⟩ := x
  obtain ⟨h1, h2⟩ := hx
  simp only at h1 h2 ⊢
  rw [wp_pure]
  exact ⟨by omega, .str rfl, contract_leaf rfl h2⟩

theorem letter_iff (c : Rune) : isLetter c = true ↔ Letter c := by
  simp [isLetter, Letter]

theorem digit_iff (c : Rune) : isDigit c = true ↔ Digit c := by
  simp [isDigit, Digit]

theorem nameChar_iff (c : Rune) : isNameChar c = true ↔ Letter c ∨ Digit c ∨ c = 95 := by
  simp only [isNameChar, Bool.or_eq_true, letter_iff, digit_iff, beq_iff_eq]
  have : ch '_' = 95 := by decide
  rw [this]
  constructor
  · rintro ((h | h) | h)
    · exact .inl h
    · exact .inr (.inr h)
    · exact .inr (.inl h)
  · rintro (h | h | h)
    · exact .inl (.inl h)
    · exact .inr h
    · exact .inl (.inr h)

theorem mem_takeWhile_holds {α : Type} (p : α → Bool) : ∀ (l : List α) (x : α), x ∈ l.takeWhile p → p x = true
  | [], _, h => by cases h
  | a :: l, x, h => by
    rw [List.takeWhile_cons] at h
    split at h
    · rcases List.mem_cons.1 h with rfl | h
      · assumption
      · exact mem_takeWhile_holds p l x h
    · cases h

theorem inReference_contract {N : Nat} (name : Name) : Contract N name (inReference name) := by
  intro st h
  unfold inReference
  have hs := skip_le st.rest
  simp only [wp_bind, wp_next, wp_skip]
  split
  · rw [wp_fail]; exact Left.of_eq rfl
  rename_i hq
  have hc : Letter (peekR (skipR st.rest)) ∨ peekR (skipR st.rest) = 95 := by
    rw [← letter_iff]
    rcases Classical.em (isLetter (peekR (skipR st.rest)) = true) with h | h
    · exact .inl h
    · exact .inr (Classical.not_not.1 fun h' => hq ⟨by simpa using h, h'⟩)
  have hl := peek_ne (l := skipR st.rest) rfl (by
    intro h0
    rw [h0] at hc
    simp only [Letter] at hc
    revert hc; decide)
  have hd := (List.dropWhile_suffix isNameChar (l := (skipR st.rest).tail)).length_le
  simp only [wp_bind, wp_nameChars]
  split
  · rw [wp_pure]
    exact ⟨by simp only; omega, .eof rfl, contract_leaf rfl rfl⟩
  · rename_i he
    simp only [wp_bind, wp_usage, wp_pure]
    refine ⟨by omega, .ref rfl ⟨⟨_, _, rfl, hc, ?_⟩, he⟩, ?_⟩
    · intro d hd
      exact (nameChar_iff d).1 (mem_takeWhile_holds _ _ _ hd)
    · simp [refs, tag]

theorem specLoop_quiet (cm : Bool) : ∀ n st buf, st.rest.length < n →
    wp (specLoop cm n buf) st (fun _ st' => st'.rest.length ≤ st.rest.length ∧ st'.usages = st.usages)
      (fun st' => st'.usages = st.usages)
  | 0, _, _, h => absurd h (Nat.not_lt_zero _)
  | n + 1, st, buf, h => by
    unfold specLoop
    simp only [wp_bind, wp_next]
    have hl := tail_le st.rest
    have again : st.rest ≠ [] → ∀ buf,
        wp (specLoop cm n buf) { st with rest := st.rest.tail }
          (fun _ st' => st'.rest.length ≤ st.rest.length ∧ st'.usages = st.usages)
          (fun st' => st'.usages = st.usages) := by
      intro hne buf
      have hlt : st.rest.tail.length < st.rest.length := by
        cases hr : st.rest with
        | nil => exact absurd hr hne
        | cons x xs => simp
      refine wp_mono (specLoop_quiet cm n _ buf (by simp only; omega)) ?_ (fun _ h => h)
      intro _ st' h
      exact ⟨Nat.le_trans h.1 hl, h.2⟩
    have ne_of : ∀ c, c ≠ EOFChar → peekR st.rest = c → st.rest ≠ [] := by
      intro c hc hp h0
      rw [h0] at hp
      exact hc hp.symm
    split
    · rename_i hc
      refine again ?_ _
      rcases hc with hc | hc | hc <;> exact ne_of _ (by decide) hc
    split
    · rw [wp_pure]; exact ⟨hl, rfl⟩
    split
    · rw [wp_pure]; exact ⟨hl, rfl⟩
    split
    · rename_i hc
      refine again ?_ _
      intro h0
      rw [h0] at hc
      exact absurd hc (by decide)
    · rw [wp_fail]

theorem inRepeatSpec_quiet (n : Nat) (st : PState) (h : st.rest.length ≤ n) :
    wp (inRepeatSpec n) st (fun p st' => st'.rest.length ≤ st.rest.length ∧
      (p.1 < 2 ^ 32 ∧ p.2 < 2 ^ 32 ∧ (p.2 = 0 ∨ p.1 ≤ p.2)) ∧ st'.usages = st.usages)
      (fun st' => st'.usages = st.usages) := by
  unfold inRepeatSpec
  simp only [wp_bind, wp_next]
  split
  · rw [wp_fail]
  rename_i hq
  have hl := peek_ne (Classical.not_not.1 hq) (by decide)
  simp only [wp_bind, wp_skip]
  have hs := skip_le st.rest.tail
  refine wp_mono (specLoop_quiet true n _ [] (by simp only; omega)) ?_ (fun _ h => h)
  intro x st1 hx
  obtain ⟨ds, cm⟩ := x
  obtain ⟨h1, h2⟩ := hx
  simp only at h1 h2 ⊢
  split
  · rw [wp_fail]; exact h2
  rename_i hmin
  have finish : ∀ (ds' : List Rune) (st2 : PState), st2.rest.length ≤ st1.rest.length → st2.usages = st1.usages →
      wp (if decimal ds' ≥ 2 ^ 32 then P.fail (.specNumber ds')
        else if decimal ds' ≠ 0 ∧ decimal ds' < decimal ds then P.fail (.specOrder (decimal ds) (decimal ds'))
        else pure (decimal ds, decimal ds')) st2 (fun p st' => st'.rest.length ≤ st.rest.length ∧
      (p.1 < 2 ^ 32 ∧ p.2 < 2 ^ 32 ∧ (p.2 = 0 ∨ p.1 ≤ p.2)) ∧ st'.usages = st.usages)
      (fun st' => st'.usages = st.usages) := by
    intro ds' st2 g1 g2
    split
    · rw [wp_fail]; rw [g2, h2]
    split
    · rw [wp_fail]; rw [g2, h2]
    · rw [wp_pure]
      exact ⟨by omega, ⟨by omega, by omega, by omega⟩, by rw [g2, h2]⟩
  split
  · rename_i hcm
    simp only [wp_bind]
    refine wp_mono (specLoop_quiet false n _ [] (by omega)) ?_ (fun _ h => h.trans h2)
    intro y st2 hy
    obtain ⟨ds', c2⟩ := y
    exact finish ds' st2 hy.1 hy.2
  · exact finish [] st1 (Nat.le_refl _) rfl

/-- As `Contract`, for parsers that may take nothing. -/
def ContractW (N : Nat) (name : Name) (x : P Rule) : Prop := ∀ st, st.rest.length ≤ N →
  wp x st (fun r st' => st'.rest.length ≤ st.rest.length ∧ WellFormed r ∧
    st'.usages = st.usages ++ tag name (refs r)) (Left name st)

theorem inGroup_contract {N : Nat} {name : Name} {p : List Rune → P Rule} (hp : ∀ ts, ContractW N name (p ts)) :
    Contract (N + 1) name (inGroup p) := by
  intro st h
  unfold inGroup
  simp only [wp_bind, wp_next]
  split
  · rw [wp_fail]; exact Left.of_eq rfl
  rename_i hq
  have hl := peek_ne (Classical.not_not.1 hq) (by decide)
  simp only [wp_bind, wp_next]
  refine wp_mono (hp _ _ (by simp only; omega)) ?_ (fun _ h => Left.trans (Left.of_eq rfl) h)
  intro r st' hr
  obtain ⟨h1, h2, h3⟩ := hr
  have h1 : st'.rest.length ≤ st.rest.tail.length := h1
  have ht := tail_le st'.rest
  split
  · rw [wp_fail]; exact Left.of_tag h3
  · rw [wp_pure]; exact ⟨by simp only; omega, .group rfl h2, h3⟩

theorem inOption_contract {N : Nat} {name : Name} {p : List Rune → P Rule} (hp : ∀ ts, ContractW N name (p ts)) :
    Contract (N + 1) name (inOption p) := by
  intro st h
  unfold inOption
  simp only [wp_bind, wp_next]
  split
  · rw [wp_fail]; exact Left.of_eq rfl
  rename_i hq
  have hl := peek_ne (Classical.not_not.1 hq) (by decide)
  simp only [wp_bind, wp_next]
  refine wp_mono (hp _ _ (by simp only; omega)) ?_ (fun _ h => Left.trans (Left.of_eq rfl) h)
  intro r st' hr
  obtain ⟨h1, h2, h3⟩ := hr
  have h1 : st'.rest.length ≤ st.rest.tail.length := h1
  have ht := tail_le st'.rest
  split
  · rw [wp_fail]; exact Left.of_tag h3
  · rw [wp_pure]; exact ⟨by simp only; omega, .option rfl h2, h3⟩

theorem inRepetition_contract {N n : Nat} (hn : N ≤ n) {name : Name} {p : List Rune → P Rule}
    (hp : ∀ ts, ContractW N name (p ts)) : Contract (N + 1) name (inRepetition p n) := by
  intro st h
  unfold inRepetition
  simp only [wp_bind, wp_next]
  split
  · rw [wp_fail]; exact Left.of_eq rfl
  rename_i hq
  have hl := peek_ne (Classical.not_not.1 hq) (by decide)
  simp only [wp_bind, wp_next]
  refine wp_mono (hp _ _ (by simp only; omega)) ?_ (fun _ h => Left.trans (Left.of_eq rfl) h)
  intro r st' hr
  obtain ⟨h1, h2, h3⟩ := hr
  have h1 : st'.rest.length ≤ st.rest.tail.length := h1
  have ht := tail_le st'.rest
  have ht2 := tail_le st'.rest.tail
  split
  · rw [wp_fail]; exact Left.of_tag h3
  simp only [wp_bind, wp_peek]
  split
  · simp only [wp_bind, wp_next, wp_pure]
    exact ⟨by omega, .rep rfl h2 (by decide) (by decide) (.inl rfl), h3⟩
  split
  · simp only [wp_bind, wp_next, wp_pure]
    exact ⟨by omega, .rep rfl h2 (by decide) (by decide) (.inl rfl), h3⟩
  split
  · simp only [wp_bind]
    refine wp_mono (inRepeatSpec_quiet n _ (by simp only; omega)) ?_ ?_
    · intro x st2 hx
      obtain ⟨mn, mx⟩ := x
      obtain ⟨g1, ⟨g2, g3, g4⟩, g5⟩ := hx
      simp only at g1 g5 ⊢
      rw [wp_pure]
      exact ⟨by omega, .rep rfl h2 g2 g3 g4, by rw [g5]; exact h3⟩
    · intro st2 hx
      exact Left.trans (Left.of_tag h3) (Left.of_eq hx)
  · rw [wp_pure]
    exact ⟨by simp only; omega, .rep rfl h2 (by decide) (by decide) (.inl rfl), h3⟩

theorem refsL_append : ∀ a b : List Rule, refsL (a ++ b) = refsL a ++ refsL b
  | [], _ => rfl
  | r :: a, b => by simp only [List.cons_append, refsL, refsL_append a b, List.append_assoc]

theorem refsLL_append : ∀ a b : List (List Rule), refsLL (a ++ b) = refsLL a ++ refsLL b
  | [], _ => rfl
  | r :: a, b => by simp only [List.cons_append, refsLL, refsLL_append a b, List.append_assoc]

theorem excludeLoop_contract {N : Nat} {name : Name} {p : List Rune → P Rule} (hp : ∀ ts, ContractW N name (p ts)) :
    ∀ (n : Nat) (st : PState) (acc : List Rule) (us : List (Name × Name)), st.rest.length < n → st.rest.length ≤ N →
    (∀ r ∈ acc, WellFormed r) → st.usages = us ++ tag name (refsL acc) →
    wp (excludeLoop p n acc) st (fun x st' => st'.rest.length ≤ st.rest.length ∧ (∀ r ∈ x, WellFormed r) ∧
      st'.usages = us ++ tag name (refsL x)) (fun st' => ∃ vs, st'.usages = us ++ tag name vs)
  | 0, _, _, _, h, _, _, _ => absurd h (Nat.not_lt_zero _)
  | n + 1, st, acc, us, h, hN, hw, hu => by
    unfold excludeLoop
    simp only [wp_bind, wp_skip, wp_peek]
    have hs := skip_le st.rest
    split
    · rw [wp_pure]; exact ⟨hs, hw, hu⟩
    rename_i hq
    have hl := peek_ne (Classical.not_not.1 hq) (by decide)
    simp only [wp_bind, wp_next]
    refine wp_mono (hp _ _ (by simp only; omega)) ?_ ?_
    · intro r st' hr
      obtain ⟨h1, h2, h3⟩ := hr
      simp only at h1 h3
      refine wp_mono (excludeLoop_contract hp n st' (acc ++ [r]) us (by omega) (by omega) ?_ ?_) ?_ (fun _ h => h)
      · intro x hx
        rcases List.mem_append.1 hx with hx | hx
        · exact hw x hx
        · rw [List.mem_singleton.1 hx]; exact h2
      · rw [h3, hu, refsL_append, tag_append, refsL, refsL, List.append_nil, List.append_assoc]
      · intro x st2 hx
        exact ⟨by omega, hx.2.1, hx.2.2⟩
    · intro st' hl
      obtain ⟨vs, hv⟩ := hl
      exact ⟨_, by rw [hv]; simp only; rw [hu, List.append_assoc, ← tag_append]⟩

theorem blockTail_contract {N n : Nat} (hn : N < n) {name : Name} {p : List Rune → P Rule}
    (hp : ∀ ts, ContractW N name (p ts)) {opn : Rule} {e : Option Rule} (ho : WellFormed opn)
    (he : ∀ r, e = some r → WellFormed r) (st : PState) (hN : st.rest.length ≤ N) (us : List (Name × Name))
    (hu : st.usages = us ++ tag name (refs opn) ++ tag name (refsO e)) :
    wp (blockTail p n opn e) st (fun r st' => st'.rest.length ≤ st.rest.length ∧ WellFormed r ∧
      st'.usages = us ++ tag name (refs r)) (fun st' => ∃ vs, st'.usages = us ++ tag name vs) := by
  unfold blockTail
  simp only [wp_bind]
  refine wp_mono (excludeLoop_contract hp n st [] st.usages (by omega) hN (fun _ h => (by cases h)) (by simp [refsL, tag])) ?_ ?_
  · intro x st1 hx
    obtain ⟨h1, h2, h3⟩ := hx
    refine wp_mono (hp _ st1 (by omega)) ?_ ?_
    · intro c st2 hc
      obtain ⟨g1, g2, g3⟩ := hc
      simp only [wp_next]
      have hu2 : ∀ v, st2.usages = us ++ tag name (refs (.block {} opn v c e x)) := by
        intro v
        rw [g3, h3, hu]
        simp only [refs, tag_append, List.append_assoc]
      have t1 := tail_le st2.rest
      have t2 := skip_le st2.rest.tail
      have t3 := tail_le (skipR st2.rest.tail)
      split
      · simp only [wp_bind, wp_skip, wp_next]
        split
        · rw [wp_fail]; exact ⟨_, hu2 true⟩
        · rw [wp_pure]; exact ⟨by simp only; omega, .block rfl ho g2 he h2, hu2 true⟩
      split
      · rw [wp_fail]; exact ⟨_, hu2 true⟩
      · rw [wp_pure]; exact ⟨by simp only; omega, .block rfl ho g2 he h2, hu2 false⟩
    · intro st2 hc
      obtain ⟨vs, hv⟩ := hc
      exact ⟨refs opn ++ (refsO e ++ (refsL x ++ vs)), by rw [hv, h3, hu]; simp only [List.append_assoc, tag_append]⟩
  · intro st1 hx
    obtain ⟨vs, hv⟩ := hx
    exact ⟨refs opn ++ (refsO e ++ vs), by rw [hv, hu]; simp only [List.append_assoc, tag_append]⟩

theorem inBlock_contract {N n : Nat} (hn : N < n) {name : Name} {p : List Rune → P Rule}
    (hp : ∀ ts, ContractW N name (p ts)) : Contract (N + 1) name (inBlock p n) := by
  intro st h
  unfold inBlock
  simp only [wp_bind, wp_next]
  split
  · rw [wp_fail]; exact Left.of_eq rfl
  rename_i hq
  have hl := peek_ne (Classical.not_not.1 hq) (by decide)
  simp only [wp_bind, wp_mapErr]
  refine wp_mono (hp _ _ (by simp only; omega)) ?_ (fun _ h => Left.trans (Left.of_eq rfl) h)
  intro o st1 ho
  obtain ⟨h1, h2, h3⟩ := ho
  simp only at h1 h3
  simp only [wp_skip, wp_peek]
  have s1 := skip_le st1.rest
  split
  · simp only [wp_bind]
    refine wp_mono (hp _ _ (by simp only; omega)) ?_ ?_
    · intro r st2 hr
      obtain ⟨g1, g2, g3⟩ := hr
      simp only at g1 g3
      simp only [wp_skip, wp_peek]
      have s2 := skip_le st2.rest
      have t2 := tail_le (skipR st2.rest)
      have s3 := skip_le (skipR st2.rest).tail
      have t3 := tail_le (skipR (skipR st2.rest).tail)
      have hu : ∀ v, st2.usages = st.usages ++ tag name (refs (.block {} o v r none [])) := by
        intro v
        rw [g3, h3]
        simp [refs, refsL, refsO, tag]
      have hw : ∀ v, WellFormed (.block {} o v r none []) := fun v =>
        .block rfl h2 g2 (fun _ h => (by cases h)) (fun _ h => (by cases h))
      split
      · simp only [wp_bind, wp_next]
        split
        · simp only [wp_bind, wp_skip, wp_next]
          split
          · rw [wp_fail]; exact ⟨_, hu true⟩
          · rw [wp_pure]; exact ⟨by simp only; omega, hw true, hu true⟩
        · rw [wp_pure]; exact ⟨by simp only; omega, hw false, hu false⟩
      · refine wp_mono (blockTail_contract (us := st.usages) hn hp h2 (e := some r) (fun x hx => by cases hx; exact g2) _
          (by simp only; omega) (by simp only [refsO]; rw [g3, h3])) ?_ (fun _ h => h)
        intro x st3 hx
        exact ⟨by have := hx.1; simp only at this; omega, hx.2⟩
    · intro st2 hr
      obtain ⟨vs, hv⟩ := hr
      exact ⟨_, by rw [hv]; simp only; rw [h3, List.append_assoc, ← tag_append]⟩
  · refine wp_mono (blockTail_contract (us := st.usages) hn hp h2 (e := none) (fun x hx => by cases hx) _
      (by simp only; omega) (by simp only; rw [h3]; simp [tag, refsO])) ?_ (fun _ h => h)
    intro x st3 hx
    exact ⟨by have := hx.1; simp only at this; omega, hx.2⟩

theorem Contract.le {N M : Nat} (h : M ≤ N) {name : Name} {x : P Rule} (hc : Contract N name x) : Contract M name x :=
  fun st hs => hc st (Nat.le_trans hs h)

theorem contract_fail {N : Nat} {name : Name} (e : PErr) : Contract N name (P.fail e) := fun st _ => Left.refl st

theorem primary_contract (other : Rune → PErr) {N : Nat} {name : Name} {p : List Rune → P Rule} (hp : ∀ ts, ContractW N name (p ts))
    {m : Nat} (hm : N < m) (c : Rune) : Contract (N + 1) name (primary other p m name c) := by
  unfold primary
  split
  · exact inChar_contract hm name
  split
  · exact inUnicode_contract name
  split
  · exact inString_contract hm name
  split
  · exact inOption_contract hp
  split
  · exact inRepetition_contract (Nat.le_of_lt hm) hp
  split
  · exact inBlock_contract hm hp
  split
  · exact inGroup_contract hp
  split
  · exact inReference_contract name
  · exact contract_fail _

theorem wf_annotate {r : Rule} (h : WellFormed r) (tk nd v : Bool) : WellFormed (r.setAnnotation tk nd v) := by
  cases h <;> (simp only [Rule.setAnnotation, Rule.setBase, Rule.base]; constructor <;> assumption)

theorem refs_setBase (r : Rule) (b : RuleBase) : refs (r.setBase b) = refs r := by
  cases r <;> simp only [Rule.setBase, refs]

theorem refs_annotate (r : Rule) (tk nd v : Bool) : refs (r.setAnnotation tk nd v) = refs r := refs_setBase _ _

theorem parseOneLoop_contract {N : Nat} {name : Name} {prim : Rune → P Rule} (hp : ∀ c, Contract N name (prim c)) :
    ∀ (n : Nat) (st : PState) (tk nd v : Bool), st.rest.length < n → st.rest.length ≤ N →
    wp (parseOneLoop prim n tk nd v) st (fun r st' => st'.rest.length < st.rest.length ∧ WellFormed r ∧
      st'.usages = st.usages ++ tag name (refs r)) (Left name st)
  | 0, _, _, _, _, h, _ => absurd h (Nat.not_lt_zero _)
  | n + 1, st, tk, nd, v, h, hN => by
    unfold parseOneLoop
    simp only [wp_bind, wp_peek]
    have again : ∀ c, peekR st.rest = c → c ≠ EOFChar → ∀ tk nd v,
        wp (parseOneLoop prim n tk nd v) { st with rest := st.rest.tail }
        (fun r st' => st'.rest.length < st.rest.length ∧ WellFormed r ∧
          st'.usages = st.usages ++ tag name (refs r)) (Left name st) := by
      intro c hc he tk nd v
      have hl := peek_ne hc he
      refine wp_mono (parseOneLoop_contract hp n _ tk nd v (by simp only; omega) (by simp only; omega)) ?_ (fun _ h => h)
      intro r st' hr
      exact ⟨by have := hr.1; simp only at this; omega, hr.2⟩
    split
    · rename_i hc
      simp only [wp_bind, wp_next]
      rcases hc with hc | hc | hc | hc <;> exact again _ hc (by decide) _ _ _
    split
    · rw [wp_fail]; exact Left.refl st
    split
    · rename_i hc
      simp only [wp_bind, wp_next, wp_peek]
      split
      · rw [wp_fail]; exact Left.of_eq rfl
      · rcases hc with hc | hc | hc <;> exact again _ hc (by decide) _ _ _
    · rw [wp_bind]
      refine wp_mono (hp _ st hN) ?_ (fun _ h => h)
      intro r st' hr
      rw [wp_pure]
      exact ⟨hr.1, wf_annotate hr.2.1 _ _ _, by rw [refs_annotate]; exact hr.2.2⟩

theorem refsLL_one (g : List Rule) : refsLL [g] = refsL g := by simp [refsLL]

theorem choiceParse_contract {N : Nat} {name : Name} {one : P Rule} (hp : Contract N name one) :
    ∀ (n : Nat) (st : PState) (gs : List (List Rule)) (rs : List Rule) (us : List (Name × Name)),
    (st.rest.length < n ∨ (st.rest.length ≤ n ∧ (peekR st.rest = ch '|' ∨ peekR st.rest = ch '>'))) →
    st.rest.length ≤ N → rs ≠ [] → (∀ g ∈ gs, g ≠ []) → (∀ g ∈ gs, ∀ r ∈ g, WellFormed r) → (∀ r ∈ rs, WellFormed r) →
    st.usages = us ++ tag name (refsLL gs ++ refsL rs) →
    wp (choiceParse one n gs rs) st (fun x st' => st'.rest.length ≤ st.rest.length ∧
      ((peekR st.rest = ch '|' ∨ peekR st.rest = ch '>') → st'.rest.length < st.rest.length) ∧
      (∀ g ∈ x, g ≠ []) ∧ (∀ g ∈ x, ∀ r ∈ g, WellFormed r) ∧
      st'.usages = us ++ tag name (refsLL x)) (fun st' => ∃ vs, st'.usages = us ++ tag name vs)
  | 0, st, _, _, _, h, _, _, _, _, _, _ => by
    rcases h with h | ⟨h, h'⟩
    · exact absurd h (Nat.not_lt_zero _)
    · exfalso
      have : st.rest = [] := List.length_eq_zero_iff.1 (Nat.le_zero.1 h)
      rw [this] at h'
      revert h'; decide
  | n + 1, st, gs, rs, us, h, hN, hne, hgs, hwg, hwr, hu => by
    unfold choiceParse
    simp only [wp_bind, wp_peek]
    split
    · rename_i hc
      have hl := peek_ne hc (by decide)
      simp only [wp_bind, wp_next]
      have hnot : ¬(peekR st.rest = ch '|' ∨ peekR st.rest = ch '>') := by rw [hc]; decide
      refine wp_mono (choiceParse_contract hp n { st with rest := st.rest.tail } gs rs us (.inl ?_) (by simp only; omega) hne hgs hwg hwr hu) ?_ (fun _ h => h)
      · simp only
        rcases h with h | h
        · omega
        · exact absurd h.2 hnot
      · intro x st' hx
        have := hx.1
        simp only at this
        exact ⟨by omega, fun h => absurd h hnot, hx.2.2⟩
    have hlen : st.rest.length ≤ n + 1 := by omega
    split
    · rename_i hc
      have hl := peek_ne hc (by decide)
      simp only [wp_bind, wp_next]
      refine wp_mono (hp { st with rest := st.rest.tail } (by simp only; omega)) ?_ ?_
      · intro r st1 hr
        obtain ⟨h1, h2, h3⟩ := hr
        simp only at h1 h3
        refine wp_mono (choiceParse_contract hp n st1 gs (rs ++ [r]) us (.inl (by omega)) (by omega) (by simp) hgs hwg ?_ ?_) ?_ (fun _ h => h)
        · intro x hx
          rcases List.mem_append.1 hx with hx | hx
          · exact hwr x hx
          · rw [List.mem_singleton.1 hx]; exact h2
        · rw [h3, hu, refsL_append, refsL, refsL, List.append_nil, ← List.append_assoc, tag_append, List.append_assoc]
          simp only [tag_append, List.append_assoc]
        · intro x st2 hx
          have := hx.1
          exact ⟨by omega, fun _ => by omega, hx.2.2⟩
      · intro st1 hl
        obtain ⟨vs, hv⟩ := hl
        exact ⟨_, by rw [hv]; simp only; rw [hu, List.append_assoc, ← tag_append]⟩
    split
    · rename_i hc
      have hl := peek_ne hc (by decide)
      split
      · rw [wp_fail]; exact ⟨_, hu⟩
      simp only [wp_bind, wp_next]
      refine wp_mono (hp { st with rest := st.rest.tail } (by simp only; omega)) ?_ ?_
      · intro r st1 hr
        obtain ⟨h1, h2, h3⟩ := hr
        simp only at h1 h3
        refine wp_mono (choiceParse_contract hp n st1 (gs ++ [rs]) [r] us (.inl (by omega)) (by omega) (by simp) ?_ ?_ ?_ ?_) ?_ (fun _ h => h)
        · intro g hg
          rcases List.mem_append.1 hg with hg | hg
          · exact hgs g hg
          · rw [List.mem_singleton.1 hg]; exact hne
        · intro g hg
          rcases List.mem_append.1 hg with hg | hg
          · exact hwg g hg
          · rw [List.mem_singleton.1 hg]; exact hwr
        · intro x hx; rw [List.mem_singleton.1 hx]; exact h2
        · rw [h3, hu, refsLL_append, refsLL_one, refsL, refsL, List.append_nil]
          simp only [tag_append, List.append_assoc]
        · intro x st2 hx
          have := hx.1
          exact ⟨by omega, fun _ => by omega, hx.2.2⟩
      · intro st1 hl
        obtain ⟨vs, hv⟩ := hl
        exact ⟨_, by rw [hv]; simp only; rw [hu, List.append_assoc, ← tag_append]⟩
    · rename_i h1 h2
      rw [wp_pure]
      refine ⟨Nat.le_refl _, fun h => ?_, ?_, ?_, ?_⟩
      · rcases h with h | h
        · exact absurd h h1
        · exact absurd h h2
      · intro g hg
        rcases List.mem_append.1 hg with hg | hg
        · exact hgs g hg
        · rw [List.mem_singleton.1 hg]; exact hne
      · intro g hg
        rcases List.mem_append.1 hg with hg | hg
        · exact hwg g hg
        · rw [List.mem_singleton.1 hg]; exact hwr
      · rw [hu, refsLL_append, refsLL_one]

theorem sum_ge {gs : List (List Rule)} (hg : ∀ g ∈ gs, g ≠ []) : gs.length ≤ (gs.map List.length).sum := by
  induction gs with
  | nil => exact Nat.le_refl _
  | cons g gs ih =>
    have := ih (fun x hx => hg x (List.mem_cons_of_mem _ hx))
    have := List.length_pos_iff.2 (hg g List.mem_cons_self)
    simp only [List.map_cons, List.sum_cons, List.length_cons]
    omega

theorem inChoice_contract {N : Nat} {name : Name} {one : P Rule} (hp : Contract N name one) {n : Nat} {st : PState}
    {first : Rule} (us : List (Name × Name)) (hn : st.rest.length ≤ n) (hN : st.rest.length ≤ N)
    (hc : peekR st.rest = ch '|' ∨ peekR st.rest = ch '>') (hw : WellFormed first)
    (hu : st.usages = us ++ tag name (refs first)) :
    wp (inChoice one n first) st (fun r st' => st'.rest.length < st.rest.length ∧ WellFormed r ∧
      st'.usages = us ++ tag name (refs r)) (fun st' => ∃ vs, st'.usages = us ++ tag name vs) := by
  unfold inChoice
  rw [wp_bind]
  refine wp_mono (choiceParse_contract hp n st [] [first] us (.inr ⟨hn, hc⟩) hN (by simp) (fun _ h => (by cases h))
    (fun _ h => (by cases h)) (fun r hr => by rw [List.mem_singleton.1 hr]; exact hw) (by rw [hu]; simp [refsLL, refsL])) ?_ (fun _ h => h)
  intro gs st' hx
  obtain ⟨_, h1, h2, h3, h4⟩ := hx
  split
  · rw [wp_fail]; exact ⟨_, h4⟩
  · rename_i hlen
    rw [wp_pure]
    refine ⟨h1 hc, .choice rfl h2 h3 ?_, h4⟩
    have := sum_ge h2
    match gs with
    | [] => simp at hlen
    | [g] =>
      have : ¬ g.length < 2 := fun hg => hlen (.inr ⟨rfl, hg⟩)
      simp only [List.map_cons, List.map_nil, List.sum_cons, List.sum_nil]
      omega
    | _ :: _ :: _ => simp only [List.length_cons] at this; omega

theorem finish_contract {name : Name} (rules : List Rule) (st : PState) (us : List (Name × Name))
    (hw : ∀ r ∈ rules, WellFormed r) (hu : st.usages = us ++ tag name (refsL rules)) (L : Nat) (hL : st.rest.length ≤ L) :
    wp (finish rules) st (fun r st' => st'.rest.length ≤ L ∧ WellFormed r ∧
      st'.usages = us ++ tag name (refs r)) (fun st' => ∃ vs, st'.usages = us ++ tag name vs) := by
  unfold finish
  match rules with
  | [] => rw [wp_fail]; exact ⟨_, hu⟩
  | [r] =>
    simp only [wp_pure]
    exact ⟨hL, hw r List.mem_cons_self, by rw [hu]; simp [refsL]⟩
  | a :: b :: t =>
    simp only [wp_pure]
    exact ⟨hL, .concat rfl hw (by simp), hu⟩

theorem refsL_snoc (rs : List Rule) (r : Rule) : refsL (rs ++ [r]) = refsL rs ++ refs r := by
  rw [refsL_append, refsL, refsL, List.append_nil]

theorem parseLoop_contract {N : Nat} {name : Name} {prim : Rune → P Rule} (hp : ∀ c, Contract N name (prim c))
    {one : P Rule} (ho : Contract N name one) (terms : List Rune) :
    ∀ (n : Nat) (st : PState) (rules : List Rule) (tk nd v : Bool) (us : List (Name × Name)),
    st.rest.length < n → st.rest.length ≤ N → (∀ r ∈ rules, WellFormed r) →
    st.usages = us ++ tag name (refsL rules) →
    wp (parseLoop prim one terms n rules tk nd v) st (fun r st' => st'.rest.length ≤ st.rest.length ∧ WellFormed r ∧
      st'.usages = us ++ tag name (refs r)) (fun st' => ∃ vs, st'.usages = us ++ tag name vs)
  | 0, _, _, _, _, _, _, h, _, _, _ => absurd h (Nat.not_lt_zero _)
  | n + 1, st, rules, tk, nd, v, us, h, hN, hw, hu => by
    unfold parseLoop
    simp only [wp_bind, wp_peek]
    have again : ∀ c, peekR st.rest = c → c ≠ EOFChar → ∀ tk nd v,
        wp (parseLoop prim one terms n rules tk nd v) { st with rest := st.rest.tail }
        (fun r st' => st'.rest.length ≤ st.rest.length ∧ WellFormed r ∧
          st'.usages = us ++ tag name (refs r)) (fun st' => ∃ vs, st'.usages = us ++ tag name vs) := by
      intro c hc he tk nd v
      have hl := peek_ne hc he
      refine wp_mono (parseLoop_contract hp ho terms n _ rules tk nd v us (by simp only; omega) (by simp only; omega) hw hu) ?_ (fun _ h => h)
      intro r st' hr
      exact ⟨by have := hr.1; simp only at this; omega, hr.2⟩
    split
    · exact finish_contract rules st us hw hu _ (Nat.le_refl _)
    rename_i hneof
    split
    · exact finish_contract rules st us hw hu _ (Nat.le_refl _)
    split
    · simp only [wp_bind, wp_next]
      exact again _ rfl hneof _ _ _
    split
    · simp only [wp_bind, wp_next, wp_peek]
      split
      · rw [wp_fail]; exact ⟨_, hu⟩
      · exact again _ rfl hneof _ _ _
    split
    · rename_i hc
      cases hlast : rules.getLast? with
      | none => simp only; rw [wp_fail]; exact ⟨_, hu⟩
      | some last =>
        simp only [wp_bind]
        have hsplit : rules = rules.dropLast ++ [last] := by
          have hne : rules ≠ [] := by intro h; rw [h] at hlast; cases hlast
          rw [List.getLast?_eq_some_getLast hne] at hlast
          cases hlast
          exact (List.dropLast_concat_getLast hne).symm
        have hlw : WellFormed last := hw last (by rw [hsplit]; simp)
        refine wp_mono (inChoice_contract ho (us ++ tag name (refsL rules.dropLast)) (by omega) hN hc hlw ?_) ?_ ?_
        · rw [hu, List.append_assoc, ← tag_append, ← refsL_snoc, ← hsplit]
        · intro r st1 hr
          obtain ⟨h1, h2, h3⟩ := hr
          refine wp_mono (parseLoop_contract hp ho terms n st1 _ false false false us (by omega) (by omega) ?_ ?_) ?_ (fun _ h => h)
          · intro x hx
            rcases List.mem_append.1 hx with hx | hx
            · exact hw x (List.dropLast_subset _ hx)
            · rw [List.mem_singleton.1 hx]; exact wf_annotate h2 _ _ _
          · rw [h3, refsL_snoc, refs_annotate, tag_append, List.append_assoc]
          · intro x st2 hx
            have := hx.1
            exact ⟨by omega, hx.2⟩
        · intro st1 hx
          obtain ⟨vs, hv⟩ := hx
          exact ⟨_, by rw [hv, List.append_assoc, ← tag_append]⟩
    split
    · simp only [wp_bind, wp_next]
      have t1 := tail_le st.rest
      have t2 := tail_le st.rest.tail
      split
      · rw [wp_fail]; exact ⟨_, hu⟩
      · rw [wp_bind, wp_comment]
        have t3 := (List.dropWhile_suffix (fun c => !(c == newline)) (l := st.rest.tail.tail)).length_le
        have t4 := tail_le (st.rest.tail.tail.dropWhile (fun c => !(c == newline)))
        refine finish_contract rules ⟨(st.rest.tail.tail.dropWhile (fun c => !(c == newline))).tail, st.usages⟩ us hw hu st.rest.length ?_
        simp only
        omega
    · rw [wp_bind]
      refine wp_mono (hp _ st hN) ?_ ?_
      · intro r st1 hr
        obtain ⟨h1, h2, h3⟩ := hr
        refine wp_mono (parseLoop_contract hp ho terms n st1 _ false false false us (by omega) (by omega) ?_ ?_) ?_ (fun _ h => h)
        · intro x hx
          rcases List.mem_append.1 hx with hx | hx
          · exact hw x hx
          · rw [List.mem_singleton.1 hx]; exact wf_annotate h2 _ _ _
        · rw [h3, hu, refsL_snoc, refs_annotate, tag_append, List.append_assoc]
        · intro x st2 hx
          have := hx.1
          exact ⟨by omega, hx.2⟩
      · intro st1 hx
        obtain ⟨vs, hv⟩ := hx
        exact ⟨_, by rw [hv, hu, List.append_assoc, ← tag_append]⟩

theorem parse_contract (name : Name) : ∀ N terms, ContractW N name (parse (N + 2) name terms)
  | 0, terms, st, h => by
    have h0 : st.rest = [] := List.length_eq_zero_iff.1 (Nat.le_zero.1 h)
    unfold parse
    rw [wp_bind, wp_skip]
    unfold parseLoop
    simp only [wp_bind, wp_peek, h0, skipR, List.dropWhile_nil]
    rw [if_pos (show peekR [] = EOFChar from rfl)]
    unfold finish
    exact ⟨[], by simp [tag]⟩
  | N + 1, terms, st, h => by
    have ih := fun ts => parse_contract name N ts
    unfold parse
    rw [wp_bind, wp_skip]
    have hs := skip_le st.rest
    have hp' : ∀ other c, Contract (N + 1) name (primary other (parse (N + 2) name) (N + 2) name c) :=
      fun other c => primary_contract other ih (by omega) c
    refine wp_mono (parseLoop_contract (hp' _) (fun st h => parseOneLoop_contract (hp' _) (N + 2) st _ _ _ (by omega) h) terms
      (N + 2) { st with rest := skipR st.rest } [] _ _ _ st.usages (by simp only; omega) (by simp only; omega)
      (fun _ h => (by cases h)) (by simp [refsL, tag])) ?_ (fun _ h => h)
    intro r st' hr
    exact ⟨by have := hr.1; simp only at this; omega, hr.2⟩

end Xbnf.Props
