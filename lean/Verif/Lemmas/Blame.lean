import Verif.Spec.Cause
import Verif.Lemmas.Parse
set_option linter.unusedSimpArgs false
/-
Every error of the definition parser tells the truth about the text.
-/
namespace Xbnf.Props.Blame
open Xbnf Xbnf.Spec

/-- What holds when `x` is done in `st`: `Q` of an answer, `E` of an error; nothing if there is not fuel enough. -/
def wpe {α : Type} (x : P α) (st : PState) (Q : α → PState → Prop) (E : PErr → PState → Prop) : Prop :=
  match x st with
  | .ok a st' => Q a st'
  | .err e st' => E e st'
  | .oof => True

theorem wpe_bind {α β : Type} (x : P α) (f : α → P β) (st : PState) (Q : β → PState → Prop) (E : PErr → PState → Prop) :
    wpe (x >>= f) st Q E ↔ wpe x st (fun a st' => wpe (f a) st' Q E) E := by
  unfold wpe
  show (match (P.bind x f) st with | .ok a st' => Q a st' | .err e st' => E e st' | .oof => True) ↔ _
  unfold P.bind
  cases x st <;> exact Iff.rfl

theorem wpe_pure {α : Type} (a : α) (st : PState) (Q : α → PState → Prop) (E : PErr → PState → Prop) :
    wpe (pure a) st Q E ↔ Q a st := Iff.rfl

theorem wpe_fail {α : Type} (e : PErr) (st : PState) (Q : α → PState → Prop) (E : PErr → PState → Prop) :
    wpe (P.fail e) st Q E ↔ E e st := Iff.rfl

theorem wpe_oof {α : Type} (st : PState) (Q : α → PState → Prop) (E : PErr → PState → Prop) :
    wpe P.oof st Q E ↔ True := Iff.rfl

theorem wpe_mapErr {α : Type} (f : PErr → PErr) (x : P α) (st : PState) (Q : α → PState → Prop) (E : PErr → PState → Prop) :
    wpe (x.mapErr f) st Q E ↔ wpe x st Q (fun e st' => E (f e) st') := by
  unfold wpe P.mapErr
  cases x st <;> exact Iff.rfl

theorem wpe_mono {α : Type} {x : P α} {st : PState} {Q Q' : α → PState → Prop} {E E' : PErr → PState → Prop}
    (h : wpe x st Q E) (hQ : ∀ a st', Q a st' → Q' a st') (hE : ∀ e st', E e st' → E' e st') : wpe x st Q' E' := by
  unfold wpe at *
  cases hx : x st with
  | ok a st' => rw [hx] at h; exact hQ a st' h
  | err e st' => rw [hx] at h; exact hE e st' h
  | oof => trivial

/-- The text is `T`, the parser has read `u`. -/
def On (T u : List Rune) (st : PState) : Prop := T = u ++ st.rest

/-- The error tells the truth. -/
def Truth (T : List Rune) (e : PErr) (st : PState) : Prop := ∃ u, On T u st ∧ Cause e u st.rest

/-- The parser has read on. -/
def Further (T u : List Rune) (st : PState) : Prop := ∃ v, On T (u ++ v) st

theorem wpe_peek (st : PState) (Q : Rune → PState → Prop) (E : PErr → PState → Prop) :
    wpe pPeek st Q E ↔ Q (peekR st.rest) st := Iff.rfl

/-- `Next`: a character is read, or the text is over. -/
theorem wpe_next {T u : List Rune} {st : PState} {Q : Rune → PState → Prop} {E : PErr → PState → Prop} (h : On T u st)
    (h1 : ∀ c st', st.rest = c :: st'.rest → On T (u ++ [c]) st' → Q c st')
    (h2 : st.rest = [] → ∀ st', st'.rest = [] → On T u st' → Q EOFChar st') : wpe pNext st Q E := by
  show Q (peekR st.rest) _
  cases hr : st.rest with
  | nil => exact h2 hr _ rfl (by unfold On at *; rw [h, hr]; rfl)
  | cons c l => exact h1 c _ hr (by unfold On at *; rw [h, hr]; simp)

theorem wpe_skip {T u : List Rune} {st : PState} {Q : Unit → PState → Prop} {E : PErr → PState → Prop} (h : On T u st)
    (hq : ∀ w st', (∀ c ∈ w, isWhiteSpace c = true) → On T (u ++ w) st' → Q () st') : wpe pSkip st Q E := by
  show Q () _
  refine hq (st.rest.takeWhile isWhiteSpace) _ (fun c hc => by simpa using List.all_eq_true.1 List.all_takeWhile c hc) ?_
  unfold On at *
  show T = _ ++ List.dropWhile _ _
  rw [h, List.append_assoc, List.takeWhile_append_dropWhile]

theorem Just.more {t u : List Rune} (a : List Rune) (h : Just t u) : Just t (a ++ u) := by
  obtain ⟨b, rfl⟩ := h; exact ⟨a ++ b, by simp⟩

theorem just_self (a t : List Rune) : Just t (a ++ t) := ⟨a, rfl⟩

theorem ended_rest {u : List Rune} {st : PState} (h : st.rest = []) : Ended u st.rest := .inl h

theorem wpe_next_cons {T u : List Rune} {st : PState} {c : Rune} {l : List Rune} {Q : Rune → PState → Prop} {E : PErr → PState → Prop}
    (h : On T u st) (hr : st.rest = c :: l) (hq : ∀ st', st'.rest = l → On T (u ++ [c]) st' → Q c st') : wpe pNext st Q E := by
  refine wpe_next h ?_ ?_
  · intro d st' hd h'
    rw [hr] at hd
    simp only [List.cons.injEq] at hd
    obtain ⟨rfl, rfl⟩ := hd
    exact hq st' rfl h'
  · intro hn; rw [hr] at hn; cases hn

theorem peek_cons {l : List Rune} {c : Rune} (h : peekR l = c) (hc : c ≠ EOFChar) : ∃ t, l = c :: t := by
  cases l with
  | nil => exact absurd h.symm hc
  | cons d t => exact ⟨t, by rw [show d = c from h]⟩

theorem peek_ne_head {l : List Rune} {c : Rune} (h : peekR l ≠ c) : l.head? ≠ some c := by
  cases l with
  | nil => simp
  | cons d t => intro hc; simp at hc; exact h hc

theorem peek_head {l : List Rune} {c : Rune} (h : peekR l = c) (hc : c ≠ EOFChar) : l.head? = some c := by
  obtain ⟨t, rfl⟩ := peek_cons h hc; rfl

theorem ended_peek {u l : List Rune} (h : peekR l = EOFChar) : Ended u l := by
  cases l with
  | nil => exact .inl rfl
  | cons c t => exact .inr (.inr (by rw [show c = EOFChar from h]; rfl))

theorem Further.refl {T u : List Rune} {st : PState} (h : On T u st) : Further T u st := ⟨[], by simpa using h⟩

theorem Further.trans {T u v : List Rune} {st : PState} (h : Further T (u ++ v) st) : Further T u st := by
  obtain ⟨w, h⟩ := h
  exact ⟨v ++ w, by rwa [← List.append_assoc]⟩

/-! ## Reading only goes forward -/
/-- What is left afterwards is the end of what was left before. -/
def Ahead {α : Type} (x : P α) : Prop := ∀ st, wpe x st (fun _ st' => ∃ v, st.rest = v ++ st'.rest) (fun _ st' => ∃ v, st.rest = v ++ st'.rest)

theorem Ahead.bind {α β : Type} {x : P α} {f : α → P β} (h : Ahead x) (hf : ∀ a, Ahead (f a)) : Ahead (x >>= f) := by
  intro st
  rw [wpe_bind]
  refine wpe_mono (h st) ?_ (fun _ _ h => h)
  rintro a st' ⟨v, h1⟩
  refine wpe_mono (hf a st') ?_ ?_
  · rintro b st2 ⟨w, h2⟩; exact ⟨v ++ w, by rw [h1, h2, List.append_assoc]⟩
  · rintro b st2 ⟨w, h2⟩; exact ⟨v ++ w, by rw [h1, h2, List.append_assoc]⟩

theorem Ahead.ite {α : Type} {c : Prop} [Decidable c] {x y : P α} (h1 : Ahead x) (h2 : Ahead y) : Ahead (if c then x else y) := by
  split <;> assumption

theorem Ahead.pure {α : Type} (a : α) : Ahead (pure a : P α) := fun _ => ⟨[], rfl⟩
theorem Ahead.fail {α : Type} (e : PErr) : Ahead (P.fail e : P α) := fun _ => ⟨[], rfl⟩
theorem Ahead.oof {α : Type} : Ahead (P.oof : P α) := fun _ => trivial
theorem Ahead.peek : Ahead pPeek := fun _ => ⟨[], rfl⟩
theorem Ahead.next : Ahead pNext := fun st => by
  show ∃ v, st.rest = v ++ st.rest.tail
  cases st.rest with
  | nil => exact ⟨[], rfl⟩
  | cons c l => exact ⟨[c], rfl⟩
theorem Ahead.skip : Ahead pSkip := fun st => ⟨st.rest.takeWhile isWhiteSpace, List.takeWhile_append_dropWhile.symm⟩
theorem Ahead.names : Ahead nameChars := fun st => ⟨st.rest.takeWhile isNameChar, List.takeWhile_append_dropWhile.symm⟩
theorem Ahead.usage (a b : Name) : Ahead (pUsage a b) := fun _ => ⟨[], rfl⟩
theorem Ahead.comment : Ahead skipComment := fun st => by
  show ∃ v, st.rest = v ++ (st.rest.dropWhile (fun c => !(c == newline))).tail
  have h := (List.takeWhile_append_dropWhile (p := fun c => !(c == newline)) (l := st.rest)).symm
  cases hd : st.rest.dropWhile (fun c => !(c == newline)) with
  | nil => rw [hd] at h; exact ⟨_, h⟩
  | cons c l => rw [hd] at h; exact ⟨st.rest.takeWhile (fun c => !(c == newline)) ++ [c], by simpa using h⟩
theorem Ahead.mapErr {α : Type} (f : PErr → PErr) {x : P α} (h : Ahead x) : Ahead (x.mapErr f) := by
  intro st; rw [wpe_mapErr]; exact h st

/-- One step of the proofs below. -/
macro "ahead1" : tactic => `(tactic| first
  | assumption | exact Ahead.pure _ | exact Ahead.fail _ | exact Ahead.oof | exact Ahead.peek | exact Ahead.next | exact Ahead.skip
  | exact Ahead.names | exact Ahead.usage _ _ | exact Ahead.comment
  | apply Ahead.mapErr | (refine Ahead.bind ?_ (fun _ => ?_)) | apply Ahead.ite)

theorem hexDigits_ahead : ∀ n, Ahead (hexDigits n)
  | 0 => Ahead.pure _
  | n + 1 => by
    have ih := hexDigits_ahead n
    unfold hexDigits
    repeat ahead1

theorem escape_ahead : Ahead parseUnicodeEscape := by
  have h := hexDigits_ahead 4
  unfold parseUnicodeEscape
  repeat ahead1

theorem litLoop_ahead (q : Rune) : ∀ n buf uni, Ahead (litLoop q n buf uni)
  | 0, _, _ => Ahead.oof
  | n + 1, buf, uni => by
    have ih := litLoop_ahead q n
    have h := escape_ahead
    unfold litLoop
    repeat first | exact ih _ _ | ahead1

theorem inRange_ahead (c : Rune) (b : Bool) : Ahead (inRange c b) := by
  have h := escape_ahead
  unfold inRange
  repeat ahead1

theorem inChar_ahead (n : Nat) : Ahead (inChar n) := by
  unfold inChar
  refine Ahead.bind Ahead.next (fun o => Ahead.ite (Ahead.fail _) (Ahead.bind (litLoop_ahead _ _ _ _) ?_))
  rintro ⟨buf, uni⟩
  have h := fun c => inRange_ahead c uni
  match buf with
  | [] => exact Ahead.fail _
  | [c] => exact Ahead.bind Ahead.peek (fun d => Ahead.ite (h c) (Ahead.pure _))
  | _ :: _ :: _ => exact Ahead.pure _

theorem inUnicode_ahead : Ahead inUnicode := by
  have h := escape_ahead
  have h2 := fun c => inRange_ahead c true
  unfold inUnicode
  repeat first | exact h2 _ | ahead1

theorem inString_ahead (n : Nat) : Ahead (inString n) := by
  have h := litLoop_ahead (ch '"') n [] false
  unfold inString
  repeat ahead1

theorem inReference_ahead (name : Name) : Ahead (inReference name) := by
  unfold inReference
  repeat ahead1

theorem specLoop_ahead (b : Bool) : ∀ n buf, Ahead (specLoop b n buf)
  | 0, _ => Ahead.oof
  | n + 1, buf => by
    have ih := specLoop_ahead b n
    unfold specLoop
    repeat first | exact ih _ | ahead1

theorem inRepeatSpec_ahead (n : Nat) : Ahead (inRepeatSpec n) := by
  have h := fun b => specLoop_ahead b n []
  unfold inRepeatSpec
  repeat first | exact h _ | ahead1

section
variable {p : List Rune → P Rule} (hp : ∀ ts, Ahead (p ts))
include hp

theorem inGroup_ahead : Ahead (inGroup p) := by
  unfold inGroup
  repeat first | exact hp _ | ahead1

theorem inOption_ahead : Ahead (inOption p) := by
  unfold inOption
  repeat first | exact hp _ | ahead1

theorem inRepetition_ahead (n : Nat) : Ahead (inRepetition p n) := by
  have h := inRepeatSpec_ahead n
  unfold inRepetition
  repeat first | exact hp _ | ahead1

theorem excludeLoop_ahead : ∀ n acc, Ahead (excludeLoop p n acc)
  | 0, _ => Ahead.oof
  | n + 1, acc => by
    have ih := excludeLoop_ahead n
    unfold excludeLoop
    repeat first | exact hp _ | exact ih _ | ahead1

theorem blockTail_ahead (n : Nat) (o : Rule) (e : Option Rule) : Ahead (blockTail p n o e) := by
  have h := excludeLoop_ahead hp n []
  unfold blockTail
  repeat first | exact hp _ | ahead1

theorem inBlock_ahead (n : Nat) : Ahead (inBlock p n) := by
  have h := blockTail_ahead hp n
  unfold inBlock
  repeat first | exact hp _ | exact h _ _ | ahead1

theorem primary_ahead (other : Rune → PErr) (n : Nat) (name : Name) (c : Rune) : Ahead (primary other p n name c) := by
  have h1 := inChar_ahead n
  have h2 := inUnicode_ahead
  have h3 := inString_ahead n
  have h4 := inReference_ahead name
  have h5 := inGroup_ahead hp
  have h6 := inOption_ahead hp
  have h7 := inRepetition_ahead hp n
  have h8 := inBlock_ahead hp n
  unfold primary
  repeat ahead1
end

theorem parseOneLoop_ahead {prim : Rune → P Rule} (hp : ∀ c, Ahead (prim c)) : ∀ n tk nd v, Ahead (parseOneLoop prim n tk nd v)
  | 0, _, _, _ => Ahead.oof
  | n + 1, tk, nd, v => by
    have ih := parseOneLoop_ahead hp n
    unfold parseOneLoop
    repeat first | exact hp _ | exact ih _ _ _ | ahead1

theorem choiceParse_ahead {one : P Rule} (ho : Ahead one) : ∀ n gs rs, Ahead (choiceParse one n gs rs)
  | 0, _, _ => Ahead.oof
  | n + 1, gs, rs => by
    have ih := choiceParse_ahead ho n
    unfold choiceParse
    repeat first | exact ih _ _ | ahead1

theorem inChoice_ahead {one : P Rule} (ho : Ahead one) (n : Nat) (r : Rule) : Ahead (inChoice one n r) := by
  have h := choiceParse_ahead ho n
  unfold inChoice
  repeat first | exact h _ _ | ahead1

theorem finish_ahead (rs : List Rule) : Ahead (finish rs) := by
  match rs with
  | [] => exact Ahead.fail _
  | [_] => exact Ahead.pure _
  | _ :: _ :: _ => exact Ahead.pure _

theorem parseLoop_ahead {prim : Rune → P Rule} {one : P Rule} (hp : ∀ c, Ahead (prim c)) (ho : Ahead one) (terms : List Rune) :
    ∀ n rs tk nd v, Ahead (parseLoop prim one terms n rs tk nd v)
  | 0, _, _, _, _ => Ahead.oof
  | n + 1, rs, tk, nd, v => by
    have ih := parseLoop_ahead hp ho terms n
    have hf := finish_ahead rs
    have hc := inChoice_ahead ho n
    unfold parseLoop
    repeat first | exact hp _ | exact ih _ _ _ _ | exact hc _ | ahead1
    · split <;> (repeat first | exact ih _ _ _ _ | exact hc _ | ahead1)
    · repeat first | exact hp _ | exact ih _ _ _ _ | ahead1

theorem parse_ahead : ∀ n name terms, Ahead (parse n name terms)
  | 0, _, _ => Ahead.oof
  | n + 1, name, terms => by
    have ih := parse_ahead n name
    unfold parse
    refine Ahead.bind Ahead.skip (fun _ => ?_)
    exact parseLoop_ahead (primary_ahead ih _ n name) (parseOneLoop_ahead (primary_ahead ih _ n name) n _ _ _) terms n _ _ _ _

theorem Ahead.on {α : Type} {x : P α} (h : Ahead x) {T u : List Rune} {st : PState} (hu : On T u st) :
    wpe x st (fun _ st' => ∀ u', On T u' st' → ∃ v, u' = u ++ v) (fun _ st' => ∀ u', On T u' st' → ∃ v, u' = u ++ v) := by
  have key : ∀ st' : PState, (∃ v, st.rest = v ++ st'.rest) → ∀ u', On T u' st' → ∃ v, u' = u ++ v := by
    rintro st' ⟨v, hv⟩ u' hu'
    refine ⟨v, List.append_cancel_right (bs := st'.rest) ?_⟩
    unfold On at *
    rw [← hu', List.append_assoc, ← hv, hu]
  exact wpe_mono (h st) (fun _ st' => key st') (fun _ st' => key st')

theorem wpe_both {α : Type} {x : P α} {st : PState} {Q Q' : α → PState → Prop} {E E' : PErr → PState → Prop}
    (h : wpe x st Q E) (h' : wpe x st Q' E') : wpe x st (fun a s => Q a s ∧ Q' a s) (fun e s => E e s ∧ E' e s) := by
  unfold wpe at *
  cases hx : x st with
  | ok a st' => rw [hx] at h h'; exact ⟨h, h'⟩
  | err e st' => rw [hx] at h h'; exact ⟨h, h'⟩
  | oof => trivial

/-! ## Literals -/

theorem ch_quote : ch '\'' = 39 := rfl
theorem ch_dash : ch '-' = 45 := rfl
theorem ch_back : ch '\\' = 92 := rfl


theorem hex_iff {c : Rune} : isHex c = true ↔ ∃ k, HexDigit c k := by
  unfold HexDigit isHex isDigit
  unfold Rune at *
  simp only [Bool.or_eq_true, Bool.and_eq_true, decide_eq_true_eq]
  constructor
  · intro h
    rcases h with (h | h) | h
    · exact ⟨c - 48, by omega⟩
    · exact ⟨c - 87, by omega⟩
    · exact ⟨c - 55, by omega⟩
  · rintro ⟨k, h⟩; omega

theorem hexDigits_blame {T : List Rune} : ∀ (n : Nat) (u ds : List Rune) (st : PState), On T u st → Just (92 :: 117 :: ds) u →
    ds.length + n = 4 → (∀ c ∈ ds, ∃ k, HexDigit c k) →
    wpe (hexDigits n) st (fun _ st' => Further T u st') (Truth T)
  | 0, u, ds, st, h, _, _, _ => Further.refl h
  | n + 1, u, ds, st, h, hj, hl, hd => by
    unfold hexDigits
    rw [wpe_bind]
    refine wpe_next h ?_ ?_
    · intro c st' hr h'
      have hj' : Just (92 :: 117 :: (ds ++ [c])) (u ++ [c]) := by obtain ⟨a, rfl⟩ := hj; exact ⟨a, by simp⟩
      split
      · rename_i hc
        refine ⟨_, h', .uniDigit hj' (by omega) hd ?_⟩
        rw [← hex_iff]
        rcases hc with rfl | hc
        · decide
        · simp [hc]
      · rename_i hc
        rw [wpe_bind]
        refine wpe_mono (hexDigits_blame n (u ++ [c]) (ds ++ [c]) st' h' hj' (by simp; omega) ?_) ?_ (fun _ _ h => h)
        · intro x hx
          rcases List.mem_append.1 hx with hx | hx
          · exact hd x hx
          · rw [List.mem_singleton.1 hx, ← hex_iff]
            simpa using fun hf => hc (.inr hf)
        · intro _ st2 hv
          exact hv.trans
    · intro _ st' hr h'
      rw [if_pos (.inl rfl)]
      exact ⟨_, h', .uniDigits hj (by omega) hd hr⟩

theorem escape_blame {T u : List Rune} {st : PState} (h : On T u st) (hj : Just [92] u) (hu : Just [45, 92] u ∨ peekR st.rest = ch 'u') :
    wpe parseUnicodeEscape st (fun _ st' => Further T u st') (Truth T) := by
  unfold parseUnicodeEscape
  rw [wpe_bind, wpe_peek]
  split
  · rename_i hp
    rcases hu with hu | hu
    · exact ⟨_, h, .uniEscape hu (peek_ne_head hp)⟩
    · exact absurd hu hp
  · rename_i hp
    obtain ⟨l, hr⟩ := peek_cons (Classical.not_not.1 hp) (by decide)
    simp only [wpe_bind]
    refine wpe_next_cons h hr ?_
    intro st1 _ h1
    refine wpe_mono (hexDigits_blame 4 _ [] st1 h1 ?_ rfl (fun _ hc => by cases hc)) ?_ (fun _ _ h => h)
    · obtain ⟨a, rfl⟩ := hj; exact ⟨a, by rw [List.append_assoc]; rfl⟩
    · intro _ st2 hv
      exact hv.trans

theorem litLoop_blame {T : List Rune} {q : Rune} (hq : q = 39 ∨ q = 34) : ∀ (n : Nat) (u buf : List Rune) (uni : Bool) (st : PState), On T u st →
    q ∈ u → wpe (litLoop q n buf uni) st
      (fun p st' => ∃ v, On T (u ++ v) st' ∧ (p.1 = [] → buf = [] ∧ v = [q])) (Truth T)
  | 0, _, _, _, _, _, _ => trivial
  | n + 1, u, buf, uni, st, h, hu => by
    have again : ∀ (v buf' : List Rune) (uni' : Bool) (st' : PState), On T (u ++ v) st' → buf' ≠ [] →
        wpe (litLoop q n buf' uni') st' (fun p st' => ∃ v, On T (u ++ v) st' ∧ (p.1 = [] → buf = [] ∧ v = [q])) (Truth T) := by
      intro v buf' uni' st' h' hb
      refine wpe_mono (litLoop_blame hq n (u ++ v) buf' uni' st' h' (List.mem_append_left _ hu)) ?_ (fun _ _ h => h)
      rintro p st2 ⟨w, h2, h3⟩
      exact ⟨v ++ w, by rwa [← List.append_assoc], fun hp => absurd (h3 hp).1 hb⟩
    have stop : ∀ u' st', On T u' st' → q ∈ u' → Ended u' st'.rest → Truth T (if q = ch '\'' then .charEnd else .strEnd) st' := by
      intro u' st' h' hm he
      split
      · rename_i hc
        exact ⟨u', h', .charEnd he (by rw [hc] at hm; exact hm)⟩
      · rename_i hc
        rcases hq with rfl | rfl
        · exact absurd rfl hc
        · exact ⟨u', h', .strEnd he hm⟩
    unfold litLoop
    rw [wpe_bind]
    refine wpe_next h ?_ ?_
    · intro c st1 hr h1
      split
      · rename_i hc
        subst hc
        exact stop _ _ h1 (List.mem_append_left _ hu) (.inr (.inl (by simp)))
      split
      · rename_i hc
        subst hc
        rw [wpe_pure]
        exact ⟨_, h1, fun hb => ⟨hb, rfl⟩⟩
      split
      · rename_i hc
        subst hc
        rw [wpe_bind, wpe_peek]
        split
        · rename_i hd
          rw [wpe_bind]
          refine wpe_mono (escape_blame h1 (just_self _ _) (.inr hd)) ?_ (fun _ _ h => h)
          rintro x st2 ⟨v, h2⟩
          exact again ([ch '\\'] ++ v) _ _ _ (by rwa [← List.append_assoc]) (by simp)
        · rw [wpe_bind]
          refine wpe_next h1 ?_ ?_
          · intro d st2 _ h2
            exact again [ch '\\', d] _ _ _ (by simpa using h2) (by simp)
          · intro _ st2 _ h2
            exact again [ch '\\'] _ _ _ h2 (by simp)
      · exact again [c] _ _ _ h1 (by simp)
    · intro _ st1 hr h1
      rw [if_pos rfl]
      exact stop _ _ h1 hu (.inl hr)

theorem inRange_blame {T u : List Rune} {st : PState} (h : On T u st) (hp : peekR st.rest = ch '-') (c : Rune) (b : Bool) :
    wpe (inRange c b) st (fun _ st' => Further T u st') (Truth T) := by
  obtain ⟨l, hr⟩ := peek_cons hp (by decide)
  unfold inRange
  rw [wpe_bind]
  refine wpe_next_cons h hr ?_
  intro st1 _ h1
  rw [if_neg (by simp), wpe_bind]
  have last : ∀ v st2, On T (u ++ [45, 39] ++ v) st2 → ∀ (p : Rune × Bool),
      wpe (do
        let c' ← pNext
        if c' ≠ ch '\'' then P.fail .rangeForm else pure (Rule.range {} c b p.1 p.2) : P Rule) st2 (fun _ st' => Further T u st') (Truth T) := by
    intro v st2 h2 p
    rw [wpe_bind]
    refine wpe_next h2 ?_ ?_
    · intro d st3 _ h3
      split
      · rename_i hd
        refine ⟨_, h3, .rangeForm (mid := v ++ [d]) ⟨u, by simp⟩ (.inr (by simpa [ch_quote] using hd))⟩
      · rw [wpe_pure]
        exact ⟨[45, 39] ++ v ++ [d], by simpa using h3⟩
    · intro _ st3 hr3 h3
      rw [if_pos (by decide)]
      exact ⟨_, h3, .rangeForm (mid := v) ⟨u, by simp⟩ (.inl (.inl hr3))⟩
  refine wpe_next h1 ?_ ?_
  · intro e st2 _ h2
    split
    · rename_i he
      subst he
      rw [wpe_bind]
      refine wpe_next h2 ?_ ?_
      · intro e st3 _ h3
        split
        · rename_i he
          subst he
          rw [wpe_bind, wpe_bind, wpe_peek]
          split
          · rename_i hd
            rw [wpe_bind]
            refine wpe_mono (escape_blame h3 (just_self _ _) (.inr hd)) ?_ (fun _ _ h => h)
            rintro x st4 ⟨v, h4⟩
            rw [wpe_pure]
            exact last ([92] ++ v) st4 (by simpa [ch_quote, ch_dash, ch_back] using h4) (x, true)
          · rename_i hd
            exact ⟨_, h3, .rangeEscape ⟨u, by simp [ch_quote, ch_dash, ch_back]⟩ (peek_ne_head hd)⟩
        · rw [wpe_bind, wpe_pure]
          exact last [e] st3 (by simpa [ch_quote, ch_dash, ch_back] using h3) (e, false)
      · intro _ st3 hr3 h3
        rw [if_neg (by decide), wpe_bind, wpe_pure]
        exact last [] st3 (by simpa [ch_quote, ch_dash, ch_back] using h3) (EOFChar, false)
    split
    · rename_i he
      subst he
      rw [wpe_bind]
      refine wpe_mono (escape_blame h2 ⟨u ++ [ch '-'], rfl⟩ (.inl ⟨u, by simp [ch_quote, ch_dash, ch_back]⟩)) ?_ (fun _ _ h => h)
      intro x st3 h3
      rw [wpe_pure]
      exact Further.trans (v := [ch '-']) (Further.trans h3)
    · rename_i h39 h92
      exact ⟨_, h2, .rangeSecond (.inr ⟨e, ⟨u, by simp [ch_quote, ch_dash, ch_back]⟩, h39, h92⟩)⟩
  · intro _ st2 hr2 h2
    rw [if_neg (by decide), if_neg (by decide)]
    exact ⟨_, h2, .rangeSecond (.inl ⟨⟨u, rfl⟩, hr2⟩)⟩

theorem inChar_blame {T u : List Rune} {st : PState} (h : On T u st) (hp : peekR st.rest = ch '\'') (n : Nat) :
    wpe (inChar n) st (fun _ st' => Further T u st') (Truth T) := by
  obtain ⟨l, hr⟩ := peek_cons hp (by decide)
  unfold inChar
  rw [wpe_bind]
  refine wpe_next_cons h hr ?_
  intro st1 _ h1
  rw [if_neg (by simp), wpe_bind]
  refine wpe_mono (litLoop_blame (.inl rfl) n _ [] false st1 h1 (List.mem_append_right _ (.head _))) ?_ (fun _ _ h => h)
  rintro ⟨buf, uni⟩ st2 ⟨v, h2, h3⟩
  have hf : Further T u st2 := Further.trans ⟨v, h2⟩
  match buf with
  | [] =>
    obtain ⟨_, rfl⟩ := h3 rfl
    exact ⟨_, h2, .charEmpty ⟨u, by simp [ch_quote, ch_dash, ch_back]⟩⟩
  | [c] =>
    show wpe (pPeek >>= fun d => if d = ch '-' then inRange c uni else pure _) st2 _ _
    rw [wpe_bind, wpe_peek]
    split
    · rename_i hd
      refine wpe_mono (inRange_blame h2 hd c uni) ?_ (fun _ _ h => h)
      intro _ st3 h4
      exact Further.trans (Further.trans h4)
    · exact hf
  | c :: d :: r => exact hf

theorem inUnicode_blame {T u : List Rune} {st : PState} (h : On T u st) (hp : peekR st.rest = ch '\\') :
    wpe inUnicode st (fun _ st' => Further T u st') (Truth T) := by
  obtain ⟨l, hr⟩ := peek_cons hp (by decide)
  unfold inUnicode
  rw [wpe_bind]
  refine wpe_next_cons h hr ?_
  intro st1 _ h1
  rw [wpe_bind, wpe_peek]
  split
  · rename_i hc
    refine ⟨_, h1, .uniStart ⟨u, rfl⟩ (peek_ne_head ?_)⟩
    rcases hc with hc | hc
    · exact absurd rfl hc
    · exact hc
  · rename_i hc
    have hu : peekR st1.rest = ch 'u' := Classical.not_not.1 (fun hn => hc (.inr hn))
    rw [wpe_bind]
    refine wpe_mono (escape_blame h1 (just_self _ _) (.inr hu)) ?_ (fun _ _ h => h)
    rintro x st2 ⟨v, h2⟩
    rw [wpe_bind, wpe_peek]
    split
    · rename_i hd
      refine wpe_mono (inRange_blame h2 hd _ _) ?_ (fun _ _ h => h)
      intro _ st3 h4
      exact Further.trans (Further.trans h4)
    · exact Further.trans ⟨v, h2⟩

theorem inString_blame {T u : List Rune} {st : PState} (h : On T u st) (hp : peekR st.rest = ch '"') (n : Nat) :
    wpe (inString n) st (fun _ st' => Further T u st') (Truth T) := by
  obtain ⟨l, hr⟩ := peek_cons hp (by decide)
  unfold inString
  rw [wpe_bind]
  refine wpe_next_cons h hr ?_
  intro st1 _ h1
  rw [if_neg (by simp), wpe_bind]
  refine wpe_mono (litLoop_blame (.inr rfl) n _ [] false st1 h1 (List.mem_append_right _ (.head _))) ?_ (fun _ _ h => h)
  rintro ⟨buf, uni⟩ st2 ⟨v, h2, _⟩
  exact Further.trans ⟨v, h2⟩

end Xbnf.Props.Blame
