import Verif.Props.Definitions
import Verif.Spec.Syntax
/-
The definition parser reads exactly the notation of `Spec/Syntax.lean`.
-/
namespace Xbnf.Props
open Spec

/-! ## What the parser accepts is written in the notation -/

theorem bind_ok {α β : Type} {x : P α} {f : α → P β} {st st' : PState} {b : β} :
    (x >>= f) st = .ok b st' ↔ ∃ a st1, x st = .ok a st1 ∧ f a st1 = .ok b st' := by
  rw [P.bind_apply]
  cases x st with
  | ok a st1 =>
    simp only [Out.ok.injEq]
    constructor
    · intro h; exact ⟨a, st1, ⟨rfl, rfl⟩, h⟩
    · rintro ⟨a', st1', ⟨rfl, rfl⟩, h⟩; exact h
  | err e st1 => simp
  | oof => simp

theorem pure_ok {α : Type} {a b : α} {st st' : PState} : (pure a : P α) st = .ok b st' ↔ b = a ∧ st' = st := by
  show Out.ok a st = .ok b st' ↔ _
  simp only [Out.ok.injEq]
  exact ⟨fun h => ⟨h.1.symm, h.2.symm⟩, fun h => ⟨h.1.symm, h.2.symm⟩⟩

theorem fail_ok {α : Type} {e : PErr} {b : α} {st st' : PState} : (P.fail e : P α) st = .ok b st' ↔ False := by
  constructor
  · intro h; cases h
  · exact False.elim

theorem next_ok {st st' : PState} {c : Rune} : pNext st = .ok c st' ↔ c = peekR st.rest ∧ st' = ⟨st.rest.tail, st.usages⟩ := by
  show Out.ok _ _ = .ok c st' ↔ _
  simp only [Out.ok.injEq]
  exact ⟨fun h => ⟨h.1.symm, h.2.symm⟩, fun h => ⟨h.1.symm, h.2.symm⟩⟩

theorem peek_ok {st st' : PState} {c : Rune} : pPeek st = .ok c st' ↔ c = peekR st.rest ∧ st = st' := by
  show Out.ok _ _ = .ok c st' ↔ _
  simp only [Out.ok.injEq]
  exact ⟨fun h => ⟨h.1.symm, h.2⟩, fun h => ⟨h.1.symm, h.2⟩⟩

theorem skip_ok {st st' : PState} {u : Unit} : pSkip st = .ok u st' ↔ st' = ⟨skipR st.rest, st.usages⟩ := by
  show Out.ok _ _ = .ok u st' ↔ _
  simp only [Out.ok.injEq, true_and]
  exact ⟨fun h => h.symm, fun h => h.symm⟩

theorem peek_cons {l : List Rune} {c : Rune} (h : peekR l = c) (hc : c ≠ EOFChar) : l = c :: l.tail := by
  cases l with
  | nil => exact absurd h.symm hc
  | cons x xs => cases h; rfl

theorem peek_head {l : List Rune} {c : Rune} (h : peekR l ≠ c) : l.head? ≠ some c := by
  cases l with
  | nil => simp
  | cons x xs => simpa [peekR] using h

theorem blank_skip (l : List Rune) : Blank l (skipR l) := by
  obtain ⟨a, h1, h2⟩ : ∃ a, l = a ++ l.dropWhile isWhiteSpace ∧ ∀ c ∈ a, isWhiteSpace c = true :=
    ⟨l.takeWhile isWhiteSpace, (List.takeWhile_append_dropWhile).symm, mem_takeWhile_holds isWhiteSpace l⟩
  exact ⟨a, h1, h2⟩

theorem inRange_reads {c : Rune} {u : Bool} {st st' : PState} {r : Rule} (h : inRange c u st = .ok r st') :
    ∃ e d du, st.rest = 45 :: (e ++ st'.rest) ∧ RangeEnd e d du ∧ r = .range {} c u d du := by
  unfold inRange at h
  obtain ⟨c1, st1, h1, h⟩ := bind_ok.1 h
  obtain ⟨rfl, rfl⟩ := next_ok.1 h1
  rw [ite_apply] at h
  split at h
  · cases h
  rename_i hc
  have e1 := peek_cons (Classical.not_not.1 hc) (by decide)
  obtain ⟨c2, st2, h2, h⟩ := bind_ok.1 h
  obtain ⟨rfl, rfl⟩ := next_ok.1 h2
  simp only at h
  rw [ite_apply] at h
  split at h
  · rename_i hq
    have e2 := peek_cons hq (by decide)
    obtain ⟨c3, st3, h3, h⟩ := bind_ok.1 h
    obtain ⟨rfl, rfl⟩ := next_ok.1 h3
    obtain ⟨⟨l, u'⟩, st4, h4, h⟩ := bind_ok.1 h
    simp only at h h4
    obtain ⟨c5, st5, h5, h⟩ := bind_ok.1 h
    obtain ⟨rfl, rfl⟩ := next_ok.1 h5
    rw [ite_apply] at h
    split at h
    · cases h
    rename_i hq2
    have e5 := peek_cons (Classical.not_not.1 hq2) (by decide)
    obtain ⟨rfl, rfl⟩ := pure_ok.1 h
    rw [ite_apply] at h4
    split at h4
    · rename_i hb
      have e3 := peek_cons hb (by decide)
      obtain ⟨d, st6, h6, h4⟩ := bind_ok.1 h4
      obtain ⟨rfl, rfl⟩ := peek_ok.1 h6
      rw [ite_apply] at h4
      split at h4
      · obtain ⟨v, st7, h7, h4⟩ := bind_ok.1 h4
        obtain ⟨hp, rfl⟩ := pure_ok.1 h4
        cases hp
        obtain ⟨ds, hd, hr⟩ := C39_escape.1 h7
        simp only [PState.mk.injEq] at hr
        refine ⟨_, _, _, ?_, .quotedCode hd, rfl⟩
        rw [e1, e2, e3, hr.1, e5]
        simp [ch]
      · cases h4
    · rename_i hb
      obtain ⟨hp, rfl⟩ := pure_ok.1 h4
      cases hp
      refine ⟨[39, peekR st.rest.tail.tail, 39], _, _, ?_, .quoted hb, rfl⟩
      have e3 : st.rest.tail.tail = peekR st.rest.tail.tail :: st.rest.tail.tail.tail := by
        cases hx : st.rest.tail.tail with
        | nil => simp only [hx] at e5; cases e5
        | cons x xs => rfl
      simp only at e5
      rw [e1, e2]
      simp only [List.tail_cons]
      rw [e3]
      simp only [List.tail_cons]
      rw [e5]
      simp [ch, peekR]
  · split at h
    · rename_i hb
      have e2 := peek_cons hb (by decide)
      obtain ⟨v, st7, h7, h⟩ := bind_ok.1 h
      obtain ⟨rfl, rfl⟩ := pure_ok.1 h
      obtain ⟨ds, hd, hr⟩ := C39_escape.1 h7
      simp only [PState.mk.injEq] at hr
      refine ⟨_, _, _, ?_, .code hd, rfl⟩
      rw [e1, e2, hr.1]
      simp [ch]
    · cases h

/-- What a parser of parts reads: whatever the annotations, the part in the notation. -/
def ReadsSimple (x : P Rule) : Prop :=
  ∀ st st' r, x st = .ok r st' → r.base.name = [] ∧ ∀ b, Simple b st.rest (r.setBase b) st'.rest

theorem inChar_reads (n : Nat) : ReadsSimple (inChar n) := by
  intro st st' r h
  unfold inChar at h
  obtain ⟨c1, st1, h1, h⟩ := bind_ok.1 h
  obtain ⟨rfl, rfl⟩ := next_ok.1 h1
  rw [ite_apply] at h
  split at h
  · cases h
  rename_i hc
  have e1 := peek_cons (Classical.not_not.1 hc) (by decide)
  obtain ⟨⟨buf, uni⟩, st2, h2, h⟩ := bind_ok.1 h
  obtain ⟨src, val, u', hs, hst, hb, hu⟩ := litLoop_spelled n _ _ _ _ _ _ h2
  rw [List.nil_append] at hb
  rw [Bool.false_or] at hu
  subst hb
  subst hu
  simp only [PState.mk.injEq] at hst
  have e2 : st.rest = 39 :: src ++ 39 :: st2.rest := by rw [e1, hst.1]; rfl
  match buf, h, hs with
  | [], h, hs => cases h
  | [c], h, hs =>
    simp only at h
    obtain ⟨d, st3, h3, h⟩ := bind_ok.1 h
    obtain ⟨rfl, rfl⟩ := peek_ok.1 h3
    rw [ite_apply] at h
    split at h
    · obtain ⟨e, d, du, g1, g2, rfl⟩ := inRange_reads h
      exact ⟨rfl, fun b => by rw [e2, g1]; exact .charRange hs g2⟩
    · rename_i hd
      obtain ⟨rfl, rfl⟩ := pure_ok.1 h
      exact ⟨rfl, fun b => by rw [e2]; exact .char hs (peek_head hd)⟩
  | a :: b :: buf, h, hs =>
    obtain ⟨rfl, rfl⟩ := pure_ok.1 h
    exact ⟨rfl, fun b => by rw [e2]; exact .chars hs (by simp)⟩

theorem inUnicode_reads : ReadsSimple inUnicode := by
  intro st st' r h
  unfold inUnicode at h
  obtain ⟨c1, st1, h1, h⟩ := bind_ok.1 h
  obtain ⟨rfl, rfl⟩ := next_ok.1 h1
  obtain ⟨c2, st2, h2, h⟩ := bind_ok.1 h
  obtain ⟨rfl, rfl⟩ := peek_ok.1 h2
  rw [ite_apply] at h
  split at h
  · cases h
  rename_i hc
  have e1 := peek_cons (show peekR st.rest = 92 from Classical.byContradiction (fun h => hc (.inl h))) (by decide)
  obtain ⟨v, st3, h3, h⟩ := bind_ok.1 h
  obtain ⟨ds, hd, hr⟩ := C39_escape.1 h3
  simp only [PState.mk.injEq] at hr
  have e2 : st.rest = 92 :: 117 :: ds ++ st3.rest := by rw [e1, hr.1]; rfl
  obtain ⟨d, st4, h4, h⟩ := bind_ok.1 h
  obtain ⟨rfl, rfl⟩ := peek_ok.1 h4
  rw [ite_apply] at h
  split at h
  · obtain ⟨e, d, du, g1, g2, rfl⟩ := inRange_reads h
    exact ⟨rfl, fun b => by rw [e2, g1]; exact .codeRange hd g2⟩
  · rename_i hd'
    obtain ⟨rfl, rfl⟩ := pure_ok.1 h
    exact ⟨rfl, fun b => by rw [e2]; exact .code hd (peek_head hd')⟩

theorem inString_reads (n : Nat) : ReadsSimple (inString n) := by
  intro st st' r h
  unfold inString at h
  obtain ⟨c1, st1, h1, h⟩ := bind_ok.1 h
  obtain ⟨rfl, rfl⟩ := next_ok.1 h1
  rw [ite_apply] at h
  split at h
  · cases h
  rename_i hc
  have e1 := peek_cons (Classical.not_not.1 hc) (by decide)
  obtain ⟨⟨buf, uni⟩, st2, h2, h⟩ := bind_ok.1 h
  obtain ⟨src, val, u', hs, hst, hb, hu⟩ := litLoop_spelled n _ _ _ _ _ _ h2
  rw [List.nil_append] at hb
  subst hb
  simp only [PState.mk.injEq] at hst
  obtain ⟨rfl, rfl⟩ := pure_ok.1 h
  exact ⟨rfl, fun b => by rw [e1, hst.1]; exact .string hs⟩

theorem inReference_reads (name : Name) {st st' : PState} {r : Rule} (h : inReference name st = .ok r st')
    (hc : isWhiteSpace (peekR st.rest) = false) : r.base.name = [] ∧ ∀ b, Simple b st.rest (r.setBase b) st'.rest := by
  unfold inReference at h
  obtain ⟨_, st1, h1, h⟩ := bind_ok.1 h
  have hsk : skipR st.rest = st.rest := by
    unfold skipR
    cases hr : st.rest with
    | nil => rfl
    | cons c cs => rw [hr] at hc; exact List.dropWhile_cons_of_neg (by rw [show isWhiteSpace c = false from hc]; simp)
  rw [skip_ok, hsk] at h1
  subst h1
  obtain ⟨c, st2, h2, h⟩ := bind_ok.1 h
  obtain ⟨rfl, rfl⟩ := next_ok.1 h2
  rw [ite_apply] at h
  split at h
  · cases h
  rename_i hl
  have hl' : Letter (peekR st.rest) ∨ peekR st.rest = 95 := by
    refine Classical.byContradiction (fun hn => hl ?_)
    rw [not_or] at hn
    refine ⟨?_, hn.2⟩
    have := hn.1
    rw [← letter_iff] at this
    simpa using this
  have e1 : st.rest = peekR st.rest :: st.rest.tail := by
    refine peek_cons rfl ?_
    intro h0
    unfold Letter EOFChar at *
    unfold Rune at *
    omega
  obtain ⟨cs, st3, h3, h⟩ := bind_ok.1 h
  have h3' : Out.ok (st.rest.tail.takeWhile isNameChar) (PState.mk (st.rest.tail.dropWhile isNameChar) st.usages) = Out.ok cs st3 := h3
  cases h3'
  have hname : NameText (peekR st.rest :: st.rest.tail.takeWhile isNameChar) (st.rest.tail.dropWhile isNameChar) := by
    refine ⟨⟨_, _, rfl, hl', ?_⟩, ?_⟩
    · intro d hd
      rw [← nameChar_iff]
      exact mem_takeWhile_holds isNameChar _ d hd
    · intro d hd
      rw [← nameChar_iff]
      cases hx : st.rest.tail.dropWhile isNameChar with
      | nil => rw [hx] at hd; cases hd
      | cons x xs =>
        rw [hx] at hd
        cases hd
        have := List.head_dropWhile_not isNameChar (l := st.rest.tail) (by rw [hx]; simp)
        simp only [hx, List.head_cons] at this
        rw [this]; simp
  have e2 : st.rest = (peekR st.rest :: st.rest.tail.takeWhile isNameChar) ++ st.rest.tail.dropWhile isNameChar := by
    rw [List.cons_append, List.takeWhile_append_dropWhile]; exact e1
  simp only at h
  rw [ite_apply] at h
  split at h
  · rename_i heof
    obtain ⟨rfl, rfl⟩ := pure_ok.1 h
    refine ⟨rfl, fun b => ?_⟩
    have hs := Simple.eof (b := b) (heof ▸ hname)
    rw [← heof, ← e2] at hs
    exact hs
  · rename_i heof
    obtain ⟨_, st4, h4, h⟩ := bind_ok.1 h
    obtain ⟨rfl, rfl⟩ := pure_ok.1 h
    have h4' : Out.ok () (PState.mk (st.rest.tail.dropWhile isNameChar) _) = Out.ok _ st' := h4
    cases h4'
    refine ⟨rfl, fun b => ?_⟩
    have hs := Simple.ref (b := b) hname heof
    rw [← e2] at hs
    exact hs

theorem blank_trans {a b c : List Rune} (h : Blank a b) (h' : Blank b c) : Blank a c := by
  obtain ⟨w, rfl, hw⟩ := h
  obtain ⟨w', rfl, hw'⟩ := h'
  exact ⟨w ++ w', by simp, fun x hx => (List.mem_append.1 hx).elim (hw x) (hw' x)⟩

theorem blank_refl (a : List Rune) : Blank a a := ⟨[], rfl, (fun _ h => by cases h)⟩

theorem blank_excludes {a b : List Rune} {xs : List Rule} {out : List Rune} (h : Blank a b) (hx : Excludes b xs out) : Excludes a xs out := by
  cases hx with
  | nil hw => exact .nil (blank_trans h hw)
  | cons hw hd hs => exact .cons (blank_trans h hw) hd hs

theorem decimal_snoc (ds : List Rune) (d : Rune) : decimal (ds ++ [d]) = decimal ds * 10 + (d - 48).toNat := by
  unfold decimal
  rw [List.foldl_append]; rfl

theorem digit_num {d : Rune} (h : isDigit d = true) : ∃ k : Nat, k < 10 ∧ d = 48 + (k : Int) := by
  unfold isDigit at h
  simp only [Bool.and_eq_true, decide_eq_true_eq] at h
  refine ⟨(d - 48).toNat, ?_, ?_⟩
  · unfold Rune at *; omega
  · unfold Rune at *; omega

theorem specLoop_reads {comma : Bool} : ∀ (n : Nat) (buf : List Rune) (st st' : PState) (ds : List Rune) (t : Bool),
    specLoop comma n buf st = .ok (ds, t) st' →
    ∃ src, st.rest = src ++ (if t then 44 else 62) :: st'.rest ∧ (∀ pre, Number pre (decimal buf) → Number (pre ++ src) (decimal ds)) ∧
      (t = true → comma = true)
  | 0, _, _, _, _, _, h => by cases h
  | n + 1, buf, st, st', ds, t, h => by
    unfold specLoop at h
    obtain ⟨c, st1, h1, h⟩ := bind_ok.1 h
    obtain ⟨rfl, rfl⟩ := next_ok.1 h1
    rw [ite_apply] at h
    split at h
    · rename_i hc
      obtain ⟨src, g1, g2, g3⟩ := specLoop_reads n _ _ _ _ _ h
      refine ⟨peekR st.rest :: src, ?_, ?_, g3⟩
      · rw [peek_cons rfl (show peekR st.rest ≠ EOFChar by rcases hc with hc | hc | hc <;> rw [hc] <;> decide), List.cons_append]
        exact congrArg _ g1
      · intro pre hp
        have := g2 (pre ++ [peekR st.rest]) (.blank hp hc)
        rwa [List.append_assoc] at this
    split at h
    · rename_i hc
      obtain ⟨hp, rfl⟩ := pure_ok.1 h
      cases hp
      exact ⟨[], by rw [peek_cons hc.2 (by decide)]; rfl, fun pre hp => by simpa using hp, fun _ => hc.1⟩
    split at h
    · rename_i hc
      obtain ⟨hp, rfl⟩ := pure_ok.1 h
      cases hp
      exact ⟨[], by rw [peek_cons hc (by decide)]; rfl, fun pre hp => by simpa using hp, (fun h => by cases h)⟩
    split at h
    · rename_i hc
      obtain ⟨src, g1, g2, g3⟩ := specLoop_reads n _ _ _ _ _ h
      obtain ⟨k, hk, he⟩ := digit_num hc
      refine ⟨peekR st.rest :: src, ?_, ?_, g3⟩
      · rw [peek_cons rfl (show peekR st.rest ≠ EOFChar by rw [he]; unfold EOFChar; unfold Rune; omega), List.cons_append]
        exact congrArg _ g1
      · intro pre hp
        have := g2 (pre ++ [peekR st.rest]) (by
          rw [decimal_snoc, he, Nat.mul_comm, show ((48 + (k : Int) : Rune) - 48).toNat = k by unfold Rune; omega]
          exact .digit hp hk)
        rwa [List.append_assoc] at this
    · cases h

theorem inRepeatSpec_reads {n : Nat} {st st' : PState} {mn mx : Nat} (h : inRepeatSpec n st = .ok (mn, mx) st') : Bounds st.rest mn mx st'.rest := by
  unfold inRepeatSpec at h
  obtain ⟨c, st1, h1, h⟩ := bind_ok.1 h
  obtain ⟨rfl, rfl⟩ := next_ok.1 h1
  rw [ite_apply] at h
  split at h
  · cases h
  rename_i hc
  have e1 := peek_cons (Classical.not_not.1 hc) (by decide)
  rw [e1]
  obtain ⟨_, st2, h2, h⟩ := bind_ok.1 h
  rw [skip_ok] at h2
  subst h2
  obtain ⟨⟨ds, t⟩, st3, h3, h⟩ := bind_ok.1 h
  obtain ⟨src, g1, g2, g3⟩ := specLoop_reads _ _ _ _ _ _ h3
  simp only at h
  rw [ite_apply] at h
  split at h
  · cases h
  rename_i hlt
  obtain ⟨es, st4, h4, h⟩ := bind_ok.1 h
  rw [ite_apply] at h
  split at h
  · cases h
  rename_i hlt'
  rw [ite_apply] at h
  split at h
  · cases h
  rename_i hle
  obtain ⟨hp, rfl⟩ := pure_ok.1 h
  cases hp
  have hn : Number src (decimal ds) := g2 [] .nil
  have hb := blank_skip st.rest.tail
  simp only at g1
  rw [g1] at hb
  rw [ite_apply] at h4
  split at h4
  · rename_i ht
    subst ht
    obtain ⟨⟨es', t'⟩, st5, h5, h4⟩ := bind_ok.1 h4
    obtain ⟨rfl, rfl⟩ := pure_ok.1 h4
    obtain ⟨src', k1, k2, k3⟩ := specLoop_reads _ _ _ _ _ _ h5
    cases t' with
    | true => cases k3 rfl
    | false =>
      refine .minMax (ds := src) (es := src') ?_ hn (by omega) (k2 [] .nil) (by omega) (by omega)
      have : src ++ (if true = true then 44 else 62) :: st3.rest = src ++ 44 :: src' ++ 62 :: st'.rest := by rw [k1]; simp
      rw [← this]
      exact hb
  · rename_i ht
    obtain ⟨rfl, rfl⟩ := pure_ok.1 h4
    cases t with
    | true => exact absurd rfl ht
    | false => exact .min hb hn (by omega)

/-- What a parser of definitions reads. -/
def ReadsDef (p : List Rune → P Rule) : Prop :=
  ∀ terms st st' r, p terms st = .ok r st' → Definition terms st.rest r st'.rest

theorem inGroup_reads {p : List Rune → P Rule} (hp : ReadsDef p) : ReadsSimple (inGroup p) := by
  intro st st' r h
  unfold inGroup at h
  obtain ⟨c, st1, h1, h⟩ := bind_ok.1 h
  obtain ⟨rfl, rfl⟩ := next_ok.1 h1
  rw [ite_apply] at h
  split at h
  · cases h
  rename_i hc
  have e1 := peek_cons (Classical.not_not.1 hc) (by decide)
  obtain ⟨r1, st2, h2, h⟩ := bind_ok.1 h
  have hd := hp _ _ _ _ h2
  obtain ⟨c, st3, h3, h⟩ := bind_ok.1 h
  obtain ⟨rfl, rfl⟩ := next_ok.1 h3
  rw [ite_apply] at h
  split at h
  · cases h
  rename_i hc'
  obtain ⟨rfl, rfl⟩ := pure_ok.1 h
  rw [peek_cons (Classical.not_not.1 hc') (by decide)] at hd
  exact ⟨rfl, fun b => by rw [e1]; exact .group hd⟩

theorem inOption_reads {p : List Rune → P Rule} (hp : ReadsDef p) : ReadsSimple (inOption p) := by
  intro st st' r h
  unfold inOption at h
  obtain ⟨c, st1, h1, h⟩ := bind_ok.1 h
  obtain ⟨rfl, rfl⟩ := next_ok.1 h1
  rw [ite_apply] at h
  split at h
  · cases h
  rename_i hc
  have e1 := peek_cons (Classical.not_not.1 hc) (by decide)
  obtain ⟨r1, st2, h2, h⟩ := bind_ok.1 h
  have hd := hp _ _ _ _ h2
  obtain ⟨c, st3, h3, h⟩ := bind_ok.1 h
  obtain ⟨rfl, rfl⟩ := next_ok.1 h3
  rw [ite_apply] at h
  split at h
  · cases h
  rename_i hc'
  obtain ⟨rfl, rfl⟩ := pure_ok.1 h
  rw [peek_cons (Classical.not_not.1 hc') (by decide)] at hd
  exact ⟨rfl, fun b => by rw [e1]; exact .option hd⟩

theorem inRepetition_reads {p : List Rune → P Rule} (hp : ReadsDef p) (n : Nat) : ReadsSimple (inRepetition p n) := by
  intro st st' r h
  unfold inRepetition at h
  obtain ⟨c, st1, h1, h⟩ := bind_ok.1 h
  obtain ⟨rfl, rfl⟩ := next_ok.1 h1
  rw [ite_apply] at h
  split at h
  · cases h
  rename_i hc
  have e1 := peek_cons (Classical.not_not.1 hc) (by decide)
  obtain ⟨r1, st2, h2, h⟩ := bind_ok.1 h
  have hd := hp _ _ _ _ h2
  obtain ⟨c, st3, h3, h⟩ := bind_ok.1 h
  obtain ⟨rfl, rfl⟩ := next_ok.1 h3
  rw [ite_apply] at h
  split at h
  · cases h
  rename_i hc'
  rw [peek_cons (Classical.not_not.1 hc') (by decide)] at hd
  suffices hs : ∃ mn mx, r = .rep {} r1 mn mx ∧ Bounds st2.rest.tail mn mx st'.rest by
    obtain ⟨mn, mx, rfl, hb⟩ := hs
    exact ⟨rfl, fun b => by rw [e1]; exact .rep hd hb⟩
  obtain ⟨d, st4, h4, h⟩ := bind_ok.1 h
  obtain ⟨rfl, rfl⟩ := peek_ok.1 h4
  simp only at h
  rw [ite_apply] at h
  split at h
  · rename_i hx
    obtain ⟨_, st5, h5, h⟩ := bind_ok.1 h
    obtain ⟨_, rfl⟩ := next_ok.1 h5
    obtain ⟨rfl, rfl⟩ := pure_ok.1 h
    exact ⟨_, _, rfl, by rw [peek_cons hx (by decide)]; exact .star⟩
  rename_i hx1
  split at h
  · rename_i hx
    obtain ⟨_, st5, h5, h⟩ := bind_ok.1 h
    obtain ⟨_, rfl⟩ := next_ok.1 h5
    obtain ⟨rfl, rfl⟩ := pure_ok.1 h
    exact ⟨_, _, rfl, by rw [peek_cons hx (by decide)]; exact .plus⟩
  rename_i hx2
  split at h
  · obtain ⟨⟨mn, mx⟩, st5, h5, h⟩ := bind_ok.1 h
    obtain ⟨rfl, rfl⟩ := pure_ok.1 h
    exact ⟨_, _, rfl, inRepeatSpec_reads h5⟩
  · rename_i hx3
    obtain ⟨rfl, rfl⟩ := pure_ok.1 h
    exact ⟨_, _, rfl, .none (peek_head hx1) (peek_head hx2) (peek_head hx3)⟩

theorem excludeLoop_reads {p : List Rune → P Rule} (hp : ReadsDef p) : ∀ (n : Nat) (acc xs : List Rule) (st st' : PState),
    excludeLoop p n acc st = .ok xs st' →
    ∃ ys, xs = acc ++ ys ∧ Excludes st.rest ys st'.rest ∧ (st.rest.head? = some 94 → ys ≠ [])
  | 0, _, _, _, _, h => by cases h
  | n + 1, acc, xs, st, st', h => by
    unfold excludeLoop at h
    obtain ⟨_, st1, h1, h⟩ := bind_ok.1 h
    rw [skip_ok] at h1
    subst h1
    obtain ⟨c, st2, h2, h⟩ := bind_ok.1 h
    obtain ⟨rfl, rfl⟩ := peek_ok.1 h2
    have hb := blank_skip st.rest
    simp only at h
    rw [ite_apply] at h
    split at h
    · rename_i hc
      obtain ⟨rfl, rfl⟩ := pure_ok.1 h
      refine ⟨[], by simp, .nil hb, fun h0 => ?_⟩
      cases hr : st.rest with
      | nil => rw [hr] at h0; cases h0
      | cons x l =>
        rw [hr] at h0 hc
        cases h0
        exact absurd rfl hc
    · rename_i hc
      rw [peek_cons (Classical.not_not.1 hc) (by decide)] at hb
      obtain ⟨_, st3, h3, h⟩ := bind_ok.1 h
      obtain ⟨_, rfl⟩ := next_ok.1 h3
      obtain ⟨r, st4, h4, h⟩ := bind_ok.1 h
      obtain ⟨ys, rfl, hy, _⟩ := excludeLoop_reads hp n _ _ _ _ h
      exact ⟨r :: ys, by simp, .cons hb (hp _ _ _ _ h4) hy, fun _ => by simp⟩

theorem blockTail_reads {p : List Rune → P Rule} (hp : ReadsDef p) {n : Nat} {opn r : Rule} {esc : Option Rule} {st st' : PState}
    (h : blockTail p n opn esc st = .ok r st') :
    ∃ xs m c m2 v, Excludes st.rest xs m ∧ (st.rest.head? = some 94 → xs ≠ []) ∧ Definition [62, 33] m c m2 ∧ BlockStop m2 v st'.rest ∧
      r = .block {} opn v c esc xs := by
  unfold blockTail at h
  obtain ⟨xs, st1, h1, h⟩ := bind_ok.1 h
  obtain ⟨ys, hxs, hx, hne⟩ := excludeLoop_reads hp _ _ _ _ _ h1
  rw [List.nil_append] at hxs
  subst hxs
  obtain ⟨c, st2, h2, h⟩ := bind_ok.1 h
  have hd := hp _ _ _ _ h2
  obtain ⟨t, st3, h3, h⟩ := bind_ok.1 h
  obtain ⟨rfl, rfl⟩ := next_ok.1 h3
  rw [ite_apply] at h
  split at h
  · rename_i hc
    obtain ⟨_, st4, h4, h⟩ := bind_ok.1 h
    rw [skip_ok] at h4
    subst h4
    obtain ⟨t, st5, h5, h⟩ := bind_ok.1 h
    obtain ⟨rfl, rfl⟩ := next_ok.1 h5
    rw [ite_apply] at h
    split at h
    · cases h
    rename_i hc'
    obtain ⟨rfl, rfl⟩ := pure_ok.1 h
    refine ⟨xs, _, c, _, true, hx, hne, hd, ?_, rfl⟩
    rw [peek_cons hc (by decide)]
    refine .giveBack ?_
    have hb := blank_skip st2.rest.tail
    have e2 := peek_cons (Classical.not_not.1 hc') (by decide)
    simp only at e2
    rw [e2] at hb
    exact hb
  · rw [ite_apply] at h
    split at h
    · cases h
    rename_i hc'
    obtain ⟨rfl, rfl⟩ := pure_ok.1 h
    refine ⟨xs, _, c, _, false, hx, hne, hd, ?_, rfl⟩
    rw [peek_cons (Classical.not_not.1 hc') (by decide)]
    exact .close

theorem inBlock_reads {p : List Rune → P Rule} (hp : ReadsDef p) (n : Nat) : ReadsSimple (inBlock p n) := by
  intro st st' r h
  unfold inBlock at h
  obtain ⟨c, st1, h1, h⟩ := bind_ok.1 h
  obtain ⟨rfl, rfl⟩ := next_ok.1 h1
  rw [ite_apply] at h
  split at h
  · cases h
  rename_i hc
  have e1 := peek_cons (Classical.not_not.1 hc) (by decide)
  obtain ⟨o, st2, h2, h⟩ := bind_ok.1 h
  have ho := hp _ _ _ _ (mapErr_ok.1 h2)
  obtain ⟨_, st3, h3, h⟩ := bind_ok.1 h
  rw [skip_ok] at h3
  subst h3
  have hb := blank_skip st2.rest
  obtain ⟨d, st4, h4, h⟩ := bind_ok.1 h
  obtain ⟨rfl, rfl⟩ := peek_ok.1 h4
  simp only at h
  rw [ite_apply] at h
  split at h
  · obtain ⟨c, st5, h5, h⟩ := bind_ok.1 h
    have hd := hp _ _ _ _ h5
    obtain ⟨_, st6, h6, h⟩ := bind_ok.1 h
    rw [skip_ok] at h6
    subst h6
    have hb' := blank_skip st5.rest
    obtain ⟨t, st7, h7, h⟩ := bind_ok.1 h
    obtain ⟨rfl, rfl⟩ := peek_ok.1 h7
    simp only at h
    rw [ite_apply] at h
    split at h
    · rename_i hpk
      obtain ⟨t, st8, h8, h⟩ := bind_ok.1 h
      obtain ⟨rfl, rfl⟩ := next_ok.1 h8
      simp only at h
      rw [ite_apply] at h
      split at h
      · rename_i hex
        rw [peek_cons hex (by decide)] at hb'
        obtain ⟨_, st9, h9, h⟩ := bind_ok.1 h
        rw [skip_ok] at h9
        subst h9
        obtain ⟨t, st10, h10, h⟩ := bind_ok.1 h
        obtain ⟨rfl, rfl⟩ := next_ok.1 h10
        rw [ite_apply] at h
        split at h
        · cases h
        rename_i hgt
        obtain ⟨rfl, rfl⟩ := pure_ok.1 h
        refine ⟨rfl, fun b => ?_⟩
        rw [e1]
        have hb2 := blank_skip (skipR st5.rest).tail
        have e2 := peek_cons (Classical.not_not.1 hgt) (by decide)
        simp only at e2
        rw [e2] at hb2
        exact .block ho hb hd hb' (.giveBack hb2)
      · rename_i hex
        rw [peek_cons (hpk.resolve_right hex) (by decide)] at hb'
        obtain ⟨rfl, rfl⟩ := pure_ok.1 h
        refine ⟨rfl, fun b => ?_⟩
        rw [e1]
        exact .block ho hb hd hb' .close
    · obtain ⟨xs, m, c2, m2, v, g1, _, g3, g4, rfl⟩ := blockTail_reads hp h
      refine ⟨rfl, fun b => ?_⟩
      rw [e1]
      exact .blockEscape ho hb hd (blank_excludes hb' g1) g3 g4
  · rename_i hcaret
    obtain ⟨xs, m, c2, m2, v, g1, g2, g3, g4, rfl⟩ := blockTail_reads hp h
    refine ⟨rfl, fun b => ?_⟩
    rw [e1]
    refine .blockExcludes ho (blank_excludes hb g1) (g2 ?_) g3 g4
    rw [peek_cons (Classical.not_not.1 hcaret) (by decide)]
    rfl

theorem primary_reads {other : Rune → PErr} {p : List Rune → P Rule} (hp : ReadsDef p) {n : Nat} {name : Name} {st st' : PState} {r : Rule}
    (hw : isWhiteSpace (peekR st.rest) = false) (h : primary other p n name (peekR st.rest) st = .ok r st') :
    r.base.name = [] ∧ ∀ b, Simple b st.rest (r.setBase b) st'.rest := by
  unfold primary at h
  split at h
  · exact inChar_reads n _ _ _ h
  split at h
  · exact inUnicode_reads _ _ _ h
  split at h
  · exact inString_reads n _ _ _ h
  split at h
  · exact inOption_reads hp _ _ _ h
  split at h
  · exact inRepetition_reads hp n _ _ _ h
  split at h
  · exact inBlock_reads hp n _ _ _ h
  split at h
  · exact inGroup_reads hp _ _ _ h
  split at h
  · exact inReference_reads name h hw
  · cases h

theorem simple_annotated {r : Rule} {inp out : List Rune} {b : RuleBase} (h : r.base.name = [] ∧ ∀ b, Simple b inp (r.setBase b) out)
    (hb : b.name = []) : Simple b inp (r.setAnnotation b.tokenized b.nondata b.virt) out := by
  have := h.2 b
  unfold Rule.setAnnotation
  rw [show { r.base with tokenized := b.tokenized, nondata := b.nondata, virt := b.virt } = b by
    obtain ⟨h1, _⟩ := h
    cases b
    simp only at hb
    simp only [hb, h1]]
  exact this

theorem marked_name {ws : Rune → Prop} {inp out : List Rune} {b : RuleBase} (h : Flagged ws inp b out) : b.name = [] := by
  induction h with
  | none => rfl
  | white _ _ ih => exact ih
  | token _ _ ih => exact ih
  | nondata _ _ ih => exact ih
  | virt _ _ ih => exact ih

/-- What reads the annotated parts of the definitions. -/
def ReadsPart (prim : Rune → P Rule) : Prop :=
  ∀ st st' r, isWhiteSpace (peekR st.rest) = false → prim (peekR st.rest) st = .ok r st' →
    r.base.name = [] ∧ ∀ b, Simple b st.rest (r.setBase b) st'.rest

theorem mark_step {ws : Rune → Prop} {c : Rune} {inp out : List Rune} {b : RuleBase} (hm : c = ch '~' ∨ c = ch '#' ∨ c = ch '$')
    (hb : inp.head? ≠ some 124) (h : Flagged ws inp b out) :
    Flagged ws (c :: inp) { b with tokenized := (c == ch '$') || b.tokenized, nondata := (c == ch '#') || b.nondata, virt := (c == ch '~') || b.virt } out := by
  rcases hm with rfl | rfl | rfl
  · exact .virt h hb
  · exact .nondata h hb
  · exact .token h hb

theorem ws_after {c : Rune} (h1 : ¬ (c = 32 ∨ c = 10 ∨ c = 9 ∨ c = 13)) {prim : Rune → P Rule} {st st' : PState} {r : Rule}
    {other : Rune → PErr} {p : List Rune → P Rule} {n : Nat} {name : Name} (hp : prim = primary other p n name) (h : prim c st = .ok r st') :
    isWhiteSpace c = false := by
  cases hw : isWhiteSpace c with
  | false => rfl
  | true =>
    exfalso
    subst hp
    have hr := white_range hw
    unfold primary at h
    have hl : ¬ (isLetter c = true ∨ c = ch '_') := by
      rw [letter_iff]
      unfold Letter
      rw [show ch '_' = 95 from rfl]
      unfold Rune at *
      omega
    have e1 : ch '\'' = 39 := rfl
    have e2 : ch '\\' = 92 := rfl
    have e3 : ch '"' = 34 := rfl
    have e4 : ch '[' = 91 := rfl
    have e5 : ch '{' = 123 := rfl
    have e6 : ch '<' = 60 := rfl
    have e7 : ch '(' = 40 := rfl
    rw [e1, e2, e3, e4, e5, e6, e7] at h
    unfold Rune at hr
    rw [if_neg (by unfold Rune; omega), if_neg (by unfold Rune; omega), if_neg (by unfold Rune; omega), if_neg (by unfold Rune; omega),
      if_neg (by unfold Rune; omega), if_neg (by unfold Rune; omega), if_neg (by unfold Rune; omega), if_neg hl] at h
    cases h

/-- What `parseOne` reads. -/
def ReadsOne (one : P Rule) : Prop :=
  ∀ st st' r, one st = .ok r st' → ∃ b m, Flagged AfterBar st.rest b m ∧ Simple b m r st'.rest

theorem parseOneLoop_reads {p : List Rune → P Rule} (hp : ReadsDef p) {k : Nat} {name : Name} : ∀ (n : Nat) (tk nd v : Bool) (st st' : PState) (r : Rule),
    parseOneLoop (primary other p k name) n tk nd v st = .ok r st' →
    ∃ b m, Flagged AfterBar st.rest b m ∧
      Simple { b with tokenized := tk || b.tokenized, nondata := nd || b.nondata, virt := v || b.virt } m r st'.rest
  | 0, _, _, _, _, _, _, h => by cases h
  | n + 1, tk, nd, v, st, st', r, h => by
    unfold parseOneLoop at h
    obtain ⟨c, st1, h1, h⟩ := bind_ok.1 h
    obtain ⟨rfl, rfl⟩ := peek_ok.1 h1
    rw [ite_apply] at h
    split at h
    · rename_i hc
      obtain ⟨_, st2, h2, h⟩ := bind_ok.1 h
      obtain ⟨_, rfl⟩ := next_ok.1 h2
      obtain ⟨b, m, hm, hs⟩ := parseOneLoop_reads hp n _ _ _ _ _ _ h
      refine ⟨b, m, ?_, hs⟩
      rw [peek_cons rfl (show peekR st.rest ≠ EOFChar by rcases hc with hc | hc | hc | hc <;> rw [hc] <;> decide)]
      exact .white hc hm
    rename_i hw
    rw [ite_apply] at h
    split at h
    · cases h
    rename_i he
    rw [ite_apply] at h
    split at h
    · rename_i hc
      obtain ⟨_, st2, h2, h⟩ := bind_ok.1 h
      obtain ⟨_, rfl⟩ := next_ok.1 h2
      obtain ⟨_, st3, h3, h⟩ := bind_ok.1 h
      obtain ⟨rfl, rfl⟩ := peek_ok.1 h3
      rw [ite_apply] at h
      split at h
      · cases h
      rename_i hbar
      obtain ⟨b, m, hm, hs⟩ := parseOneLoop_reads hp n _ _ _ _ _ _ h
      have hmk := mark_step hc (peek_head hbar) hm
      rw [← peek_cons rfl he] at hmk
      refine ⟨_, m, hmk, ?_⟩
      simp only [Bool.or_assoc] at hs ⊢
      exact hs
    · obtain ⟨r1, st2, h2, h⟩ := bind_ok.1 h
      obtain ⟨rfl, rfl⟩ := pure_ok.1 h
      refine ⟨{}, st.rest, .none, ?_⟩
      simp only [Bool.or_false]
      exact simple_annotated (b := { tokenized := tk, nondata := nd, virt := v })
        (primary_reads hp (ws_after hw rfl h2) h2) rfl

theorem spaces_alternatives {inp out : List Rune} {alts : List (Rune × Rule)} (h : Alternatives inp alts out) : Alternatives (32 :: inp) alts out := by
  cases h with
  | nil hw h0 h1 h2 =>
    obtain ⟨w, rfl, hw⟩ := hw
    exact .nil ⟨32 :: w, rfl, fun c hc => (List.mem_cons.1 hc).elim id (hw c)⟩ h0 h1 h2
  | cons hw ho hm hs ha =>
    obtain ⟨w, rfl, hw⟩ := hw
    exact .cons ⟨32 :: w, rfl, fun c hc => (List.mem_cons.1 hc).elim id (hw c)⟩ ho hm hs ha

theorem spaces_refl (a : List Rune) : Spaces a a := ⟨[], rfl, (fun _ h => by cases h)⟩

theorem choiceParse_reads {one : P Rule} (hone : ReadsOne one) : ∀ (n : Nat) (groups : List (List Rule)) (rules : List Rule) (st st' : PState)
    (gs : List (List Rule)), choiceParse one n groups rules st = .ok gs st' →
    ∃ alts, Alternatives st.rest alts st'.rest ∧ gs = groups ++ grouped rules alts
  | 0, _, _, _, _, _, h => by cases h
  | n + 1, groups, rules, st, st', gs, h => by
    unfold choiceParse at h
    obtain ⟨c, st1, h1, h⟩ := bind_ok.1 h
    obtain ⟨rfl, rfl⟩ := peek_ok.1 h1
    rw [ite_apply] at h
    split at h
    · rename_i hc
      obtain ⟨_, st2, h2, h⟩ := bind_ok.1 h
      obtain ⟨_, rfl⟩ := next_ok.1 h2
      obtain ⟨alts, ha, hg⟩ := choiceParse_reads hone n _ _ _ _ _ h
      exact ⟨alts, by rw [peek_cons hc (by decide)]; exact spaces_alternatives ha, hg⟩
    rename_i h32
    rw [ite_apply] at h
    split at h
    · rename_i hc
      obtain ⟨_, st2, h2, h⟩ := bind_ok.1 h
      obtain ⟨_, rfl⟩ := next_ok.1 h2
      obtain ⟨r, st3, h3, h⟩ := bind_ok.1 h
      obtain ⟨b, m, hm, hs⟩ := hone _ _ _ h3
      obtain ⟨alts, ha, hg⟩ := choiceParse_reads hone n _ _ _ _ _ h
      refine ⟨(124, r) :: alts, ?_, ?_⟩
      · rw [peek_cons hc (by decide)]
        exact .cons (spaces_refl _) (.inl rfl) hm hs ha
      · rw [hg, grouped, if_neg (by decide)]
    rename_i hbar
    rw [ite_apply] at h
    split at h
    · rename_i hc
      rw [ite_apply] at h
      split at h
      · cases h
      obtain ⟨_, st2, h2, h⟩ := bind_ok.1 h
      obtain ⟨_, rfl⟩ := next_ok.1 h2
      obtain ⟨r, st3, h3, h⟩ := bind_ok.1 h
      obtain ⟨b, m, hm, hs⟩ := hone _ _ _ h3
      obtain ⟨alts, ha, hg⟩ := choiceParse_reads hone n _ _ _ _ _ h
      refine ⟨(62, r) :: alts, ?_, ?_⟩
      · rw [peek_cons hc (by decide)]
        exact .cons (spaces_refl _) (.inr rfl) hm hs ha
      · rw [hg, grouped, if_pos rfl]; simp
    · rename_i hgt
      obtain ⟨rfl, rfl⟩ := pure_ok.1 h
      exact ⟨[], .nil (spaces_refl _) (peek_head h32) (peek_head hbar) (peek_head hgt), rfl⟩

/-- The rule made of the parts collected. -/
def Made (rules : List Rule) (r : Rule) : Prop := rules = [r] ∨ (2 ≤ rules.length ∧ r = .concat {} rules)

theorem finish_made {rules : List Rule} {st st' : PState} {r : Rule} (h : finish rules st = .ok r st') : Made rules r ∧ st' = st := by
  unfold finish at h
  split at h
  · cases h
  · obtain ⟨rfl, rfl⟩ := pure_ok.1 h
    exact ⟨.inl rfl, rfl⟩
  · rename_i h1 h2
    obtain ⟨rfl, rfl⟩ := pure_ok.1 h
    refine ⟨.inr ⟨?_, rfl⟩, rfl⟩
    match rules, h1, h2 with
    | [], h1, _ => exact absurd rfl h1
    | [r], _, h2 => exact absurd rfl (h2 r)
    | _ :: _ :: _, _, _ => simp

theorem parseLoop_marks {prim : Rune → P Rule} {one : P Rule} {terms : List Rune} : ∀ (n : Nat) (rules : List Rule) (tk nd v : Bool)
    (st st' : PState) (r : Rule), parseLoop prim one terms n rules tk nd v st = .ok r st' →
    ∃ k b m, k + 1 ≤ n ∧ Flagged (Between terms) st.rest b m ∧
      (peekR m = EOFChar ∨ peekR m ∈ terms ∨ (isWhiteSpace (peekR m) = false ∧ ¬ (peekR m = ch '~' ∨ peekR m = ch '#' ∨ peekR m = ch '$'))) ∧
      parseLoop prim one terms (k + 1) rules (tk || b.tokenized) (nd || b.nondata) (v || b.virt) ⟨m, st.usages⟩ = .ok r st'
  | 0, _, _, _, _, _, _, _, h => by cases h
  | n + 1, rules, tk, nd, v, st, st', r, h => by
    by_cases he : peekR st.rest = EOFChar
    · exact ⟨n, {}, st.rest, Nat.le_refl _, .none, .inl he, by simpa using h⟩
    by_cases ht : peekR st.rest ∈ terms
    · exact ⟨n, {}, st.rest, Nat.le_refl _, .none, .inr (.inl ht), by simpa using h⟩
    by_cases hw : isWhiteSpace (peekR st.rest) = true
    · unfold parseLoop at h
      obtain ⟨c, st1, h1, h⟩ := bind_ok.1 h
      obtain ⟨rfl, rfl⟩ := peek_ok.1 h1
      rw [if_neg he, if_neg (by simpa using ht), if_pos hw] at h
      obtain ⟨_, st2, h2, h⟩ := bind_ok.1 h
      obtain ⟨_, rfl⟩ := next_ok.1 h2
      obtain ⟨k, b, m, g1, g2, g3, g4⟩ := parseLoop_marks n _ _ _ _ _ _ _ h
      exact ⟨k, b, m, by omega, by rw [peek_cons rfl he]; exact .white ⟨hw, ht⟩ g2, g3, g4⟩
    by_cases hm : peekR st.rest = ch '~' ∨ peekR st.rest = ch '#' ∨ peekR st.rest = ch '$'
    · unfold parseLoop at h
      obtain ⟨c, st1, h1, h⟩ := bind_ok.1 h
      obtain ⟨rfl, rfl⟩ := peek_ok.1 h1
      rw [if_neg he, if_neg (by simpa using ht), if_neg hw, if_pos hm] at h
      obtain ⟨_, st2, h2, h⟩ := bind_ok.1 h
      obtain ⟨_, rfl⟩ := next_ok.1 h2
      obtain ⟨_, st3, h3, h⟩ := bind_ok.1 h
      obtain ⟨rfl, rfl⟩ := peek_ok.1 h3
      rw [ite_apply] at h
      split at h
      · cases h
      rename_i hbar
      obtain ⟨k, b, m, g1, g2, g3, g4⟩ := parseLoop_marks n _ _ _ _ _ _ _ h
      have hmk := mark_step hm (peek_head hbar) g2
      rw [← peek_cons rfl he] at hmk
      refine ⟨k, _, m, by omega, hmk, g3, ?_⟩
      simp only [Bool.or_assoc] at g4 ⊢
      exact g4
    · exact ⟨n, {}, st.rest, Nat.le_refl _, .none, .inr (.inr ⟨by simpa using hw, hm⟩), by simpa using h⟩

theorem dropWhile_line (l : List Rune) : 
    ∃ c, 10 ∉ c ∧ ((l = c ∧ (l.dropWhile (fun c => !(c == newline))).tail = []) ∨ l = c ++ 10 :: (l.dropWhile (fun c => !(c == newline))).tail) := by
  induction l with
  | nil => exact ⟨[], by simp, .inl ⟨rfl, rfl⟩⟩
  | cons x l ih =>
    by_cases hx : x = newline
    · refine ⟨[], by simp, .inr ?_⟩
      rw [List.dropWhile_cons_of_neg (by simp [hx]), hx]; rfl
    · rw [List.dropWhile_cons_of_pos (by simpa using hx)]
      obtain ⟨c, h1, h2⟩ := ih
      refine ⟨x :: c, ?_, ?_⟩
      · rw [List.mem_cons, not_or]
        exact ⟨fun h => hx h.symm, h1⟩
      · rcases h2 with ⟨rfl, h2⟩ | h2
        · exact .inl ⟨rfl, h2⟩
        · refine .inr ?_
          rw [List.cons_append, ← h2]

theorem parseLoop_reads {prim : Rune → P Rule} {one : P Rule} {terms : List Rune} (hprim : ReadsPart prim) (hone : ReadsOne one) :
    ∀ (N n : Nat), n ≤ N → ∀ (rules : List Rule) (st st' : PState) (r : Rule), parseLoop prim one terms n rules false false false st = .ok r st' →
    (rules = [] → ∃ rs m2, Parts terms st.rest rs m2 ∧ Finish terms m2 st'.rest ∧ Made rs r) ∧
    (∀ init last, rules = init ++ [last] → ∃ last' m rs m2, Choices terms last st.rest last' m ∧ Parts terms m rs m2 ∧ Finish terms m2 st'.rest ∧
      Made (init ++ last' :: rs) r) := by
  intro N
  induction N with
  | zero =>
    intro n hn rules st st' r h
    cases Nat.le_zero.1 hn
    cases h
  | succ N ih =>
    intro n hn rules st st' r h
    obtain ⟨k, b, m, hk, hm, hset, h⟩ := parseLoop_marks _ _ _ _ _ _ _ _ h
    have hbn := marked_name hm
    simp only [Bool.false_or] at h
    -- the definition ends here
    have hend : Finish terms st.rest st'.rest → Made rules r →
        (rules = [] → ∃ rs m2, Parts terms st.rest rs m2 ∧ Finish terms m2 st'.rest ∧ Made rs r) ∧
        (∀ init last, rules = init ++ [last] → ∃ last' m rs m2, Choices terms last st.rest last' m ∧ Parts terms m rs m2 ∧
          Finish terms m2 st'.rest ∧ Made (init ++ last' :: rs) r) := by
      intro hf hmade
      constructor
      · rintro rfl
        exact ⟨[], _, .nil, hf, hmade⟩
      · rintro init last rfl
        exact ⟨last, _, [], _, .nil, .nil, hf, hmade⟩
    unfold parseLoop at h
    obtain ⟨c, st1, h1, h⟩ := bind_ok.1 h
    obtain ⟨rfl, rfl⟩ := peek_ok.1 h1
    simp only at h
    rw [ite_apply] at h
    split at h
    · rename_i he
      obtain ⟨hmade, rfl⟩ := finish_made h
      refine hend (.ended hm ?_) hmade
      cases m with
      | nil => exact .inl rfl
      | cons x l => exact .inr (by rw [show x = EOFChar from he]; rfl)
    rename_i he
    have em := peek_cons rfl he
    rw [ite_apply] at h
    split at h
    · rename_i ht
      obtain ⟨hmade, rfl⟩ := finish_made h
      refine hend ?_ hmade
      rw [em] at hm
      show Finish terms st.rest m
      rw [em]
      exact .term hm (by simpa using ht)
    rename_i ht
    have ht' : peekR m ∉ terms := by simpa using ht
    obtain ⟨hw, hnm⟩ := (hset.resolve_left he).resolve_left ht'
    rw [if_neg (by rw [hw]; simp), if_neg hnm, ite_apply] at h
    split at h
    · rename_i hop
      cases hl : rules.getLast? with
      | none => rw [hl] at h; cases h
      | some last =>
        rw [hl] at h
        obtain ⟨ini, hrules⟩ := List.getLast?_eq_some_iff.1 hl
        obtain ⟨rc, st2, h2, h⟩ := bind_ok.1 h
        unfold inChoice at h2
        obtain ⟨gs, st3, h3, h2⟩ := bind_ok.1 h2
        obtain ⟨alts, ha, hg⟩ := choiceParse_reads hone _ _ _ _ _ _ h3
        rw [ite_apply] at h2
        split at h2
        · cases h2
        obtain ⟨rfl, rfl⟩ := pure_ok.1 h2
        rw [List.nil_append] at hg
        have hbase : (Rule.choice {} gs).setAnnotation b.tokenized b.nondata b.virt = .choice b (grouped [last] alts) := by
          rw [hg]
          show Rule.choice { tokenized := b.tokenized, nondata := b.nondata, virt := b.virt } _ = _
          cases b
          simp only at hbn
          rw [hbn]
        rw [hbase] at h
        obtain ⟨_, ih2⟩ := ih k (by omega) _ _ _ _ h
        obtain ⟨last', m', rs, m2, g1, g2, g3, g4⟩ := ih2 _ _ rfl
        constructor
        · intro h0
          rw [h0] at hrules
          cases ini <;> cases hrules
        · intro init lst hinit
          rw [hrules] at hinit
          obtain ⟨e1, e2⟩ := List.append_inj' hinit rfl
          cases e2
          subst e1
          refine ⟨last', m', rs, m2, ?_, g2, g3, ?_⟩
          · rw [em] at hm
            rw [em] at ha
            exact .cons hm hop ht' ha g1
          · rw [hrules] at g4
            rw [List.dropLast_concat] at g4
            exact g4
    rename_i hop
    rw [ite_apply] at h
    split at h
    · rename_i hsl
      obtain ⟨_, st2, h2, h⟩ := bind_ok.1 h
      obtain ⟨_, rfl⟩ := next_ok.1 h2
      obtain ⟨d, st3, h3, h⟩ := bind_ok.1 h
      obtain ⟨rfl, rfl⟩ := next_ok.1 h3
      rw [ite_apply] at h
      split at h
      · cases h
      rename_i hsl2
      obtain ⟨_, st4, h4, h⟩ := bind_ok.1 h
      have h4' : Out.ok () (PState.mk ((m.tail.tail).dropWhile (fun c => !(c == newline))).tail st.usages) = Out.ok _ st4 := h4
      cases h4'
      obtain ⟨hmade, rfl⟩ := finish_made h
      have em2 := peek_cons (Classical.not_not.1 hsl2) (by decide)
      simp only at em2
      have em3 : m = 47 :: 47 :: m.tail.tail := by
        rw [hsl] at em
        rw [em2] at em
        exact em
      obtain ⟨c, hc, hx⟩ := dropWhile_line m.tail.tail
      refine hend ?_ hmade
      rw [em3] at hm
      rcases hx with ⟨hx, hx2⟩ | hx
      · show Finish terms st.rest (List.dropWhile _ m.tail.tail).tail
        rw [hx2]
        rw [hx] at hm
        exact .lastComment hm hc
      · show Finish terms st.rest (List.dropWhile _ m.tail.tail).tail
        rw [hx] at hm
        exact .comment hm hc
    · obtain ⟨r1, st2, h2, h⟩ := bind_ok.1 h
      have hs := simple_annotated (hprim ⟨m, st.usages⟩ _ _ hw h2) hbn
      obtain ⟨_, ih2⟩ := ih k (by omega) _ _ _ _ h
      obtain ⟨last', m', rs, m2, g1, g2, g3, g4⟩ := ih2 _ _ rfl
      have hparts : Parts terms st.rest (last' :: rs) m2 := .cons hm hs g1 g2
      constructor
      · rintro rfl
        exact ⟨_, _, hparts, g3, g4⟩
      · rintro init last rfl
        refine ⟨last, _, _, _, .nil, hparts, g3, ?_⟩
        rw [List.append_assoc] at g4
        exact g4

/-- Whatever `parse` accepts is written in the notation, and the rule is the one written. -/
theorem parse_reads (name : Name) : ∀ n, ReadsDef (parse n name)
  | 0, _, _, _, _, h => by cases h
  | n + 1, terms, st, st', r, h => by
    have hp := parse_reads name n
    unfold parse at h
    obtain ⟨_, st1, h1, h⟩ := bind_ok.1 h
    rw [skip_ok] at h1
    subst h1
    have hone : ReadsOne (parseOneLoop (primary .notARule (parse n name) n name) n false false false) := by
      intro st st' r h
      obtain ⟨b, m, hm, hs⟩ := parseOneLoop_reads hp _ _ _ _ _ _ _ h
      exact ⟨b, m, hm, by simpa using hs⟩
    obtain ⟨h1, _⟩ := parseLoop_reads (fun st st' r hw h => primary_reads hp hw h) hone n n (Nat.le_refl _) _ _ _ _ h
    obtain ⟨rs, m2, g1, g2, g3⟩ := h1 rfl
    rcases g3 with rfl | ⟨g3, rfl⟩
    · exact .one (blank_skip _) g1 g2
    · exact .several (blank_skip _) g1 g3 g2

end Xbnf.Props
