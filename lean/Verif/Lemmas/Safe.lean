import Verif.Lemmas.Sim
/-
What holds of every evaluation whatsoever: it does not panic, it reports no more characters unused
than read, it consumes no more than there is, and it reads only characters of the input.
-/
namespace Xbnf

/-- Not a panic, and if it returns the value satisfies `P`. -/
def Exec.All {α : Type} (P : α → Prop) : Exec α → Prop
  | .ok a => P a
  | .panic => False
  | .oof => True

theorem Exec.All.bind {α β : Type} {P : α → Prop} {Q : β → Prop} {x : Exec α} {f : α → Exec β}
    (h : x.All P) (hf : ∀ a, P a → (f a).All Q) : (x >>= f).All Q := by
  cases x <;> first | exact hf _ h | exact h

theorem Exec.of_bind {α β : Type} {x : Exec α} {f : α → Exec β} {b : β} (h : (x >>= f) = .ok b) : ∃ a, x = .ok a ∧ f a = .ok b := by
  cases x with
  | ok a => exact ⟨a, rfl, h⟩
  | panic => cases h
  | oof => cases h

theorem Exec.ok_bind {α β : Type} (a : α) (f : α → Exec β) : (Exec.ok a >>= f) = f a := rfl

theorem Exec.All.mono {α : Type} {P Q : α → Prop} {x : Exec α} (h : x.All P)
    (hpq : ∀ a, P a → Q a) : x.All Q := by
  cases x <;> first | exact hpq _ h | exact h

theorem Exec.All.and {α : Type} {P Q : α → Prop} {x : Exec α} (h : x.All P) (g : x.All Q) :
    x.All (fun a => P a ∧ Q a) := by
  cases x <;> first | exact ⟨h, g⟩ | exact h

theorem Exec.All.of_ok {α : Type} {P : α → Prop} {x : Exec α} (h : x.All P) {a : α}
    (e : x = .ok a) : P a := by rw [e] at h; exact h

theorem sliceFrom_all {α : Type} (l : List α) (n : Nat) (h : n ≤ l.length) :
    sliceFrom l (n : Int) = .ok (l.drop n) := by
  unfold sliceFrom
  rw [if_pos (by omega)]
  simp

theorem sliceTo_all {α : Type} (l : List α) (n : Nat) (h : n ≤ l.length) :
    sliceTo l (n : Int) = .ok (l.take n) := by
  unfold sliceTo
  rw [if_pos (by omega)]
  simp

/-- Number of used characters. -/
def Res.used (r : Res) : Nat := r.read.length - r.unused.length

/-- Unused no longer than read; all characters of the two from `S`. -/
structure Res.Safe (S : Rune → Prop) (r : Res) : Prop where
  le : r.unused.length ≤ r.read.length
  read : ∀ c ∈ r.read, S c
  unused : ∀ c ∈ r.unused, S c

theorem Res.countUsed_eq {r : Res} (h : r.unused.length ≤ r.read.length) :
    r.countUsed = (r.used : Int) := by
  simp only [Res.countUsed, Res.used]; omega

theorem Res.charsUsed_eq {r : Res} (h : r.unused.length ≤ r.read.length) :
    r.charsUsed = .ok (r.read.take r.used) := by
  unfold Res.charsUsed
  rw [Res.countUsed_eq h, sliceTo_all]
  simp only [Res.used]; omega

theorem account_safe {S : Rune → Prop} {read unused : List Rune} {r : Res} (h : r.Safe S)
    (hl : unused.length ≤ read.length) (hr : ∀ c ∈ read, S c) (hu : ∀ c ∈ unused, S c) :
    (account read unused r).All (fun x => x.2.length ≤ x.1.length ∧ (∀ c ∈ x.1, S c) ∧
      (∀ c ∈ x.2, S c)) := by
  have hle := h.le
  unfold account
  split
  · rename_i hgt
    rw [sliceFrom_all _ _ (by omega)]
    refine ⟨?_, ?_, h.unused⟩
    · simp only [List.length_append, List.length_drop]; omega
    · intro c hc
      rcases List.mem_append.1 hc with hc | hc
      · exact hr c hc
      · exact h.read c (List.mem_of_mem_drop hc)
  · rename_i hgt
    rw [Res.charsUsed_eq hle]
    show Exec.All _ ((sliceFrom unused _) >>= _)
    rw [sliceFrom_all _ _ (by simp only [List.length_take, Res.used]; omega)]
    show Exec.All _ (if _ then _ else _)
    split
    · exact ⟨by simp only; omega, hr, h.unused⟩
    · exact ⟨by simp only [List.length_drop]; omega, hr,
        fun c hc => hu c (List.mem_of_mem_drop hc)⟩

/-- What every evaluator on lists satisfies, for inputs with characters from `S`. -/
def EvSafe (S : Rune → Prop) (ev : L.Ev) : Prop :=
  ∀ r flag l, (∀ c ∈ l, S c) → (ev r flag l).All (fun x => x.1.Safe S ∧ x.2 ≤ l.length)

namespace L

theorem spaces_le (b : Bool) (l : List Rune) : (spaces b l).length ≤ l.length := by
  unfold spaces; split
  · exact (List.takeWhile_prefix _).length_le
  · simp

theorem spaces_mem {b : Bool} {l : List Rune} {c : Rune} (h : c ∈ spaces b l) : c ∈ l := by
  unfold spaces at h; split at h
  · exact (List.takeWhile_prefix _).subset h
  · simp at h

theorem peek_mem {S : Rune → Prop} (hE : S EOFChar) {l : List Rune} (h : ∀ c ∈ l, S c) :
    S (peek l) := by
  cases l with
  | nil => exact hE
  | cons c l => exact h c (by simp)

theorem one_le (l : List Rune) : one l ≤ l.length := by
  cases l <;> simp [one]

variable {S : Rune → Prop}

theorem safe_nil (st : Bool) : Res.Safe S { sticky := st } :=
  ⟨Nat.le_refl _, by simp, by simp⟩

theorem safe_back {read : List Rune} (h : ∀ c ∈ read, S c) (st : Bool) :
    Res.Safe S { read := read, unused := read, sticky := st } :=
  ⟨Nat.le_refl _, h, h⟩

theorem evalEOF_safe (b : RuleBase) (flag : Int) {l : List Rune} (h : ∀ c ∈ l, S c) :
    (evalEOF b flag l).1.Safe S ∧ (evalEOF b flag l).2 ≤ l.length := by
  unfold evalEOF
  have hs : ∀ c ∈ spaces (decide (flag = SUGGEST_SKIP)) l, S c := fun c hc => h c (spaces_mem hc)
  simp only
  split
  · exact ⟨⟨Nat.zero_le _, hs, by simp⟩, spaces_le _ _⟩
  · exact ⟨safe_back hs _, spaces_le _ _⟩

theorem drop_mem {l : List Rune} (h : ∀ c ∈ l, S c) (n : Nat) : ∀ c ∈ l.drop n, S c :=
  fun c hc => h c (List.mem_of_mem_drop hc)

theorem append_mem {a b : List Rune} (ha : ∀ c ∈ a, S c) (hb : ∀ c ∈ b, S c) :
    ∀ c ∈ a ++ b, S c := by
  intro c hc
  rcases List.mem_append.1 hc with hc | hc
  · exact ha c hc
  · exact hb c hc

theorem spaces_one_le (b : Bool) (l : List Rune) :
    (spaces b l).length + one (l.drop (spaces b l).length) ≤ l.length := by
  have := one_le (l.drop (spaces b l).length)
  have := spaces_le b l
  simp only [List.length_drop] at *
  omega

theorem evalChar_safe (hE : S EOFChar) (b : RuleBase) (t : Rune) (flag : Int) {l : List Rune}
    (h : ∀ c ∈ l, S c) :
    (evalChar b t flag l).1.Safe S ∧ (evalChar b t flag l).2 ≤ l.length := by
  unfold evalChar
  split
  · exact ⟨safe_nil _, Nat.zero_le _⟩
  · have hs : ∀ c ∈ spaces (decide (flag = SUGGEST_SKIP)) l, S c := fun c hc => h c (spaces_mem hc)
    have hl := spaces_le (decide (flag = SUGGEST_SKIP)) l
    have h1 := spaces_one_le (decide (flag = SUGGEST_SKIP)) l
    simp only
    generalize spaces (decide (flag = SUGGEST_SKIP)) l = sk at *
    split
    · split
      · exact ⟨⟨by simp only [List.length_drop]; omega, hs, drop_mem hs _⟩, hl⟩
      · exact ⟨safe_back hs _, hl⟩
    · split
      · exact ⟨safe_back hs _, hl⟩
      · refine ⟨⟨Nat.zero_le _, append_mem hs ?_, by simp⟩, h1⟩
        intro c hc
        simp only [List.mem_singleton] at hc
        subst hc
        exact peek_mem hE (drop_mem h _)

theorem evalRange_safe (hE : S EOFChar) (b : RuleBase) (x y : Rune) (flag : Int) {l : List Rune}
    (h : ∀ c ∈ l, S c) :
    (evalRange b x y flag l).1.Safe S ∧ (evalRange b x y flag l).2 ≤ l.length := by
  unfold evalRange
  split
  · exact ⟨safe_nil _, Nat.zero_le _⟩
  · have hs : ∀ c ∈ spaces (decide (flag = SUGGEST_SKIP)) l, S c := fun c hc => h c (spaces_mem hc)
    have hl := spaces_le (decide (flag = SUGGEST_SKIP)) l
    have h1 := spaces_one_le (decide (flag = SUGGEST_SKIP)) l
    simp only
    generalize spaces (decide (flag = SUGGEST_SKIP)) l = sk at *
    split
    · exact ⟨⟨by simp only [List.length_drop]; omega, hs, drop_mem hs _⟩, hl⟩
    · split
      · refine ⟨⟨Nat.zero_le _, append_mem hs ?_, by simp⟩, h1⟩
        intro c hc
        simp only [List.mem_singleton] at hc
        subst hc
        exact peek_mem hE (drop_mem h _)
      · exact ⟨safe_back hs _, hl⟩

theorem matchK_safe (t : List Rune) {l : List Rune} (h : ∀ c ∈ l, S c) :
    (∀ c ∈ (matchK t l).1, S c) ∧ (matchK t l).2.2 ≤ l.length := by
  induction t generalizing l with
  | nil => simp [matchK]
  | cons w ws ih =>
    cases l with
    | nil => simp [matchK]
    | cons c l =>
      simp only [matchK]
      split
      · simp
      · split
        · simp only [List.mem_singleton, forall_eq, List.length_cons]
          exact ⟨h c (by simp), by omega⟩
        · have := ih (l := l) (fun c hc => h c (by simp [hc]))
          refine ⟨?_, by simp only [List.length_cons]; omega⟩
          intro d hd
          simp only [List.mem_cons] at hd
          rcases hd with rfl | hd
          · exact h d (by simp)
          · exact this.1 d hd

theorem matchText_safe (t : List Rune) (skip : Bool) {l : List Rune} (h : ∀ c ∈ l, S c) :
    (∀ c ∈ (matchText t skip l).1, S c) ∧ (matchText t skip l).2.2 ≤ l.length := by
  unfold matchText
  split
  · have hs : ∀ c ∈ l.takeWhile isWhiteSpace, S c :=
      fun c hc => h c ((List.takeWhile_prefix _).subset hc)
    have hl : (l.takeWhile isWhiteSpace).length ≤ l.length := (List.takeWhile_prefix _).length_le
    simp only
    generalize l.takeWhile isWhiteSpace = sk at *
    split
    · exact ⟨hs, hl⟩
    · split
      · exact ⟨hs, hl⟩
      · have := matchK_safe (t.drop (leadingWhiteSpace t).length) (drop_mem h sk.length)
        refine ⟨append_mem hs this.1, ?_⟩
        have := this.2
        simp only [List.length_drop] at this
        simp only
        omega
  · exact matchK_safe t h

theorem evalText_safe (rt : RType) (b : RuleBase) (st skip : Bool) (t : List Rune) {l : List Rune}
    (h : ∀ c ∈ l, S c) :
    (evalText rt b st skip t l).1.Safe S ∧ (evalText rt b st skip t l).2 ≤ l.length := by
  unfold evalText
  split
  · exact ⟨safe_nil _, Nat.zero_le _⟩
  · obtain ⟨h1, h2⟩ := matchText_safe t skip h
    simp only
    split
    · exact ⟨⟨Nat.zero_le _, h1, by simp⟩, h2⟩
    · exact ⟨safe_back h1 _, h2⟩

/-- Invariant of the sequence loops. -/
structure SeqSafe (S : Rune → Prop) (st : SeqState) : Prop where
  le : st.unused.length ≤ st.read.length
  read : ∀ c ∈ st.read, S c
  unused : ∀ c ∈ st.unused, S c

theorem seqSafe_init (flag : Int) : SeqSafe S { flag := flag } := ⟨Nat.le_refl _, by simp, by simp⟩

theorem concatLoop_safe {ev} (hev : EvSafe S ev) (b : RuleBase) (rs : List Rule) (st : SeqState)
    (hst : SeqSafe S st) (l : List Rune) (h : ∀ c ∈ l, S c) :
    (concatLoop ev b rs st l).All (fun x => x.1.Safe S ∧ x.2 ≤ l.length) := by
  induction rs generalizing st l with
  | nil => exact ⟨⟨hst.le, hst.read, hst.unused⟩, Nat.zero_le _⟩
  | cons r rs ih =>
    unfold concatLoop
    have hl := append_mem hst.unused h
    refine Exec.All.bind (hev r st.flag _ hl) ?_
    rintro ⟨res, k⟩ ⟨hs, hk⟩
    refine Exec.All.bind (account_safe hs hst.le hst.read hst.unused) ?_
    rintro ⟨read, unused⟩ ⟨h1, h2, h3⟩
    simp only [List.length_append] at hk h1 h2 h3
    simp only
    cases hn : res.node with
    | none => exact ⟨safe_back h2 _, by simp only; omega⟩
    | some n =>
      simp only
      refine Exec.All.bind (ih _ ⟨h1, h2, h3⟩ _ (drop_mem hl k)) ?_
      rintro ⟨out, k2⟩ ⟨g1, g2⟩
      simp only [List.length_drop, List.length_append] at g2
      exact ⟨g1, by simp only; omega⟩

theorem repLoop_safe {ev} (hev : EvSafe S ev) (r : Rule) (mx fuel : Nat) (st : SeqState)
    (hst : SeqSafe S st) (l : List Rune) (h : ∀ c ∈ l, S c) :
    (repLoop ev r mx fuel st l).All (fun x => SeqSafe S x.1 ∧ x.2 ≤ l.length) := by
  induction fuel generalizing st l with
  | zero => trivial
  | succ fuel ih =>
    unfold repLoop
    have hl := append_mem hst.unused h
    split
    · exact ⟨hst, Nat.zero_le _⟩
    · refine Exec.All.bind (hev r st.flag _ hl) ?_
      rintro ⟨res, k⟩ ⟨hs, hk⟩
      refine Exec.All.bind (account_safe hs hst.le hst.read hst.unused) ?_
      rintro ⟨read, unused⟩ ⟨h1, h2, h3⟩
      simp only [List.length_append] at hk h1 h2 h3
      simp only
      cases hn : res.node with
      | none => exact ⟨⟨h1, h2, h3⟩, by simp only; omega⟩
      | some n =>
        simp only
        split
        · exact ⟨⟨h1, h2, h3⟩, by simp only; omega⟩
        · refine Exec.All.bind (ih _ ⟨h1, h2, h3⟩ _ (drop_mem hl k)) ?_
          rintro ⟨out, k2⟩ ⟨g1, g2⟩
          simp only [List.length_drop, List.length_append] at g2
          exact ⟨g1, by simp only; omega⟩

theorem evalRep_safe {ev} (hev : EvSafe S ev) (fuel : Nat) (b : RuleBase) (r : Rule) (mn mx : Nat)
    (flag : Int) (l : List Rune) (h : ∀ c ∈ l, S c) :
    (evalRep ev fuel b r mn mx flag l).All (fun x => x.1.Safe S ∧ x.2 ≤ l.length) := by
  unfold evalRep
  refine Exec.All.bind (repLoop_safe hev r mx fuel _ (seqSafe_init flag) l h) ?_
  rintro ⟨st, k⟩ ⟨h1, h2⟩
  refine ⟨?_, h2⟩
  unfold repFinish
  split
  · exact safe_back h1.read _
  · exact ⟨h1.le, h1.read, h1.unused⟩

/-- The matches of a group are safe and read no more than the group. -/
theorem choiceGroup_safe {ev} (hev : EvSafe S ev) (flag : Int) (rs : List Rule)
    (read : List Rune) (sticky : Bool) (l : List Rune) (hr : ∀ c ∈ read, S c) (h : ∀ c ∈ l, S c) :
    (choiceGroup ev flag rs read sticky l).All (fun x => read.length ≤ x.2.1.length ∧
      (∀ c ∈ x.2.1, S c) ∧ (∀ m ∈ x.1, m.Safe S ∧ m.read.length ≤ x.2.1.length ∧ m.node.isSome) ∧
      x.2.2.2 ≤ l.length) := by
  induction rs generalizing read sticky l with
  | nil => exact ⟨Nat.le_refl _, hr, by simp, Nat.zero_le _⟩
  | cons r rs ih =>
    unfold choiceGroup
    have hl := append_mem hr h
    refine Exec.All.bind (hev r flag _ hl) ?_
    rintro ⟨res, k⟩ ⟨hs, hk⟩
    simp only [List.length_append] at hk
    simp only
    have hr' : ∀ c ∈ (if read.length < res.read.length then res.read else read), S c := by
      split
      · exact hs.read
      · exact hr
    have hle : read.length ≤ (if read.length < res.read.length then res.read else read).length ∧
        res.read.length ≤ (if read.length < res.read.length then res.read else read).length := by
      split <;> omega
    refine Exec.All.bind (ih _ (sticky && res.sticky) _ hr' (drop_mem h _)) ?_
    rintro ⟨ms, read', sticky', k2⟩ ⟨g1, g2, g3, g4⟩
    simp only [List.length_drop] at g1 g2 g3 g4
    refine ⟨by simp only; omega, g2, ?_, by simp only; omega⟩
    intro m hm
    simp only at hm
    split at hm
    · rename_i hsome
      rcases List.mem_cons.1 hm with rfl | hm
      · exact ⟨hs, by simp only; omega, hsome⟩
      · exact g3 m hm
    · exact g3 m hm

theorem pickLoop_mem (m : Int) (best : Option Res) (rs : List Res) (r : Res)
    (h : pickLoop m best rs = .found r) : r ∈ rs ∨ best = some r := by
  induction rs generalizing m best with
  | nil =>
    cases best with
    | none => simp [pickLoop] at h
    | some b => simp only [pickLoop, Pick.found.injEq] at h; exact .inr (by rw [h])
  | cons x xs ih =>
    have e : pickLoop m best (x :: xs) =
      if x.countUsed < m then pickLoop m best xs
      else if x.countUsed = m ∧ best.isSome then .ambiguous (best.getD {}) x
      else pickLoop x.countUsed (some x) xs := by cases best <;> rfl
    rw [e] at h
    split at h
    · rcases ih _ _ h with h | h
      · exact .inl (by simp [h])
      · exact .inr h
    · split at h
      · cases h
      · rcases ih _ _ h with h | h
        · exact .inl (by simp [h])
        · simp only [Option.some.injEq] at h
          exact .inl (by simp [h])

theorem pick_mem {rs : List Res} {r : Res} (h : pick rs = .found r) : r ∈ rs := by
  match rs with
  | [] => simp [pick] at h
  | [x] => simp only [pick, Pick.found.injEq] at h; simp [h]
  | x :: y :: rs =>
    have := pickLoop_mem 0 none (x :: y :: rs) r h
    simpa using this

theorem choiceLoop_safe {ev} (hev : EvSafe S ev) (b : RuleBase) (flag : Int)
    (gs : List (List Rule)) (read : List Rune) (sticky : Bool) (l : List Rune)
    (hr : ∀ c ∈ read, S c) (h : ∀ c ∈ l, S c) :
    (choiceLoop ev b flag gs read sticky l).All (fun x => x.1.Safe S ∧ x.2 ≤ l.length) := by
  induction gs generalizing read sticky l with
  | nil => exact ⟨safe_back hr _, Nat.zero_le _⟩
  | cons g gs ih =>
    unfold choiceLoop
    refine Exec.All.bind (choiceGroup_safe hev flag g read sticky l hr h) ?_
    rintro ⟨ms, read', sticky', k⟩ ⟨g1, g2, g3, g4⟩
    simp only at g1 g2 g3 g4
    simp only
    cases hp : pick ms with
    | none =>
      refine Exec.All.bind (ih _ _ _ g2 (drop_mem h _)) ?_
      rintro ⟨out, k2⟩ ⟨q1, q2⟩
      simp only [List.length_drop] at q2
      exact ⟨q1, by simp only; omega⟩
    | ambiguous => exact ⟨⟨Nat.zero_le _, g2, by simp⟩, g4⟩
    | found r =>
      obtain ⟨hs, hlen, _⟩ := g3 r (pick_mem hp)
      simp only
      rw [Res.countUsed_eq hs.le, sliceFrom_all _ _ (by simp only [Res.used]; omega)]
      exact ⟨⟨by simp only [List.length_drop]; omega, g2, drop_mem g2 _⟩, g4⟩

theorem greedyLoop_safe {ev} (hev : EvSafe S ev) (flag : Int) (rs : List Rule)
    (read : List Rune) (l : List Rune) (hr : ∀ c ∈ read, S c) (h : ∀ c ∈ l, S c) :
    (greedyLoop ev flag rs read l).All (fun x => read.length ≤ x.2.1.length ∧
      (∀ c ∈ x.2.1, S c) ∧ (∀ m ∈ x.1, m.Safe S ∧ m.read.length ≤ x.2.1.length ∧ m.node.isSome) ∧
      x.2.2 ≤ l.length) := by
  induction rs generalizing read l with
  | nil => exact ⟨Nat.le_refl _, hr, by simp, Nat.zero_le _⟩
  | cons r rs ih =>
    unfold greedyLoop
    have hl := append_mem hr h
    refine Exec.All.bind (hev r flag _ hl) ?_
    rintro ⟨res, k⟩ ⟨hs, hk⟩
    simp only [List.length_append] at hk
    simp only
    have hr' : ∀ c ∈ (if read.length < res.read.length then res.read else read), S c := by
      split
      · exact hs.read
      · exact hr
    have hle : read.length ≤ (if read.length < res.read.length then res.read else read).length ∧
        res.read.length ≤ (if read.length < res.read.length then res.read else read).length := by
      split <;> omega
    refine Exec.All.bind (ih _ _ hr' (drop_mem h _)) ?_
    rintro ⟨ms, read', k2⟩ ⟨g1, g2, g3, g4⟩
    simp only [List.length_drop] at g1 g2 g3 g4
    refine ⟨by simp only; omega, g2, ?_, by simp only; omega⟩
    intro m hm
    simp only at hm
    split at hm
    · rename_i hsome
      rcases List.mem_cons.1 hm with rfl | hm
      · exact ⟨hs, by simp only; omega, hsome⟩
      · exact g3 m hm
    · exact g3 m hm

theorem mostGreedy_safe {ev} (hev : EvSafe S ev) (flag : Int) (rs : List Rule) (l : List Rune)
    (h : ∀ c ∈ l, S c) :
    (mostGreedy ev flag rs l).All (fun x => x.1.Safe S ∧ x.2 ≤ l.length) := by
  unfold mostGreedy
  refine Exec.All.bind (greedyLoop_safe hev flag rs [] l (by simp) h) ?_
  rintro ⟨ms, read', k⟩ ⟨g1, g2, g3, g4⟩
  simp only at g1 g2 g3 g4
  simp only
  cases hp : pick ms with
  | none => exact ⟨safe_back g2 _, g4⟩
  | ambiguous => exact ⟨safe_nil _, g4⟩
  | found r =>
    obtain ⟨hs, hlen, _⟩ := g3 r (pick_mem hp)
    simp only
    rw [Res.countUsed_eq hs.le, sliceFrom_all _ _ (by simp only [Res.used]; omega)]
    exact ⟨⟨by simp only [List.length_drop]; omega, g2, drop_mem g2 _⟩, g4⟩

/-- What is known when the loop of a block ends. -/
def BlockEnd.Safe (S : Rune → Prop) : BlockEnd → Prop
  | .excluded _ read => ∀ c ∈ read, S c
  | .closed used unused rc content =>
    rc.node.isSome ∧ rc.Safe S ∧ rc.used ≤ used.length ∧ unused = rc.unused ∧ (∀ c ∈ used, S c) ∧
      (∀ c ∈ content, S c)
  | .eof used unused => (∀ c ∈ used, S c) ∧ (∀ c ∈ unused, S c)

structure BlockSafe (S : Rune → Prop) (st : BlockState) : Prop where
  used : ∀ c ∈ st.used, S c
  unused : ∀ c ∈ st.unused, S c
  content : ∀ c ∈ st.content, S c

theorem take_mem {l : List Rune} (h : ∀ c ∈ l, S c) (n : Nat) : ∀ c ∈ l.take n, S c :=
  fun c hc => h c (List.mem_of_mem_take hc)

theorem blockEscape_safe {ev} (hev : EvSafe S ev) (escape : Option Rule) (st : BlockState)
    (hst : BlockSafe S st) (l : List Rune) (h : ∀ c ∈ l, S c) :
    (blockEscape ev escape st l).All (fun x => (∀ c ∈ x.2.1, S c) ∧ (∀ c ∈ x.2.2.1, S c) ∧
      (∀ c ∈ x.2.2.2.1, S c) ∧ x.2.2.2.2 ≤ l.length) := by
  unfold blockEscape
  cases escape with
  | none => exact ⟨by simp, hst.used, hst.unused, Nat.zero_le _⟩
  | some e =>
    refine Exec.All.bind (hev e NOT_SKIP l h) ?_
    rintro ⟨res, k⟩ ⟨hs, hk⟩
    simp only at hk
    simp only
    split
    · rw [Res.charsUsed_eq hs.le]
      exact ⟨take_mem hs.read _, append_mem hst.used (take_mem hs.read _), hs.unused, hk⟩
    · exact ⟨by simp, hst.used, hs.read, hk⟩

theorem blockExclude_safe {ev} (hev : EvSafe S ev) (excludes : List Rule) (l : List Rune)
    (h : ∀ c ∈ l, S c) :
    (blockExclude ev excludes l).All (fun x => (∀ r, x.1 = some r → r.Safe S) ∧ x.2 ≤ l.length) := by
  unfold blockExclude
  split
  · refine Exec.All.bind (mostGreedy_safe hev NOT_SKIP excludes l h) ?_
    rintro ⟨res, k⟩ ⟨hs, hk⟩
    refine ⟨?_, hk⟩
    intro r hr
    simp only [Option.some.injEq] at hr
    exact hr ▸ hs
  · exact ⟨by simp, Nat.zero_le _⟩

theorem blockLoop_safe {ev} (hE : S EOFChar) (hev : EvSafe S ev) (close : Rule)
    (escape : Option Rule) (excludes : List Rule) (fuel : Nat) (st : BlockState)
    (hst : BlockSafe S st) (l : List Rune) (h : ∀ c ∈ l, S c) :
    (blockLoop ev close escape excludes fuel st l).All
      (fun x => BlockEnd.Safe S x.1 ∧ x.2 ≤ l.length) := by
  induction fuel generalizing st l with
  | zero => trivial
  | succ fuel ih =>
    unfold blockLoop
    refine Exec.All.bind (blockEscape_safe hev escape st hst l h) ?_
    rintro ⟨escaped, escapeChars, used, u1, k0⟩ ⟨e1, e2, e3, e4⟩
    simp only at e1 e2 e3 e4
    have h1 := append_mem e3 (drop_mem h k0)
    simp only
    refine Exec.All.bind (blockExclude_safe hev excludes _ h1) ?_
    rintro ⟨rx, k1⟩ ⟨x1, x2⟩
    simp only [List.length_append, List.length_drop] at x2
    simp only
    generalize hl1 : u1 ++ l.drop k0 = l1 at *
    have hlen1 : l1.length = u1.length + (l.length - k0) := by simp [← hl1]
    cases hrx : rx.bind (fun r => r.node.map (fun _ => r)) with
    | some r =>
      have hr : rx = some r := by
        cases rx with
        | none => simp at hrx
        | some r' =>
          simp only [Option.bind_some, Option.map_eq_some_iff] at hrx
          obtain ⟨_, _, rfl⟩ := hrx
          rfl
      have hs := x1 r hr
      simp only
      rw [Res.charsUsed_eq hs.le, Exec.ok_bind]
      cases escaped with
      | true =>
        refine Exec.All.bind (ih _ ⟨append_mem e2 (take_mem hs.read _), hs.unused,
          append_mem hst.content (take_mem hs.read _)⟩ _ (drop_mem h1 k1)) ?_
        rintro ⟨out, k2⟩ ⟨g1, g2⟩
        simp only [List.length_drop] at g2
        exact ⟨g1, by simp only; omega⟩
      | false =>
        exact ⟨append_mem (append_mem e2 hst.content) hs.read, by simp only; omega⟩
    | none =>
      simp only
      have hu2 : ∀ c ∈ exclRead rx u1, S c := by
        cases rx with
        | none => exact e3
        | some r => exact (x1 r rfl).read
      generalize exclRead rx u1 = u2 at *
      have h2 := append_mem hu2 (drop_mem h1 k1)
      generalize hl2 : u2 ++ l1.drop k1 = l2 at *
      have hlen2 : l2.length = u2.length + (l1.length - k1) := by simp [← hl2]
      refine Exec.All.bind (hev close NOT_SKIP _ h2) ?_
      rintro ⟨rc, k2⟩ ⟨hs, hk2⟩
      simp only at hk2
      simp only
      cases hn : rc.node with
      | some n =>
        simp only
        rw [Res.charsUsed_eq hs.le, Exec.ok_bind]
        cases escaped with
        | true =>
          refine Exec.All.bind (ih _ ⟨append_mem e2 (take_mem hs.read _), hs.unused,
            append_mem hst.content (take_mem hs.read _)⟩ _ (drop_mem h2 k2)) ?_
          rintro ⟨out, k3⟩ ⟨g1, g2⟩
          simp only [List.length_drop] at g2
          exact ⟨g1, by simp only; omega⟩
        | false =>
          refine ⟨⟨by simp [hn], hs, ?_, rfl, append_mem (append_mem e2 hst.content)
            (take_mem hs.read _), hst.content⟩, by simp only; omega⟩
          simp only [List.length_append, List.length_take, Res.used]
          omega
      | none =>
        simp only
        have h3 := append_mem hs.unused (drop_mem h2 k2)
        generalize hl3 : rc.unused ++ l2.drop k2 = l3 at *
        have hlen3 : l3.length = rc.unused.length + (l2.length - k2) := by simp [← hl3]
        split
        · exact ⟨⟨append_mem e2 (append_mem hst.content e1), hs.unused⟩, by simp only; omega⟩
        · have hpk : ∀ c ∈ [peek l3], S c := by
            intro c hc
            simp only [List.mem_singleton] at hc
            subst hc
            exact peek_mem hE h3
          refine Exec.All.bind (ih _ ⟨e2, by simp, append_mem (append_mem (append_mem hst.content e1)
            e1) hpk⟩ _ (drop_mem h3 (one l3))) ?_
          rintro ⟨out, k4⟩ ⟨g1, g2⟩
          simp only [List.length_drop] at g2
          have := one_le l3
          exact ⟨g1, by simp only; omega⟩

theorem evalBlock_safe {ev} (hE : S EOFChar) (hev : EvSafe S ev) (fuel : Nat) (b : RuleBase)
    (opn : Rule) (v : Bool) (close : Rule) (escape : Option Rule) (excludes : List Rule)
    (flag : Int) (l : List Rune) (h : ∀ c ∈ l, S c) :
    (evalBlock ev fuel b opn v close escape excludes flag l).All
      (fun x => x.1.Safe S ∧ x.2 ≤ l.length) := by
  unfold evalBlock
  refine Exec.All.bind (hev opn flag l h) ?_
  rintro ⟨ro, k⟩ ⟨hs, hk⟩
  simp only at hk
  simp only
  cases hn : ro.node with
  | none => exact ⟨⟨hs.le, hs.read, hs.unused⟩, hk⟩
  | some n =>
    simp only
    rw [Res.countUsed_eq hs.le, sliceTo_all _ _ (by simp only [Res.used]; omega), Exec.ok_bind]
    refine Exec.All.bind (blockLoop_safe hE hev close escape excludes fuel _
      ⟨take_mem hs.read _, hs.unused, by simp⟩ _ (append_mem hs.unused (drop_mem h k))) ?_
    rintro ⟨e, k2⟩ ⟨he, hk2⟩
    simp only [List.length_append, List.length_drop] at hk2
    have hfin : k + (k2 - ro.unused.length) ≤ l.length := by omega
    cases e with
    | excluded text read => exact ⟨safe_back he _, hfin⟩
    | eof used unused => exact ⟨safe_back (append_mem he.1 he.2) _, hfin⟩
    | closed used unused rc content =>
      obtain ⟨_, c2, c3, rfl, c5, _⟩ := he
      refine ⟨⟨?_, append_mem c5 c2.unused, ?_⟩, hfin⟩
      · simp only [List.length_append]
        have := c2.le
        simp only [Res.used] at c3
        split <;> omega
      · simp only
        split
        · exact c2.read
        · exact c2.unused

theorem groupRes_safe {r : Res} (h : r.Safe S) (b : RuleBase) : (groupRes b r).Safe S := by
  unfold groupRes
  split
  · exact ⟨Nat.le_refl _, h.read, h.read⟩
  · exact ⟨h.le, h.read, h.unused⟩

theorem optionRes_safe {r : Res} (h : r.Safe S) (b : RuleBase) : (optionRes b r).Safe S := by
  unfold optionRes
  split <;> exact ⟨h.le, h.read, h.unused⟩

theorem refRes_safe {r : Res} (h : r.Safe S) (b : RuleBase) : (refRes b r).Safe S := by
  unfold refRes
  split
  · exact h
  · exact ⟨h.le, h.read, h.unused⟩

theorem eval_safe (hE : S EOFChar) (env : Env) (fuel : Nat) : EvSafe S (eval env fuel) := by
  induction fuel with
  | zero => intro r flag l h; trivial
  | succ fuel ih =>
    intro r flag l h
    cases r with
    | eof b => exact evalEOF_safe b flag h
    | char b t u => exact evalChar_safe hE b t flag h
    | range b x xu y yu => exact evalRange_safe hE b x y flag h
    | chars b t => exact evalText_safe _ b _ _ t h
    | str b t => exact evalText_safe _ b _ _ t h
    | group b r =>
      refine Exec.All.bind (ih r flag l h) ?_
      rintro ⟨res, k⟩ ⟨h1, h2⟩
      exact ⟨groupRes_safe h1 b, h2⟩
    | option b r =>
      refine Exec.All.bind (ih r flag l h) ?_
      rintro ⟨res, k⟩ ⟨h1, h2⟩
      exact ⟨optionRes_safe h1 b, h2⟩
    | rep b r mn mx => exact evalRep_safe ih fuel b r mn mx flag l h
    | choice b gs => exact choiceLoop_safe ih b flag gs [] true l (by simp) h
    | concat b rs => exact concatLoop_safe ih b rs _ (seqSafe_init flag) l h
    | block b o v c e x => exact evalBlock_safe hE ih fuel b o v c e x flag l h
    | ref b name =>
      simp only [eval]
      cases env name with
      | none => exact ⟨safe_nil _, Nat.zero_le _⟩
      | some r =>
        refine Exec.All.bind (ih r flag l h) ?_
        rintro ⟨res, k⟩ ⟨h1, h2⟩
        exact ⟨refRes_safe h1 b, h2⟩

end L
end Xbnf
