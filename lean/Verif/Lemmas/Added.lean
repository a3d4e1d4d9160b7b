import Verif.Spec.Added
import Verif.Lemmas.Language
import Verif.Lemmas.Shuffle
/-
A choice with further alternatives that match nothing, in the reference semantics.
-/
namespace Xbnf.Spec

/-- A rule that gives no match; when `sure` holds, one that reports `sticky`. -/
def IdleAlt (sure : Prop) (run : Runner) (flag : Int) (l : List Rune) (r : Rule) : Prop :=
  (∃ n st, run r flag l = .fail n st ∧ (sure → st = true)) ∨ (¬sure ∧ ∃ n, run r flag l = .ambiguous n)

/-- What the alternatives of a group do, and what they do with further ones. -/
def MoreAlts (sure : Prop) (x y : Alts) : Prop :=
  x.Bad ∨ ∃ hits n st n' st', x = .ok hits n st ∧ y = .ok hits n' st' ∧ (sure → st' = st)

theorem altsAt_added {sure : Prop} {run : Runner} {flag : Int} {l : List Rune} {rs rs' : List Rule} (h : Added (IdleAlt sure run flag l) rs rs') :
    ∀ look look' st st', (sure → st' = st) → MoreAlts sure (altsAt run flag l rs look st) (altsAt run flag l rs' look' st') := by
  induction h with
  | nil => intro k k' st st' hs; exact .inr ⟨_, _, _, _, _, rfl, rfl, hs⟩
  | @keep r rs rs' _ ih =>
    intro k k' st st' hs
    unfold altsAt
    cases run r flag l with
    | oof => exact .inl (.inl rfl)
    | risky => exact .inl (.inr rfl)
    | fail n s => exact ih _ _ _ _ (fun h => by rw [hs h])
    | ambiguous n => exact ih _ _ _ _ (fun _ => rfl)
    | hit nd u n s =>
      rcases ih (max k n) (max k' n) (st && s) (st' && s) (fun h => by rw [hs h]) with hb | ⟨hits, n, t, n', t', e1, e2, e3⟩
      · rcases hb with hb | hb <;> simp only [hb]
        · exact .inl (.inl rfl)
        · exact .inl (.inr rfl)
      · simp only [e1, e2]
        exact .inr ⟨_, _, _, _, _, rfl, rfl, e3⟩
  | @add r rs rs' hr _ ih =>
    intro k k' st st' hs
    rcases hr with ⟨n, t, e, ht⟩ | ⟨hn, n, e⟩
    · simp only [altsAt.eq_2, e]
      exact ih _ _ _ _ (fun h => by rw [hs h, ht h, Bool.and_true])
    · simp only [altsAt.eq_2, e]
      exact ih _ _ _ _ (fun h => absurd h hn)

/-- What a choice does, and what it does with further alternatives. -/
def MoreChoice (b : RuleBase) (sure : Prop) (x y : Ans) : Prop :=
  x.Bad ∨ (∃ n st n' st', x = .fail n st ∧ y = .fail n' st' ∧ (sure → st' = st)) ∨ (∃ n n', x = .ambiguous n ∧ y = .ambiguous n') ∨
    ∃ nd u n st n' st', x = .hit (inner .choice b st [nd]) u n st ∧ y = .hit (inner .choice b st' [nd]) u n' st' ∧ (sure → st' = st)

theorem choiceAt_added {sure : Prop} {run : Runner} {b : RuleBase} {flag : Int} {l : List Rune} {gs gs' : List (List Rule)}
    (h : AddedG (IdleAlt sure run flag l) gs gs') :
    ∀ look look' st st', (sure → st' = st) → MoreChoice b sure (choiceAt run b flag l gs look st) (choiceAt run b flag l gs' look' st') := by
  induction h with
  | nil => intro k k' st st' hs; exact .inr (.inl ⟨_, _, _, _, rfl, rfl, hs⟩)
  | @group g g' gs gs' hg _ ih =>
    intro k k' st st' hs
    unfold choiceAt
    rcases altsAt_added hg k k' st st' hs with hb | ⟨hits, n, t, n', t', e1, e2, e3⟩
    · rcases hb with hb | hb <;> simp only [hb]
      · exact .inl (.inl rfl)
      · exact .inl (.inr rfl)
    · simp only [e1, e2]
      cases best hits with
      | none => exact ih _ _ _ _ e3
      | tie => exact .inr (.inr (.inl ⟨_, _, rfl, rfl⟩))
      | order => exact .inl (.inr rfl)
      | one nd u s => exact .inr (.inr (.inr ⟨_, _, _, _, _, _, rfl, rfl, e3⟩))
  | @new g gs gs' hg _ ih =>
    intro k k' st st' hs
    rcases altsAt_added hg k k' st st' hs with hb | ⟨hits, n, t, n', t', e1, e2, e3⟩
    · rcases hb with hb | hb <;> cases hb
    · simp only [altsAt] at e1
      cases e1
      simp only [choiceAt.eq_2, e2, best, List.filter_nil]
      exact ih _ _ _ _ e3

theorem Added.imp {P Q : Rule → Prop} (h : ∀ r, P r → Q r) {rs rs'} (ha : Added P rs rs') : Added Q rs rs' := by
  induction ha with
  | nil => exact .nil
  | keep _ ih => exact .keep ih
  | add hr _ ih => exact .add (h _ hr) ih

theorem AddedG.imp {P Q : Rule → Prop} (h : ∀ r, P r → Q r) {gs gs'} (ha : AddedG P gs gs') : AddedG Q gs gs' := by
  induction ha with
  | nil => exact .nil
  | group hg _ ih => exact .group (hg.imp h) ih
  | new hg _ ih => exact .new (hg.imp h) ih

/-- Some amount of fuel is enough for all of them. -/
theorem Added.enough {P : Nat → Rule → Prop} (hm : ∀ n m r, n ≤ m → P n r → P m r) {rs rs'} (ha : Added (fun r => ∃ n, P n r) rs rs') :
    ∃ n, Added (P n) rs rs' := by
  induction ha with
  | nil => exact ⟨0, .nil⟩
  | keep _ ih => obtain ⟨n, h⟩ := ih; exact ⟨n, .keep h⟩
  | add hr _ ih =>
    obtain ⟨n, h⟩ := ih
    obtain ⟨m, hm'⟩ := hr
    exact ⟨max n m, .add (hm _ _ _ (Nat.le_max_right n m) hm') (h.imp fun r hr => hm _ _ _ (Nat.le_max_left n m) hr)⟩

theorem AddedG.enough {P : Nat → Rule → Prop} (hm : ∀ n m r, n ≤ m → P n r → P m r) {gs gs'} (ha : AddedG (fun r => ∃ n, P n r) gs gs') :
    ∃ n, AddedG (P n) gs gs' := by
  induction ha with
  | nil => exact ⟨0, .nil⟩
  | group hg _ ih =>
    obtain ⟨n, h⟩ := ih
    obtain ⟨m, hm'⟩ := hg.enough hm
    exact ⟨max n m, .group (hm'.imp fun r hr => hm _ _ _ (Nat.le_max_right n m) hr) (h.imp fun r hr => hm _ _ _ (Nat.le_max_left n m) hr)⟩
  | new hg _ ih =>
    obtain ⟨n, h⟩ := ih
    obtain ⟨m, hm'⟩ := hg.enough hm
    exact ⟨max n m, .new (hm'.imp fun r hr => hm _ _ _ (Nat.le_max_right n m) hr) (h.imp fun r hr => hm _ _ _ (Nat.le_max_left n m) hr)⟩

theorem idle_mono {env : Env} {sure : Prop} {flag : Int} {l : List Rune} (n m : Nat) (r : Rule) (h : n ≤ m)
    (hi : IdleAlt sure (Spec.run env n) flag l r) : IdleAlt sure (Spec.run env m) flag l r := by
  rcases run_le env n m h r flag l with ho | he
  · rcases hi with ⟨_, _, e, _⟩ | ⟨_, _, e⟩ <;> rw [e] at ho <;> cases ho
  · unfold IdleAlt at *; rwa [he]

end Xbnf.Spec
