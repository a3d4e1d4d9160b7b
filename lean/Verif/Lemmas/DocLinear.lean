import Verif.Lemmas.Linear
import Verif.Lemmas.DocWork
/-
The rules tried on a document of a predictive grammar: a number proportional to its length.
-/
namespace Xbnf.Spec.Shape

theorem exclusive_mem {as : List Shape} (h : exclusive as = true) : ∀ a ∈ as, a.null = false := by
  induction as with
  | nil => intro a ha; cases ha
  | cons a as ih =>
    intro b hb
    obtain ⟨h1, h2, _⟩ := exclusive_cons h
    rcases List.mem_cons.1 hb with rfl | hb
    · exact h1
    · exact ih h2 b hb

/-- A step of a document is the match of a root. -/
theorem step_root {run : Runner} {roots : List Rule} {flag : Int} {pending : Nat} {l : List Rune} {nd u left st}
    (h : roundAt run roots flag pending l = .step nd u left st) : ∃ r ∈ roots, ∃ n, run r flag l = .hit nd u n st := by
  unfold roundAt at h
  simp only at h
  split at h
  · cases h
  split at h
  · cases h
  split at h
  · cases h
  split at h
  · cases h
  · rename_i x hx
    split at h
    · cases h
    split at h
    · simp only [Round.step.injEq] at h
      obtain ⟨rfl, rfl, _, rfl⟩ := h
      have hm := (List.mem_filter.1 (show x ∈ List.filter _ _ by rw [hx]; exact List.mem_singleton_self _)).1
      obtain ⟨a, ha, he⟩ := List.mem_filterMap.1 hm
      obtain ⟨r, hr, rfl⟩ := List.mem_map.1 ha
      refine ⟨r, hr, ?_⟩
      generalize run r flag l = y at he
      cases y with
      | hit nd u n st => simp only [hitOf, Option.some.injEq] at he; subst he; exact ⟨n, rfl⟩
      | _ => cases he
    · cases h
  · cases h

/-- Where no root can begin, few rules are tried and the document ends. -/
theorem doc_stop {T : Shapes} {env : Name → Option Rule} (hT : Consistent T env) {fuel : Nat} {cnt : Tries} {roots : List Rule}
    {M : Nat} (hM : ∀ r ∈ roots, Bounded T (run env fuel) cnt M r) {flag : Int} {as : List Shape}
    (ha : Each (fun r a => shapeOf T r flag = some a) roots as) (hx : exclusive as = true) {l : List Rune} (ht : Tidy l)
    (h : ∀ a ∈ as, begins a.first l = false) (hb : ¬ blanks l = l.length) (n pending : Nat) :
    docTries (run env fuel) cnt roots n flag pending l ≤ roots.length * M := by
  cases n with
  | zero => exact Nat.zero_le _
  | succ n =>
    rw [docTries]
    split
    · exact Nat.zero_le _
    have h1 : allTries cnt flag l roots ≤ roots.length * M := by
      rw [← sum_const]
      refine allTries_le fun r hr => ?_
      obtain ⟨a, ha', hs⟩ := ha.mem hr
      exact hM r hr flag a l hs ht (.inl (h a ha'))
    cases hr : roundAt (run env fuel) roots flag pending l with
    | step nd u left st =>
      exfalso
      obtain ⟨r, hr', k, he⟩ := step_root hr
      obtain ⟨a, ha', hs⟩ := ha.mem hr'
      have hf := run_fits hT fuel r flag a hs l ht
      rw [he] at hf
      rcases hf with ⟨h2, _⟩ | ⟨⟨⟨h2, _⟩ | ⟨_, h2, _⟩, _⟩, _⟩
      · rw [exclusive_mem hx a ha'] at h2; cases h2
      · rw [h a ha'] at h2; cases h2
      · exact hb h2
    | _ => exact h1

theorem docTries_le {T : Shapes} {env : Name → Option Rule} (hT : Consistent T env) {fuel : Nat} {cnt : Tries} {roots : List Rule}
    {M B : Nat} (hM : ∀ r ∈ roots, Bounded T (run env fuel) cnt M r) (hB : ∀ r ∈ roots, Lin T (run env fuel) cnt B B r)
    {as : Int → List Shape} (ha : ∀ flag ∈ [SUGGEST_SKIP, SUGGEST_NOT_SKIP], Each (fun r a => shapeOf T r flag = some a) roots (as flag))
    (hx : ∀ flag ∈ [SUGGEST_SKIP, SUGGEST_NOT_SKIP], exclusive (as flag) = true)
    (hap : ∀ flag ∈ [SUGGEST_SKIP, SUGGEST_NOT_SKIP], ∀ flag' ∈ [SUGGEST_SKIP, SUGGEST_NOT_SKIP], ∀ a ∈ as flag, ∀ b ∈ as flag',
      b.first.apart a.deep = true) (n : Nat) :
    ∀ {flag : Int} {pending : Nat} {l : List Rune}, flag ∈ [SUGGEST_SKIP, SUGGEST_NOT_SKIP] → Tidy l →
      docTries (run env fuel) cnt roots n flag pending l ≤ (roots.length * M + B) * l.length + roots.length * M := by
  have hnext : ∀ st, flagNext st ∈ [SUGGEST_SKIP, SUGGEST_NOT_SKIP] := by
    intro st; cases st <;> simp [flagNext]
  induction n with
  | zero => intros; exact Nat.zero_le _
  | succ n ih =>
    intro flag pending l hf ht
    rw [docTries]
    split
    · exact Nat.zero_le _
    rename_i hne
    have hpos : 1 ≤ l.length := List.length_pos_iff.2 hne
    have hall : ∀ Z, 1 ≤ Z → (∀ r ∈ roots, ∀ a, shapeOf T r flag = some a → begins a.first l = true →
        charge a l 0 (run env fuel r flag l) ≤ Z) → allTries cnt flag l roots ≤ roots.length * M + B * Z := by
      intro Z hZ hc
      have := alts_linear ht hne hZ (ha flag hf) (hx flag hf) hM hB hc
      omega
    have hfair : ∀ r ∈ roots, ∀ a, shapeOf T r flag = some a → begins a.first l = true →
        charge a l 0 (run env fuel r flag l) ≤ l.length := by
      intro r _ a hs _
      have := charge_le a 0 (run_fits hT fuel r flag a hs l ht).fair
      omega
    have hmul : roots.length * M ≤ roots.length * M * l.length := Nat.le_mul_of_pos_right _ hpos
    have hbig := hall l.length hpos hfair
    rw [Nat.add_mul]
    cases hr : roundAt (run env fuel) roots flag pending l with
    | step nd u left st =>
      obtain ⟨r, hr', k, he⟩ := step_root hr
      obtain ⟨a, ha', hs⟩ := (ha flag hf).mem hr'
      have hfit := run_fits hT fuel r flag a hs l ht
      rw [he] at hfit
      simp only
      have hit : Hit a l u k := by
        rcases hfit with ⟨h2, _⟩ | ⟨h2, _⟩
        · rw [exclusive_mem (hx flag hf) a ha'] at h2; cases h2
        · exact h2
      rcases hit.1 with ⟨h1, h2, h3⟩ | ⟨_, _, h3, _⟩
      · cases hd : begins a.deep (l.drop u) with
        | false =>
          have hsmall := hall u (by omega) (by
            intro r' hr2 a2 hs2 hb2
            have e := exclusive_unique (ha flag hf) (hx flag hf) hr' hr2 hs hs2 h1 hb2
            subst e
            rw [hs, Option.some.injEq] at hs2
            subst hs2
            rw [he]
            simp only [charge]
            rw [if_pos ⟨by omega, hd⟩]
            exact Nat.le_refl _)
          have hrec := ih (pending := left) (hnext st) (ht.drop u)
          rw [List.length_drop] at hrec
          have e1 : (roots.length * M + B) * (l.length - u) + (roots.length * M + B) * u = (roots.length * M + B) * l.length := by
            rw [← Nat.mul_add]; congr 1; omega
          have e2 : roots.length * M ≤ roots.length * M * u := Nat.le_mul_of_pos_right _ (by omega)
          rw [Nat.add_mul _ _ u, Nat.add_mul _ _ l.length] at e1
          omega
        | true =>
          have hstop := doc_stop hT hM (ha _ (hnext st)) (hx _ (hnext st)) (ht.drop u)
            (fun b hb => by
              cases hb' : begins b.first (l.drop u) with
              | false => rfl
              | true =>
                have := begins_apart (hap flag hf _ (hnext st) a ha' b hb) hb'
                rw [hd] at this; cases this)
            (fun hc => by rw [begins_all_blank hc] at hd; cases hd) n left
          omega
      · have hnil : l.drop u = [] := List.drop_eq_nil_of_le (by omega)
        have hzero : docTries (run env fuel) cnt roots n (flagNext st) left (l.drop u) = 0 := by
          cases n with
          | zero => rfl
          | succ n => rw [docTries, if_pos hnil]
        omega
    | _ => simp only; omega

end Xbnf.Spec.Shape
