import Verif.Model.Parse
/-
Equality of rules can be decided (for the examples).
-/
namespace Xbnf

mutual
def Rule.same : Rule → Rule → Bool
  | .eof b, q =>
    match q with
    | .eof b' => b == b'
    | _ => false
  | .char b c u, q =>
    match q with
    | .char b' c' u' => b == b' && c == c' && u == u'
    | _ => false
  | .range b x xu y yu, q =>
    match q with
    | .range b' x' xu' y' yu' => b == b' && x == x' && xu == xu' && y == y' && yu == yu'
    | _ => false
  | .chars b t, q =>
    match q with
    | .chars b' t' => b == b' && t == t'
    | _ => false
  | .str b t, q =>
    match q with
    | .str b' t' => b == b' && t == t'
    | _ => false
  | .group b r, q =>
    match q with
    | .group b' r' => b == b' && r.same r'
    | _ => false
  | .option b r, q =>
    match q with
    | .option b' r' => b == b' && r.same r'
    | _ => false
  | .rep b r mn mx, q =>
    match q with
    | .rep b' r' mn' mx' => b == b' && mn == mn' && mx == mx' && r.same r'
    | _ => false
  | .choice b gs, q =>
    match q with
    | .choice b' gs' => b == b' && sameLL gs gs'
    | _ => false
  | .concat b rs, q =>
    match q with
    | .concat b' rs' => b == b' && sameL rs rs'
    | _ => false
  | .block b o v c e xs, q =>
    match q with
    | .block b' o' v' c' e' xs' => b == b' && v == v' && o.same o' && c.same c' && sameO e e' && sameL xs xs'
    | _ => false
  | .ref b n, q =>
    match q with
    | .ref b' n' => b == b' && n == n'
    | _ => false
termination_by structural r => r
def sameL : List Rule → List Rule → Bool
  | [], q =>
    match q with
    | [] => true
    | _ => false
  | r :: rs, q =>
    match q with
    | r' :: rs' => r.same r' && sameL rs rs'
    | _ => false
def sameO : Option Rule → Option Rule → Bool
  | none, q =>
    match q with
    | none => true
    | _ => false
  | some r, q =>
    match q with
    | some r' => r.same r'
    | _ => false
def sameLL : List (List Rule) → List (List Rule) → Bool
  | [], q =>
    match q with
    | [] => true
    | _ => false
  | r :: rs, q =>
    match q with
    | r' :: rs' => sameL r r' && sameLL rs rs'
    | _ => false
end

mutual
theorem Rule.same_eq : ∀ {r r' : Rule}, r.same r' = true → r = r'
  | .eof b, r', h => by
    cases r' <;> simp only [Rule.same, Bool.false_eq_true, beq_iff_eq] at h
    rw [h]
  | .char .., r', h => by
    cases r' <;> simp only [Rule.same, Bool.false_eq_true, beq_iff_eq, Bool.and_eq_true] at h
    simp only [h]
  | .range .., r', h => by
    cases r' <;> simp only [Rule.same, Bool.false_eq_true, beq_iff_eq, Bool.and_eq_true] at h
    simp only [h]
  | .chars .., r', h => by
    cases r' <;> simp only [Rule.same, Bool.false_eq_true, beq_iff_eq, Bool.and_eq_true] at h
    simp only [h]
  | .str .., r', h => by
    cases r' <;> simp only [Rule.same, Bool.false_eq_true, beq_iff_eq, Bool.and_eq_true] at h
    simp only [h]
  | .group b r, r', h => by
    cases r' <;> simp only [Rule.same, Bool.false_eq_true, beq_iff_eq, Bool.and_eq_true] at h
    rw [h.1, Rule.same_eq h.2]
  | .option b r, r', h => by
    cases r' <;> simp only [Rule.same, Bool.false_eq_true, beq_iff_eq, Bool.and_eq_true] at h
    rw [h.1, Rule.same_eq h.2]
  | .rep b r _ _, r', h => by
    cases r' <;> simp only [Rule.same, Bool.false_eq_true, beq_iff_eq, Bool.and_eq_true] at h
    rw [h.1.1.1, h.1.1.2, h.1.2, Rule.same_eq h.2]
  | .choice b gs, r', h => by
    cases r' <;> simp only [Rule.same, Bool.false_eq_true, beq_iff_eq, Bool.and_eq_true] at h
    rw [h.1, sameLL_eq h.2]
  | .concat b gs, r', h => by
    cases r' <;> simp only [Rule.same, Bool.false_eq_true, beq_iff_eq, Bool.and_eq_true] at h
    rw [h.1, sameL_eq h.2]
  | .block b o v c e xs, r', h => by
    cases r' <;> simp only [Rule.same, Bool.false_eq_true, beq_iff_eq, Bool.and_eq_true] at h
    rw [h.1.1.1.1.1, h.1.1.1.1.2, Rule.same_eq h.1.1.1.2, Rule.same_eq h.1.1.2, sameO_eq h.1.2, sameL_eq h.2]
  | .ref .., r', h => by
    cases r' <;> simp only [Rule.same, Bool.false_eq_true, beq_iff_eq, Bool.and_eq_true] at h
    simp only [h]
theorem sameL_eq : ∀ {r r' : List Rule}, sameL r r' = true → r = r'
  | [], r', h => by
    cases r' <;> simp only [sameL, Bool.false_eq_true] at h
    rfl
  | a :: as, r', h => by
    cases r' <;> simp only [sameL, Bool.false_eq_true, Bool.and_eq_true] at h
    rw [Rule.same_eq h.1, sameL_eq h.2]
theorem sameO_eq : ∀ {r r' : Option Rule}, sameO r r' = true → r = r'
  | none, r', h => by
    cases r' <;> simp only [sameO, Bool.false_eq_true] at h
    rfl
  | some a, r', h => by
    cases r' <;> simp only [sameO, Bool.false_eq_true] at h
    rw [Rule.same_eq h]
theorem sameLL_eq : ∀ {r r' : List (List Rule)}, sameLL r r' = true → r = r'
  | [], r', h => by
    cases r' <;> simp only [sameLL, Bool.false_eq_true] at h
    rfl
  | a :: as, r', h => by
    cases r' <;> simp only [sameLL, Bool.false_eq_true, Bool.and_eq_true] at h
    rw [sameL_eq h.1, sameLL_eq h.2]
end

mutual
theorem Rule.same_refl : ∀ r : Rule, r.same r = true
  | .eof b | .char _ _ _ | .range _ _ _ _ _ | .chars _ _ | .str _ _ | .ref _ _ => by simp [Rule.same]
  | .group _ r => by simp [Rule.same, Rule.same_refl r]
  | .option _ r => by simp [Rule.same, Rule.same_refl r]
  | .rep _ r _ _ => by simp [Rule.same, Rule.same_refl r]
  | .choice _ gs => by simp [Rule.same, sameLL_refl gs]
  | .concat _ rs => by simp [Rule.same, sameL_refl rs]
  | .block _ o _ c e xs => by simp [Rule.same, Rule.same_refl o, Rule.same_refl c, sameO_refl e, sameL_refl xs]
theorem sameL_refl : ∀ r : List Rule, sameL r r = true
  | [] => rfl
  | a :: as => by simp [sameL, Rule.same_refl a, sameL_refl as]
theorem sameO_refl : ∀ r : Option Rule, sameO r r = true
  | none => rfl
  | some a => by simp [sameO, Rule.same_refl a]
theorem sameLL_refl : ∀ r : List (List Rule), sameLL r r = true
  | [] => rfl
  | a :: as => by simp [sameLL, sameL_refl a, sameLL_refl as]
end

instance : DecidableEq Rule := fun r r' =>
  if h : r.same r' = true then isTrue (Rule.same_eq h) else isFalse (fun e => h (e ▸ Rule.same_refl r))

deriving instance DecidableEq for Out
deriving instance DecidableEq for Err

end Xbnf
