import Verif.Spec.ShownParts
import Verif.Model.Message
import Verif.Lemmas.Printing
import Verif.Lemmas.Safe
/-
C57: what the description of a rule in a message tells.
-/
namespace Xbnf.Props
open Xbnf Spec

theorem descs_each : ∀ {rs : List Rule} {ds : List (List Rune)}, descs rs = .ok ds → ∀ r ∈ rs, ∃ d, r.desc = .ok d ∧ d ∈ ds
  | [], _, _, _, hr => by cases hr
  | q :: rs, ds, h, r, hr => by
    simp only [descs] at h
    obtain ⟨d, h1, h⟩ := Exec.of_bind h
    obtain ⟨ds', h2, h⟩ := Exec.of_bind h
    simp only [Exec.ok.injEq] at h
    subst h
    rcases List.mem_cons.1 hr with rfl | hr
    · exact ⟨d, h1, List.mem_cons_self⟩
    · obtain ⟨d', h3, h4⟩ := descs_each h2 r hr
      exact ⟨d', h3, List.mem_cons_of_mem _ h4⟩

theorem descGroups_each : ∀ {gs : List (List Rule)} {ds : List (List Rune)}, descGroups gs = .ok ds → ∀ g ∈ gs, ∀ r ∈ g, ∃ d, r.desc = .ok d ∧ d ∈ ds
  | [], _, _, _, hg, _, _ => by cases hg
  | q :: gs, ds, h, g, hg, r, hr => by
    simp only [descGroups] at h
    obtain ⟨d, h1, h⟩ := Exec.of_bind h
    obtain ⟨ds', h2, h⟩ := Exec.of_bind h
    simp only [Exec.ok.injEq] at h
    subst h
    rcases List.mem_cons.1 hg with rfl | hg
    · obtain ⟨d', h3, h4⟩ := descs_each h1 r hr
      exact ⟨d', h3, List.mem_append_left _ h4⟩
    · obtain ⟨d', h3, h4⟩ := descGroups_each h2 g hg r hr
      exact ⟨d', h3, List.mem_append_right _ h4⟩

theorem enumerate_each {ds : List (List Rune)} {t : List Rune} (h : enumerate ds = .ok t) {d : List Rune} (hd : d ∈ ds) : d <:+: t := by
  cases ds with
  | nil => cases hd
  | cons x xs =>
    simp only [enumerate, Exec.ok.injEq] at h
    subst h
    rcases List.mem_cons.1 hd with rfl | hd
    · rw [List.append_assoc, List.append_assoc]
      exact (List.prefix_append _ _).isInfix
    · have hne : xs ≠ [] := by rintro rfl; cases hd
      rw [← List.dropLast_concat_getLast hne, List.mem_append, List.mem_singleton] at hd
      rcases hd with hd | hd
      · obtain ⟨a, b, e⟩ := List.append_of_mem hd
        rw [e]
        have k : (List.map (fun x => runes ", " ++ x) (a ++ d :: b)).flatten =
            ((a.map (fun x => runes ", " ++ x)).flatten ++ runes ", ") ++ (d ++ (b.map (fun x => runes ", " ++ x)).flatten) := by
          simp only [List.map_append, List.map_cons, List.flatten_append, List.flatten_cons, List.append_assoc]
        have k2 : d <:+: (List.map (fun x => runes ", " ++ x) (a ++ d :: b)).flatten := by
          rw [k]; exact (List.prefix_append _ _).isInfix.trans (List.suffix_append _ _).isInfix
        rw [List.append_assoc]
        exact (k2.trans (List.suffix_append _ _).isInfix).trans (List.prefix_append _ _).isInfix
      · subst hd
        rw [List.getLastD_eq_getLast?, List.getLast?_eq_some_getLast hne]
        exact (List.suffix_append _ _).isInfix

/-- The description of a rule contains those of all the parts that are not hidden behind a name: all alternatives of a choice, in whatever
group, all parts of a concatenation, both ends of a block. -/
theorem C57_shown {q r : Rule} (h : Shown q r) {t : List Rune} (ht : r.desc = .ok t) : ∃ d, q.desc = .ok d ∧ d <:+: t := by
  induction h generalizing t with
  | self => exact ⟨t, ht, List.infix_rfl⟩
  | group hb _ ih =>
    simp only [Rule.desc, if_pos hb] at ht
    exact ih ht
  | option hb _ ih =>
    simp only [Rule.desc, if_pos hb] at ht
    obtain ⟨d, h1, h⟩ := Exec.of_bind ht
    simp only [Exec.ok.injEq] at h
    obtain ⟨d', e, hi⟩ := ih h1
    exact ⟨d', e, h ▸ hi.trans (List.suffix_append _ _).isInfix⟩
  | rep hb _ ih =>
    simp only [Rule.desc, if_pos hb] at ht
    obtain ⟨d, h1, h⟩ := Exec.of_bind ht
    simp only [Exec.ok.injEq] at h
    obtain ⟨d', e, hi⟩ := ih h1
    exact ⟨d', e, h ▸ hi.trans (List.suffix_append _ _).isInfix⟩
  | choice hb hg hr _ ih =>
    simp only [Rule.desc, if_pos hb] at ht
    obtain ⟨ds, h1, h⟩ := Exec.of_bind ht
    obtain ⟨d, h2, h3⟩ := descGroups_each h1 _ hg _ hr
    obtain ⟨d', e, hi⟩ := ih h2
    exact ⟨d', e, hi.trans (enumerate_each h h3)⟩
  | concat hb hr _ ih =>
    simp only [Rule.desc, if_pos hb] at ht
    obtain ⟨ds, h1, h⟩ := Exec.of_bind ht
    obtain ⟨d, h2, h3⟩ := descs_each h1 _ hr
    obtain ⟨d', e, hi⟩ := ih h2
    exact ⟨d', e, hi.trans (enumerate_each h h3)⟩
  | opn hb _ ih =>
    simp only [Rule.desc, if_pos hb] at ht
    obtain ⟨d, h1, h⟩ := Exec.of_bind ht
    obtain ⟨d2, h2, h⟩ := Exec.of_bind h
    simp only [Exec.ok.injEq] at h
    obtain ⟨d', e, hi⟩ := ih h1
    exact ⟨d', e, h ▸ hi.trans ⟨[], runes " to " ++ d2, by simp only [List.nil_append, List.append_assoc]⟩⟩
  | close hb _ ih =>
    simp only [Rule.desc, if_pos hb] at ht
    obtain ⟨d, h1, h⟩ := Exec.of_bind ht
    obtain ⟨d2, h2, h⟩ := Exec.of_bind h
    simp only [Exec.ok.injEq] at h
    obtain ⟨d', e, hi⟩ := ih h2
    exact ⟨d', e, h ▸ hi.trans (List.suffix_append _ _).isInfix⟩

/-! ### Bounds -/

def valueOf (ds : List Rune) : Nat := ds.foldl (fun (a : Nat) (c : Int) => if 48 ≤ c ∧ c ≤ 57 then 10 * a + (c - 48).toNat else a) 0

theorem number_value {ds : List Rune} {n : Nat} (h : Number ds n) : n = valueOf ds := by
  induction h with
  | nil => rfl
  | @digit ds n k _ hk ih =>
    have e : (48 ≤ (48 + (k : Int)) ∧ (48 + (k : Int)) ≤ 57) := by omega
    have e2 : ((48 + (k : Int)) - 48).toNat = k := by omega
    simp only [valueOf, List.foldl_append, List.foldl_cons, List.foldl_nil] at ih ⊢
    rw [if_pos e, e2, ← ih]
  | @blank ds n c _ hc ih =>
    simp only [valueOf, List.foldl_append, List.foldl_cons, List.foldl_nil] at ih ⊢
    rw [if_neg, ← ih]
    rcases hc with rfl | rfl | rfl <;> decide

theorem dec_inj {n m : Nat} (hn : n < 2 ^ 32) (hm : m < 2 ^ 32) (h : dec n = dec m) : n = m := by
  rw [number_value (dec_ok hn), number_value (dec_ok hm), h]

theorem decDigits_space : ∀ fuel n, (32 : Rune) ∉ decDigits fuel n
  | 0, _ => by simp [decDigits]
  | fuel + 1, n => by
    have ih := decDigits_space fuel (n / 10)
    unfold Rune at *
    simp only [decDigits]
    split
    · simp only [List.mem_singleton]; omega
    · simp only [List.mem_append, List.mem_singleton, not_or]
      exact ⟨ih, by omega⟩

theorem sep_inj : ∀ {a a' x x' : List Rune}, (32 : Rune) ∉ a → (32 : Rune) ∉ a' → a ++ 32 :: x = a' ++ 32 :: x' → a = a' ∧ x = x'
  | [], [], _, _, _, _, h => ⟨rfl, by simpa using h⟩
  | [], c :: a', _, _, _, h2, h => by
    simp only [List.nil_append, List.cons_append, List.cons.injEq] at h
    exact absurd (h.1 ▸ List.mem_cons_self) h2
  | c :: a, [], _, _, h1, _, h => by
    simp only [List.nil_append, List.cons_append, List.cons.injEq] at h
    exact absurd (h.1 ▸ List.mem_cons_self) h1
  | c :: a, c' :: a', _, _, h1, h2, h => by
    simp only [List.cons_append, List.cons.injEq] at h
    obtain ⟨e1, e2⟩ := sep_inj (fun hm => h1 (List.mem_cons_of_mem _ hm)) (fun hm => h2 (List.mem_cons_of_mem _ hm)) h.2
    exact ⟨by rw [h.1, e1], e2⟩

theorem times_inj {mn mx mn' mx' : Nat} (h1 : mn < 2 ^ 32) (h2 : mx < 2 ^ 32) (h1' : mn' < 2 ^ 32) (h2' : mx' < 2 ^ 32) {t t' : List Rune}
    (h : timesDesc mn mx ++ 32 :: t = timesDesc mn' mx' ++ 32 :: t') : mn = mn' ∧ mx = mx' ∧ t = t' := by
  have ro : runes " or more time(s)" = 32 :: runes "or more time(s)" := by decide
  have rt : runes " to " = 32 :: runes "to " := by decide
  have rn : runes " time(s)" = 32 :: runes "time(s)" := by decide
  have d : ∀ n, (32 : Rune) ∉ dec n := fun n => decDigits_space 10 n
  simp only [timesDesc, ro, rt, rn] at h
  by_cases hx : mx = 0 <;> by_cases hx' : mx' = 0
  · rw [if_pos hx, if_pos hx', List.append_assoc, List.append_assoc] at h
    obtain ⟨e1, e2⟩ := sep_inj (d _) (d _) h
    have := List.append_cancel_left e2
    exact ⟨dec_inj h1 h1' e1, by rw [hx, hx'], by simpa using this⟩
  · rw [if_pos hx, if_neg hx', List.append_assoc] at h
    simp only [List.append_assoc, List.cons_append] at h
    obtain ⟨_, e2⟩ := sep_inj (d _) (d _) h
    have k1 : runes "or more time(s)" = 111 :: runes "r more time(s)" := by decide
    have k2 : runes "to " = 116 :: runes "o " := by decide
    rw [k1, k2] at e2
    simp only [List.cons_append, List.cons.injEq] at e2
    exact absurd e2.1 (by decide)
  · rw [if_neg hx, if_pos hx'] at h
    simp only [List.append_assoc, List.cons_append] at h
    obtain ⟨_, e2⟩ := sep_inj (d _) (d _) h
    have k1 : runes "or more time(s)" = 111 :: runes "r more time(s)" := by decide
    have k2 : runes "to " = 116 :: runes "o " := by decide
    rw [k1, k2] at e2
    simp only [List.cons_append, List.cons.injEq] at e2
    exact absurd e2.1 (by decide)
  · rw [if_neg hx, if_neg hx'] at h
    simp only [List.append_assoc, List.cons_append] at h
    obtain ⟨e1, e2⟩ := sep_inj (d _) (d _) h
    have e2 := List.append_cancel_left e2
    obtain ⟨e3, e4⟩ := sep_inj (d _) (d _) e2
    have e4 := List.append_cancel_left e4
    exact ⟨dec_inj h1 h1' e1, dec_inj h2 h2' e3, by simpa using e4⟩

/-- The bounds of a repetition can be read off its description, and so can the description of what is repeated. -/
theorem C57_bounds_told {b b' : RuleBase} (hb : b.name = []) (hb' : b'.name = []) {r r' : Rule} {mn mx mn' mx' : Nat} (h1 : mn < 2 ^ 32)
    (h2 : mx < 2 ^ 32) (h1' : mn' < 2 ^ 32) (h2' : mx' < 2 ^ 32) {t : List Rune} (h : (Rule.rep b r mn mx).desc = .ok t)
    (h' : (Rule.rep b' r' mn' mx').desc = .ok t) : mn = mn' ∧ mx = mx' ∧ r.desc = r'.desc := by
  simp only [Rule.desc, if_pos hb, if_pos hb'] at h h'
  obtain ⟨d, e1, h⟩ := Exec.of_bind h
  obtain ⟨d', e1', h'⟩ := Exec.of_bind h'
  simp only [Exec.ok.injEq] at h h'
  have ro : runes " of " = 32 :: runes "of " := by decide
  rw [← h', ro, List.append_assoc, List.append_assoc] at h
  obtain ⟨k1, k2, k3⟩ := times_inj h1 h2 h1' h2' h
  exact ⟨k1, k2, by rw [e1, e1', List.append_cancel_left k3]⟩

/-! ## Cases -/

/-- `{'a' 'b'}<2,3> | 'c' > x`: the second group and what is repeated are described. -/
def described : Rule := .choice {} [[.rep {} (.concat {} [.char {} 97 false, .char {} 98 false]) 2 3, .char {} 99 false], [.ref {} (runes "x")]]

example : (match described.desc with | .ok t => t | _ => []) = runes "2 to 3 time(s) of 'a' and 'b', 'c' and x" := by decide +kernel
example : Shown (.ref {} (runes "x")) described :=
  .choice rfl (List.mem_cons_of_mem _ List.mem_cons_self) List.mem_cons_self .self
example : Shown (.char {} 98 false) described :=
  .choice rfl List.mem_cons_self List.mem_cons_self (.rep rfl (.concat rfl (List.mem_cons_of_mem _ List.mem_cons_self) .self))
/-- What has a name hides its parts. -/
example : (match (Rule.choice { name := runes "n" } [[.char {} 97 false]]).desc with | .ok t => t | _ => []) = runes "n" := by decide +kernel

end Xbnf.Props
