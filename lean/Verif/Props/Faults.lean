import Verif.Props.Grammars
/-
C49: the error of `NewGrammarFromString` (grammar.go:697-721) names the first line that cannot be added to
the definitions before it, and says what is wrong with it.
-/
namespace Xbnf.Props
open Xbnf Xbnf.Spec Grammar

/-- The outcome of `NewGrammarFromString`: an error. -/
def Rejected (text : List Rune) (e : PErr) : Prop := ∃ fuel g, fromString fuel text = .err e g

theorem rejected_facts {text : List Rune} {e : PErr} (h : Rejected text e) {ls : List (List Rune)} (hl : Lines text ls) :
    (¬ ∃ recs, Denotes 1 ls recs ∧ (recs.map Record.name).Nodup ∧ Closed recs) ∧
        ((∃ k l recs o e', e = .atLine (1 + k) o e' ∧ ls[k]? = some l ∧ Denotes 1 (ls.take k) recs ∧
            (recs.map Record.name).Nodup ∧ Fault recs l o e') ∨
          (e = .undefinedRef ∧ ∃ recs, Denotes 1 ls recs ∧ (recs.map Record.name).Nodup ∧ ¬ Closed recs)) := by
  obtain ⟨fuel, g', h⟩ := h
  have h1 := fromString_more (m := max fuel (text.length + 2)) (Nat.le_max_left _ _) (text := text) (n := fuel) (by rw [h]; simp)
  have h2 := fromString_cases (fuel := max fuel (text.length + 2)) hl (Nat.le_max_right _ _)
  rw [h1, h] at h2
  exact h2

/-- A faulty line cannot be one of lines that hold definitions with distinct names. -/
theorem fault_stops {l : List Rune} {o : Option Name} {e : PErr} : ∀ {k i : Nat} {ls : List (List Rune)} {known recs recs' : List Record},
    ls[k]? = some l → Denotes i (ls.take k) recs → Fault (known ++ recs) l o e → Denotes i ls recs' →
    ((known ++ recs').map Record.name).Nodup → False
  | 0, i, [], _, _, _, hl, _, _, _, _ => by cases hl
  | 0, i, a :: ls, known, recs, recs', hl, h0, hf, hd, hn => by
    cases hl
    cases h0
    rw [List.append_nil] at hf
    cases hd with
    | skip hs => cases hf <;> exact absurd hs (by assumption)
    | @defn _ _ _ recs' name body r _ hd hrn hp _ =>
      have uniq {n b} (h : Defines l n b) : n = name ∧ b = body := by
        obtain ⟨t, m, b', ht, he', hm, hnt, hbt⟩ := h
        obtain ⟨t2, m2, b2, ht2, he2, hm2, hnt2, hbt2⟩ := hd
        have h1 := splitEq_spec.2 ⟨he', hm⟩
        have h2 := splitEq_spec.2 ⟨he2, hm2⟩
        rw [trimmed_unique ht] at h1
        rw [trimmed_unique ht2, h1] at h2
        simp only [Option.some.injEq, Prod.mk.injEq] at h2
        obtain ⟨rfl, rfl⟩ := h2
        exact ⟨by rw [trimmed_unique hnt, trimmed_unique hnt2], by rw [trimmed_unique hbt, trimmed_unique hbt2]⟩
      cases hf with
      | missingEq _ h => exact h ⟨_, _, hd⟩
      | badName _ hd' h =>
        obtain ⟨rfl, rfl⟩ := uniq hd'
        exact h hrn
      | duplicate _ hd' _ hq h =>
        obtain ⟨rfl, rfl⟩ := uniq hd'
        rw [List.map_append, List.nodup_append] at hn
        exact hn.2.2 _ (List.mem_map_of_mem hq) _ (by simp) h
      | body _ hd' _ _ h =>
        obtain ⟨rfl, rfl⟩ := uniq hd'
        exact h ⟨_, hp⟩
  | k + 1, i, [], _, _, _, hl, _, _, _, _ => by cases hl
  | k + 1, i, a :: ls, known, recs, recs', hl, h0, hf, hd, hn => by
    rw [List.getElem?_cons_succ] at hl
    rw [List.take_succ_cons] at h0
    cases h0 with
    | skip hs h0 =>
      cases hd with
      | skip _ hd => exact fault_stops hl h0 hf hd hn
      | defn hs' => exact hs' hs
    | @defn _ _ _ recs name body r hs hd1 hrn1 hp1 h0 =>
      cases hd with
      | skip hs' => exact hs hs'
      | @defn _ _ _ recs' name' body' r' _ hd2 hrn2 hp2 hd =>
        obtain ⟨rfl, rfl⟩ := lineDefines_unique ⟨hd1, hrn1, hp1⟩ ⟨hd2, hrn2, hp2⟩
        rw [List.append_cons] at hf hn
        exact fault_stops hl h0 hf hd hn

/-- An error with a line number: that line is faulty in the way the error says, and the lines before it
hold definitions with distinct names. -/
theorem C49_line {text : List Rune} {ls : List (List Rune)} (hl : Lines text ls) {n : Nat} {o : Option Name} {e : PErr}
    (h : Rejected text (.atLine n o e)) :
    ∃ k l recs, n = k + 1 ∧ ls[k]? = some l ∧ Denotes 1 (ls.take k) recs ∧ (recs.map Record.name).Nodup ∧ Fault recs l o e := by
  rcases (rejected_facts h hl).2 with ⟨k, l, recs, o, e', he, h1, h2, h3, h4⟩ | ⟨he, _⟩
  · cases he
    exact ⟨k, l, recs, Nat.add_comm _ _, h1, h2, h3, h4⟩
  · cases he

/-- An error without a line number: every line is in order, but a rule is referred to and not defined. -/
theorem C49_no_line {text : List Rune} {ls : List (List Rune)} (hl : Lines text ls) {e : PErr} (h : Rejected text e)
    (hn : ∀ n o e', e ≠ .atLine n o e') :
    e = .undefinedRef ∧ ∃ recs, Denotes 1 ls recs ∧ (recs.map Record.name).Nodup ∧ ¬ Closed recs := by
  rcases (rejected_facts h hl).2 with ⟨k, l, recs, o, e', he, _⟩ | h
  · exact absurd he (hn _ _ _)
  · exact h

/-- Conversely the first faulty line is the one that is reported, whatever comes after it. -/
theorem C49_first {text : List Rune} {ls : List (List Rune)} (hl : Lines text ls) {k : Nat} {l : List Rune} {recs : List Record}
    {o : Option Name} {e : PErr} (hk : ls[k]? = some l) (hd : Denotes 1 (ls.take k) recs) (hn : (recs.map Record.name).Nodup) (hf : Fault recs l o e) :
    ∃ o' e', Rejected text (.atLine (k + 1) o' e') ∧ Fault recs l o' e' := by
  have hnot {recs'} (h1 : Denotes 1 ls recs') (h2 : (recs'.map Record.name).Nodup) : False :=
    fault_stops (known := []) hk hd hf h1 h2
  obtain ⟨e1, g1, he1⟩ := C32_rejects text (fun ⟨g, hg⟩ => by
    obtain ⟨h1, h2, _⟩ := accepted_facts hg hl
    exact hnot h1 h2)
  have hr : Rejected text e1 := ⟨_, _, he1⟩
  rcases (rejected_facts hr hl).2 with ⟨k', l', recs', o', e', rfl, h1, h2, h3, h4⟩ | ⟨_, recs', h1, h2, _⟩
  · have hkk : k' = k := by
      rcases Nat.lt_trichotomy k' k with h | h | h
      · refine (fault_stops (known := []) (ls := ls.take k) (k := k') (l := l') ?_ ?_ h4 hd hn).elim
        · rw [List.getElem?_take, if_pos h, h1]
        · rw [List.take_take, Nat.min_eq_left (Nat.le_of_lt h)]
          exact h2
      · exact h
      · refine (fault_stops (known := []) (ls := ls.take k') (k := k) (l := l) ?_ ?_ hf h2 h3).elim
        · rw [List.getElem?_take, if_pos h, hk]
        · rw [List.take_take, Nat.min_eq_left (Nat.le_of_lt h)]
          exact hd
    subst hkk
    rw [hk] at h1
    cases h1
    have := denotes_unique hd h2
    subst this
    exact ⟨o', e', by rw [Nat.add_comm]; exact hr, h4⟩
  · exact (hnot h1 h2).elim

/-- A definition of a name that is already defined: the error has the name and the line of the earlier definition. -/
theorem C49_duplicate {text : List Rune} {ls : List (List Rune)} (hl : Lines text ls) {n m : Nat} {o : Option Name} {name : Name}
    (h : Rejected text (.atLine n o (.duplicate name m))) :
    ∃ k l recs body q, n = k + 1 ∧ ls[k]? = some l ∧ Denotes 1 (ls.take k) recs ∧ Defines l name body ∧
      q ∈ recs ∧ q.name = name ∧ q.line = m ∧ o = some name := by
  obtain ⟨k, l, recs, hk, hkl, hd, _, hf⟩ := C49_line hl h
  cases hf with
  | duplicate hs hd' hn hq hqn => exact ⟨k, l, recs, _, _, hk, hkl, hd, hd', hq, hqn, rfl, rfl⟩
  | body _ _ _ _ _ _ hc => cases hc

/-- The error of a text. -/
def errorOf (text : List Rune) : Option PErr :=
  match fromString 40 text with
  | .err e _ => some e
  | _ => none

theorem errorOf_rejected {text : List Rune} {e : PErr} (h : errorOf text = some e) : Rejected text e := by
  unfold errorOf at h
  cases hf : fromString 40 text with
  | oof => rw [hf] at h; cases h
  | err e' g => rw [hf] at h; cases h; exact ⟨_, _, hf⟩
  | ok g g' => rw [hf] at h; cases h

/-- Non-vacuity of C49: a line without `=`, a name that is none, a name defined before, a definition that
is none, each in a later line; and a rule that is missing. -/
example : errorOf (runes "// c\na = 'x'\nnonsense\nb c") = some (.atLine 3 none (.missingEq (runes "nonsense"))) ∧
    errorOf (runes "a = 'x'\n\n1 = 'y'") = some (.atLine 3 (some (runes "1")) (.badName (runes "1"))) ∧
    errorOf (runes "a = 'x'\n//\na = 'y'\nb = ") = some (.atLine 3 (some (runes "a")) (.duplicate (runes "a") 1)) ∧
    errorOf (runes "a = 'x'\nb = {'y'") = some (.atLine 2 (some (runes "b")) .repEnd) ∧
    errorOf (runes "a = 'x' b\nc = a") = some .undefinedRef := by
  refine ⟨by decide +kernel, by decide +kernel, by decide +kernel, by decide +kernel, by decide +kernel⟩

end Xbnf.Props
