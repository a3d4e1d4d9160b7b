import Verif.Props.Reachable
import Verif.Props.Drawing
import Verif.Props.Printing
import Verif.Props.Messages
import Verif.Model.Serialize
/-
C60: grammars written as text.  C54, C57: results of evaluations written as text.
-/
namespace Xbnf.Props
open Xbnf Xbnf.Spec Xbnf.Grammar

/-! ## Sorting by lines -/

theorem insertInt_perm (n : Nat) : ∀ l, (insertInt n l).Perm (n :: l)
  | [] => .refl _
  | m :: ms => by
    unfold insertInt
    split
    · exact .refl _
    · exact ((insertInt_perm n ms).cons m).trans (.swap n m ms)

theorem insertInt_sorted (n : Nat) : ∀ {l : List Nat}, l.Pairwise (· ≤ ·) → (insertInt n l).Pairwise (· ≤ ·)
  | [], _ => by simp [insertInt]
  | m :: ms, h => by
    unfold insertInt
    rw [List.pairwise_cons] at h
    split
    · rename_i hnm
      rw [List.pairwise_cons, List.pairwise_cons]
      refine ⟨fun a ha => ?_, h⟩
      rcases List.mem_cons.1 ha with rfl | ha
      · exact hnm
      · exact Nat.le_trans hnm (h.1 a ha)
    · rename_i hnm
      rw [List.pairwise_cons]
      refine ⟨fun a ha => ?_, insertInt_sorted n h.2⟩
      rcases List.mem_cons.1 ((insertInt_perm n ms).mem_iff.1 ha) with rfl | ha
      · omega
      · exact h.1 a ha

theorem sort_perm : ∀ l : List Nat, (l.foldr insertInt []).Perm l
  | [] => .refl _
  | n :: l => by
    rw [List.foldr_cons]
    exact (insertInt_perm n _).trans ((sort_perm l).cons n)

theorem sort_sorted : ∀ l : List Nat, (l.foldr insertInt []).Pairwise (· ≤ ·)
  | [] => by simp
  | n :: l => by
    rw [List.foldr_cons]
    exact insertInt_sorted n (sort_sorted l)

theorem sort_eq {l m : List Nat} (h : l.Perm m) (hm : m.Pairwise (· < ·)) : l.foldr insertInt [] = m :=
  List.Perm.eq_of_pairwise (le := (· ≤ ·)) (fun _ _ _ _ h h' => Nat.le_antisymm h h') (sort_sorted l)
    (hm.imp Nat.le_of_lt) ((sort_perm l).trans h)

theorem putLine_new : ∀ (m : List Record) (r : Record), r.line ∉ m.map Record.line → putLine m r = m ++ [r]
  | [], r, _ => rfl
  | x :: m, r, h => by
    unfold putLine
    rw [if_neg (fun hx => h (by rw [← hx]; simp)), putLine_new m r (fun hm => h (by simp only [List.map_cons, List.mem_cons]; exact .inr hm))]
    rfl

theorem putLines_new : ∀ (l m : List Record), ((m ++ l).map Record.line).Nodup → l.foldl putLine m = m ++ l
  | [], m, _ => (List.append_nil m).symm
  | r :: l, m, h => by
    have h' : ((m ++ [r] ++ l).map Record.line).Nodup := by rwa [List.append_assoc]
    rw [List.foldl_cons, putLine_new m r, putLines_new l _ h', List.append_assoc]
    · rfl
    · intro hm
      rw [List.map_append, List.nodup_append] at h
      exact h.2.2 _ hm _ (by simp) rfl

theorem find_line : ∀ {l : List Record} (_ : (l.map Record.line).Nodup) {r : Record} (_ : r ∈ l),
    l.find? (fun q => q.line == r.line) = some r
  | [], _, _, hr => by cases hr
  | x :: l, h, r, hr => by
    rw [List.map_cons, List.nodup_cons] at h
    rw [List.find?_cons]
    rcases List.mem_cons.1 hr with rfl | hr
    · simp
    · have hx : (x.line == r.line) = false := by
        simp only [beq_eq_false_iff_ne]
        exact fun he => h.1 (List.mem_map.2 ⟨r, hr, he.symm⟩)
      rw [hx]
      exact find_line h.2 hr

/-- The length of the widest name. -/
def widest (recs : List Record) : Nat := recs.foldl (fun w r => if r.name.length > w then r.name.length else w) 0

theorem widest_from : ∀ (l : List Record) (w : Nat),
    let m := l.foldl (fun w r => if r.name.length > w then r.name.length else w) w
    w ≤ m ∧ (∀ r ∈ l, r.name.length ≤ m) ∧ (m = w ∨ ∃ r ∈ l, m = r.name.length)
  | [], w => by simp
  | x :: l, w => by
    have ih := widest_from l (if x.name.length > w then x.name.length else w)
    simp only [List.foldl_cons] at ih ⊢
    obtain ⟨h1, h2, h3⟩ := ih
    have h4 : w ≤ (if x.name.length > w then x.name.length else w) ∧ x.name.length ≤ (if x.name.length > w then x.name.length else w) := by
      split <;> omega
    refine ⟨Nat.le_trans h4.1 h1, ?_, ?_⟩
    · intro r hr
      rcases List.mem_cons.1 hr with rfl | hr
      · exact Nat.le_trans h4.2 h1
      · exact h2 r hr
    · rcases h3 with h3 | ⟨r, hr, h3⟩
      · by_cases hx : x.name.length > w
        · rw [if_pos hx] at h3 ⊢
          exact .inr ⟨x, by simp, h3⟩
        · rw [if_neg hx] at h3 ⊢
          exact .inl h3
      · exact .inr ⟨r, by simp [hr], h3⟩

theorem widest_perm {l m : List Record} (h : l.Perm m) : widest l = widest m := by
  obtain ⟨_, h1, h2⟩ := widest_from l 0
  obtain ⟨_, h3, h4⟩ := widest_from m 0
  unfold widest
  generalize l.foldl _ 0 = a at *
  generalize m.foldl _ 0 = b at *
  apply Nat.le_antisymm
  · rcases h2 with rfl | ⟨r, hr, rfl⟩
    · exact Nat.zero_le _
    · exact h3 r (h.mem_iff.1 hr)
  · rcases h4 with rfl | ⟨r, hr, rfl⟩
    · exact Nat.zero_le _
    · exact h1 r (h.mem_iff.2 hr)

theorem serialize_eq {g : Grammar} {m : Nat} (hg : Numbered g.records m) {o : List Record} (ho : o.Perm g.records) (o' : List Record) (d : Bool) :
    g.serialize d o o' = g.relation (widest g.records + 4) o' ++ runes "Rules:\n    " ++
      (g.records.map (g.entry (widest g.records + 4) d)).flatten := by
  have hnd : (o.map Record.line).Nodup :=
    ((ho.map Record.line).nodup_iff).2 (hg.1.imp Nat.ne_of_lt)
  unfold serialize
  simp only
  rw [show o.foldl (fun w r => if r.name.length > w then r.name.length else w) 0 = widest o from rfl, widest_perm ho,
    putLines_new o [] (by simpa using hnd), List.nil_append, sort_eq (ho.map Record.line) hg.1, List.map_map]
  congr 2
  apply List.map_congr_left
  intro r hr
  simp only [Function.comp]
  rw [find_line hnd (ho.mem_iff.2 hr)]

/-! ## The rules -/

theorem percentD_length (n : Nat) : (percentD n).length = (Nat.toDigits 10 n).length := by
  unfold percentD runes
  rw [List.length_map, Int.toString_eq_repr, Int.repr_eq_if, if_pos (by omega), Nat.toList_repr]
  rfl

theorem decimal_short {n : Nat} (h : n < 10000) : (percentD n).length ≤ 4 := by
  rw [percentD_length]
  exact (Nat.length_toDigits_le_iff (by omega) (by omega)).2 h

theorem fourDigits_spec (n : Nat) : FourDigits n (fourDigits n) := by
  refine ⟨4 - (percentD n).length, rfl, ?_, ?_⟩
  · unfold fourDigits
    rw [List.length_append, List.length_replicate]
    omega
  · intro h
    have := decimal_short h
    unfold fourDigits
    rw [List.length_append, List.length_replicate]
    omega

theorem entry_row (g : Grammar) (w : Nat) (r : Record) (hw : r.name.length + 4 ≤ w) :
    ∃ row, g.entry w false r = row ++ runes "\n    " ∧ Row w (g.terminals.any (fun t => t.name == r.name)) r row := by
  unfold entry
  simp only [Bool.false_eq_true, if_false, List.append_nil]
  refine ⟨_, rfl, fourDigits r.line, _, fourDigits_spec _, rfl, ?_⟩
  simp only [List.length_append, List.length_replicate]
  have h1 : (if r.rule.base.virt = true then runes "!" else []).length ≤ 1 := by split <;> decide
  have h2 : (if (g.terminals.any fun t => t.name == r.name) = true then runes "[T]" else []).length ≤ 3 := by split <;> decide
  omega

theorem terminal_iff (g : Grammar) (r : Record) : g.terminals.any (fun t => t.name == r.name) = true ↔ ∃ t ∈ g.terminals, t.name = r.name := by
  simp

theorem entries_rows (g : Grammar) (w : Nat) : ∀ l : List Record, (∀ r ∈ l, r.name.length + 4 ≤ w) → ∃ rows : List (List Rune),
    (l.map (g.entry w false)).flatten = (rows.map (· ++ runes "\n    ")).flatten ∧ rows.length = l.length ∧
    ∀ (i : Nat) r row, l[i]? = some r → rows[i]? = some row →
      ∃ t, (t = true ↔ ∃ q ∈ g.terminals, q.name = r.name) ∧ Row w t r row
  | [], _ => ⟨[], rfl, rfl, fun i r row hr => by cases hr⟩
  | x :: l, hl => by
    obtain ⟨rows, h1, h2, h3⟩ := entries_rows g w l (fun r hr => hl r (by simp [hr]))
    obtain ⟨row, h4, h5⟩ := entry_row g _ x (hl x (by simp))
    refine ⟨row :: rows, by simp [h1, h4], by simp [h2], ?_⟩
    intro i r row' hr hrow
    cases i with
    | zero =>
      simp only [List.getElem?_cons_zero, Option.some.injEq] at hr hrow
      subst hr hrow
      exact ⟨_, terminal_iff g x, h5⟩
    | succ i => exact h3 i r row' (by simpa using hr) (by simpa using hrow)

theorem widest_facts (g : Grammar) : (∀ r ∈ g.records, r.name.length + 4 ≤ widest g.records + 4) ∧
    (widest g.records + 4 = 4 ∨ ∃ r ∈ g.records, widest g.records + 4 = r.name.length + 4) := by
  refine ⟨fun r hr => Nat.add_le_add_right ((widest_from g.records 0).2.1 r hr) 4, ?_⟩
  rcases (widest_from g.records 0).2.2 with hz | ⟨r, hr, hz⟩
  · exact .inl (by show widest g.records + 4 = 4; rw [show widest g.records = 0 from hz])
  · exact .inr ⟨r, hr, by rw [show widest g.records = r.name.length from hz]⟩

/-- The rules are listed in the order of their definitions, each once, whatever the order in which the maps
are iterated; the names are in a column as wide as the longest of them needs. -/
theorem C60_rules {g : Grammar} (h : Reachable g) {o : List Record} (ho : o.Perm g.records) (o' : List Record) :
    ∃ (w : Nat) (relations : List Rune) (rows : List (List Rune)),
      g.serialize false o o' = relations ++ runes "Rules:\n    " ++ (rows.map (· ++ runes "\n    ")).flatten ∧
      (g.records.map Record.line).Pairwise (· < ·) ∧ rows.length = g.records.length ∧
      (∀ (i : Nat) r row, g.records[i]? = some r → rows[i]? = some row →
        ∃ t, (t = true ↔ ∃ q ∈ g.terminals, q.name = r.name) ∧ Row w t r row) ∧
      (∀ r ∈ g.records, r.name.length + 4 ≤ w) ∧ (w = 4 ∨ ∃ r ∈ g.records, w = r.name.length + 4) := by
  have hg := reachable_numbered h
  obtain ⟨rows, h1, h2, h3⟩ := entries_rows g _ g.records (widest_facts g).1
  exact ⟨widest g.records + 4, _, rows, by rw [serialize_eq hg ho, h1], hg.1, h2, h3, widest_facts g⟩

/-- The order in which `Serialize` collects the rules has no effect. -/
theorem C60_order {g : Grammar} (h : Reachable g) {o1 o2 : List Record} (h1 : o1.Perm g.records) (h2 : o2.Perm g.records)
    (o' : List Record) (d : Bool) : g.serialize d o1 o' = g.serialize d o2 o' := by
  rw [serialize_eq (reachable_numbered h) h1, serialize_eq (reachable_numbered h) h2]

/-- The definitions begin in the same column, in all lines with numbers below 10000. -/
theorem C60_aligned {w : Nat} {t : Bool} {r : Record} {row : List Rune} (h : Row w t r row) (hl : r.line < 10000) :
    row.drop (w + 10) = r.rule.print ∧ (row.take (w + 10)).drop (w + 7) = runes " = " := by
  obtain ⟨num, k, ⟨_, _, _, hn⟩, rfl, hk⟩ := h
  have hlen : (runes "L" ++ num ++ runes ": ").length = 7 := by
    simp [hn hl, show (runes "L").length = 1 from rfl, show (runes ": ").length = 2 from rfl]
  generalize hc : ((if r.rule.base.virt then runes "!" else []) ++ r.name
      ++ (if t then runes "[T]" else []) ++ List.replicate k 32) = col at *
  generalize runes "L" ++ num ++ runes ": " = a at *
  have h3 : (runes " = ").length = 3 := rfl
  constructor
  · rw [show a ++ col ++ runes " = " ++ r.rule.print = (a ++ col ++ runes " = ") ++ r.rule.print from rfl,
      List.drop_left' (by simp only [List.length_append]; omega)]
  · rw [List.take_left' (by simp only [List.length_append]; omega), List.drop_left' (by simp only [List.length_append]; omega)]

/-! ## Roots and references -/

/-- Spec of one line of the reference map. -/
theorem relation_eq (g : Grammar) (w : Nat) (o' : List Record) (hw : ∀ r ∈ o', r.name.length ≤ w) :
    ∃ uses : List (List Rune),
      g.relation w o' = runes "Root Rules: " ++ ((o'.filter (fun r => (lookup g.nonRoots r.name).isNone)).map (fun r => r.name ++ runes ",")).flatten
        ++ runes "\nRule Reference Map: \n" ++ (uses.map (· ++ [newline])).flatten ∧
      uses.length = (o'.filter (fun r => (lookup g.nonRoots r.name).isSome)).length ∧
      ∀ (i : Nat) r row, (o'.filter (fun r => (lookup g.nonRoots r.name).isSome))[i]? = some r → uses[i]? = some row →
        UseRow w ((lookup g.nonRoots r.name).getD []) r row := by
  have key : ∀ (l : List Record) (acc : List Rune × List Rune), (∀ r ∈ l, r.name.length ≤ w) →
      ∃ uses : List (List Rune),
      l.foldl (g.relationStep w) acc =
        (acc.1 ++ ((l.filter (fun r => (lookup g.nonRoots r.name).isNone)).map (fun r => r.name ++ runes ",")).flatten,
         acc.2 ++ (uses.map (· ++ [newline])).flatten) ∧
      uses.length = (l.filter (fun r => (lookup g.nonRoots r.name).isSome)).length ∧
      ∀ (i : Nat) r row, (l.filter (fun r => (lookup g.nonRoots r.name).isSome))[i]? = some r → uses[i]? = some row →
        UseRow w ((lookup g.nonRoots r.name).getD []) r row := by
    intro l
    induction l with
    | nil => exact fun acc _ => ⟨[], by simp, rfl, fun i r row hr => by cases hr⟩
    | cons x l ih =>
      intro acc hl
      rw [List.foldl_cons]
      cases hf : g.nonRoots.find? (fun p => p.1 == x.name) with
      | none =>
        obtain ⟨uses, h1, h2, h3⟩ := ih (acc.1 ++ x.name ++ runes ",", acc.2) (fun r hr => hl r (by simp [hr]))
        have hx : lookup g.nonRoots x.name = none := by unfold lookup; rw [hf]; rfl
        refine ⟨uses, ?_, ?_, ?_⟩
        · unfold relationStep at h1 ⊢
          rw [hf]
          simp only
          rw [h1]
          simp [hx]
        · simp [hx, h2]
        · intro i r row hr hrow
          exact h3 i r row (by simpa [hx] using hr) hrow
      | some p =>
        obtain ⟨uses, h1, h2, h3⟩ := ih (acc.1, acc.2 ++ runes "    " ++ padTo w x.name ++ runes ": "
            ++ (p.2.map (fun u => u ++ runes ",")).flatten ++ [newline]) (fun r hr => hl r (by simp [hr]))
        have hx : lookup g.nonRoots x.name = some p.2 := by unfold lookup; rw [hf]; rfl
        refine ⟨(runes "    " ++ padTo w x.name ++ runes ": " ++ (p.2.map (fun u => u ++ runes ",")).flatten) :: uses, ?_, ?_, ?_⟩
        · unfold relationStep at h1 ⊢
          rw [hf]
          simp only
          rw [h1]
          simp [hx]
        · simp [hx, h2]
        · intro i r row hr hrow
          rw [List.filter_cons, if_pos (by simp [hx])] at hr
          cases i with
          | zero =>
            simp only [List.getElem?_cons_zero, Option.some.injEq] at hr hrow
            subst hr hrow
            rw [hx]
            refine ⟨w - x.name.length, by unfold padTo; simp only [List.append_assoc]; rfl, ?_⟩
            have := hl x (by simp)
            rw [List.length_append, List.length_replicate]
            omega
          | succ i => exact h3 i r row (by simpa using hr) (by simpa using hrow)
  obtain ⟨uses, h1, h2, h3⟩ := key o' (runes "Root Rules: ", runes "Rule Reference Map: \n") hw
  refine ⟨uses, ?_, h2, h3⟩
  unfold relation
  simp only
  rw [h1]
  simp only [List.append_assoc]
  rfl

theorem usersOf_nil {recs : List Record} {n : Name} : usersOf recs n = [] ↔ ∀ q ∈ recs, n ∉ refs q.rule := by
  unfold usersOf
  simp only [List.flatMap_eq_nil_iff, List.map_eq_nil_iff, List.filter_eq_nil_iff, beq_iff_eq]
  exact ⟨fun h q hq hn => h q hq n hn rfl, fun h q hq m hm e => h q hq (e ▸ hm)⟩

theorem lookup_some? (l : List Name) : (some? l).getD [] = l ∧ ((some? l).isNone = true ↔ l = []) ∧ ((some? l).isSome = true ↔ l ≠ []) := by
  unfold some?
  by_cases h : l = [] <;> simp [h]

/-- What `Serialize(false)` writes: the root rules, for every other rule which rules refer to it and how often, then
the rules in the order of their definitions. -/
theorem C60_text {g : Grammar} (h : WellMade g) {o o' : List Record} (ho : o.Perm g.records) (ho' : o'.Perm g.records) :
    ∃ (w : Nat) (roots used : List Record) (uses rules : List (List Rune)),
      g.serialize false o o' = runes "Root Rules: " ++ (roots.map (fun r => r.name ++ runes ",")).flatten
        ++ runes "\nRule Reference Map: \n" ++ (uses.map (· ++ [newline])).flatten ++ runes "Rules:\n    "
        ++ (rules.map (· ++ runes "\n    ")).flatten ∧
      (roots ++ used).Perm g.records ∧ (∀ r ∈ roots, IsRoot g.records r) ∧ (∀ r ∈ used, ¬ IsRoot g.records r) ∧
      uses.length = used.length ∧
      (∀ (i : Nat) r row, used[i]? = some r → uses[i]? = some row → UseRow w (usersOf g.records r.name) r row) ∧
      rules.length = g.records.length ∧
      (∀ (i : Nat) r row, g.records[i]? = some r → rules[i]? = some row →
        ∃ t, (t = true ↔ ∃ q ∈ g.terminals, q.name = r.name) ∧ Row w t r row) := by
  have ht := wellMade_tallied h
  have hw : ∀ r ∈ o', r.name.length ≤ widest g.records + 4 :=
    fun r hr => Nat.le_add_right_of_le ((widest_from g.records 0).2.1 r (ho'.mem_iff.1 hr))
  obtain ⟨uses, h1, h2, h3⟩ := relation_eq g (widest g.records + 4) o' hw
  obtain ⟨rules, h4, h5, h6⟩ := entries_rows g _ g.records (widest_facts g).1
  refine ⟨widest g.records + 4, _, o'.filter (fun r => (lookup g.nonRoots r.name).isSome), uses, rules,
    by rw [serialize_eq (reachable_numbered h.reachable) ho, h1, h4], ?_, ?_, ?_, h2, ?_, h5, h6⟩
  · refine List.Perm.trans ?_ ho'
    have := List.filter_append_perm (fun r : Record => (lookup g.nonRoots r.name).isNone) o'
    simpa [Option.not_isNone] using this
  · intro r hr
    rw [List.mem_filter, ht, (lookup_some? _).2.1, usersOf_nil] at hr
    exact ⟨ho'.mem_iff.1 hr.1, hr.2⟩
  · intro r hr hroot
    rw [List.mem_filter, ht, (lookup_some? _).2.2] at hr
    exact hr.2 (usersOf_nil.2 hroot.2)
  · intro i r row hr hrow
    have := h3 i r row hr hrow
    rwa [ht, (lookup_some? _).1] at this

/-! ## Marks -/

/-- After `Validate` (which `NewGrammarFromString` calls), the rules marked as terminals are those that refer to no rule. -/
theorem C60_marks {g g' : Grammar} (h : WellMade g) (hv : g.validate = some g') {r : Record} (hr : r ∈ g'.records) :
    (∃ q ∈ g'.terminals, q.name = r.name) ↔ refs r.rule = [] := by
  obtain ⟨⟨h1, h2⟩, hn⟩ := wellMade_terminals h
  obtain ⟨e1, _, _⟩ := validate_same hv
  rw [e1] at hr
  rw [validate_terminals hv]
  constructor
  · rintro ⟨q, hq, hqr⟩
    have hq' : q ∈ g.records ∧ refs q.rule = [] := by
      rcases putRecords_mem _ _ _ hq with hq | hq
      · exact (users_terminal h1 hn q).1 hq
      · exact h2 q hq
    rw [← nodup_inj hn hq'.1 hr hqr]
    exact hq'.2
  · intro h0
    exact ⟨r, putRecords_put _ _ _ (nodup_filter _ hn) ((users_terminal h1 hn r).2 ⟨hr, h0⟩), rfl⟩

/-! ## Lines -/

theorem rows_flatten {suffix : List Rune} : ∀ (l : List (List Rune)) (rest : List Rune), (∀ r ∈ l, newline ∉ r) → newline ∉ suffix →
    rows (suffix ++ (l.map (fun r => r ++ newline :: suffix)).flatten ++ rest) = l.map (suffix ++ ·) ++ rows (suffix ++ rest)
  | [], rest, _, _ => by simp
  | r :: l, rest, h, hs => by
    have ih := rows_flatten l rest (fun x hx => h x (by simp [hx])) hs
    have hr : newline ∉ suffix ++ r := by
      rw [List.mem_append]
      rintro (hm | hm)
      · exact hs hm
      · exact h r (by simp) hm
    rw [show suffix ++ (List.map (fun r => r ++ newline :: suffix) (r :: l)).flatten ++ rest =
      (suffix ++ r) ++ newline :: (suffix ++ (List.map (fun r => r ++ newline :: suffix) l).flatten ++ rest) by simp,
      rows_newline, ih, rows_one hr]
    rfl

theorem name_free {n : Name} (h : RuleName n) {c : Rune} (hc : c < 48 ∨ (57 < c ∧ c < 65)) : c ∉ n := by
  obtain ⟨d, ds, rfl, hd, hds⟩ := h
  intro hm
  rcases List.mem_cons.1 hm with rfl | hm
  · unfold Letter Rune at *; omega
  · have := hds c hm
    unfold Letter Digit Rune at *
    omega

theorem row_left_free {w : Nat} {t : Bool} {r : Record} {row : List Rune} (h : Row w t r row) (hn : RuleName r.name) :
    ∃ left, row = left ++ 61 :: 32 :: r.rule.print ∧ 61 ∉ left ∧ newline ∉ left := by
  obtain ⟨num, k, ⟨z, hz, _, _⟩, rfl, _⟩ := h
  refine ⟨runes "L" ++ num ++ runes ": " ++ ((if r.rule.base.virt then runes "!" else []) ++ r.name
      ++ (if t then runes "[T]" else []) ++ List.replicate k 32) ++ [32], by simp [runes], ?_⟩
  have hnum : ∀ c : Rune, (c < 48 ∨ 57 < c) → c ≠ 45 → c ∉ num := by
    intro c hc hc' hm
    rw [hz, List.mem_append] at hm
    rcases hm with hm | hm
    · have := List.eq_of_mem_replicate hm
      unfold Rune at *; omega
    · have := percentD_chars hm
      unfold Rune at *; omega
  have key : ∀ c : Rune, c = 61 ∨ c = newline → c ∉ runes "L" ++ num ++ runes ": " ++ ((if r.rule.base.virt then runes "!" else []) ++ r.name
      ++ (if t then runes "[T]" else []) ++ List.replicate k 32) ++ [32] := by
    intro c hc hm
    have hrep : c ∉ List.replicate k (32 : Rune) := fun h => by
      have := List.eq_of_mem_replicate h
      unfold newline Rune at *; omega
    have h1 : c ∉ runes "L" ∧ c ∉ runes ": " ∧ c ∉ runes "!" ∧ c ∉ runes "[T]" ∧ c ∉ [(32 : Rune)] := by
      rcases hc with rfl | rfl <;> decide
    have hv : c ∉ (if r.rule.base.virt then runes "!" else []) := by split; exact h1.2.2.1; simp
    have ht : c ∉ (if t then runes "[T]" else []) := by split; exact h1.2.2.2.1; simp
    have hnn : c ∉ num := hnum c (by rcases hc with rfl | rfl <;> decide) (by rcases hc with rfl | rfl <;> decide)
    have hname : c ∉ r.name := name_free hn (by rcases hc with rfl | rfl <;> decide)
    simp only [List.mem_append] at hm
    grind
  exact ⟨key 61 (.inl rfl), key newline (.inr rfl)⟩

/-- What a row says after its first '=' is the definition: read again it writes the rule, if the rule is one that is
printed faithfully. -/
theorem C60_read_back {g : Grammar} (h : WellMade g) {r : Record} (hr : r ∈ g.records) (hf : FaithfulDef (r.rule.setName []))
    {w : Nat} {t : Bool} {row : List Rune} (hrow : Row w t r row) :
    ∃ left right body, row = left ++ 61 :: right ∧ 61 ∉ left ∧ Trimmed right body ∧ Parses r.name body r.rule := by
  obtain ⟨hn, r0, _, h0⟩ := wellMade_names h r hr
  obtain ⟨left, h1, h2, _⟩ := row_left_free hrow hn
  have htr : Trimmed r.rule.print r.rule.print := by
    have := def_trimmed hf
    rwa [print_setName] at this
  refine ⟨left, 32 :: r.rule.print, r.rule.print, h1, h2, ?_, r.rule.setName [], [], ?_, ?_⟩
  · obtain ⟨a, b, e, _, h4, h5⟩ := htr
    exact ⟨[32], [], by simp, by decide, h4, h5⟩
  · have := C36_notation_partial hf
    rwa [print_setName] at this
  · rw [withName_eq, setName_setName, h0, setName_setName]

/-- The lines of what `Serialize(false)` writes, for rules that are printed without newlines. -/
theorem C60_lines {g : Grammar} (h : WellMade g) (hp : ∀ r ∈ g.records, newline ∉ r.rule.print) {o o' : List Record}
    (ho : o.Perm g.records) (ho' : o'.Perm g.records) :
    ∃ (w : Nat) (roots used : List Record) (uses rules : List (List Rune)),
      rows (g.serialize false o o') = [runes "Root Rules: " ++ (roots.map (fun r => r.name ++ runes ",")).flatten, runes "Rule Reference Map: "]
        ++ uses ++ [runes "Rules:"] ++ rules.map (runes "    " ++ ·) ++ [runes "    "] ∧
      (roots ++ used).Perm g.records ∧ (∀ r ∈ roots, IsRoot g.records r) ∧ (∀ r ∈ used, ¬ IsRoot g.records r) ∧
      uses.length = used.length ∧
      (∀ (i : Nat) r row, used[i]? = some r → uses[i]? = some row → UseRow w (usersOf g.records r.name) r row) ∧
      rules.length = g.records.length ∧
      (∀ (i : Nat) r row, g.records[i]? = some r → rules[i]? = some row →
        ∃ t, (t = true ↔ ∃ q ∈ g.terminals, q.name = r.name) ∧ Row w t r row) := by
  obtain ⟨w, roots, used, uses, rules, h1, h2, h3, h4, h5, h6, h7, h8⟩ := C60_text h ho ho'
  refine ⟨w, roots, used, uses, rules, ?_, h2, h3, h4, h5, h6, h7, h8⟩
  have hname : ∀ r ∈ g.records, newline ∉ r.name := fun r hr => name_free (wellMade_names h r hr).1 (by decide)
  have hflat : ∀ l : List Name, (∀ n ∈ l, newline ∉ n) → newline ∉ (l.map (· ++ runes ",")).flatten := by
    intro l hl hm
    obtain ⟨x, hx, hc⟩ := List.mem_flatten.1 hm
    obtain ⟨n, hn, rfl⟩ := List.mem_map.1 hx
    rcases List.mem_append.1 hc with hc | hc
    · exact hl n hn hc
    · exact absurd hc (by decide)
  have hroots : newline ∉ runes "Root Rules: " ++ (roots.map (fun r => r.name ++ runes ",")).flatten := by
    rw [List.mem_append]
    rintro (hm | hm)
    · exact absurd hm (by decide)
    · refine hflat (roots.map Record.name) ?_ (by rwa [List.map_map])
      intro n hn
      obtain ⟨r, hr, rfl⟩ := List.mem_map.1 hn
      exact hname r (h3 r hr).1
  have huses : ∀ row ∈ uses, newline ∉ row := by
    intro row hrow
    obtain ⟨i, hi⟩ := List.mem_iff_getElem?.1 hrow
    have hlt : i < used.length := by
      rw [← h5]; exact (List.getElem?_eq_some_iff.1 hi).1
    obtain ⟨k, rfl, _⟩ := h6 i _ row (List.getElem?_eq_getElem hlt) hi
    have hmem : used[i] ∈ g.records := h2.mem_iff.1 (List.mem_append_right _ (List.getElem_mem hlt))
    simp only [List.mem_append]
    rintro ((((hm | hm) | hm) | hm) | hm)
    · exact absurd hm (by decide)
    · exact hname _ hmem hm
    · exact absurd (List.eq_of_mem_replicate hm) (by decide)
    · exact absurd hm (by decide)
    · refine hflat (usersOf g.records used[i].name) ?_ hm
      intro n hn
      obtain ⟨q, hq, hn⟩ := List.mem_flatMap.1 hn
      obtain ⟨_, _, rfl⟩ := List.mem_map.1 hn
      exact hname q hq
  have hrules : ∀ row ∈ rules, newline ∉ row := by
    intro row hrow
    obtain ⟨i, hi⟩ := List.mem_iff_getElem?.1 hrow
    have hlt : i < g.records.length := by
      rw [← h7]; exact (List.getElem?_eq_some_iff.1 hi).1
    obtain ⟨t, _, hr⟩ := h8 i _ row (List.getElem?_eq_getElem hlt) hi
    have hmem : g.records[i] ∈ g.records := List.getElem_mem hlt
    obtain ⟨left, rfl, _, hl⟩ := row_left_free hr (wellMade_names h _ hmem).1
    rw [List.mem_append]
    rintro (hm | hm)
    · exact hl hm
    · rcases List.mem_cons.1 hm with hm | hm
      · exact absurd hm (by decide)
      · rcases List.mem_cons.1 hm with hm | hm
        · exact absurd hm (by decide)
        · exact hp _ hmem hm
  rw [h1]
  have e1 : runes "\nRule Reference Map: \n" = newline :: (runes "Rule Reference Map: " ++ [newline]) := rfl
  have e2 : runes "Rules:\n    " = runes "Rules:" ++ newline :: runes "    " := rfl
  have e3 : runes "\n    " = newline :: runes "    " := rfl
  have r1 := rows_flatten uses (runes "Rules:" ++ newline :: (runes "    " ++ (rules.map (· ++ newline :: runes "    ")).flatten)) huses
    (suffix := []) (by simp)
  have r2 := rows_flatten rules [] hrules (suffix := runes "    ") (by decide)
  simp only [List.nil_append, List.append_nil] at r1 r2
  rw [e1, e2, e3]
  simp only [List.append_assoc, List.cons_append, List.nil_append]
  rw [← List.append_assoc, rows_newline, rows_one hroots, rows_newline, rows_one (by decide), r1, rows_newline, r2,
    rows_one (by decide), rows_one (by decide)]
  simp

/-! ## Outlines -/

theorem ruled_one {a b l : List Rune} {ls : List (List Rune)} : ruled a b (l :: ls) = (a ++ l) :: ls.map (b ++ ·) := rfl

theorem rows_outlines (ind : List Rune) {P : Rule → List (List Rune)} : ∀ (rs : List Rule) (a : List Rune) (_ : ∀ r ∈ rs, rows (r.outline ind) = P r),
    rows (a ++ outlines ind rs) = rows a ++ rs.flatMap P
  | [], a, _ => by simp [outlines]
  | r :: rs, a, h => by
    rw [outlines, ← List.append_assoc, rows_outlines ind rs _ (fun q hq => h q (by simp [hq])), rows_newline, h r (by simp)]
    simp

theorem rows_outlineGroups (ind : List Rune) {P : Rule → List (List Rune)} : ∀ (gs : List (List Rule)) (a : List Rune)
    (_ : ∀ g ∈ gs, ∀ r ∈ g, rows (r.outline ind) = P r), rows (a ++ outlineGroups ind gs) = rows a ++ gs.flatMap (fun g => g.flatMap P)
  | [], a, _ => by simp [outlineGroups]
  | g :: gs, a, h => by
    rw [outlineGroups, ← List.append_assoc, rows_outlineGroups ind gs _ (fun q hq => h q (by simp [hq])), rows_outlines ind g a (h g (by simp))]
    simp

theorem layoutL_eq (d : Nat) : ∀ rs, layoutL d rs = rs.flatMap (layout d)
  | [] => by simp [layoutL]
  | r :: rs => by rw [layoutL, layoutL_eq d rs]; simp

theorem layoutLL_eq (d : Nat) : ∀ gs, layoutLL d gs = gs.flatMap (fun g => g.flatMap (layout d))
  | [] => by simp [layoutLL]
  | g :: gs => by rw [layoutLL, layoutL_eq, layoutLL_eq d gs]; simp

theorem flatMap_ext {α β : Type} {l : List α} {f g : α → List β} (h : ∀ a ∈ l, f a = g a) : l.flatMap f = l.flatMap g := by
  induction l with
  | nil => rfl
  | cons a l ih => rw [List.flatMap_cons, List.flatMap_cons, h a (by simp), ih (fun b hb => h b (by simp [hb]))]

theorem layout_bump {r : Rule} (h : WellFormed r) : ∀ d, layout (d + 1) r = (layout d r).map (fun p => (p.1 + 1, p.2)) := by
  induction h with
  | group _ _ ih => intro d; simp [layout, ih (d + 1)]
  | option _ _ ih => intro d; simp [layout, ih (d + 1)]
  | rep _ _ _ _ _ ih => intro d; simp [layout, ih (d + 1)]
  | choice _ _ _ _ ih =>
    intro d
    simp only [layout, layoutLL_eq, List.map_cons, List.map_flatMap]
    congr 1
    exact flatMap_ext (fun g hg => flatMap_ext (fun r hr => ih g hg r hr _))
  | concat _ _ _ ih =>
    intro d
    simp only [layout, layoutL_eq, List.map_cons, List.map_flatMap]
    congr 1
    exact flatMap_ext (fun r hr => ih r hr _)
  | _ => intro d; simp [layout]

/-- A line of an outline at its depth. -/
def atDepth (ind : List Rune) (p : Nat × List Rune) : List Rune := (List.replicate p.1 ind).flatten ++ p.2

theorem atDepth_bump {ind : List Rune} (l : List (Nat × List Rune)) :
    (l.map (fun p => (p.1 + 1, p.2))).map (atDepth ind) = (l.map (atDepth ind)).map (ind ++ ·) := by
  rw [List.map_map, List.map_map]
  apply List.map_congr_left
  intro p _
  simp [atDepth, List.replicate_succ]

theorem outline_rows {ind : List Rune} (hi : newline ∉ ind) {r : Rule} (h : WellFormed r) :
    (∀ p ∈ layout 0 r, newline ∉ p.2) → rows (r.outline ind) = (layout 0 r).map (atDepth ind) := by
  have heads : newline ∉ runes "group:" ∧ newline ∉ runes "option:" ∧ newline ∉ runes "choice:" ∧ newline ∉ runes "concatenate:" := by decide
  induction h with
  | @group b r _ hr ih =>
    intro hl
    have hb : ∀ p ∈ layout 0 r, newline ∉ p.2 := fun p hp => hl (p.1 + 1, p.2) (by
      rw [layout, layout_bump hr]; exact List.mem_cons_of_mem _ (List.mem_map.2 ⟨p, hp, rfl⟩))
    rw [Rule.outline, rows_indent hi, rows_newline, ih hb, rows_one heads.1, layout, layout_bump hr, List.map_cons, atDepth_bump]
    rfl
  | @option b r _ hr ih =>
    intro hl
    have hb : ∀ p ∈ layout 0 r, newline ∉ p.2 := fun p hp => hl (p.1 + 1, p.2) (by
      rw [layout, layout_bump hr]; exact List.mem_cons_of_mem _ (List.mem_map.2 ⟨p, hp, rfl⟩))
    rw [Rule.outline, rows_indent hi, rows_newline, ih hb, rows_one heads.2.1, layout, layout_bump hr, List.map_cons, atDepth_bump]
    rfl
  | @rep b r mn mx _ hr _ _ _ ih =>
    intro hl
    have hb : ∀ p ∈ layout 0 r, newline ∉ p.2 := fun p hp => hl (p.1 + 1, p.2) (by
      rw [layout, layout_bump hr]; exact List.mem_cons_of_mem _ (List.mem_map.2 ⟨p, hp, rfl⟩))
    have hh : newline ∉ runes "repetition" ++ printSpec mn mx ++ runes ":" := hl (0, _) (by rw [layout]; exact List.mem_cons_self)
    rw [Rule.outline, rows_indent hi, rows_newline, ih hb, rows_one hh, layout, layout_bump hr, List.map_cons, atDepth_bump]
    rfl
  | @choice b gs _ _ hr _ ih =>
    intro hl
    have hb : ∀ g ∈ gs, ∀ r ∈ g, ∀ p ∈ layout 0 r, newline ∉ p.2 := fun g hg r hrg p hp => hl (p.1 + 1, p.2) (by
      rw [layout, layoutLL_eq]
      refine List.mem_cons_of_mem _ (List.mem_flatMap.2 ⟨g, hg, List.mem_flatMap.2 ⟨r, hrg, ?_⟩⟩)
      rw [layout_bump (hr g hg r hrg)]
      exact List.mem_map.2 ⟨p, hp, rfl⟩)
    rw [Rule.outline, rows_indent hi, rows_outlineGroups ind gs _ (fun g hg r hrg => ih g hg r hrg (hb g hg r hrg)), rows_one heads.2.2.1,
      layout, layoutLL_eq, List.map_cons, List.map_flatMap]
    rw [List.singleton_append, ruled_one, List.map_flatMap]
    congr 1
    refine flatMap_ext (fun g hg => ?_)
    rw [List.map_flatMap, List.map_flatMap]
    refine flatMap_ext (fun r hrg => ?_)
    rw [layout_bump (hr g hg r hrg), atDepth_bump]
  | @concat b rs _ hr h2 ih =>
    intro hl
    have hb : ∀ r ∈ rs, ∀ p ∈ layout 0 r, newline ∉ p.2 := fun r hrg p hp => hl (p.1 + 1, p.2) (by
      rw [layout, layoutL_eq]
      refine List.mem_cons_of_mem _ (List.mem_flatMap.2 ⟨r, hrg, ?_⟩)
      rw [layout_bump (hr r hrg)]
      exact List.mem_map.2 ⟨p, hp, rfl⟩)
    rw [Rule.outline, if_neg (by omega), rows_indent hi, rows_outlines ind rs _ (fun r hrg => ih r hrg (hb r hrg)), rows_one heads.2.2.2,
      layout, layoutL_eq, List.map_cons, List.map_flatMap]
    rw [List.singleton_append, ruled_one, List.map_flatMap]
    congr 1
    refine flatMap_ext (fun r hrg => ?_)
    rw [layout_bump (hr r hrg), atDepth_bump]
  | @block b o v c e x _ _ _ _ _ =>
    intro hl
    have := hl _ (by rw [layout]; exact List.mem_cons_self)
    simp only [heading] at this
    rw [Rule.outline, layout, rows_one (by rw [List.mem_append]; rintro (h | h); exact hi h; exact this h)]
    simp [atDepth, heading]
  | eof | char | range | chars | str | ref =>
    intro hl
    have := hl _ (by rw [layout]; exact List.mem_cons_self)
    simp only [heading] at this
    rw [Rule.outline, layout, rows_one this]
    simp [atDepth, heading]

theorem outline_setName (ind : List Rune) (n : Name) (r : Rule) : (r.setName n).outline ind = r.outline ind := by
  have := print_setName n r
  cases r <;> simp_all [Rule.setName, Rule.setBase, Rule.outline]

theorem wellFormed_unnamed {r : Rule} (h : WellFormed r) : r.setName [] = r := by
  have hb : ∀ {b : RuleBase}, b.name = [] → { b with name := [] } = b := by
    intro b hb
    cases b
    simp only at hb
    rw [hb]
  cases h <;> simp only [Rule.setName, Rule.setBase, Rule.base, hb ‹_›]

/-- The outline that `Serialize(true)` adds has a line for every part of the rule, indented by its depth (`layout`). -/
theorem C60_outline {g : Grammar} (h : WellMade g) {r : Record} (hr : r ∈ g.records) {ind : List Rune} (hi : newline ∉ ind)
    (hl : ∀ p ∈ layout 0 (r.rule.setName []), newline ∉ p.2) :
    rows (r.rule.outline ind) = (layout 0 (r.rule.setName [])).map (fun p => (List.replicate p.1 ind).flatten ++ p.2) := by
  obtain ⟨_, r0, hw, h0⟩ := wellMade_names h r hr
  have hs : r.rule.setName [] = r0 := by
    rw [h0, setName_setName, wellFormed_unnamed hw]
  rw [hs] at hl ⊢
  rw [← outline_setName ind [] r.rule, hs]
  exact outline_rows hi hw hl

/-- With details every rule is followed by its outline: a line for each part, indented by its depth. -/
theorem C60_detail {g : Grammar} (h : WellMade g) {o o' : List Record} (ho : o.Perm g.records)
    (hp : ∀ r ∈ g.records, newline ∉ r.rule.print ∧ ∀ p ∈ layout 0 (r.rule.setName []), newline ∉ p.2) :
    ∃ (w : Nat) (relations : List Rune) (entries : List (List Rune)),
      g.serialize true o o' = relations ++ runes "Rules:\n    " ++ entries.flatten ∧ entries.length = g.records.length ∧
      ∀ (i : Nat) r e, g.records[i]? = some r → entries[i]? = some e →
        ∃ t row, (t = true ↔ ∃ q ∈ g.terminals, q.name = r.name) ∧ Row w t r row ∧
          rows e = row :: (layout 0 (r.rule.setName [])).map (fun p => (List.replicate (p.1 + 1) (runes "    ")).flatten ++ p.2) ++ [[]] := by
  refine ⟨widest g.records + 4, _, g.records.map (g.entry (widest g.records + 4) true), serialize_eq (reachable_numbered h.reachable) ho o' true,
    by simp, ?_⟩
  intro i r e hr he
  rw [List.getElem?_map, hr] at he
  simp only [Option.map_some, Option.some.injEq] at he
  subst he
  have hmem : r ∈ g.records := List.mem_of_getElem? hr
  obtain ⟨row, h1, h2⟩ := entry_row g _ r ((widest_facts g).1 r hmem)
  refine ⟨_, row, terminal_iff g r, h2, ?_⟩
  have hentry : g.entry (widest g.records + 4) true r = row ++ newline :: (runes "    " ++ indent (runes "    ") (r.rule.outline (runes "    "))) ++ newline :: [] := by
    have : g.entry (widest g.records + 4) true r = g.entry (widest g.records + 4) false r ++ (indent (runes "    ") (r.rule.outline (runes "    ")) ++ [newline]) := by
      unfold entry
      simp
    rw [this, h1, show runes "\n    " = newline :: runes "    " from rfl]
    simp
  have hrow : newline ∉ row := by
    obtain ⟨left, rfl, _, hl⟩ := row_left_free h2 (wellMade_names h r hmem).1
    rw [List.mem_append]
    rintro (hm | hm)
    · exact hl hm
    · rcases List.mem_cons.1 hm with hm | hm
      · exact absurd hm (by decide)
      · rcases List.mem_cons.1 hm with hm | hm
        · exact absurd hm (by decide)
        · exact (hp r hmem).1 hm
  have hout := C60_outline h hmem (ind := runes "    ") (by decide) (hp r hmem).2
  rw [hentry, rows_newline, rows_newline, rows_one hrow, rows_branch (by decide) (by decide), hout]
  obtain ⟨p, ps, hps⟩ : ∃ p ps, layout 0 (r.rule.setName []) = p :: ps := by
    cases r.rule.setName [] <;> simp [layout]
  rw [hps]
  simp [ruled_one, rows, List.replicate_succ]

/-! ## Results of evaluations -/

/-- The text of an error of `EvalRule` can always be written, for every grammar that a program can have. -/
theorem C57_message_reachable {g : Grammar} (hg : Reachable g) {fuel : Nat} {name : Name} {sample : List Rune} {res : Res} {e : Err}
    (h : g.evalRule fuel name sample = .ok res) (he : res.error = some e) : ∃ m, e.message = .ok m := by
  have held : ∀ n r, g.getRecord n = some r → Held r.rule := by
    intro n r hr
    obtain ⟨_, r0, h1, h2⟩ := reachable_names hg r (List.mem_of_find?_eq_some hr)
    exact ⟨r0, r.name, h1, h2⟩
  rcases C57_explained_evalRule h he with ⟨_, rfl⟩ | ⟨r, hr, hx⟩
  · exact ⟨_, rfl⟩
  · refine message_ok ?_ hx (held _ _ hr)
    intro n q hq
    unfold Grammar.env at hq
    cases hr : g.getRecord n with
    | none => rw [hr] at hq; cases hq
    | some r' => rw [hr] at hq; cases hq; exact held _ _ hr

theorem rows_four (a b c d : List Rune) (ha : newline ∉ a) :
    rows (a ++ newline :: (b ++ newline :: (c ++ newline :: d))) = a :: rows b ++ rows c ++ rows d := by
  rw [rows_newline, rows_newline, rows_newline, rows_one ha]
  simp

/-- What `EvalResult.StringTree` writes about the result of `EvalRule`: the characters, then the tree of the node, or the
error.  It never panics. -/
theorem C54_result {g : Grammar} (hg : Reachable g) {fuel : Nat} {name : Name} {sample : List Rune} {res : Res}
    (h : g.evalRule fuel name sample = .ok res) (cfg : TreeConfig) :
    ∃ text last, res.stringTree cfg = .ok text ∧
      rows text = runes "EvalResult" :: rows (runes "├───CharsRead[" ++ percentD res.read.length ++ runes "]  :" ++ res.read.map viaUTF8 ++ runes "*")
        ++ rows (runes "├───CharsUnused[" ++ percentD res.unused.length ++ runes "]:" ++ res.unused.map viaUTF8 ++ runes "*") ++ last ∧
      (∀ n, res.node = some n → last = ruled (runes "└───Node: ") (runes "    ") (rows (n.stringTree cfg))) ∧
      (res.node = none → ∃ m, last = rows (runes "└───Node: nil" ++ m) ∧
        ((res.error = none ∧ m = []) ∨ ∃ e t, res.error = some e ∧ e.message = .ok t ∧ m = runes "; " ++ t)) := by
  have head : ∀ rest, rows (runes "EvalResult" ++ runes "\n├───CharsRead[" ++ percentD res.read.length ++ runes "]  :" ++ res.read.map viaUTF8 ++ runes "*"
      ++ runes "\n├───CharsUnused[" ++ percentD res.unused.length ++ runes "]:" ++ res.unused.map viaUTF8 ++ runes "*" ++ newline :: rest) =
      runes "EvalResult" :: rows (runes "├───CharsRead[" ++ percentD res.read.length ++ runes "]  :" ++ res.read.map viaUTF8 ++ runes "*")
        ++ rows (runes "├───CharsUnused[" ++ percentD res.unused.length ++ runes "]:" ++ res.unused.map viaUTF8 ++ runes "*") ++ rows rest := by
    intro rest
    rw [← rows_four _ _ _ _ (by decide), show runes "\n├───CharsUnused[" = newline :: runes "├───CharsUnused[" from rfl,
      show runes "\n├───CharsRead[" = newline :: runes "├───CharsRead[" from rfl]
    simp only [List.append_assoc, List.cons_append]
  unfold Res.stringTree
  simp only
  cases hn : res.node with
  | some n =>
    refine ⟨_, ruled (runes "└───Node: ") (runes "    ") (rows (n.stringTree cfg)), rfl, ?_, (fun m hm => by cases hm; rfl), (fun h => by cases h)⟩
    rw [← rows_branch (by decide) (by decide), ← head,
      show runes "\n└───Node: " = newline :: runes "└───Node: " from rfl]
    simp only [List.append_assoc, List.cons_append]
  | none =>
    cases he : res.error with
    | none =>
      refine ⟨_, rows (runes "└───Node: nil"), rfl, ?_, (fun m hm => by cases hm), fun _ => ⟨[], by simp, .inl ⟨rfl, rfl⟩⟩⟩
      rw [← head, show runes "\n└───Node: nil" = newline :: runes "└───Node: nil" from rfl]
    | some e =>
      obtain ⟨t, ht⟩ := C57_message_reachable hg h he
      simp only [ht]
      refine ⟨_, rows (runes "└───Node: nil" ++ (runes "; " ++ t)), rfl, ?_, (fun m hm => by cases hm),
        fun _ => ⟨_, rfl, .inr ⟨e, t, rfl, ht, rfl⟩⟩⟩
      rw [← head, show runes "\n└───Node: nil" = newline :: runes "└───Node: nil" from rfl]
      simp only [List.append_assoc, List.cons_append]

/-! ## Cases -/

/-- Sums: a comment, an empty line, a virtual rule. -/
def sumsText : List Rune := runes "// sums\nsum = term { '+' term }\nterm = ~digits | '(' \n\ndigits = ~{'0'-'9'}+"

def grammarOf (text : List Rune) : Grammar :=
  match fromString (text.length + 2) text with
  | .ok g _ => g
  | _ => {}

theorem accepted_grammarOf {text : List Rune} (h : (match fromString (text.length + 2) text with | .ok _ _ => true | _ => false) = true) :
    Accepted text (grammarOf text) := by
  unfold grammarOf
  cases hf : fromString (text.length + 2) text with
  | ok g g' => exact ⟨_, g', hf⟩
  | err e g => rw [hf] at h; cases h
  | oof => rw [hf] at h; cases h

theorem wellMade_grammarOf {text : List Rune} (h : (match fromString (text.length + 2) text with | .ok _ _ => true | _ => false) = true) :
    WellMade (grammarOf text) := ⟨_, .inr ⟨text, accepted_grammarOf h⟩, .done⟩

theorem sums_made : WellMade (grammarOf sumsText) := wellMade_grammarOf (by decide +kernel)

/-- What is written for it, whatever the order of the maps: here the roots and references in reverse order. -/
example : (grammarOf sumsText).serialize false (grammarOf sumsText).records (grammarOf sumsText).records.reverse =
    runes "Root Rules: sum,\nRule Reference Map: \n    digits    : term,\n    term      : sum,sum,\nRules:\n    L0002: sum        = term { '+' term }\n    L0003: term       = ~digits | '('\n    L0005: !digits[T] = ~{ '0'-'9' }+\n    " := by
  decide +kernel

/-- The hypotheses of `C60_lines` and `C60_detail` hold for it. -/
example : ∀ r ∈ (grammarOf sumsText).records, newline ∉ r.rule.print ∧ ∀ p ∈ layout 0 (r.rule.setName []), newline ∉ p.2 := by
  decide +kernel

/-- With details. -/
example : (grammarOf (runes "a = [ 'x' ] <'(' ')'>")).serialize true (grammarOf (runes "a = [ 'x' ] <'(' ')'>")).records
    (grammarOf (runes "a = [ 'x' ] <'(' ')'>")).records =
    runes "Root Rules: a,\nRule Reference Map: \nRules:\n    L0001: a[T]  = [ 'x' ] <'(' ')'>\n    concatenate:\n        option:\n            char:'x'\n            <'(' ')'>\n" := by
  decide +kernel

/-- `C60_marks` for a rule that refers to others, and one that does not. -/
example : ∃ g', (grammarOf sumsText).validate = some g' ∧ (∃ r ∈ g'.records, refs r.rule = []) ∧ ∃ r ∈ g'.records, refs r.rule ≠ [] := by
  have h : ((grammarOf sumsText).validate.map (fun g' => decide ((∃ r ∈ g'.records, refs r.rule = []) ∧ ∃ r ∈ g'.records, refs r.rule ≠ []))) = some true := by
    decide +kernel
  cases hv : (grammarOf sumsText).validate with
  | none => rw [hv] at h; cases h
  | some g' => rw [hv] at h; exact ⟨g', rfl, by simpa using h⟩

/-- `C60_read_back`: a row of a rule that is printed faithfully. -/
example : ∃ r ∈ (grammarOf (runes "a = b 'x'\nb = 'y'")).records, r.rule = .char { name := runes "b" } 121 false ∧ FaithfulDef (r.rule.setName []) ∧
    Row 5 true r (runes "L0002: b[T]  = 'y'") := by
  have h : ∃ r ∈ (grammarOf (runes "a = b 'x'\nb = 'y'")).records, r.rule = .char { name := runes "b" } 121 false ∧ r.line = 2 ∧ r.name = runes "b" := by
    decide +kernel
  obtain ⟨r, hr, h1, h2, h3⟩ := h
  refine ⟨r, hr, h1, ?_, ?_⟩
  · rw [h1]
    exact .part (.simple (.char rfl (by unfold Scalar; decide)))
  · refine ⟨runes "0002", 1, ⟨3, ?_, by decide, fun _ => rfl⟩, ?_, ?_⟩
    · rw [h2]; decide +kernel
    · rw [h1, h3]; decide +kernel
    · rw [h1, h3]; decide +kernel

/-- Without the hypothesis of `C60_lines` the lines are others: the newline of a literal is written as it is, and the
definition of `a` takes two lines. -/
theorem C60_newline_counterexample : WellMade (grammarOf (runes "a = \"x\\u000Ay\"")) ∧
    rows ((grammarOf (runes "a = \"x\\u000Ay\"")).serialize false (grammarOf (runes "a = \"x\\u000Ay\"")).records
      (grammarOf (runes "a = \"x\\u000Ay\"")).records) =
      [runes "Root Rules: a,", runes "Rule Reference Map: ", runes "Rules:", runes "    L0001: a[T]  = \"x", runes "y\"", runes "    "] :=
  ⟨wellMade_grammarOf (by decide +kernel), by decide +kernel⟩

/-- A definition that is rejected leaves its references behind: `a` is listed as used by a rule `b` that is not there, and not
as a root rule, which it is. -/
theorem C60_rejected_counterexample : ∃ g, DefCalls {} g ∧ (∀ r ∈ g.records, r.name = runes "a") ∧ g.records.length = 1 ∧
    g.serialize false g.records g.records =
      runes "Root Rules: \nRule Reference Map: \n    a    : b,\nRules:\n    L0001: a     = 'x'\n    " := by
  refine ⟨after (addRule 30 (runes "b = a ] ") (after (addRule 30 (runes "a = 'x'") {}) {})) (after (addRule 30 (runes "a = 'x'") {}) {}),
    calls_trans (call_after 30 (runes "a = 'x'") {}) (call_after 30 (runes "b = a ] ") _), by decide +kernel, by decide +kernel, by decide +kernel⟩

/-- `C54_result`: a result with a node, and one with an error. -/
example : ∃ res, (grammarOf sumsText).evalRule 60 (runes "digits") (runes "1") = .ok res ∧ res.node.isSome = true := by
  have h : (match (grammarOf sumsText).evalRule 60 (runes "digits") (runes "1") with | .ok res => res.node.isSome | _ => false) = true := by decide +kernel
  cases he : (grammarOf sumsText).evalRule 60 (runes "digits") (runes "1") with
  | ok res => rw [he] at h; exact ⟨res, rfl, h⟩
  | panic => rw [he] at h; cases h
  | oof => rw [he] at h; cases h
example : ∃ res e, (grammarOf sumsText).evalRule 60 (runes "sum") (runes "+") = .ok res ∧ res.node = none ∧ res.error = some e := by
  have h : (match (grammarOf sumsText).evalRule 60 (runes "sum") (runes "+") with | .ok res => res.node.isNone && res.error.isSome | _ => false) = true := by decide +kernel
  cases he : (grammarOf sumsText).evalRule 60 (runes "sum") (runes "+") with
  | ok res =>
    rw [he] at h
    simp only [Bool.and_eq_true, Option.isNone_iff_eq_none, Option.isSome_iff_exists] at h
    obtain ⟨h1, e, h2⟩ := h
    exact ⟨res, e, rfl, h1, h2⟩
  | panic => rw [he] at h; cases h
  | oof => rw [he] at h; cases h

end Xbnf.Props
