import Verif.Lemmas.Parse
import Verif.Props.Streams
import Verif.Spec.Calls
/-
C31, C34, C35, C37, C38: what holds of every definition and every history of calls.
-/
namespace Xbnf.Props
open Spec Grammar

/-- The definition parser reads a stream; the model reads the list of characters left.  This is the
same: on any stream the three methods the parser calls are `peekR`, `pNext` and `skipR` on that list. -/
theorem parser_reads {s : Stream} (h : Built s) :
    s.peek = peekR s.rem ∧ s.next.1 = peekR s.rem ∧ s.next.2.rem = s.rem.tail ∧ s.skipSpaces.2.rem = skipR s.rem := by
  have hn := s.next_spec h.ok.1
  have hs := s.skipSpaces_spec h.ok.1
  refine ⟨s.peek_rem h.ok.1, hn.1, ?_, ?_⟩
  · rw [hn.2.rem]; cases s.rem <;> simp
  · rw [hs.2.rem, drop_takeWhile_length]; rfl

/-! ## C34 -/

/-- `parse` answers every text whatsoever, given fuel for its length, and the answer does not depend
on how much more fuel there is. -/
theorem C34_parse_ends (name : Name) (terms : List Rune) (st : PState) (fuel : Nat) (h : st.rest.length + 2 ≤ fuel) :
    parse fuel name terms st ≠ .oof ∧
    parse fuel name terms st = parse (st.rest.length + 2) name terms st := by
  have hc := parse_contract name st.rest.length terms st (Nat.le_refl _)
  have hne : parse (st.rest.length + 2) name terms st ≠ .oof := by
    intro h0
    unfold wp at hc
    rw [h0] at hc
    exact hc
  have := parse_more h hne
  exact ⟨by rw [this]; exact hne, this⟩

theorem trim_le (l : List Rune) : (trimSpace l).length ≤ l.length := by
  unfold trimSpace
  rw [List.length_reverse]
  have h1 := (List.dropWhile_suffix isWhiteSpace (l := (l.dropWhile isWhiteSpace).reverse)).length_le
  have h2 := (List.dropWhile_suffix isWhiteSpace (l := l)).length_le
  rw [List.length_reverse] at h1
  omega

/-- `ParseRule` answers every text, in every grammar. -/
theorem C34_parseRule_ends (name : Name) (text : List Rune) (g : Grammar) (fuel : Nat) (h : text.length + 2 ≤ fuel) :
    parseRule fuel name text g ≠ .oof := by
  unfold parseRule
  split
  · intro h; cases h
  · split
    · intro h; cases h
    · have := (C34_parse_ends name [EOFChar] { rest := trimSpace text } fuel (by
        have := trim_le text; simp only; omega)).1
      split
      · rename_i h0; exact absurd h0 this
      · intro h; cases h
      · intro h; cases h

theorem splitEq_le : ∀ {l n b : List Rune}, splitEq l = some (n, b) → n.length + b.length < l.length
  | [], _, _, h => by cases h
  | c :: cs, n, b, h => by
    unfold splitEq at h
    split at h
    · cases h; simp
    · cases hs : splitEq cs with
      | none => rw [hs] at h; cases h
      | some p =>
        obtain ⟨n', b'⟩ := p
        rw [hs] at h
        simp only [Option.map_some, Option.some.injEq, Prod.mk.injEq] at h
        obtain ⟨rfl, rfl⟩ := h
        have := splitEq_le hs
        simp only [List.length_cons]; omega

/-- `AddRule` answers every text, in every grammar. -/
theorem C34_addRule_ends (text : List Rune) (g : Grammar) (fuel : Nat) (h : text.length + 2 ≤ fuel) :
    addRule fuel text g ≠ .oof := by
  unfold addRule
  split
  · intro h; cases h
  · rename_i n b hs
    have := splitEq_le hs
    have := trim_le b
    exact C34_parseRule_ends _ _ g fuel (by omega)

theorem splitLines_sum : ∀ l : List Rune, ∀ x ∈ splitLines l, x.length ≤ l.length
  | [], x, h => by
    simp only [splitLines, List.mem_singleton] at h
    rw [h]; exact Nat.le_refl _
  | c :: cs, x, h => by
    have ih := splitLines_sum cs
    unfold splitLines at h
    cases hs : splitLines cs with
    | nil => rw [hs] at h; simp at h; rw [h]; simp
    | cons l ls =>
      rw [hs] at h ih
      simp only at h
      split at h
      · rcases List.mem_cons.1 h with rfl | h
        · simp
        · have := ih x h; simp only [List.length_cons]; omega
      · rcases List.mem_cons.1 h with rfl | h
        · have := ih l List.mem_cons_self; simp only [List.length_cons]; omega
        · have := ih x (List.mem_cons_of_mem _ h); simp only [List.length_cons]; omega

theorem linesLoop_ends (fuel : Nat) : ∀ (ls : List (List Rune)) (i : Nat) (g : Grammar),
    (∀ l ∈ ls, l.length + 2 ≤ fuel) → linesLoop fuel i ls g ≠ .oof
  | [], _, _, _ => by intro h; cases h
  | l :: ls, i, g, h => by
    have ih := fun g => linesLoop_ends fuel ls (i + 1) g (fun x hx => h x (List.mem_cons_of_mem _ hx))
    unfold linesLoop
    simp only
    split
    · exact ih _
    · split
      · intro h; cases h
      · rename_i n b hs
        have h1 := splitEq_le hs
        have h2 := trim_le l
        have h3 := trim_le b
        have h4 := h l List.mem_cons_self
        have h5 := C34_parseRule_ends (trimSpace n) (trimSpace b) g fuel (by omega)
        split
        · rename_i h0; exact absurd h0 h5
        · intro h; cases h
        · exact ih _

/-- `NewGrammarFromString` answers every text. -/
theorem C34_fromString_ends (text : List Rune) (fuel : Nat) (h : text.length + 2 ≤ fuel) :
    fromString fuel text ≠ .oof := by
  unfold fromString
  have := linesLoop_ends fuel (splitLines text) 0 {} (fun l hl => by have := splitLines_sum text l hl; omega)
  split
  · rename_i h0; exact absurd h0 this
  · intro h; cases h
  · split
    · intro h; cases h
    · intro h; cases h

/-! ## What one call does -/

/-- Every answer of `parse` to every text: the rule is well-formed and its references are recorded, in
order; an error leaves the references seen so far recorded. -/
theorem parse_any {fuel : Nat} {name : Name} {terms : List Rune} {st : PState} :
    match parse fuel name terms st with
    | .ok r st' => WellFormed r ∧ st'.usages = st.usages ++ tag name (refs r)
    | .err _ st' => Left name st st'
    | .oof => True := by
  by_cases hne : parse fuel name terms st = .oof
  · rw [hne]; trivial
  · have h1 := parse_more (m := fuel + (st.rest.length + 2)) (Nat.le_add_right _ _) hne
    have h2 := (C34_parse_ends name terms st (fuel + (st.rest.length + 2)) (Nat.le_add_left _ _)).2
    have hc := parse_contract name st.rest.length terms st (Nat.le_refl _)
    unfold wp at hc
    rw [← h2, h1] at hc
    cases hp : parse fuel name terms st with
    | oof => trivial
    | ok r st' => rw [hp] at hc; exact hc.2
    | err e st' => rw [hp] at hc; exact hc

/-- Every rule the parser builds is well-formed. -/
theorem C38_well_formed {fuel : Nat} {name : Name} {terms : List Rune} {st st' : PState} {r : Rule}
    (h : parse fuel name terms st = .ok r st') : WellFormed r := by
  have := parse_any (fuel := fuel) (name := name) (terms := terms) (st := st)
  rw [h] at this
  exact this.1

/-- The references recorded while a rule is parsed are the references of the rule, in order. -/
theorem C32_references_recorded {fuel : Nat} {name : Name} {terms : List Rune} {st st' : PState} {r : Rule}
    (h : parse fuel name terms st = .ok r st') : st'.usages = st.usages ++ (refs r).map (fun n => (n, name)) := by
  have := parse_any (fuel := fuel) (name := name) (terms := terms) (st := st)
  rw [h] at this
  exact this.2

theorem validName_iff (n : Name) : validName n = true ↔ RuleName n := by
  cases n with
  | nil => simp [validName, RuleName]
  | cons c cs =>
    simp only [validName, Bool.and_eq_true, letter_iff, List.all_eq_true, nameChar_iff, RuleName]
    constructor
    · rintro ⟨h1, h2⟩; exact ⟨c, cs, rfl, h1, h2⟩
    · rintro ⟨d, ds, h, h1, h2⟩
      obtain ⟨rfl, rfl⟩ := List.cons.inj h
      exact ⟨h1, h2⟩

/-- The keys of the map of usages. -/
def used (g : Grammar) : List Name := g.nonRoots.map (·.1)

theorem addUsage_keys (key user : Name) : ∀ m, ∀ k, k ∈ (addUsage m key user).map (·.1) ↔ k ∈ m.map (·.1) ∨ k = key
  | [], k => by simp [addUsage]
  | (k', us) :: m, k => by
    unfold addUsage
    split
    · rename_i hk
      subst hk
      simp only [List.map_cons, List.mem_cons]
      constructor
      · exact .inl
      · rintro (h | h)
        · exact h
        · exact .inl h
    · simp only [List.map_cons, List.mem_cons, addUsage_keys key user m k, or_assoc]

theorem withUsages_keys (g : Grammar) (us : List (Name × Name)) (k : Name) :
    k ∈ used (g.withUsages us) ↔ k ∈ used g ∨ k ∈ us.map (·.1) := by
  unfold used withUsages
  simp only
  generalize g.nonRoots = m
  induction us generalizing m with
  | nil => simp
  | cons u us ih =>
    rw [List.foldl_cons, ih, addUsage_keys]
    simp only [List.map_cons, List.mem_cons, or_assoc]

/-- What `ParseRule` does. -/
theorem parseRule_cases {fuel : Nat} {name : Name} {text : List Rune} {g : Grammar} :
    match parseRule fuel name text g with
    | .oof => True
    | .ok r g' => RuleName name ∧ g.getRecord name = none ∧ ∃ r0, WellFormed r0 ∧ r = r0.setName name ∧
        (∃ st, parse fuel name [EOFChar] { rest := trimSpace text } = .ok r0 st) ∧
        g' = { g.withUsages (tag name (refs r)) with maxLine := g.maxLine + 1, records := g.records ++ [⟨name, r, g.maxLine + 1⟩] }
    | .err e g' => (¬ RuleName name ∧ e = .badName name ∧ g' = g) ∨
        (∃ r, g.getRecord name = some r ∧ e = .duplicate name r.line ∧ g' = g) ∨
        (RuleName name ∧ g.getRecord name = none ∧
          ∃ us, (∃ st, parse fuel name [EOFChar] { rest := trimSpace text } = .err e st ∧ st.usages = us) ∧ g' = g.withUsages us) := by
  unfold parseRule
  by_cases hv : validName name = false
  · rw [if_pos hv]
    refine .inl ⟨?_, rfl, rfl⟩
    rw [← validName_iff, hv]
    simp
  · rw [if_neg hv]
    have hv : RuleName name := by rw [← validName_iff]; simpa using hv
    cases hg : g.getRecord name with
    | some r => exact .inr (.inl ⟨r, rfl, rfl, rfl⟩)
    | none =>
      simp only
      have ha := parse_any (fuel := fuel) (name := name) (terms := [EOFChar]) (st := { rest := trimSpace text })
      cases hp : parse fuel name [EOFChar] { rest := trimSpace text } with
      | oof => trivial
      | err e st =>
        simp only
        exact .inr (.inr ⟨hv, trivial, _, ⟨st, rfl, rfl⟩, rfl⟩)
      | ok r st =>
        rw [hp] at ha
        simp only at ha ⊢
        refine ⟨hv, trivial, r, ha.1, rfl, ⟨st, rfl⟩, ?_⟩
        have : st.usages = tag name (refs (r.setName name)) := by
          rw [ha.2, Rule.setName, refs_setBase]; rfl
        rw [this]
        rfl

/-- `AddRule` is `ParseRule`, or changes nothing. -/
theorem addRule_cases {fuel : Nat} {text : List Rune} {g : Grammar} :
    addRule fuel text g = .err (.missingEq text) g ∨ ∃ n b, addRule fuel text g = parseRule fuel n b g := by
  unfold addRule
  split
  · exact .inl rfl
  · exact .inr ⟨_, _, rfl⟩

/-- A call leaves the records alone, or adds one. -/
theorem call_records {g g' : Grammar} (h : DefCall g g') :
    (∃ us, g'.records = g.records ∧ used g' = used (g.withUsages us)) ∨
    (∃ name r l, RuleName name ∧ g.getRecord name = none ∧ (∃ r0, WellFormed r0 ∧ r = r0.setName name) ∧
      g'.records = g.records ++ [⟨name, r, l⟩] ∧ used g' = used (g.withUsages (tag name (refs r)))) := by
  have parsed : ∀ {fuel name text r}, parseRule fuel name text g = .ok r g' →
      (∃ name r l, RuleName name ∧ g.getRecord name = none ∧ (∃ r0, WellFormed r0 ∧ r = r0.setName name) ∧
      g'.records = g.records ++ [⟨name, r, l⟩] ∧ used g' = used (g.withUsages (tag name (refs r)))) := by
    intro fuel name text r h
    have := parseRule_cases (fuel := fuel) (name := name) (text := text) (g := g)
    rw [h] at this
    obtain ⟨h1, h2, r0, h3, h4, _, h5⟩ := this
    exact ⟨name, r, _, h1, h2, ⟨r0, h3, h4⟩, by rw [h5], by rw [h5]; rfl⟩
  have failed : ∀ {fuel name text e}, parseRule fuel name text g = .err e g' →
      (∃ us, g'.records = g.records ∧ used g' = used (g.withUsages us)) := by
    intro fuel name text e h
    have := parseRule_cases (fuel := fuel) (name := name) (text := text) (g := g)
    rw [h] at this
    rcases this with ⟨_, _, rfl⟩ | ⟨_, _, _, rfl⟩ | ⟨_, _, us, _, rfl⟩
    · exact ⟨[], rfl, rfl⟩
    · exact ⟨[], rfl, rfl⟩
    · exact ⟨us, rfl, rfl⟩
  cases h with
  | parsed h => exact .inr (parsed h)
  | notParsed h => exact .inl (failed h)
  | added h =>
    rcases addRule_cases (fuel := ‹_›) (text := ‹_›) (g := g) with h' | ⟨n, b, h'⟩
    · rw [h'] at h; cases h
    · rw [h'] at h; exact .inr (parsed h)
  | notAdded h =>
    rcases addRule_cases (fuel := ‹_›) (text := ‹_›) (g := g) with h' | ⟨n, b, h'⟩
    · rw [h'] at h; cases h; exact .inl ⟨[], rfl, rfl⟩
    · rw [h'] at h; exact .inl (failed h)
  | validated h =>
    refine .inl ⟨[], ?_⟩
    unfold validate at h
    split at h
    · cases h
    · simp only [Option.some.injEq] at h
      rw [← h]
      exact ⟨rfl, rfl⟩

theorem getRecord_append (g : Grammar) (rs : List Record) (x : Record) (h : g.records = rs ++ [x]) (n : Name) :
    g.getRecord n = ((rs.find? (fun r => r.name == n)).or (if x.name = n then some x else none)) := by
  unfold getRecord
  rw [h, List.find?_append]
  congr 1
  by_cases hx : x.name = n
  · simp [hx]
  · simp [hx]

theorem getRecord_none {g : Grammar} {n : Name} : g.getRecord n = none ↔ n ∉ g.records.map Record.name := by
  unfold getRecord
  simp [List.find?_eq_none]

/-! ## C31, C35, C38 -/

/-- A rule that is defined stays defined as it was, whatever calls follow. -/
theorem C31_stays {g g' : Grammar} (h : DefCalls g g') {n : Name} {r : Record} (hr : g.getRecord n = some r) :
    g'.getRecord n = some r := by
  induction h with
  | done => exact hr
  | more _ hc ih =>
    rcases call_records hc with ⟨_, h1, _⟩ | ⟨name, q, l, _, h2, _, h3, _⟩
    · unfold getRecord at ih ⊢
      rw [h1]; exact ih
    · rw [getRecord_append _ _ _ h3]
      show Option.or (Grammar.getRecord _ n) _ = _
      rw [ih]; rfl

/-- A second definition of a name is rejected and changes nothing. -/
theorem C31_second_rejected {g : Grammar} {name : Name} {r : Record} (hn : RuleName name)
    (hr : g.getRecord name = some r) (fuel : Nat) (text : List Rune) :
    parseRule fuel name text g = .err (.duplicate name r.line) g := by
  unfold parseRule
  rw [if_neg (by rw [(validName_iff name).2 hn]; simp), hr]

/-- No two records have the same name, after any calls on a new grammar. -/
theorem C31_unique {g : Grammar} (h : DefCalls {} g) : (g.records.map Record.name).Nodup := by
  generalize h0 : ({} : Grammar) = g0 at h
  induction h with
  | done => rw [← h0]; exact List.nodup_nil
  | more _ hc ih =>
    rcases call_records hc with ⟨_, h1, _⟩ | ⟨name, q, l, _, h2, _, h3, _⟩
    · rw [h1]; exact ih
    · rw [h3, List.map_append, List.nodup_append]
      refine ⟨ih, by simp, ?_⟩
      intro a ha b hb
      simp only [List.map_cons, List.map_nil, List.mem_singleton] at hb
      subst hb
      intro he
      subst he
      exact getRecord_none.1 h2 ha

/-- Every rule of a grammar, after any calls: its name is a name, the rule carries it, and the rule is
what the parser may build. -/
theorem C35_names {g : Grammar} (h : DefCalls {} g) : ∀ r ∈ g.records, RuleName r.name ∧ r.rule.base.name = r.name := by
  have key : ∀ g, DefCalls {} g → ∀ r ∈ g.records, RuleName r.name ∧ ∃ r0, WellFormed r0 ∧ r.rule = r0.setName r.name := by
    intro g h
    generalize h0 : ({} : Grammar) = g0 at h
    induction h with
    | done => rw [← h0]; intro r hr; cases hr
    | more _ hc ih =>
      rcases call_records hc with ⟨_, h1, _⟩ | ⟨name, q, l, hn, h2, h3, h4, _⟩
      · rw [h1]; exact ih
      · intro r hr
        rw [h4] at hr
        rcases List.mem_append.1 hr with hr | hr
        · exact ih r hr
        · rw [List.mem_singleton.1 hr]
          exact ⟨hn, h3⟩
  intro r hr
  obtain ⟨h1, r0, _, h2⟩ := key g h r hr
  refine ⟨h1, ?_⟩
  rw [h2]
  cases r0 <;> rfl

/-- A definition of anything that is not a name is rejected and changes nothing. -/
theorem C35_bad_rejected {name : Name} (h : ¬ RuleName name) (fuel : Nat) (text : List Rune) (g : Grammar) :
    parseRule fuel name text g = .err (.badName name) g := by
  unfold parseRule
  rw [if_pos]
  rw [← validName_iff] at h
  simpa using h

/-- Every rule of a grammar, after any calls, is a well-formed rule that was given its name. -/
theorem C38_records {g : Grammar} (h : DefCalls {} g) : ∀ r ∈ g.records, ∃ r0, WellFormed r0 ∧ r.rule = r0.setName r.name := by
  generalize h0 : ({} : Grammar) = g0 at h
  induction h with
  | done => rw [← h0]; intro r hr; cases hr
  | more _ hc ih =>
    rcases call_records hc with ⟨_, h1, _⟩ | ⟨name, q, l, hn, h2, h3, h4, _⟩
    · rw [h1]; exact ih
    · intro r hr
      rw [h4] at hr
      rcases List.mem_append.1 hr with hr | hr
      · exact ih r hr
      · rw [List.mem_singleton.1 hr]
        exact h3

/-! ## C37 -/

/-- What a rejected definition does: nothing, but for the references seen before the error. -/
theorem rejected_cases {g g' : Grammar} (h : Rejected g g') :
    ∃ name l, (l = [] ∨ g.getRecord name = none) ∧ g' = g.withUsages (tag name l) := by
  have key : ∀ {fuel name text e}, parseRule fuel name text g = .err e g' →
      ∃ name l, (l = [] ∨ g.getRecord name = none) ∧ g' = g.withUsages (tag name l) := by
    intro fuel name text e h
    have := parseRule_cases (fuel := fuel) (name := name) (text := text) (g := g)
    rw [h] at this
    rcases this with ⟨_, _, rfl⟩ | ⟨_, _, _, rfl⟩ | ⟨_, h2, us, ⟨st, hst, hus⟩, rfl⟩
    · exact ⟨[], [], .inl rfl, rfl⟩
    · exact ⟨[], [], .inl rfl, rfl⟩
    · have ha := parse_any (fuel := fuel) (name := name) (terms := [EOFChar]) (st := { rest := trimSpace text })
      rw [hst] at ha
      obtain ⟨l, hl⟩ := ha
      exact ⟨name, l, .inr h2, by rw [← hus, hl]; rfl⟩
  cases h with
  | parseRule h => exact key h
  | addRule h =>
    rcases addRule_cases (fuel := ‹_›) (text := ‹_›) (g := g) with h' | ⟨n, b, h'⟩
    · rw [h'] at h; cases h; exact ⟨[], [], .inl rfl, rfl⟩
    · rw [h'] at h; exact key h

/-- A rejected definition leaves the rules, their lines, the terminals and the roots as they were. -/
theorem C37_rules_kept {g g' : Grammar} (h : Rejected g g') :
    g'.records = g.records ∧ g'.roots = g.roots ∧ g'.terminals = g.terminals ∧ g'.maxLine = g.maxLine := by
  obtain ⟨_, _, _, rfl⟩ := rejected_cases h
  exact ⟨rfl, rfl, rfl, rfl⟩

/-- So every rule and every document is evaluated as before. -/
theorem C37_evaluation_kept {g g' : Grammar} (h : Rejected g g') (n : Nat) (rule : Name) (sample : List Rune) :
    g'.evalRule n rule sample = g.evalRule n rule sample ∧ g'.evalEmbed n rule sample = g.evalEmbed n rule sample ∧
    ∀ sch s, g'.evalRaw n sch s = g.evalRaw n sch s := by
  obtain ⟨h1, h2, _, _⟩ := C37_rules_kept h
  unfold evalRule evalEmbed evalRaw getRecord env getRecord
  rw [h1, h2]
  exact ⟨rfl, rfl, fun _ _ => rfl⟩

/-- And every later definition is answered as before. -/
theorem C37_later_definitions_kept {g g' : Grammar} (h : Rejected g g') (fuel : Nat) (name : Name) (text : List Rune) :
    match parseRule fuel name text g, parseRule fuel name text g' with
    | .ok r q, .ok r' q' => r' = r ∧ q'.records = q.records ∧ q'.maxLine = q.maxLine
    | .err e _, .err e' _ => e' = e
    | .oof, .oof => True
    | _, _ => False := by
  obtain ⟨h1, _, _, h4⟩ := C37_rules_kept h
  have hg : g'.getRecord name = g.getRecord name := by unfold getRecord; rw [h1]
  unfold parseRule
  by_cases hv : validName name = false
  · rw [if_pos hv, if_pos hv]
  · rw [if_neg hv, if_neg hv, hg]
    cases g.getRecord name with
    | some r => rfl
    | none =>
      simp only
      cases parse fuel name [EOFChar] { rest := trimSpace text } with
      | oof => trivial
      | err e st => rfl
      | ok r st => exact ⟨rfl, by simp only [withUsages, h1, h4], by simp only [withUsages, h4]⟩

theorem any_used (g : Grammar) (f : Name → Bool) : g.nonRoots.any (fun p => f p.1) = (used g).any f := by
  unfold used
  rw [List.any_map]
  rfl

theorem addUsage_users (key user : Name) : ∀ (m : List (Name × List Name)) (k : Name),
    k ∈ ((addUsage m key user).map (·.2)).flatten ↔ k ∈ (m.map (·.2)).flatten ∨ k = user
  | [], k => by simp [addUsage]
  | (k', us) :: m, k => by
    unfold addUsage
    split
    · simp only [List.map_cons, List.flatten_cons, List.mem_append, List.mem_singleton]
      constructor
      · rintro ((h | h) | h)
        · exact .inl (.inl h)
        · exact .inr h
        · exact .inl (.inr h)
      · rintro ((h | h) | h)
        · exact .inl (.inl h)
        · exact .inr h
        · exact .inl (.inr h)
    · simp only [List.map_cons, List.flatten_cons, List.mem_append, addUsage_users key user m k, or_assoc]

theorem withUsages_users (g : Grammar) (us : List (Name × Name)) (k : Name) :
    k ∈ ((g.withUsages us).nonRoots.map (·.2)).flatten ↔ k ∈ (g.nonRoots.map (·.2)).flatten ∨ k ∈ us.map (·.2) := by
  unfold withUsages
  simp only
  generalize g.nonRoots = m
  induction us generalizing m with
  | nil => simp
  | cons u us ih =>
    rw [List.foldl_cons, ih, addUsage_users]
    simp only [List.map_cons, List.mem_cons, or_assoc]

/-- What `Validate` returns and leaves, apart from the record of references. -/
def verdict (g : Grammar) : Option (List Record × List Record × List Record × Nat) :=
  g.validate.map (fun v => (v.records, v.roots, v.terminals, v.maxLine))

/-- The verdict depends on the names referred to and on which rules refer to others. -/
theorem verdict_congr {g g' : Grammar} (h1 : g'.records = g.records) (h2 : g'.roots = g.roots) (h3 : g'.terminals = g.terminals)
    (h4 : g'.maxLine = g.maxLine) (hk : ∀ k, k ∈ used g' ↔ k ∈ used g)
    (hu : ∀ r ∈ g.records, r.name ∈ (g'.nonRoots.map (·.2)).flatten ↔ r.name ∈ (g.nonRoots.map (·.2)).flatten) :
    verdict g' = verdict g := by
  have hany : ∀ f : Name → Bool, (used g').any f = (used g).any f := by
    intro f
    rw [Bool.eq_iff_iff, List.any_eq_true, List.any_eq_true]
    constructor
    · rintro ⟨x, hx, hf⟩; exact ⟨x, (hk x).1 hx, hf⟩
    · rintro ⟨x, hx, hf⟩; exact ⟨x, (hk x).2 hx, hf⟩
  have hg : ∀ n, g'.getRecord n = g.getRecord n := by intro n; unfold getRecord; rw [h1]
  unfold verdict validate
  have e1 : g'.nonRoots.any (fun p => (g'.getRecord p.1).isNone) = g.nonRoots.any (fun p => (g.getRecord p.1).isNone) := by
    rw [any_used g' (fun n => (g'.getRecord n).isNone), any_used g (fun n => (g.getRecord n).isNone), hany]
    simp only [hg]
  have e2 : g'.records.filter (fun r => !(g'.nonRoots.any (fun p => p.1 == r.name))) =
      g.records.filter (fun r => !(g.nonRoots.any (fun p => p.1 == r.name))) := by
    rw [h1]
    apply List.filter_congr
    intro r _
    rw [any_used g' (fun n => n == r.name), any_used g (fun n => n == r.name), hany]
  have e3 : g'.records.filter (fun r => !((g'.nonRoots.map (·.2)).flatten.contains r.name)) =
      g.records.filter (fun r => !((g.nonRoots.map (·.2)).flatten.contains r.name)) := by
    rw [h1]
    apply List.filter_congr
    intro r hr
    congr 1
    rw [Bool.eq_iff_iff, List.contains_iff_mem, List.contains_iff_mem]
    exact hu r hr
  rw [e1]
  by_cases hc : g.nonRoots.any (fun p => (g.getRecord p.1).isNone) = true
  · rw [if_pos hc, if_pos hc]
  · rw [if_neg hc, if_neg hc]
    rw [h1] at e2 e3
    simp only [Option.map_some, h1, h2, h3, h4, e2, e3]

/-- `Validate` has the same outcome after a rejected definition as before it, if the definition
referred, up to the error, only to rules that other rules refer to.  Missing: the case of other
references, see `C37_counterexample`. -/
theorem C37_validate_partial {g g' : Grammar} (h : Rejected g g') (hk : ∀ k ∈ used g', k ∈ used g) : verdict g' = verdict g := by
  obtain ⟨r1, r2, r3, r4⟩ := C37_rules_kept h
  obtain ⟨name, l, hl, he⟩ := rejected_cases h
  refine verdict_congr r1 r2 r3 r4 ?_ ?_
  · intro k
    refine ⟨hk k, fun hx => ?_⟩
    rw [he, withUsages_keys]
    exact .inl hx
  · intro r hr
    rw [he, withUsages_users]
    constructor
    · rintro (hx | hx)
      · exact hx
      · unfold tag at hx
        rw [List.map_map] at hx
        obtain ⟨y, hy, hn⟩ := List.mem_map.1 hx
        rcases hl with rfl | hl
        · cases hy
        · exact absurd (List.mem_map.2 ⟨r, hr, hn.symm⟩) (getRecord_none.1 hl)
    · exact .inl

/-- A rejected definition never makes `Validate` succeed where it failed. -/
theorem C37_validate_no_better {g g' : Grammar} (h : Rejected g g') (hv : g.validate = none) : g'.validate = none := by
  obtain ⟨r1, _⟩ := C37_rules_kept h
  obtain ⟨name, l, _, he⟩ := rejected_cases h
  have hg : ∀ n, g'.getRecord n = g.getRecord n := by intro n; unfold getRecord; rw [r1]
  unfold validate at hv ⊢
  split at hv
  · rename_i hc
    rw [if_pos]
    rw [any_used g (fun n => (g.getRecord n).isNone), List.any_eq_true] at hc
    rw [any_used g' (fun n => (g'.getRecord n).isNone), List.any_eq_true]
    obtain ⟨x, hx, hf⟩ := hc
    exact ⟨x, by rw [he, withUsages_keys]; exact .inl hx, by rw [hg]; exact hf⟩
  · cases hv

/-- The grammar after a call, whatever it returned. -/
def after : Out Grammar Rule → Grammar → Grammar
  | .ok _ g, _ => g
  | .err _ g, _ => g
  | .oof, g => g

/-- `a = 'x'`: one rule, `Validate` accepts it. -/
def loneRule : Grammar := after (addRule 30 (runes "a = 'x'") {}) {}

/-- The same after `b = c ?`, which is rejected. -/
def afterBad : Grammar := after (addRule 30 (runes "b = c ?") loneRule) loneRule

/-- The same after `b = a ?`, which is rejected. -/
def afterBad' : Grammar := after (addRule 30 (runes "b = a ?") loneRule) loneRule

def isErr : Out Grammar Rule → Bool
  | .err _ _ => true
  | _ => false

theorem rejected_after {fuel : Nat} {text : List Rune} {g : Grammar} (h : isErr (addRule fuel text g) = true) :
    Rejected g (after (addRule fuel text g) g) := by
  cases hc : addRule fuel text g with
  | ok r g' => rw [hc] at h; cases h
  | oof => rw [hc] at h; cases h
  | err e g' => exact .addRule hc

/-- The property fails: after a rejected definition `Validate` rejects a grammar it accepted, or no
longer finds the root. -/
theorem C37_counterexample :
    Rejected loneRule afterBad ∧ loneRule.validate.isSome = true ∧ afterBad.validate.isSome = false ∧
    Rejected loneRule afterBad' ∧ loneRule.validate.map (fun g => g.roots.length) = some 1 ∧
    afterBad'.validate.map (fun g => g.roots.length) = some 0 :=
  ⟨rejected_after (fuel := 30) (text := runes "b = c ?") (by decide +kernel), by decide +kernel, by decide +kernel,
    rejected_after (fuel := 30) (text := runes "b = a ?") (by decide +kernel), by decide +kernel, by decide +kernel⟩

/-- `a = b 'x'`. -/
def firstRule : Grammar := after (addRule 30 (runes "a = b 'x'") {}) {}
/-- `a = b 'x'` and `b = 'y'`. -/
def twoRules : Grammar := after (addRule 30 (runes "b = 'y'") firstRule) firstRule

/-- `c = b ?` is rejected after `b` was recorded; another rule refers to `b` too. -/
example : Rejected twoRules (after (addRule 30 (runes "c = b ?") twoRules) twoRules) ∧
    (∀ k ∈ used (after (addRule 30 (runes "c = b ?") twoRules) twoRules), k ∈ used twoRules) ∧
    twoRules.nonRoots ≠ (after (addRule 30 (runes "c = b ?") twoRules) twoRules).nonRoots :=
  ⟨rejected_after (fuel := 30) (text := runes "c = b ?") (by decide +kernel), by decide +kernel, by decide +kernel⟩

theorem call_after (fuel : Nat) (text : List Rune) (g : Grammar) : DefCalls g (after (addRule fuel text g) g) := by
  cases hc : addRule fuel text g with
  | ok r g' => exact .more .done (.added hc)
  | oof => exact .done
  | err e g' => exact .more .done (.notAdded hc)

theorem calls_trans {g g1 g2 : Grammar} (h : DefCalls g g1) (h' : DefCalls g1 g2) : DefCalls g g2 := by
  induction h' with
  | done => exact h
  | more _ hc ih => exact .more ih hc

/-- A history of calls, one of them rejected, that leaves two rules. -/
example : DefCalls {} (after (addRule 30 (runes "a = 'z'") twoRules) twoRules) ∧
    (after (addRule 30 (runes "a = 'z'") twoRules) twoRules).records.map Record.name = [runes "a", runes "b"] ∧
    isErr (addRule 30 (runes "a = 'z'") twoRules) = true :=
  ⟨calls_trans (calls_trans (call_after 30 (runes "a = b 'x'") {}) (call_after 30 (runes "b = 'y'") firstRule))
    (call_after 30 (runes "a = 'z'") twoRules), by decide +kernel, by decide +kernel⟩

/-! ## C39 -/

theorem hexDigit_val {c : Rune} {k : Int} (h : HexDigit c k) : isHex c = true ∧ hexVal c = k ∧ c ≠ EOFChar := by
  unfold HexDigit at h
  unfold isHex isDigit hexVal EOFChar
  unfold Rune at *
  simp only [Bool.or_eq_true, Bool.and_eq_true, decide_eq_true_eq]
  refine ⟨by omega, ?_, by omega⟩
  split
  · omega
  · split <;> omega

theorem isHex_digit {c : Rune} (h : isHex c = true) : HexDigit c (hexVal c) := by
  unfold HexDigit
  unfold isHex isDigit at h
  unfold hexVal
  unfold Rune at *
  simp only [Bool.or_eq_true, Bool.and_eq_true, decide_eq_true_eq] at h
  split
  · omega
  · split <;> omega

theorem hexDigits_iff : ∀ (n : Nat) (st st' : PState) (ds : List Rune),
    hexDigits n st = .ok ds st' ↔ ds.length = n ∧ (∀ d ∈ ds, isHex d = true) ∧ st = ⟨ds ++ st'.rest, st'.usages⟩
  | 0, st, st', ds => by
    unfold hexDigits
    show Out.ok [] st = .ok ds st' ↔ _
    constructor
    · intro h
      cases h
      exact ⟨rfl, (fun _ h => by cases h), rfl⟩
    · rintro ⟨h1, _, h3⟩
      have := List.length_eq_zero_iff.1 h1
      subst this
      rw [h3]; rfl
  | n + 1, st, st', ds => by
    unfold hexDigits
    rw [P.bind_apply]
    show (if peekR st.rest = EOFChar ∨ isHex (peekR st.rest) = false then _ else _ : P (List Rune)) _ = _ ↔ _
    by_cases hc : peekR st.rest = EOFChar ∨ isHex (peekR st.rest) = false
    · rw [if_pos hc]
      constructor
      · intro h; cases h
      · rintro ⟨h1, h2, h3⟩
        cases ds with
        | nil => cases h1
        | cons d ds =>
          have hd := h2 d List.mem_cons_self
          have : peekR st.rest = d := by rw [h3]; rfl
          rw [this] at hc
          rcases hc with hc | hc
          · exact absurd hc (hexDigit_val (isHex_digit hd)).2.2
          · rw [hd] at hc; cases hc
    · rw [if_neg hc, P.bind_apply]
      have ih := hexDigits_iff n
      constructor
      · intro h
        cases h1 : hexDigits n { st with rest := st.rest.tail } with
        | oof => rw [h1] at h; cases h
        | err => rw [h1] at h; cases h
        | ok ds' st1 =>
          rw [h1] at h
          have hh : Out.ok (peekR st.rest :: ds') st1 = Out.ok ds st' := h
          cases hh
          obtain ⟨g1, g2, g3⟩ := (ih _ _ _).1 h1
          refine ⟨by simp [g1], ?_, ?_⟩
          · intro d hd
            rcases List.mem_cons.1 hd with rfl | hd
            · cases hx : isHex (peekR st.rest) with
              | true => rfl
              | false => exact absurd (.inr hx) hc
            · exact g2 d hd
          · cases hr : st.rest with
            | nil => exact absurd (.inl (by rw [hr]; rfl)) hc
            | cons c cs =>
              rw [hr] at g3
              simp only [List.tail_cons, PState.mk.injEq] at g3
              cases st
              simp only at hr g3
              subst hr
              simp only [peekR, List.headD, List.cons_append, PState.mk.injEq, List.cons.injEq, true_and]
              exact g3
      · rintro ⟨h1, h2, h3⟩
        cases ds with
        | nil => cases h1
        | cons d ds =>
          have := (ih { st with rest := st.rest.tail } st' ds).2 ⟨by simpa using h1, fun x hx => h2 x (List.mem_cons_of_mem _ hx), by
            rw [h3]; rfl⟩
          rw [this]
          have hp : peekR st.rest = d := by rw [h3]; rfl
          rw [hp]; rfl

theorem hex4_iff {ds : List Rune} {v : Int} : Hex4 ds v ↔ ds.length = 4 ∧ (∀ d ∈ ds, isHex d = true) ∧
    v = ds.foldl (fun acc d => acc * 16 + hexVal d) 0 := by
  constructor
  · rintro ⟨a, b, c, d, k3, k2, k1, k0, rfl, h3, h2, h1, h0, rfl⟩
    have h3 := hexDigit_val h3
    have h2 := hexDigit_val h2
    have h1 := hexDigit_val h1
    have h0 := hexDigit_val h0
    refine ⟨rfl, ?_, ?_⟩
    · intro x hx
      simp only [List.mem_cons, List.not_mem_nil, or_false] at hx
      rcases hx with rfl | rfl | rfl | rfl
      · exact h3.1
      · exact h2.1
      · exact h1.1
      · exact h0.1
    · simp only [List.foldl_cons, List.foldl_nil, h3.2.1, h2.2.1, h1.2.1, h0.2.1]
      omega
  · rintro ⟨h1, h2, h3⟩
    match ds, h1 with
    | [a, b, c, d], _ =>
      refine ⟨a, b, c, d, _, _, _, _, rfl, isHex_digit (h2 a (by simp)), isHex_digit (h2 b (by simp)),
        isHex_digit (h2 c (by simp)), isHex_digit (h2 d (by simp)), ?_⟩
      rw [h3]
      simp only [List.foldl_cons, List.foldl_nil]
      omega

/-- `parseUnicodeEscape` accepts exactly 'u' and four digits, and returns the number written. -/
theorem C39_escape {st st' : PState} {v : Rune} :
    parseUnicodeEscape st = .ok v st' ↔ ∃ ds, Hex4 ds v ∧ st = ⟨117 :: ds ++ st'.rest, st'.usages⟩ := by
  unfold parseUnicodeEscape
  rw [P.bind_apply]
  show (if peekR st.rest ≠ ch 'u' then _ else _ : P Rune) st = _ ↔ _
  by_cases hu : peekR st.rest ≠ ch 'u'
  · rw [if_pos hu]
    constructor
    · intro h; cases h
    · rintro ⟨ds, _, h⟩
      exact absurd (show peekR st.rest = ch 'u' by rw [h]; rfl) hu
  · rw [if_neg hu, P.bind_apply]
    show (hexDigits 4 >>= _) (PState.mk st.rest.tail st.usages) = _ ↔ _
    rw [P.bind_apply]
    replace hu := Classical.not_not.1 hu
    constructor
    · intro h
      cases h1 : hexDigits 4 ⟨st.rest.tail, st.usages⟩ with
      | oof => rw [h1] at h; cases h
      | err => rw [h1] at h; cases h
      | ok ds st1 =>
        rw [h1] at h
        have hh : Out.ok (ds.foldl (fun acc d => acc * 16 + hexVal d) 0) st1 = Out.ok v st' := h
        cases hh
        obtain ⟨g1, g2, g3⟩ := (hexDigits_iff _ _ _ _).1 h1
        refine ⟨ds, hex4_iff.2 ⟨g1, g2, rfl⟩, ?_⟩
        cases hr : st.rest with
        | nil => rw [hr] at hu; cases hu
        | cons c cs =>
          rw [hr] at g3 hu
          have hc : c = 117 := hu
          simp only [List.tail_cons, PState.mk.injEq] at g3
          cases st
          simp only at hr g3
          subst hr
          rw [hc]
          simp only [List.cons_append, PState.mk.injEq, List.cons.injEq, true_and]
          exact g3
    · rintro ⟨ds, h1, h2⟩
      obtain ⟨g1, g2, g3⟩ := hex4_iff.1 h1
      have := (hexDigits_iff 4 ⟨st.rest.tail, st.usages⟩ st' ds).2 ⟨g1, g2, by rw [h2]; rfl⟩
      rw [this, g3]; rfl

theorem ite_apply {α : Type} (c : Prop) [Decidable c] (x y : P α) (st : PState) :
    (if c then x else y) st = if c then x st else y st := by split <;> rfl

theorem litLoop_cons (q : Rune) (n : Nat) (buf : List Rune) (uni : Bool) (c : Rune) (rest : List Rune) (us : List (Name × Name)) :
    litLoop q (n + 1) buf uni ⟨c :: rest, us⟩ =
      if c = EOFChar then .err (if q = ch '\'' then .charEnd else .strEnd) ⟨rest, us⟩
      else if c = q then .ok (buf, uni) ⟨rest, us⟩
      else if c = ch '\\' then
        (if peekR rest = ch 'u' then (parseUnicodeEscape >>= fun u => litLoop q n (buf ++ [u]) true) ⟨rest, us⟩
         else litLoop q n (buf ++ [peekR rest]) uni ⟨rest.tail, us⟩)
      else litLoop q n (buf ++ [c]) uni ⟨rest, us⟩ := by
  rw [litLoop, P.bind_apply]
  simp only [pNext, peekR, List.headD, List.tail_cons]
  rw [ite_apply, ite_apply, ite_apply, P.bind_apply]
  simp only [pPeek, peekR]
  rw [ite_apply, P.bind_apply, P.bind_apply]
  rfl

/-- The characters between two quotes: a text is accepted exactly if it is a spelling, and gives the
characters spelled. -/
theorem litLoop_ok {q : Rune} (hq : q ≠ 92) (hq0 : q ≠ EOFChar) {src val : List Rune} {u : Bool} (h : Spelling q src val u) :
    ∀ n, src.length < n → ∀ buf uni rest us,
      litLoop q n buf uni ⟨src ++ q :: rest, us⟩ = .ok (buf ++ val, uni || u) ⟨rest, us⟩ := by
  induction h with
  | nil =>
    intro n hn buf uni rest us
    cases n with
    | zero => cases hn
    | succ n =>
      rw [List.nil_append, litLoop_cons, if_neg hq0, if_pos rfl]
      simp only [List.append_nil, Bool.or_false]
  | @plain c src val u h hc hb he ih =>
    intro n hn buf uni rest us
    cases n with
    | zero => cases hn
    | succ n =>
      rw [List.cons_append, litLoop_cons, if_neg he, if_neg hc, if_neg (show ¬ c = ch '\\' from hb)]
      rw [ih n (by simp only [List.length_cons] at hn; omega)]
      simp
  | @escape d src val u h hd ih =>
    intro n hn buf uni rest us
    cases n with
    | zero => cases hn
    | succ n =>
      rw [List.cons_append, List.cons_append, litLoop_cons, if_neg (by decide), if_neg (Ne.symm hq), if_pos (by decide),
        if_neg (show ¬ peekR (d :: (src ++ q :: rest)) = ch 'u' from hd)]
      show litLoop q n (buf ++ [d]) uni ⟨src ++ q :: rest, us⟩ = _
      rw [ih n (by simp only [List.length_cons] at hn; omega)]
      simp
  | @unicode ds v src val u h hd ih =>
    intro n hn buf uni rest us
    cases n with
    | zero => cases hn
    | succ n =>
      have := (C39_escape (st := ⟨117 :: (ds ++ src ++ q :: rest), us⟩) (st' := ⟨src ++ q :: rest, us⟩) (v := v)).2 ⟨ds, hd, by simp⟩
      rw [List.cons_append, List.cons_append, litLoop_cons, if_neg (by decide), if_neg (Ne.symm hq), if_pos (by decide),
        if_pos (by rfl), P.bind_apply, this]
      simp only
      rw [ih n (by simp only [List.length_cons, List.length_append] at hn; omega)]
      simp

theorem litLoop_spelled {q : Rune} : ∀ (n : Nat) (buf : List Rune) (uni : Bool) (st st' : PState) (out : List Rune) (u : Bool),
    litLoop q n buf uni st = .ok (out, u) st' →
    ∃ src val u', Spelling q src val u' ∧ st = ⟨src ++ q :: st'.rest, st'.usages⟩ ∧ out = buf ++ val ∧ u = (uni || u')
  | 0, _, _, _, _, _, _, h => by cases h
  | n + 1, buf, uni, ⟨[], us⟩, st', out, u, h => by
    unfold litLoop at h
    cases h
  | n + 1, buf, uni, ⟨c :: rest, us⟩, st', out, u, h => by
    rw [litLoop_cons] at h
    split at h
    · cases h
    rename_i h0
    split at h
    · rename_i h1
      cases h
      exact ⟨[], [], false, .nil, by simp [h1], by simp, by simp⟩
    rename_i h1
    split at h
    · rename_i h2
      split at h
      · rename_i h3
        rw [P.bind_apply] at h
        cases hp : parseUnicodeEscape ⟨rest, us⟩ with
        | oof => rw [hp] at h; cases h
        | err => rw [hp] at h; cases h
        | ok v st1 =>
          rw [hp] at h
          simp only at h
          obtain ⟨ds, hd, hr⟩ := C39_escape.1 hp
          obtain ⟨src, val, u', g1, g2, g3, g4⟩ := litLoop_spelled n _ _ _ _ _ _ h
          refine ⟨_, _, _, .unicode g1 hd, ?_, by rw [g3]; simp, by rw [g4]; simp⟩
          cases hr
          rw [g2, h2]
          simp [ch]
      · rename_i h3
        obtain ⟨src, val, u', g1, g2, g3, g4⟩ := litLoop_spelled n _ _ _ _ _ _ h
        cases rest with
        | nil =>
          simp only [List.tail_nil, PState.mk.injEq] at g2
          exact absurd g2.1 (by simp)
        | cons d rest =>
          refine ⟨_, _, _, .escape g1 h3, ?_, by rw [g3]; simp [peekR], g4⟩
          simp only [List.tail_cons, PState.mk.injEq] at g2
          rw [g2.1, g2.2, h2]
          simp [ch, peekR]
    · rename_i h2
      obtain ⟨src, val, u', g1, g2, g3, g4⟩ := litLoop_spelled n _ _ _ _ _ _ h
      refine ⟨_, _, _, .plain g1 h1 h2 h0, ?_, by rw [g3]; simp, g4⟩
      simp only [PState.mk.injEq] at g2
      rw [g2.1, g2.2]
      rfl

/-- The characters a simple rule can start with. -/
def Starts (c : Rune) : Prop :=
  c = 39 ∨ c = 92 ∨ c = 34 ∨ c = 91 ∨ c = 123 ∨ c = 60 ∨ c = 40 ∨ Letter c ∨ c = 95

theorem white_range {c : Rune} (h : isWhiteSpace c = true) : c ≤ 32 ∨ 133 ≤ c := by
  unfold isWhiteSpace whiteSpaceTable at h
  simp only [List.contains_cons, List.contains_nil, Bool.or_false, Bool.or_eq_true, beq_iff_eq] at h
  unfold Rune at *
  omega

theorem starts_plain {c : Rune} (h : Starts c) :
    c ≠ EOFChar ∧ isWhiteSpace c = false ∧ ¬ (c = ch '~' ∨ c = ch '#' ∨ c = ch '$') ∧ ¬ (c = ch '|' ∨ c = ch '>') ∧ c ≠ ch '/' := by
  have e1 : ch '~' = 126 := rfl
  have e2 : ch '#' = 35 := rfl
  have e3 : ch '$' = 36 := rfl
  have e4 : ch '|' = 124 := rfl
  have e5 : ch '>' = 62 := rfl
  have e6 : ch '/' = 47 := rfl
  rw [e1, e2, e3, e4, e5, e6]
  have hr : 33 ≤ c ∧ c ≤ 123 ∧ c ≠ 126 ∧ c ≠ 35 ∧ c ≠ 36 ∧ c ≠ 124 ∧ c ≠ 62 ∧ c ≠ 47 := by
    unfold Starts Letter at h
    unfold Rune at *
    omega
  refine ⟨?_, ?_, ?_, ?_, ?_⟩
  · unfold EOFChar; unfold Rune at *; omega
  · cases hw : isWhiteSpace c with
    | false => rfl
    | true =>
      have := white_range hw
      unfold Rune at *
      omega
  · unfold Rune at *; omega
  · unfold Rune at *; omega
  · unfold Rune at *; omega

theorem parseLoop_prim {prim : Rune → P Rule} {one : P Rule} {terms : List Rune} {c : Rune} (hc : Starts c) (ht : terms.contains c = false)
    (n : Nat) (rules : List Rule) (tk nd v : Bool) (rest : List Rune) (us : List (Name × Name)) :
    parseLoop prim one terms (n + 1) rules tk nd v ⟨c :: rest, us⟩ =
      (prim c >>= fun r => parseLoop prim one terms n (rules ++ [r.setAnnotation tk nd v]) false false false) ⟨c :: rest, us⟩ := by
  obtain ⟨h1, h2, h3, h4, h5⟩ := starts_plain hc
  rw [parseLoop, P.bind_apply]
  simp only [pPeek, peekR, List.headD]
  rw [if_neg h1, if_neg (by rw [ht]; simp), if_neg (by rw [h2]; simp), if_neg h3, if_neg h4, if_neg h5]

theorem parseLoop_nil {prim : Rune → P Rule} {one : P Rule} {terms : List Rune}
    (n : Nat) (rules : List Rule) (tk nd v : Bool) (us : List (Name × Name)) :
    parseLoop prim one terms (n + 1) rules tk nd v ⟨[], us⟩ = finish rules ⟨[], us⟩ := by
  rw [parseLoop, P.bind_apply]
  simp only [pPeek, peekR, List.headD]
  rw [if_pos trivial]

/-- A definition that is one simple rule. -/
theorem parse_single {n : Nat} {name : Name} {c : Rune} {rest : List Rune} {us us' : List (Name × Name)} {r : Rule} (hc : Starts c)
    (h : primary .invalidChar (parse (n + 2) name) (n + 2) name c ⟨c :: rest, us⟩ = .ok r ⟨[], us'⟩) :
    parse (n + 3) name [EOFChar] ⟨c :: rest, us⟩ = .ok (r.setAnnotation false false false) ⟨[], us'⟩ := by
  obtain ⟨h1, h2, _⟩ := starts_plain hc
  rw [parse, P.bind_apply]
  simp only [pSkip, skipR]
  rw [List.dropWhile_cons_of_neg (by rw [h2]; simp), parseLoop_prim hc (by simpa using h1), P.bind_apply, h]
  simp only
  rw [parseLoop_nil]
  rfl

/-- A definition that starts with a simple rule is accepted only if the simple rule is. -/
theorem parse_first {fuel : Nat} {name : Name} {terms : List Rune} {c : Rune} {rest : List Rune} {us : List (Name × Name)} {r : Rule}
    {st' : PState} (hc : Starts c) (ht : terms.contains c = false) (h : parse fuel name terms ⟨c :: rest, us⟩ = .ok r st') :
    ∃ n r1 st1, primary .invalidChar (parse n name) n name c ⟨c :: rest, us⟩ = .ok r1 st1 := by
  obtain ⟨h1, h2, _⟩ := starts_plain hc
  match fuel with
  | 0 => cases h
  | n + 1 =>
    rw [parse, P.bind_apply] at h
    simp only [pSkip, skipR] at h
    rw [List.dropWhile_cons_of_neg (by rw [h2]; simp)] at h
    match n with
    | 0 => cases h
    | n + 1 =>
      rw [parseLoop_prim hc ht, P.bind_apply] at h
      cases hp : primary .invalidChar (parse (n + 1) name) (n + 1) name c ⟨c :: rest, us⟩ with
      | oof => rw [hp] at h; cases h
      | err => rw [hp] at h; cases h
      | ok r1 st1 => exact ⟨_, _, _, hp⟩

theorem inUnicode_eq {ds : List Rune} {v : Rune} (h : Hex4 ds v) (rest : List Rune) (us : List (Name × Name)) :
    inUnicode ⟨92 :: 117 :: ds ++ rest, us⟩ =
      (if peekR rest = ch '-' then inRange v true else pure (.char {} v true) : P Rule) ⟨rest, us⟩ := by
  rw [inUnicode, P.bind_apply]
  simp only [pNext]
  rw [P.bind_apply]
  simp only [pPeek]
  rw [if_neg (by simp [peekR, ch]), P.bind_apply]
  have := (C39_escape (st := ⟨117 :: (ds ++ rest), us⟩) (st' := ⟨rest, us⟩) (v := v)).2 ⟨ds, h, rfl⟩
  simp only [List.cons_append, List.tail_cons]
  rw [this]
  simp only
  rw [P.bind_apply]
  rfl

/-- An escape that stands alone denotes the character with the number written: whatever the digits. -/
theorem C39_alone {ds : List Rune} {v : Rune} (h : Hex4 ds v) (name : Name) (us : List (Name × Name)) (n : Nat) :
    parse (n + 3) name [EOFChar] ⟨92 :: 117 :: ds, us⟩ = .ok (.char {} v true) ⟨[], us⟩ := by
  refine parse_single (r := .char {} v true) (.inr (.inl rfl)) ?_
  have := inUnicode_eq h [] us
  rw [List.append_nil] at this
  show inUnicode _ = _
  rw [this]
  rfl

/-- A range between two escapes. -/
theorem C39_range {ds es : List Rune} {v w : Rune} (h : Hex4 ds v) (h' : Hex4 es w) (name : Name) (us : List (Name × Name)) (n : Nat) :
    parse (n + 3) name [EOFChar] ⟨92 :: 117 :: ds ++ 45 :: 92 :: 117 :: es, us⟩ = .ok (.range {} v true w true) ⟨[], us⟩ := by
  refine parse_single (r := .range {} v true w true) (.inr (.inl rfl)) ?_
  show inUnicode (PState.mk (92 :: 117 :: ds ++ 45 :: 92 :: 117 :: es) us) = _
  rw [inUnicode_eq h]
  rw [if_pos (show peekR (45 :: 92 :: 117 :: es) = ch '-' from rfl), inRange, P.bind_apply]
  simp only [pNext]
  rw [if_neg (by simp [peekR, ch]), P.bind_apply]
  simp only [pNext]
  rw [if_neg (by simp [peekR, ch]), if_pos (by simp [peekR, ch]), P.bind_apply]
  have := (C39_escape (st := ⟨117 :: es, us⟩) (st' := ⟨[], us⟩) (v := w)).2 ⟨es, h', by simp⟩
  simp only [List.tail_cons]
  rw [this]
  rfl

/-- What is accepted after a backslash: 'u' and four digits, nothing else. -/
theorem C39_rejected {fuel : Nat} {name : Name} {terms : List Rune} {rest : List Rune} {us : List (Name × Name)} {r : Rule} {st' : PState}
    (ht : 92 ∉ terms) (h : parse fuel name terms ⟨92 :: rest, us⟩ = .ok r st') :
    ∃ ds v rest', Hex4 ds v ∧ rest = 117 :: ds ++ rest' := by
  obtain ⟨n, r1, st1, hp⟩ := parse_first (.inr (.inl rfl)) (by simpa using ht) h
  change inUnicode _ = _ at hp
  rw [inUnicode, P.bind_apply] at hp
  simp only [pNext] at hp
  rw [P.bind_apply] at hp
  simp only [pPeek] at hp
  rw [ite_apply] at hp
  split at hp
  · cases hp
  · rw [P.bind_apply] at hp
    cases hu : parseUnicodeEscape ⟨rest, us⟩ with
    | oof => simp only [List.tail_cons] at hp; rw [hu] at hp; cases hp
    | err => simp only [List.tail_cons] at hp; rw [hu] at hp; cases hp
    | ok v st2 =>
      obtain ⟨ds, h1, h2⟩ := C39_escape.1 hu
      simp only [PState.mk.injEq] at h2
      exact ⟨ds, v, st2.rest, h1, h2.1⟩

/-- What `inChar` makes of the characters between the quotes. -/
def charOf (buf : List Rune) (uni : Bool) : P Rule :=
  match buf with
  | [] => P.fail .charEmpty
  | [c] => do
    let d ← pPeek
    if d = ch '-' then inRange c uni else pure (.char {} c uni)
  | _ => pure (.chars {} buf)

theorem inChar_eq {src val : List Rune} {u : Bool} (h : Spelling 39 src val u) {n : Nat} (hn : src.length < n) (rest : List Rune)
    (us : List (Name × Name)) : inChar n ⟨39 :: src ++ 39 :: rest, us⟩ = charOf val u ⟨rest, us⟩ := by
  rw [inChar, P.bind_apply]
  simp only [pNext]
  rw [if_neg (by simp [peekR, ch]), P.bind_apply]
  simp only [List.cons_append, List.tail_cons]
  rw [show ch '\'' = 39 from rfl, litLoop_ok (by decide) (by decide) h n hn [] false rest us]
  simp only [List.nil_append, Bool.false_or]
  match val with
  | [] => rfl
  | [c] => rfl
  | a :: b :: val => rfl

theorem inString_eq {src val : List Rune} {u : Bool} (h : Spelling 34 src val u) {n : Nat} (hn : src.length < n) (rest : List Rune)
    (us : List (Name × Name)) : inString n ⟨34 :: src ++ 34 :: rest, us⟩ = .ok (.str {} (val.map viaUTF8)) ⟨rest, us⟩ := by
  rw [inString, P.bind_apply]
  simp only [pNext]
  rw [if_neg (by simp [peekR, ch]), P.bind_apply]
  simp only [List.cons_append, List.tail_cons]
  rw [show ch '"' = 34 from rfl, litLoop_ok (by decide) (by decide) h n hn [] false rest us]
  rfl

/-- A literal in single quotes is the characters spelled between the quotes. -/
theorem C39_char_literal {src val : List Rune} {u : Bool} (h : Spelling 39 src val u) (name : Name) (us : List (Name × Name))
    {fuel : Nat} (hf : src.length + 4 ≤ fuel) :
    (∀ c, val = [c] → parse fuel name [EOFChar] ⟨39 :: src ++ [39], us⟩ = .ok (.char {} c u) ⟨[], us⟩) ∧
    (2 ≤ val.length → parse fuel name [EOFChar] ⟨39 :: src ++ [39], us⟩ = .ok (.chars {} val) ⟨[], us⟩) := by
  obtain ⟨n, rfl⟩ : ∃ n, fuel = n + 3 := ⟨fuel - 3, by omega⟩
  constructor
  · intro c hc
    subst hc
    exact parse_single (r := .char {} c u) (.inl rfl) (inChar_eq h (by omega) [] us)
  · intro h2
    refine parse_single (r := .chars {} val) (.inl rfl) ((inChar_eq h (by omega) [] us).trans ?_)
    match val, h2 with
    | a :: b :: val, _ => rfl

/-- A string is the characters spelled between the quotes, each passed through UTF-8. -/
theorem C39_string {src val : List Rune} {u : Bool} (h : Spelling 34 src val u) (name : Name) (us : List (Name × Name))
    {fuel : Nat} (hf : src.length + 4 ≤ fuel) :
    parse fuel name [EOFChar] ⟨34 :: src ++ [34], us⟩ = .ok (.str {} (val.map viaUTF8)) ⟨[], us⟩ := by
  obtain ⟨n, rfl⟩ : ∃ n, fuel = n + 3 := ⟨fuel - 3, by omega⟩
  exact parse_single (r := .str {} (val.map viaUTF8)) (.inr (.inr (.inl rfl))) (inString_eq h (by omega) [] us)

/-- Numbers of characters: no surrogate, not beyond the last code point. -/
def CodePoint (c : Rune) : Prop := 0 ≤ c ∧ c ≤ 0x10FFFF ∧ ¬ (0xD800 ≤ c ∧ c ≤ 0xDFFF)

theorem viaUTF8_id {c : Rune} (h : CodePoint c) : viaUTF8 c = c := by
  unfold CodePoint at h
  unfold viaUTF8
  rw [if_pos]
  unfold Rune at *
  omega

/-- A string in which no surrogate is written is exactly the characters spelled.  Missing: escapes
`\ud800` to `\udfff`, see `C39_counterexample`. -/
theorem C39_string_partial {src val : List Rune} {u : Bool} (h : Spelling 34 src val u) (hv : ∀ c ∈ val, CodePoint c)
    (name : Name) (us : List (Name × Name)) {fuel : Nat} (hf : src.length + 4 ≤ fuel) :
    parse fuel name [EOFChar] ⟨34 :: src ++ [34], us⟩ = .ok (.str {} val) ⟨[], us⟩ := by
  rw [C39_string h name us hf]
  have : val.map viaUTF8 = val := by
    exact (List.map_congr_left (fun c hc => viaUTF8_id (hv c hc))).trans (List.map_id' val)
  rw [this]

/-- Whatever is accepted between quotes is a spelling: in it, a backslash with 'u' is always followed
by four digits. -/
theorem C39_literal_rejected {fuel : Nat} {name : Name} {terms : List Rune} {rest : List Rune} {us : List (Name × Name)} {r : Rule}
    {st' : PState} {q : Rune} (hq : q = 34 ∨ q = 39) (ht : q ∉ terms) (h : parse fuel name terms ⟨q :: rest, us⟩ = .ok r st') :
    ∃ src val u rest', Spelling q src val u ∧ rest = src ++ q :: rest' := by
  rcases hq with rfl | rfl
  · obtain ⟨n, r1, st1, hp⟩ := parse_first (.inr (.inr (.inl rfl))) (by simpa using ht) h
    change inString n _ = _ at hp
    rw [inString, P.bind_apply] at hp
    simp only [pNext] at hp
    rw [if_neg (by simp [peekR, ch]), P.bind_apply] at hp
    simp only [List.tail_cons] at hp
    cases hl : litLoop (ch '"') n [] false ⟨rest, us⟩ with
    | oof => rw [hl] at hp; cases hp
    | err => rw [hl] at hp; cases hp
    | ok p st2 =>
      obtain ⟨src, val, u', h1, h2, _⟩ := litLoop_spelled n _ _ _ _ _ _ hl
      simp only [PState.mk.injEq] at h2
      exact ⟨src, val, u', _, h1, h2.1⟩
  · obtain ⟨n, r1, st1, hp⟩ := parse_first (.inl rfl) (by simpa using ht) h
    change inChar n _ = _ at hp
    rw [inChar, P.bind_apply] at hp
    simp only [pNext] at hp
    rw [if_neg (by simp [peekR, ch]), P.bind_apply] at hp
    simp only [List.tail_cons] at hp
    cases hl : litLoop (ch '\'') n [] false ⟨rest, us⟩ with
    | oof => rw [hl] at hp; cases hp
    | err => rw [hl] at hp; cases hp
    | ok p st2 =>
      obtain ⟨src, val, u', h1, h2, _⟩ := litLoop_spelled n _ _ _ _ _ _ hl
      simp only [PState.mk.injEq] at h2
      exact ⟨src, val, u', _, h1, h2.1⟩

/-- The four digits `00e9`, and `00E9`: the number 233. -/
example : Hex4 (runes "00e9") 233 ∧ Hex4 (runes "00E9") 233 :=
  ⟨⟨48, 48, 101, 57, 0, 0, 14, 9, by decide, by unfold HexDigit; decide, by unfold HexDigit; decide, by unfold HexDigit; decide, by unfold HexDigit; decide, by decide⟩,
   ⟨48, 48, 69, 57, 0, 0, 14, 9, by decide, by unfold HexDigit; decide, by unfold HexDigit; decide, by unfold HexDigit; decide, by unfold HexDigit; decide, by decide⟩⟩

/-- `"a\u00e9\""` is spelled: the characters 97, 233 and 34. -/
example : ∃ u, Spelling 34 (runes "a\\u00e9\\\"") [97, 233, 34] u ∧ ∀ c ∈ [(97 : Rune), 233, 34], CodePoint c := by
  refine ⟨true, .plain (.unicode (ds := [48, 48, 101, 57]) (.escape .nil (by decide)) ?_) (by decide) (by decide) (by decide), ?_⟩
  · exact ⟨48, 48, 101, 57, 0, 0, 14, 9, by decide, by unfold HexDigit; decide, by unfold HexDigit; decide, by unfold HexDigit; decide, by unfold HexDigit; decide, by decide⟩
  · unfold CodePoint; decide

def outRule : Out PState Rule → Option (List Rune)
  | .ok (.str _ t) _ => some t
  | .ok (.char _ c _) _ => some [c]
  | _ => none

/-- A surrogate written in a string becomes another character; in single quotes it does not. -/
theorem C39_counterexample :
    outRule (parse 20 (runes "r") [EOFChar] ⟨runes "\"\\ud800\"", []⟩) = some [0xFFFD] ∧
    outRule (parse 20 (runes "r") [EOFChar] ⟨runes "'\\ud800'", []⟩) = some [0xD800] := by decide +kernel

/-- Three digits are not enough. -/
example : outRule (parse 20 (runes "r") [EOFChar] ⟨runes "'\\u00e'", []⟩) = none := by decide +kernel

end Xbnf.Props
