import Verif.Spec.Build
import Verif.Props.Needed
/-
C69: a text is the same as its lines, added one by one.
-/
namespace Xbnf.Props
open Xbnf Xbnf.Spec Grammar

/-! ## Line numbers -/

theorem sameDefs_content {a b : List Record} (h : SameDefs a b) : content a = content b := h

theorem sameDefs_find {a b : List Record} (h : SameDefs a b) (n : Name) :
    (a.find? (fun r => r.name == n)).map (·.rule) = (b.find? (fun r => r.name == n)).map (·.rule) := by
  unfold SameDefs at h
  induction a generalizing b with
  | nil =>
    cases b with
    | nil => rfl
    | cons y b => cases h
  | cons x a ih =>
    cases b with
    | nil => cases h
    | cons y b =>
      simp only [List.map_cons, List.cons.injEq, Prod.mk.injEq] at h
      simp only [List.find?_cons, h.1.1]
      split
      · simp only [Option.map_some, h.1.2]
      · exact ih h.2

theorem sameLines_env {g g' : Grammar} (h : SameButLines g g') : g.env = g'.env := by
  funext n
  exact sameDefs_find h.records n

theorem sameLines_record {g g' : Grammar} (h : SameButLines g g') (n : Name) : (g.getRecord n).isSome = (g'.getRecord n).isSome := by
  have := congrArg Option.isSome (congrFun (sameLines_env h) n)
  simpa [Grammar.env] using this

theorem sameDefs_filter {a b : List Record} (h : SameDefs a b) (p : Name → Bool) : SameDefs (a.filter (fun r => p r.name)) (b.filter (fun r => p r.name)) := by
  unfold SameDefs at *
  induction a generalizing b with
  | nil =>
    cases b with
    | nil => rfl
    | cons y b => cases h
  | cons x a ih =>
    cases b with
    | nil => cases h
    | cons y b =>
      simp only [List.map_cons, List.cons.injEq, Prod.mk.injEq] at h
      simp only [List.filter_cons, h.1.1]
      split
      · simp only [List.map_cons, h.1.1, h.1.2, ih h.2]
      · exact ih h.2

theorem sameDefs_put {a b : List Record} (h : SameDefs a b) {x y : Record} (hn : x.name = y.name) (hr : x.rule = y.rule) :
    SameDefs (putRecord a x) (putRecord b y) := by
  unfold SameDefs at *
  induction a generalizing b with
  | nil =>
    cases b with
    | nil => simp [putRecord, hn, hr]
    | cons y b => cases h
  | cons z a ih =>
    cases b with
    | nil => cases h
    | cons w b =>
      simp only [List.map_cons, List.cons.injEq, Prod.mk.injEq] at h
      simp only [putRecord, h.1.1, hn]
      split
      · simp only [List.map_cons, hn, hr, h.2]
      · simp only [List.map_cons, h.1.1, h.1.2, ih h.2]

theorem sameDefs_puts {l m : List Record} (hl : SameDefs l m) : ∀ {a b : List Record}, SameDefs a b → SameDefs (l.foldl putRecord a) (m.foldl putRecord b) := by
  induction l generalizing m with
  | nil =>
    intro a b h
    cases m with
    | nil => exact h
    | cons => cases hl
  | cons x l ih =>
    intro a b h
    cases m with
    | nil => cases hl
    | cons y m =>
      unfold SameDefs at hl
      simp only [List.map_cons, List.cons.injEq, Prod.mk.injEq] at hl
      exact ih hl.2 (sameDefs_put h hl.1.1 hl.1.2)

theorem sameLines_usages {g g' : Grammar} (h : SameButLines g g') (us : List (Name × Name)) : SameButLines (g.withUsages us) (g'.withUsages us) :=
  ⟨h.records, by simp only [withUsages, h.nonRoots], h.terminals, h.roots⟩

/-- `ParseRule` does not look at line numbers. -/
theorem parseRule_lines {g g' : Grammar} (h : SameButLines g g') (fuel : Nat) (name : Name) (text : List Rune) :
    match parseRule fuel name text g, parseRule fuel name text g' with
    | .oof, .oof => True
    | .err e g1, .err e' g1' => SameReason e e' ∧ SameButLines g1 g1'
    | .ok r g1, .ok r' g1' => r = r' ∧ SameButLines g1 g1'
    | _, _ => False := by
  unfold parseRule
  have hr := sameLines_record h name
  by_cases hv : validName name = false
  · simp only [if_pos hv]
    exact ⟨.other, h⟩
  · simp only [if_neg hv]
    cases h1 : g.getRecord name with
    | some r =>
      cases h2 : g'.getRecord name with
      | none => rw [h1, h2] at hr; cases hr
      | some r' => exact ⟨.duplicate, h⟩
    | none =>
      cases h2 : g'.getRecord name with
      | some r' => rw [h1, h2] at hr; cases hr
      | none =>
        simp only
        cases parse fuel name [EOFChar] { rest := trimSpace text } with
        | oof => trivial
        | err e st => exact ⟨.other, sameLines_usages h _⟩
        | ok r st =>
          refine ⟨rfl, ?_, (sameLines_usages h _).nonRoots, h.terminals, h.roots⟩
          have := h.records
          unfold SameDefs at *
          simp only [withUsages, List.map_append, this, List.map_cons, List.map_nil]

theorem validate_lines {g g' : Grammar} (h : SameButLines g g') :
    match g.validate, g'.validate with
    | none, none => True
    | some g1, some g1' => SameButLines g1 g1'
    | _, _ => False := by
  unfold validate
  have hu : ∀ n, (g.getRecord n).isNone = (g'.getRecord n).isNone := fun n => by
    have := sameLines_record h n
    cases h1 : g.getRecord n <;> cases h2 : g'.getRecord n <;> simp_all
  simp only [hu, h.nonRoots]
  by_cases hc : (g'.nonRoots.any fun p => (g'.getRecord p.1).isNone) = true
  · simp only [if_pos hc]
  · simp only [if_neg hc]
    exact ⟨h.records, rfl, sameDefs_puts (sameDefs_filter h.records (fun n => !(g'.nonRoots.map (·.2)).flatten.contains n)) h.terminals,
      sameDefs_puts (sameDefs_filter h.records (fun n => !(g'.nonRoots.any (fun p => p.1 == n)))) h.roots⟩

/-! ## A line and a call -/

theorem trim_around {a t b : List Rune} (ha : ∀ c ∈ a, isWhiteSpace c = true) (hb : ∀ c ∈ b, isWhiteSpace c = true) :
    trimSpace (a ++ t ++ b) = trimSpace t := by
  obtain ⟨x, y, h1, h2, h3, h4⟩ := trim_trimmed t
  refine (trimmed_unique ⟨a ++ x, y ++ b, ?_, ?_, h3, h4⟩).symm
  · conv => lhs; rw [h1]
    simp only [List.append_assoc]
  · intro c hc
    simp only [List.mem_append] at hc h2
    rcases hc with (hc | hc) | (hc | hc)
    · exact ha c hc
    · exact h2 c (.inl hc)
    · exact h2 c (.inr hc)
    · exact hb c hc

theorem space_eq {c : Rune} (h : isWhiteSpace c = true) : c ≠ 61 := by
  rintro rfl
  revert h
  decide

theorem splitEq_none {l : List Rune} : splitEq l = none ↔ 61 ∉ l := by
  induction l with
  | nil => simp [splitEq]
  | cons c l ih =>
    unfold splitEq
    by_cases hc : c = ch '='
    · rw [if_pos hc]
      have hc : c = 61 := hc
      simp [hc]
    · rw [if_neg hc]
      have hc : ¬ c = 61 := hc
      rw [Option.map_eq_none_iff, ih, List.mem_cons, not_or]
      exact ⟨fun h => ⟨fun h => hc h.symm, h⟩, fun h => h.2⟩

/-- `AddRule` with a line, in terms of the line without the white space around it. -/
theorem addRule_line (fuel : Nat) (l : List Rune) (g : Grammar) :
    addRule fuel l g = match splitEq (trimSpace l) with
      | none => .err (.missingEq l) g
      | some (n, r) => parseRule fuel (trimSpace n) (trimSpace r) g := by
  obtain ⟨a, b, h1, h2, _, _⟩ := trim_trimmed l
  have ha : ∀ c ∈ a, isWhiteSpace c = true := fun c hc => h2 c (List.mem_append_left _ hc)
  have hb : ∀ c ∈ b, isWhiteSpace c = true := fun c hc => h2 c (List.mem_append_right _ hc)
  unfold addRule
  cases hs : splitEq (trimSpace l) with
  | none =>
    have : splitEq l = none := by
      rw [splitEq_none] at hs ⊢
      rw [h1]
      simp only [List.mem_append, not_or]
      exact ⟨⟨fun h => space_eq (ha _ h) rfl, hs⟩, fun h => space_eq (hb _ h) rfl⟩
    rw [this]
  | some p =>
    obtain ⟨n, r⟩ := p
    obtain ⟨e1, e2⟩ := splitEq_spec.1 hs
    have : splitEq l = some (a ++ n, r ++ b) := by
      rw [splitEq_spec]
      refine ⟨?_, ?_⟩
      · rw [h1, e1]; simp
      · rw [List.mem_append, not_or]
        exact ⟨fun h => space_eq (ha _ h) rfl, e2⟩
    rw [this]
    simp only
    have t1 := trim_around (a := a) (t := n) (b := []) ha (fun c hc => by cases hc)
    have t2 := trim_around (a := []) (t := r) (b := b) (fun c hc => by cases hc) hb
    rw [List.append_nil] at t1
    rw [List.nil_append] at t2
    rw [t1, t2]

/-- The loop over the lines, and the calls. -/
theorem linesLoop_calls (fuel : Nat) {ls ds : List (List Rune)} (hd : Selected ls ds) : ∀ (i : Nat) {g g' : Grammar}, SameButLines g g' →
    match linesLoop fuel i ls g, addAll fuel ds g' with
    | .oof, .oof => True
    | .err e g1, .err e' g1' => (∃ k n e0, e = .atLine k n e0 ∧ SameReason e0 e') ∧ SameButLines g1 g1'
    | .ok _ g1, .ok _ g1' => SameButLines g1 g1'
    | _, _ => False := by
  induction hd with
  | nil => intro i g g' h; exact h
  | @skip l ls ds hsk hs ih =>
    intro i g g' h
    unfold linesLoop
    simp only
    have hk : (trimSpace l).length = 0 ∨ (trimSpace l).take 2 = [ch '/', ch '/'] := (skipLine_iff l).2 hsk
    rw [if_pos hk]
    exact ih (i + 1) (g := { g with maxLine := i + 1 }) ⟨h.records, h.nonRoots, h.terminals, h.roots⟩
  | @keep l ls ds hsk hs ih =>
    intro i g g' h
    unfold linesLoop addAll
    simp only
    have hk : ¬ ((trimSpace l).length = 0 ∨ (trimSpace l).take 2 = [ch '/', ch '/']) := fun hc => hsk ((skipLine_iff l).1 hc)
    rw [if_neg hk, addRule_line]
    cases hq : splitEq (trimSpace l) with
    | none => exact ⟨⟨_, _, _, rfl, .missingEq (trim_trimmed l)⟩, h⟩
    | some p =>
      obtain ⟨n, r⟩ := p
      simp only
      have hp := parseRule_lines h fuel (trimSpace n) (trimSpace r)
      cases h1 : parseRule fuel (trimSpace n) (trimSpace r) g with
      | oof =>
        cases h2 : parseRule fuel (trimSpace n) (trimSpace r) g' with
        | oof => trivial
        | err e g1 => rw [h1, h2] at hp; exact hp.elim
        | ok a g1 => rw [h1, h2] at hp; exact hp.elim
      | err e g1 =>
        cases h2 : parseRule fuel (trimSpace n) (trimSpace r) g' with
        | oof => rw [h1, h2] at hp; exact hp.elim
        | err e' g1' => rw [h1, h2] at hp; exact ⟨⟨_, _, _, rfl, hp.1⟩, hp.2⟩
        | ok a g1 => rw [h1, h2] at hp; exact hp.elim
      | ok a g1 =>
        cases h2 : parseRule fuel (trimSpace n) (trimSpace r) g' with
        | oof => rw [h1, h2] at hp; exact hp.elim
        | err e' g1' => rw [h1, h2] at hp; exact hp.elim
        | ok a' g1' =>
          rw [h1, h2] at hp
          exact ih (i + 1) (g := { g1 with maxLine := i + 1 }) ⟨hp.2.records, hp.2.nonRoots, hp.2.terminals, hp.2.roots⟩

/-- **C69**: `NewGrammarFromString` on a text has the outcome of `New`, a call of `AddRule` with each line that is neither blank nor a comment, until one is
rejected, and `Validate`: the same grammar but for the line numbers, rejected or not, and the same error but for the mention of lines. -/
theorem C69_text (fuel : Nat) {text : List Rune} {ls ds : List (List Rune)} (hl : Lines text ls) (hd : Selected ls ds) :
    fromString fuel text = .oof ∧ buildFrom fuel ds = .oof ∨ SameOutcome (fromString fuel text) (buildFrom fuel ds) := by
  have hl := lines_unique hl
  subst hl
  have h := linesLoop_calls fuel hd 0 (g := {}) (g' := {}) ⟨rfl, rfl, rfl, rfl⟩
  unfold fromString buildFrom
  cases h1 : linesLoop fuel 0 (splitLines text) {} with
  | oof =>
    cases h2 : addAll fuel ds {} with
    | oof => exact .inl ⟨rfl, rfl⟩
    | err e g => rw [h1, h2] at h; exact h.elim
    | ok a g => rw [h1, h2] at h; exact h.elim
  | err e g =>
    cases h2 : addAll fuel ds {} with
    | oof => rw [h1, h2] at h; exact h.elim
    | err e' g' =>
      rw [h1, h2] at h
      obtain ⟨⟨k, n, e0, rfl, he⟩, hg⟩ := h
      exact .inr (.line he hg)
    | ok a g => rw [h1, h2] at h; exact h.elim
  | ok a g =>
    cases h2 : addAll fuel ds {} with
    | oof => rw [h1, h2] at h; exact h.elim
    | err e' g' => rw [h1, h2] at h; exact h.elim
    | ok a' g' =>
      rw [h1, h2] at h
      have hv := validate_lines h
      simp only
      cases h3 : g.validate with
      | none =>
        cases h4 : g'.validate with
        | none => exact .inr (.undefined h)
        | some g2' => rw [h3, h4] at hv; exact hv.elim
      | some g2 =>
        cases h4 : g'.validate with
        | none => rw [h3, h4] at hv; exact hv.elim
        | some g2' => rw [h3, h4] at hv; exact .inr (.ok hv)

/-- Every text has such lines. -/
theorem C69_lines (text : List Rune) : ∃ ls ds, Lines text ls ∧ Selected ls ds := by
  refine ⟨splitLines text, ?_⟩
  suffices h : ∀ ls : List (List Rune), ∃ ds, Selected ls ds by
    obtain ⟨ds, h⟩ := h (splitLines text)
    exact ⟨ds, splitLines_lines text, h⟩
  intro ls
  induction ls with
  | nil => exact ⟨[], .nil⟩
  | cons l ls ih =>
    obtain ⟨ds, h⟩ := ih
    by_cases hs : Skipped l
    · exact ⟨ds, .skip hs h⟩
    · exact ⟨l :: ds, .keep hs h⟩

/-- Grammars that are the same but for the line numbers give the same results. -/
theorem C69_eval {g g' : Grammar} (h : SameButLines g g') (fuel : Nat) (name : Name) (sample : List Rune) :
    g'.evalRule fuel name sample = g.evalRule fuel name sample ∧ g'.evalEmbed fuel name sample = g.evalEmbed fuel name sample :=
  ⟨evalRule_env (sameLines_env h).symm _ _ _, evalEmbed_env (sameLines_env h).symm _ _ _⟩

/-- The outcomes of documents depend on the rules, and on which of them are roots. -/
theorem raw_content {g g' : Grammar} (he : g'.env = g.env) (hroots : (content g.roots).Perm (content g'.roots)) {sch : Sched} (hs : sch.Fair) :
    ∃ sch' : Sched, sch'.Fair ∧ ∀ fuel s, g'.evalRaw fuel sch' s = g.evalRaw fuel sch s := by
  have hex : ∀ i, ∃ l : List Record, l.Perm g'.roots ∧ content l = content (sch.roots i g.roots) := fun i =>
    perm_lift (fun r : Record => (r.name, r.rule)) (((hs.1 i g.roots).map _).trans hroots) rfl
  classical
  refine ⟨⟨fun i l => if l = g'.roots then (hex i).choose else l, sch.matched⟩, ⟨?_, hs.2⟩, ?_⟩
  · intro i l
    simp only
    split
    · rename_i h; rw [h]; exact (hex i).choose_spec.1
    · exact .refl _
  · intro fuel s
    unfold evalRaw
    rw [he]
    split
    · rfl
    · refine rawLoop_rules g.env fuel g'.roots g.roots _ sch (fun i => ?_) (by intro i l; rfl) _ _ _ _ _ _
      simp only [if_true]
      have := congrArg (List.map Prod.snd) (hex i).choose_spec.2
      unfold content at this
      rw [List.map_map, List.map_map] at this
      exact this

/-- On documents too, in some order of visiting the maps. -/
theorem C69_document {g g' : Grammar} (h : SameButLines g g') :
    (∀ sch : Sched, sch.Fair → ∃ sch' : Sched, sch'.Fair ∧ ∀ fuel s, g'.evalRaw fuel sch' s = g.evalRaw fuel sch s) ∧
    (∀ sch' : Sched, sch'.Fair → ∃ sch : Sched, sch.Fair ∧ ∀ fuel s, g.evalRaw fuel sch s = g'.evalRaw fuel sch' s) := by
  have hr : content g.roots = content g'.roots := h.roots
  exact ⟨fun sch hs => raw_content (sameLines_env h).symm (by rw [hr]) hs, fun sch hs => raw_content (sameLines_env h) (by rw [hr]) hs⟩

/-! ## The order of the calls -/

/-- What `AddRule` makes of a definition, whatever the grammar. -/
def AddsAs (fuel : Nat) (d : List Rune) (name : Name) (r : Rule) (us : List (Name × Name)) : Prop :=
  ∃ n b r0 st, splitEq d = some (n, b) ∧ name = trimSpace n ∧ validName name = true ∧
    parse fuel name [EOFChar] { rest := trimSpace (trimSpace b) } = .ok r0 st ∧ r = r0.setName name ∧ us = st.usages

/-- The grammar with one more rule. -/
def withRule (g : Grammar) (name : Name) (r : Rule) (us : List (Name × Name)) : Grammar :=
  { g.withUsages us with maxLine := (g.withUsages us).maxLine + 1, records := (g.withUsages us).records ++ [⟨name, r, (g.withUsages us).maxLine + 1⟩] }

theorem addRule_ok {fuel : Nat} {d : List Rune} {g g1 : Grammar} {r : Rule} :
    addRule fuel d g = .ok r g1 ↔ ∃ name us, AddsAs fuel d name r us ∧ g.getRecord name = none ∧ g1 = withRule g name r us := by
  unfold addRule parseRule
  constructor
  · intro h
    cases hs : splitEq d with
    | none => rw [hs] at h; cases h
    | some p =>
      obtain ⟨n, b⟩ := p
      rw [hs] at h
      simp only at h
      by_cases hv : validName (trimSpace n) = false
      · rw [if_pos hv] at h; cases h
      · rw [if_neg hv] at h
        cases hg : g.getRecord (trimSpace n) with
        | some q => rw [hg] at h; cases h
        | none =>
          rw [hg] at h
          simp only at h
          cases hp : parse fuel (trimSpace n) [EOFChar] { rest := trimSpace (trimSpace b) } with
          | oof => rw [hp] at h; cases h
          | err e st => rw [hp] at h; cases h
          | ok r0 st =>
            rw [hp] at h
            cases h
            exact ⟨_, _, ⟨n, b, r0, st, hs, rfl, by simpa using hv, hp, rfl, rfl⟩, hg, rfl⟩
  · rintro ⟨name, us, ⟨n, b, r0, st, hs, rfl, hv, hp, rfl, rfl⟩, hg, rfl⟩
    rw [hs]
    simp only
    rw [if_neg (by rw [hv]; simp), hg]
    simp only
    rw [hp]
    rfl

theorem record_none {g : Grammar} {n : Name} : g.getRecord n = none ↔ n ∉ (content g.records).map Prod.fst := by
  rw [content_names, getRecord_none]

theorem withRule_content (g : Grammar) (name : Name) (r : Rule) (us : List (Name × Name)) :
    content (withRule g name r us).records = content g.records ++ [(name, r)] := by
  unfold content withRule withUsages
  simp

theorem addRule_perm {fuel : Nat} {d : List Rune} {g g0 g1 : Grammar} {r : Rule} (hp : (content g.records).Perm (content g0.records))
    (h : addRule fuel d g = .ok r g1) : ∃ g1', addRule fuel d g0 = .ok r g1' ∧ (content g1.records).Perm (content g1'.records) := by
  obtain ⟨name, us, h1, h2, rfl⟩ := addRule_ok.1 h
  refine ⟨withRule g0 name r us, addRule_ok.2 ⟨name, us, h1, ?_, rfl⟩, ?_⟩
  · rw [record_none] at h2 ⊢
    rwa [← (hp.map Prod.fst).mem_iff]
  · rw [withRule_content, withRule_content]
    exact hp.append_right _

theorem addRule_swap {fuel : Nat} {d e : List Rune} {g g1 g2 : Grammar} {r q : Rule} (h : addRule fuel d g = .ok r g1) (h' : addRule fuel e g1 = .ok q g2) :
    ∃ k1 k2, addRule fuel e g = .ok q k1 ∧ addRule fuel d k1 = .ok r k2 ∧ (content g2.records).Perm (content k2.records) := by
  obtain ⟨name, us, h1, h2, rfl⟩ := addRule_ok.1 h
  obtain ⟨name', us', h3, h4, rfl⟩ := addRule_ok.1 h'
  rw [record_none, withRule_content, List.map_append, List.mem_append, not_or] at h4
  have hne : name' ≠ name := by simpa using h4.2
  refine ⟨withRule g name' q us', withRule (withRule g name' q us') name r us, addRule_ok.2 ⟨name', us', h3, record_none.2 h4.1, rfl⟩,
    addRule_ok.2 ⟨name, us, h1, ?_, rfl⟩, ?_⟩
  · rw [record_none, withRule_content, List.map_append, List.mem_append, not_or]
    exact ⟨record_none.1 h2, by simpa using fun h => hne h.symm⟩
  · rw [withRule_content, withRule_content, withRule_content, withRule_content, List.append_assoc, List.append_assoc]
    exact (List.Perm.swap _ _ _).append_left _

theorem addAll_cons {fuel : Nat} {d : List Rune} {ds : List (List Rune)} {g g2 : Grammar} :
    addAll fuel (d :: ds) g = .ok () g2 ↔ ∃ r g1, addRule fuel d g = .ok r g1 ∧ addAll fuel ds g1 = .ok () g2 := by
  rw [addAll]
  cases addRule fuel d g with
  | oof => exact ⟨fun h => (by cases h), fun ⟨_, _, h, _⟩ => (by cases h)⟩
  | err e g => exact ⟨fun h => (by cases h), fun ⟨_, _, h, _⟩ => (by cases h)⟩
  | ok r g1 => exact ⟨fun h => ⟨r, g1, rfl, h⟩, fun ⟨_, _, h, h'⟩ => (by cases h; exact h')⟩

theorem addAll_same {fuel : Nat} : ∀ {ds : List (List Rune)} {g g0 g1 : Grammar}, (content g.records).Perm (content g0.records) →
    addAll fuel ds g = .ok () g1 → ∃ g1', addAll fuel ds g0 = .ok () g1' ∧ (content g1.records).Perm (content g1'.records)
  | [], g, g0, g1, hp, h => by cases h; exact ⟨g0, rfl, hp⟩
  | d :: ds, g, g0, g1, hp, h => by
    obtain ⟨r, k, h1, h2⟩ := addAll_cons.1 h
    obtain ⟨k', h3, h4⟩ := addRule_perm hp h1
    obtain ⟨g1', h5, h6⟩ := addAll_same h4 h2
    exact ⟨g1', addAll_cons.2 ⟨r, k', h3, h5⟩, h6⟩

theorem addAll_perm {fuel : Nat} {ds ds' : List (List Rune)} (h : ds.Perm ds') : ∀ {g g0 g1 : Grammar}, (content g.records).Perm (content g0.records) →
    addAll fuel ds g = .ok () g1 → ∃ g1', addAll fuel ds' g0 = .ok () g1' ∧ (content g1.records).Perm (content g1'.records) := by
  induction h with
  | nil => exact fun hp h => addAll_same hp h
  | cons d _ ih =>
    intro g g0 g1 hp h
    obtain ⟨r, k, h1, h2⟩ := addAll_cons.1 h
    obtain ⟨k', h3, h4⟩ := addRule_perm hp h1
    obtain ⟨g1', h5, h6⟩ := ih h4 h2
    exact ⟨g1', addAll_cons.2 ⟨r, k', h3, h5⟩, h6⟩
  | swap d e ds =>
    intro g g0 g1 hp h
    obtain ⟨r, k, h1, h2⟩ := addAll_cons.1 h
    obtain ⟨q, k2, h3, h4⟩ := addAll_cons.1 h2
    obtain ⟨j1, j2, e1, e2, e3⟩ := addRule_swap h1 h3
    obtain ⟨i1, f1, f2⟩ := addRule_perm hp e1
    obtain ⟨i2, f3, f4⟩ := addRule_perm f2 e2
    obtain ⟨g1', h5, h6⟩ := addAll_same (e3.trans f4) h4
    exact ⟨g1', addAll_cons.2 ⟨q, i1, f1, addAll_cons.2 ⟨r, i2, f3, h5⟩⟩, h6⟩
  | trans _ _ ih1 ih2 =>
    intro g g0 g1 hp h
    obtain ⟨k, h1, h2⟩ := ih1 hp h
    obtain ⟨k', h3, h4⟩ := ih2 (.refl _) h1
    exact ⟨k', h3, h2.trans h4⟩

/-- What a grammar built by `AddRule` only is like. -/
theorem addAll_facts {fuel : Nat} {ds : List (List Rune)} {g : Grammar} (h : addAll fuel ds {} = .ok () g) :
    OkCalls {} g ∧ g.roots = [] ∧ g.terminals = [] := by
  suffices hh : ∀ (ds : List (List Rune)) (g0 : Grammar), OkCalls {} g0 ∧ g0.roots = [] ∧ g0.terminals = [] → addAll fuel ds g0 = .ok () g →
      OkCalls {} g ∧ g.roots = [] ∧ g.terminals = [] from hh ds {} ⟨.done, rfl, rfl⟩ h
  intro ds
  induction ds with
  | nil => intro g0 h0 h; cases h; exact h0
  | cons d ds ih =>
    intro g0 h0 h
    obtain ⟨r, k, h1, h2⟩ := addAll_cons.1 h
    refine ih k ⟨.added h0.1 h1, ?_⟩ h2
    obtain ⟨name, us, _, _, rfl⟩ := addRule_ok.1 h1
    exact h0.2

theorem refsOf_perm {a b : List Record} (h : (content a).Perm (content b)) (k : Name) (hr : RefsOf a k) : RefsOf b k := by
  obtain ⟨r, h1, h2⟩ := hr
  obtain ⟨q, hq, h3⟩ := List.mem_map.1 (h.mem_iff.1 (List.mem_map.2 ⟨r, h1, rfl⟩))
  simp only [Prod.mk.injEq] at h3
  exact ⟨q, hq, by rw [h3.2]; exact h2⟩

/-- **C69** for the order of the calls: if `AddRule` accepts some definitions one after the other, it accepts them in any other order; `Validate` then accepts
both grammars or none; and after it the two have the same rules and the same roots, and give the same results. -/
theorem C69_order {fuel : Nat} {ds ds' : List (List Rune)} (hp : ds.Perm ds') {g : Grammar} (h : addAll fuel ds {} = .ok () g) :
    ∃ g', addAll fuel ds' {} = .ok () g' ∧ (g.validate.isSome = g'.validate.isSome) ∧
      ∀ k k', g.validate = some k → g'.validate = some k' →
        (content k.records).Perm (content k'.records) ∧ (content k.roots).Perm (content k'.roots) ∧
        (∀ fuel name sample, k'.evalRule fuel name sample = k.evalRule fuel name sample ∧ k'.evalEmbed fuel name sample = k.evalEmbed fuel name sample) ∧
        (∀ sch : Sched, sch.Fair → ∃ sch' : Sched, sch'.Fair ∧ ∀ fuel s, k'.evalRaw fuel sch' s = k.evalRaw fuel sch s) := by
  obtain ⟨g', h', hc⟩ := addAll_perm hp (.refl _) h
  obtain ⟨a1, a2, a3⟩ := addAll_facts h
  obtain ⟨b1, b2, b3⟩ := addAll_facts h'
  have n1 := reachable_unique ⟨{}, .inl rfl, okCalls_calls a1⟩
  have n2 := reachable_unique ⟨{}, .inl rfl, okCalls_calls b1⟩
  have hu : ∀ k, k ∈ used g ↔ k ∈ used g' := fun k => by
    rw [ok_used a1, ok_used b1]
    exact ⟨refsOf_perm hc k, refsOf_perm hc.symm k⟩
  have hd : ∀ k, (∃ q ∈ g.records, q.name = k) ↔ ∃ q ∈ g'.records, q.name = k := fun k => by
    rw [← List.mem_map, ← List.mem_map, ← content_names, ← content_names]
    exact (hc.map Prod.fst).mem_iff
  refine ⟨g', h', ?_, ?_⟩
  · rw [Bool.eq_iff_iff, Option.isSome_iff_exists, Option.isSome_iff_exists, validate_iff, validate_iff]
    exact ⟨fun h k hk => (hd k).1 (h k ((hu k).2 hk)), fun h k hk => (hd k).2 (h k ((hu k).1 hk))⟩
  · intro k k' hk hk'
    obtain ⟨r1, r2, _⟩ := validate_first hk a2 a3 n1
    obtain ⟨s1, s2, _⟩ := validate_first hk' b2 b3 n2
    have hroots : (content k.roots).Perm (content k'.roots) := by
      refine perm_of_nodup (nodup_content ?_) (nodup_content ?_) ?_
      · rw [r2]; exact nodup_filter _ n1
      · rw [s2]; exact nodup_filter _ n2
      · rintro ⟨n, r⟩
        have key : ∀ {g k : Grammar}, k.roots = g.records.filter (fun r => !(g.nonRoots.any (fun p => p.1 == r.name))) →
            ((n, r) ∈ content k.roots ↔ (n, r) ∈ content g.records ∧ n ∉ used g) := by
          intro g k hk
          rw [mem_content, mem_content, hk]
          have hany : ∀ m : Name, (g.nonRoots.any (fun p => p.1 == m)) = true ↔ m ∈ used g := fun m => by
            rw [any_used g (fun x => x == m), List.any_eq_true]
            constructor
            · rintro ⟨x, hx, he⟩
              rw [← (by simpa using he : x = m)]
              exact hx
            · exact fun h => ⟨m, h, by simp⟩
          constructor
          · rintro ⟨q, hq, rfl, rfl⟩
            rw [List.mem_filter] at hq
            refine ⟨⟨q, hq.1, rfl, rfl⟩, fun hm => ?_⟩
            rw [← hany] at hm
            rw [hm] at hq
            simp at hq
          · rintro ⟨⟨q, hq, rfl, rfl⟩, hm⟩
            refine ⟨q, List.mem_filter.2 ⟨hq, ?_⟩, rfl, rfl⟩
            rw [← hany, Bool.not_eq_true] at hm
            rw [hm]
            rfl
        rw [key r2, key s2, hc.mem_iff, hu]
    have hrec : (content k.records).Perm (content k'.records) := by rw [r1, s1]; exact hc
    have he : k'.env = k.env := env_perm (by rw [r1]; exact n1) (by rw [s1]; exact n2) hrec.symm
    exact ⟨hrec, hroots, fun fuel name sample => ⟨evalRule_env he _ _ _, evalEmbed_env he _ _ _⟩, fun sch hs => raw_content he hroots hs⟩

/-! ## Cases -/

/-- The definitions of `sampleText`. -/
def sampleDefs : List (List Rune) := [runes "num = digit {digit}", runes "  digit='0'-'9' ", runes "sign = '+' | '-'"]

/-- What `C69_text` is about: a text with a comment and a blank line, and its definitions. -/
example : Lines sampleText (splitLines sampleText) ∧ Selected (splitLines sampleText) sampleDefs := by
  refine ⟨splitLines_lines _, ?_⟩
  have h : splitLines sampleText = [runes "// numbers", runes "num = digit {digit}", [], runes "  digit='0'-'9' ", runes "sign = '+' | '-'"] := by decide +kernel
  have hk : ∀ l : List Rune, ((trimSpace l).length == 0 || (trimSpace l).take 2 == [ch '/', ch '/']) = true → Skipped l := fun l h =>
    (skipLine_iff l).1 (by unfold skipLine; simpa using h)
  have hn : ∀ l : List Rune, ((trimSpace l).length == 0 || (trimSpace l).take 2 == [ch '/', ch '/']) = false → ¬ Skipped l := fun l h hs => by
    have := (skipLine_iff l).2 hs
    unfold skipLine at this
    simp_all
  rw [h]
  exact .skip (hk _ (by decide +kernel)) (.keep (hn _ (by decide +kernel)) (.skip (hk _ (by decide +kernel)) (.keep (hn _ (by decide +kernel))
    (.keep (hn _ (by decide +kernel)) .nil))))

def wasBuilt : Out Grammar Grammar → Bool
  | .ok _ _ => true
  | _ => false

/-- These are accepted, in any order. -/
example : wasBuilt (buildFrom 60 sampleDefs) = true ∧ wasBuilt (buildFrom 60 sampleDefs.reverse) = true := by decide +kernel

/-- Line numbers do differ: the grammar of the text says that `digit` is on line 4, the one that was built says 2. -/
theorem C69_lines_differ :
    ((madeOf sampleText).getD {}).records.map Record.line = [2, 4, 5] ∧
    (match buildFrom 60 sampleDefs with | .ok g _ => g.records.map Record.line | _ => []) = [1, 2, 3] := by decide +kernel

end Xbnf.Props
