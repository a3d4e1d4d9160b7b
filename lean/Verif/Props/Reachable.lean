import Verif.Props.Grammars
import Verif.Spec.Serialize
/-
Grammars that a program can have: what is so of all of them, whatever calls made them.
-/
namespace Xbnf.Props
open Xbnf Xbnf.Spec Xbnf.Grammar

/-- A grammar as a program can have it: new or made from a text, and then changed by any calls. -/
def Reachable (g : Grammar) : Prop := ∃ g0, (g0 = {} ∨ ∃ text, Accepted text g0) ∧ DefCalls g0 g

/-- A grammar all of whose definitions were accepted. -/
def WellMade (g : Grammar) : Prop := ∃ g0, (g0 = {} ∨ ∃ text, Accepted text g0) ∧ OkCalls g0 g

/-! ## Line numbers -/

/-- The lines are increasing, and none is above `m`. -/
def Numbered (recs : List Record) (m : Nat) : Prop := (recs.map Record.line).Pairwise (· < ·) ∧ ∀ r ∈ recs, r.line ≤ m

theorem Numbered.add {recs : List Record} {m : Nat} (h : Numbered recs m) (name : Name) (r : Rule) :
    Numbered (recs ++ [⟨name, r, m + 1⟩]) (m + 1) := by
  constructor
  · rw [List.map_append, List.pairwise_append]
    refine ⟨h.1, by simp, ?_⟩
    intro a ha b hb
    obtain ⟨q, hq, rfl⟩ := List.mem_map.1 ha
    simp only [List.map_cons, List.map_nil, List.mem_singleton] at hb
    have := h.2 q hq
    omega
  · intro q hq
    rcases List.mem_append.1 hq with hq | hq
    · have := h.2 q hq; omega
    · rw [List.mem_singleton.1 hq]; exact Nat.le_refl _

theorem Numbered.mono {recs : List Record} {m m' : Nat} (h : Numbered recs m) (hm : m ≤ m') : Numbered recs m' :=
  ⟨h.1, fun r hr => Nat.le_trans (h.2 r hr) hm⟩

theorem parseRule_numbered {fuel : Nat} {name : Name} {text : List Rune} {g g' : Grammar} (hg : Numbered g.records g.maxLine) :
    (∀ r, parseRule fuel name text g = .ok r g' → Numbered g'.records g'.maxLine ∧ g'.maxLine = g.maxLine + 1) ∧
    (∀ e, parseRule fuel name text g = .err e g' → Numbered g'.records g'.maxLine) := by
  have hc := parseRule_cases (fuel := fuel) (name := name) (text := text) (g := g)
  constructor
  · intro r h
    rw [h] at hc
    obtain ⟨_, _, _, _, _, _, rfl⟩ := hc
    exact ⟨hg.add _ _, rfl⟩
  · intro e h
    rw [h] at hc
    rcases hc with ⟨_, _, rfl⟩ | ⟨_, _, _, rfl⟩ | ⟨_, _, _, _, rfl⟩
    · exact hg
    · exact hg
    · exact hg

theorem validate_same {g g' : Grammar} (h : g.validate = some g') :
    g'.records = g.records ∧ g'.maxLine = g.maxLine ∧ g'.nonRoots = g.nonRoots := by
  unfold validate at h
  split at h
  · cases h
  · simp only [Option.some.injEq] at h
    rw [← h]
    exact ⟨rfl, rfl, rfl⟩

theorem call_numbered {g g' : Grammar} (h : DefCall g g') (hg : Numbered g.records g.maxLine) : Numbered g'.records g'.maxLine := by
  cases h with
  | parsed h => exact ((parseRule_numbered hg).1 _ h).1
  | notParsed h => exact (parseRule_numbered hg).2 _ h
  | added h =>
    rcases addRule_cases (fuel := ‹_›) (text := ‹_›) (g := g) with h' | ⟨n, b, h'⟩
    · rw [h'] at h; cases h
    · rw [h'] at h; exact ((parseRule_numbered hg).1 _ h).1
  | notAdded h =>
    rcases addRule_cases (fuel := ‹_›) (text := ‹_›) (g := g) with h' | ⟨n, b, h'⟩
    · rw [h'] at h; cases h; exact hg
    · rw [h'] at h; exact (parseRule_numbered hg).2 _ h
  | validated h =>
    obtain ⟨h1, h2, _⟩ := validate_same h
    rw [h1, h2]; exact hg

theorem linesLoop_numbered (fuel : Nat) : ∀ (ls : List (List Rune)) (i : Nat) (g g' : Grammar) (u : Unit),
    Numbered g.records g.maxLine → g.maxLine ≤ i → linesLoop fuel i ls g = .ok u g' → Numbered g'.records g'.maxLine
  | [], i, g, g', u, hg, hi, h => by
    unfold linesLoop at h; cases h; exact hg
  | l :: ls, i, g, g', u, hg, hi, h => by
    unfold linesLoop at h
    simp only at h
    split at h
    · exact linesLoop_numbered fuel ls (i + 1) { g with maxLine := i + 1 } g' u (Numbered.mono hg (by simp only; omega)) (Nat.le_refl _) h
    · split at h
      · cases h
      · cases hp : parseRule fuel (trimSpace _) (trimSpace _) g with
        | oof => rw [hp] at h; cases h
        | err e g1 => rw [hp] at h; cases h
        | ok r g1 =>
          rw [hp] at h
          obtain ⟨h1, h2⟩ := (parseRule_numbered hg).1 _ hp
          exact linesLoop_numbered fuel ls (i + 1) { g1 with maxLine := i + 1 } g' u (Numbered.mono h1 (by simp only; omega)) (Nat.le_refl _) h

theorem accepted_loop {text : List Rune} {g : Grammar} (h : Accepted text g) :
    ∃ fuel g1, linesLoop fuel 0 (splitLines text) {} = .ok () g1 ∧ g1.validate = some g := by
  obtain ⟨fuel, g', h⟩ := h
  unfold fromString at h
  cases hl : linesLoop fuel 0 (splitLines text) {} with
  | oof => rw [hl] at h; cases h
  | err e g1 => rw [hl] at h; cases h
  | ok u g1 =>
    rw [hl] at h
    simp only at h
    cases hv : g1.validate with
    | none => rw [hv] at h; cases h
    | some g2 => rw [hv] at h; cases h; exact ⟨fuel, g1, hl, hv⟩

theorem accepted_numbered {text : List Rune} {g : Grammar} (h : Accepted text g) : Numbered g.records g.maxLine := by
  obtain ⟨fuel, g1, h1, h2⟩ := accepted_loop h
  obtain ⟨h3, h4, _⟩ := validate_same h2
  rw [h3, h4]
  exact linesLoop_numbered fuel _ 0 _ _ _ ⟨by simp, by simp⟩ (Nat.le_refl _) h1

theorem reachable_numbered {g : Grammar} (h : Reachable g) : Numbered g.records g.maxLine := by
  obtain ⟨g0, h0, hc⟩ := h
  have h1 : Numbered g0.records g0.maxLine := by
    rcases h0 with rfl | ⟨text, h0⟩
    · exact ⟨by simp, by simp⟩
    · exact accepted_numbered h0
  induction hc with
  | done => exact h1
  | more _ hc ih => exact call_numbered hc ih

theorem WellMade.reachable {g : Grammar} (h : WellMade g) : Reachable g := by
  obtain ⟨g0, h0, hc⟩ := h
  exact ⟨g0, h0, okCalls_calls hc⟩

/-! ## Who refers to whom -/

def lookup (m : List (Name × List Name)) (n : Name) : Option (List Name) := (m.find? (fun p => p.1 == n)).map (·.2)

def some? (l : List Name) : Option (List Name) := if l = [] then none else some l

theorem lookup_addUsage (key user : Name) : ∀ (m : List (Name × List Name)) (n : Name),
    lookup (addUsage m key user) n = if n = key then some ((lookup m key).getD [] ++ [user]) else lookup m n
  | [], n => by
    unfold addUsage lookup
    by_cases h : n = key
    · subst h; simp
    · rw [if_neg h]; simp [Ne.symm h]
  | (k, us) :: m, n => by
    have ih := lookup_addUsage key user m n
    unfold addUsage
    by_cases hk : k = key
    · subst hk
      rw [if_pos rfl]
      unfold lookup at ih ⊢
      by_cases h : n = k
      · subst h; simp
      · rw [if_neg h]; simp [Ne.symm h]
    · rw [if_neg hk]
      unfold lookup at ih ⊢
      by_cases h : k = n
      · subst h
        rw [if_neg hk]; simp
      · have h2 : (k == n) = false := by simp [h]
        have h3 : (k == key) = false := by simp [hk]
        rw [List.find?_cons, h2, List.find?_cons, h3, List.find?_cons, h2]
        exact ih

theorem lookup_usages : ∀ (us : List (Name × Name)) (m : List (Name × List Name)) (f : Name → List Name),
    (∀ n, lookup m n = some? (f n)) →
    ∀ n, lookup (us.foldl (fun m u => addUsage m u.1 u.2) m) n = some? (f n ++ (us.filter (·.1 == n)).map (·.2))
  | [], m, f, h, n => by simpa using h n
  | u :: us, m, f, h, n => by
    rw [List.foldl_cons, lookup_usages us _ (fun n => f n ++ (if n = u.1 then [u.2] else []))]
    · congr 1
      rw [List.filter_cons]
      by_cases hn : n = u.1
      · simp [hn]
      · simp [hn, Ne.symm hn]
    · intro n
      rw [lookup_addUsage, h u.1, h n]
      by_cases hn : n = u.1
      · subst hn
        simp only [if_true]
        unfold some?
        by_cases hf : f u.1 = [] <;> simp [hf]
      · simp [hn]

/-- `nonRoots` tells who refers to whom. -/
def Tallied (g : Grammar) : Prop := ∀ n, lookup g.nonRoots n = some? (usersOf g.records n)

theorem parseRule_tallied {fuel : Nat} {name : Name} {text : List Rune} {g g' : Grammar} {r : Rule} (hg : Tallied g)
    (h : parseRule fuel name text g = .ok r g') : Tallied g' := by
  have hc := parseRule_cases (fuel := fuel) (name := name) (text := text) (g := g)
  rw [h] at hc
  obtain ⟨_, _, _, _, _, _, rfl⟩ := hc
  intro n
  show lookup (g.withUsages (tag name (refs r))).nonRoots n = _
  unfold withUsages
  simp only
  rw [lookup_usages _ _ _ hg]
  congr 1
  unfold usersOf
  rw [List.flatMap_append]
  congr 1
  simp [tag, List.filter_map, Function.comp_def]

theorem linesLoop_tallied (fuel : Nat) : ∀ (ls : List (List Rune)) (i : Nat) (g g' : Grammar) (u : Unit),
    Tallied g → linesLoop fuel i ls g = .ok u g' → Tallied g'
  | [], i, g, g', u, hg, h => by
    unfold linesLoop at h; cases h; exact hg
  | l :: ls, i, g, g', u, hg, h => by
    unfold linesLoop at h
    simp only at h
    split at h
    · exact linesLoop_tallied fuel ls (i + 1) _ g' u (by exact hg) h
    · split at h
      · cases h
      · cases hp : parseRule fuel (trimSpace _) (trimSpace _) g with
        | oof => rw [hp] at h; cases h
        | err e g1 => rw [hp] at h; cases h
        | ok r g1 =>
          rw [hp] at h
          have h1 := parseRule_tallied hg hp
          exact linesLoop_tallied fuel ls (i + 1) { g1 with maxLine := i + 1 } g' u (by exact h1) h

theorem empty_tallied : Tallied {} := fun _ => rfl

theorem accepted_tallied {text : List Rune} {g : Grammar} (h : Accepted text g) : Tallied g := by
  obtain ⟨fuel, g1, h1, h2⟩ := accepted_loop h
  obtain ⟨h3, _, h4⟩ := validate_same h2
  have := linesLoop_tallied fuel _ 0 _ _ _ empty_tallied h1
  intro n
  rw [h3, h4]
  exact this n

theorem wellMade_tallied {g : Grammar} (h : WellMade g) : Tallied g := by
  obtain ⟨g0, h0, hc⟩ := h
  have h1 : Tallied g0 := by
    rcases h0 with rfl | ⟨text, h0⟩
    · exact empty_tallied
    · exact accepted_tallied h0
  clear h0
  induction hc with
  | done => exact h1
  | parsed _ hc ih => exact parseRule_tallied ih hc
  | added _ hc ih =>
    rename_i gg _ _ _ _ _
    rcases addRule_cases (fuel := ‹_›) (text := ‹_›) (g := gg) with h' | ⟨n, b, h'⟩
    · rw [h'] at hc; cases hc
    · rw [h'] at hc; exact parseRule_tallied ih hc
  | validated _ hc ih =>
    obtain ⟨h3, _, h4⟩ := validate_same hc
    intro n
    rw [h3, h4]
    exact ih n

/-! ## Terminals and names -/

/-- Something that is so in a new grammar, and stays so when a rule is added, holds in every grammar all of whose
definitions were accepted. -/
theorem wellMade_ind {P : List Record → List (Name × List Name) → List Record → Prop} (h0 : P [] [] [])
    (hadd : ∀ {fuel name text g r g'}, parseRule fuel name text g = .ok r g' → P g.records g.nonRoots g.terminals →
      P g'.records g'.nonRoots g'.terminals)
    (hval : ∀ {g g' : Grammar}, g.validate = some g' → (g.records.map Record.name).Nodup →
      P g.records g.nonRoots g.terminals → P g'.records g'.nonRoots g'.terminals)
    {g : Grammar} (h : WellMade g) : P g.records g.nonRoots g.terminals ∧ (g.records.map Record.name).Nodup := by
  have hname : ∀ {fuel name text g r g'}, parseRule fuel name text g = .ok r g' → (g.records.map Record.name).Nodup →
      (g'.records.map Record.name).Nodup := by
    intro fuel name text g r g' h hn
    rcases call_records (.parsed h) with ⟨_, h1, _⟩ | ⟨name, q, l, _, h2, _, h3, _⟩
    · rw [h1]; exact hn
    · rw [h3, List.map_append, List.nodup_append]
      refine ⟨hn, by simp, ?_⟩
      rintro a ha b hb rfl
      rw [List.map_cons, List.map_nil, List.mem_singleton] at hb
      simp only at hb
      rw [hb] at ha
      exact (getRecord_none.1 h2) ha
  have loop : ∀ (fuel : Nat) (ls : List (List Rune)) (i : Nat) (g g' : Grammar) (u : Unit),
      P g.records g.nonRoots g.terminals ∧ (g.records.map Record.name).Nodup → linesLoop fuel i ls g = .ok u g' →
      P g'.records g'.nonRoots g'.terminals ∧ (g'.records.map Record.name).Nodup := by
    intro fuel ls
    induction ls with
    | nil => intro i g g' u hg h; unfold linesLoop at h; cases h; exact hg
    | cons l ls ih =>
      intro i g g' u hg h
      unfold linesLoop at h
      simp only at h
      split at h
      · exact ih (i + 1) { g with maxLine := i + 1 } g' u hg h
      · split at h
        · cases h
        · cases hp : parseRule fuel (trimSpace _) (trimSpace _) g with
          | oof => rw [hp] at h; cases h
          | err e g1 => rw [hp] at h; cases h
          | ok r g1 =>
            rw [hp] at h
            have h1 := hadd hp hg.1
            have h2 := hname hp hg.2
            exact ih (i + 1) { g1 with maxLine := i + 1 } g' u ⟨h1, h2⟩ h
  have val : ∀ {g g' : Grammar}, g.validate = some g' → P g.records g.nonRoots g.terminals ∧ (g.records.map Record.name).Nodup →
      P g'.records g'.nonRoots g'.terminals ∧ (g'.records.map Record.name).Nodup := by
    intro g g' h hg
    exact ⟨hval h hg.2 hg.1, by rw [(validate_same h).1]; exact hg.2⟩
  obtain ⟨g0, hs, hc⟩ := h
  have h1 : P g0.records g0.nonRoots g0.terminals ∧ (g0.records.map Record.name).Nodup := by
    rcases hs with rfl | ⟨text, hs⟩
    · exact ⟨h0, List.nodup_nil⟩
    · obtain ⟨fuel, g1, h1, h2⟩ := accepted_loop hs
      exact val h2 (loop fuel _ 0 {} g1 _ ⟨h0, List.nodup_nil⟩ h1)
  clear hs
  induction hc with
  | done => exact h1
  | parsed _ hc ih => exact ⟨hadd hc ih.1, hname hc ih.2⟩
  | @added g1 fuel text r g2 _ hc ih =>
    rcases addRule_cases (fuel := fuel) (text := text) (g := g1) with h' | ⟨n, b, h'⟩
    · rw [h'] at hc; cases hc
    · rw [h'] at hc; exact ⟨hadd hc ih.1, hname hc ih.2⟩
  | validated _ hc ih => exact val hc ih

/-- The users named in `m` are the rules that refer to something. -/
def Users (recs : List Record) (m : List (Name × List Name)) : Prop :=
  ∀ k, k ∈ (m.map (·.2)).flatten ↔ ∃ r ∈ recs, r.name = k ∧ refs r.rule ≠ []

theorem users_add {fuel : Nat} {name : Name} {text : List Rune} {g g' : Grammar} {r : Rule}
    (hp : parseRule fuel name text g = .ok r g') (hg : Users g.records g.nonRoots) : Users g'.records g'.nonRoots := by
  intro k
  have hc := parseRule_cases (fuel := fuel) (name := name) (text := text) (g := g)
  rw [hp] at hc
  obtain ⟨_, _, _, _, _, _, rfl⟩ := hc
  show k ∈ ((g.withUsages (tag name (refs r))).nonRoots.map (·.2)).flatten ↔ _
  rw [withUsages_users, hg k]
  have ht : k ∈ (tag name (refs r)).map (·.2) ↔ name = k ∧ refs r ≠ [] := by
    unfold tag
    rw [List.map_map, List.mem_map]
    constructor
    · rintro ⟨x, hx, h⟩
      exact ⟨h, fun h0 => by rw [h0] at hx; cases hx⟩
    · rintro ⟨h, hne⟩
      obtain ⟨x, hx⟩ := List.exists_mem_of_ne_nil _ hne
      exact ⟨x, hx, h⟩
  rw [ht]
  simp only [List.mem_append, List.mem_singleton]
  constructor
  · rintro (⟨q, hq, hk⟩ | hk)
    · exact ⟨q, .inl hq, hk⟩
    · exact ⟨_, .inr rfl, hk⟩
  · rintro ⟨q, hq | rfl, hk⟩
    · exact .inl ⟨q, hq, hk⟩
    · exact .inr hk

theorem validate_terminals {g g' : Grammar} (h : g.validate = some g') :
    g'.terminals = (g.records.filter (fun r => !(g.nonRoots.map (·.2)).flatten.contains r.name)).foldl putRecord g.terminals := by
  unfold validate at h
  split at h
  · cases h
  · simp only [Option.some.injEq] at h
    rw [← h]

theorem users_terminal {recs : List Record} {m : List (Name × List Name)} (h : Users recs m) (hn : (recs.map Record.name).Nodup) (r : Record) :
    r ∈ recs.filter (fun r => !(m.map (·.2)).flatten.contains r.name) ↔ r ∈ recs ∧ refs r.rule = [] := by
  rw [List.mem_filter, Bool.not_eq_true', ← Bool.not_eq_true, List.contains_iff_mem, h]
  constructor
  · rintro ⟨h1, h2⟩
    exact ⟨h1, Classical.byContradiction (fun hc => h2 ⟨r, h1, rfl, hc⟩)⟩
  · rintro ⟨h1, h2⟩
    refine ⟨h1, ?_⟩
    rintro ⟨q, hq, hqr, hne⟩
    rw [nodup_inj hn hq h1 hqr] at hne
    exact hne h2

theorem wellMade_terminals {g : Grammar} (h : WellMade g) :
    (Users g.records g.nonRoots ∧ ∀ t ∈ g.terminals, t ∈ g.records ∧ refs t.rule = []) ∧ (g.records.map Record.name).Nodup := by
  refine wellMade_ind (P := fun recs m terms => Users recs m ∧ ∀ t ∈ terms, t ∈ recs ∧ refs t.rule = []) ?_ ?_ ?_ h
  · exact ⟨fun k => by simp, by simp⟩
  · intro fuel name text g r g' hp hg
    refine ⟨users_add hp hg.1, ?_⟩
    have hc := parseRule_cases (fuel := fuel) (name := name) (text := text) (g := g)
    rw [hp] at hc
    obtain ⟨_, _, _, _, _, _, rfl⟩ := hc
    intro t ht
    obtain ⟨h1, h2⟩ := hg.2 t ht
    exact ⟨List.mem_append_left _ h1, h2⟩
  · intro g g' hv hn hg
    obtain ⟨h1, _, h3⟩ := validate_same hv
    rw [h1, h3, validate_terminals hv]
    refine ⟨hg.1, fun t ht => ?_⟩
    rcases putRecords_mem _ _ _ ht with ht | ht
    · exact (users_terminal hg.1 hn t).1 ht
    · exact hg.2 t ht

theorem wellMade_names {g : Grammar} (h : WellMade g) :
    ∀ r ∈ g.records, RuleName r.name ∧ ∃ r0, WellFormed r0 ∧ r.rule = r0.setName r.name := by
  refine (wellMade_ind (P := fun recs _ _ => ∀ r ∈ recs, RuleName r.name ∧ ∃ r0, WellFormed r0 ∧ r.rule = r0.setName r.name) ?_ ?_ ?_ h).1
  · intro r hr; cases hr
  · intro fuel name text g r g' hp hg q hq
    have hc := parseRule_cases (fuel := fuel) (name := name) (text := text) (g := g)
    rw [hp] at hc
    obtain ⟨h1, _, r0, h2, h3, _, rfl⟩ := hc
    rcases List.mem_append.1 hq with hq | hq
    · exact hg q hq
    · rw [List.mem_singleton.1 hq]
      exact ⟨h1, r0, h2, h3⟩
  · intro g g' hv _ hg
    rw [(validate_same hv).1]
    exact hg

theorem call_names {g g' : Grammar} (h : DefCall g g') (hg : ∀ r ∈ g.records, RuleName r.name ∧ ∃ r0, WellFormed r0 ∧ r.rule = r0.setName r.name) :
    ∀ r ∈ g'.records, RuleName r.name ∧ ∃ r0, WellFormed r0 ∧ r.rule = r0.setName r.name := by
  rcases call_records h with ⟨_, h1, _⟩ | ⟨name, q, l, h1, _, h2, h3, _⟩
  · rw [h1]; exact hg
  · rw [h3]
    intro r hr
    rcases List.mem_append.1 hr with hr | hr
    · exact hg r hr
    · rw [List.mem_singleton.1 hr]; exact ⟨h1, h2⟩

/-- The rules of a grammar that a program can have are well formed. -/
theorem reachable_names {g : Grammar} (h : Reachable g) :
    ∀ r ∈ g.records, RuleName r.name ∧ ∃ r0, WellFormed r0 ∧ r.rule = r0.setName r.name := by
  obtain ⟨g0, h0, hc⟩ := h
  have h1 := wellMade_names (g := g0) ⟨g0, h0, .done⟩
  clear h0
  induction hc with
  | done => exact h1
  | more _ hc ih => exact call_names hc ih

end Xbnf.Props
