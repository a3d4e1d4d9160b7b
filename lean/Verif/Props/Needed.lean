import Verif.Spec.Needed
import Verif.Lemmas.Needed
import Verif.Props.Reachable
/-
C65: only the rules that a rule needs matter.
-/
namespace Xbnf.Props
open Xbnf Xbnf.Spec Grammar

theorem env_some {g : Grammar} (hn : (g.records.map Record.name).Nodup) (n : Name) (rule : Rule) :
    g.env n = some rule ↔ ∃ r ∈ g.records, r.name = n ∧ r.rule = rule := by
  rw [env_content hn, mem_content]

/-- The names a rule refers to, through whatever rules, are needed. -/
theorem refersTo_needs {g : Grammar} (hn : (g.records.map Record.name).Nodup) {r : Rule} {k : Name} (h : RefersTo g.env r k) :
    ∃ m ∈ refs r, Needs g.records m k := by
  induction h with
  | direct h => exact ⟨_, h, .self⟩
  | via h hm _ ih =>
    obtain ⟨m', hm', hk⟩ := ih
    obtain ⟨q, hq, h1, h2⟩ := (env_some hn _ _).1 hm
    exact ⟨_, h, .via hq h1 (h2 ▸ hm') hk⟩

theorem env_same {g g' : Grammar} (hn : (g.records.map Record.name).Nodup) (hn' : (g'.records.map Record.name).Nodup) {n : Name}
    (h : SameUnder g.records g'.records n) : g'.env n = g.env n := by
  cases h1 : g.env n with
  | some rule => exact (env_some hn' n rule).2 ((h rule).2 ((env_some hn n rule).1 h1))
  | none =>
    cases h2 : g'.env n with
    | none => rfl
    | some rule => rw [(env_some hn n rule).2 ((h rule).1 ((env_some hn' n rule).1 h2))] at h1; cases h1

/-- What a rule evaluates to, in two grammars that have the same rules under the names it needs. -/
theorem eval_same {g g' : Grammar} (hn : (g.records.map Record.name).Nodup) (hn' : (g'.records.map Record.name).Nodup) {r : Record} (hr : r ∈ g.records)
    (h : ∀ m, Needs g.records r.name m → SameUnder g.records g'.records m) (fuel : Nat) : eval g'.env fuel r.rule = eval g.env fuel r.rule := by
  refine eval_needed fuel r.rule (fun k hk => ?_)
  obtain ⟨m, hm, hmk⟩ := refersTo_needs hn hk
  exact env_same hn hn' (h k (.via hr rfl hm hmk))

theorem embedLoop_same {env env' : Env} {fuel : Nat} {r : Rule} (h : eval env' fuel r = eval env fuel r) :
    ∀ (n : Nat) (kids : List Node) (text : List Rune) (cs : Stream), embedLoop env' fuel r n kids text cs = embedLoop env fuel r n kids text cs
  | 0, _, _, _ => rfl
  | n + 1, kids, text, cs => by simp only [embedLoop, h, embedLoop_same h n]

theorem getRecord_mem {g : Grammar} {name : Name} {r : Record} (h : g.getRecord name = some r) : r ∈ g.records ∧ r.name = name := by
  unfold getRecord at h
  exact ⟨List.mem_of_find?_eq_some h, by simpa using List.find?_some h⟩

/-- **C65**: two grammars that have the same rules under the names that a rule needs give the same result for this rule, on every
sample, alone and embedded in other text. -/
theorem C65_same_rules {g g' : Grammar} (hn : (g.records.map Record.name).Nodup) (hn' : (g'.records.map Record.name).Nodup) {name : Name}
    (h : ∀ m, Needs g.records name m → SameUnder g.records g'.records m) (fuel : Nat) (sample : List Rune) :
    g'.evalRule fuel name sample = g.evalRule fuel name sample ∧ g'.evalEmbed fuel name sample = g.evalEmbed fuel name sample := by
  have hs := env_same hn hn' (h name .self)
  unfold Grammar.env at hs
  unfold evalRule evalEmbed
  cases h1 : g.getRecord name with
  | none =>
    rw [h1] at hs
    cases h2 : g'.getRecord name with
    | none => exact ⟨rfl, rfl⟩
    | some q => rw [h2] at hs; cases hs
  | some r =>
    rw [h1] at hs
    cases h2 : g'.getRecord name with
    | none => rw [h2] at hs; cases hs
    | some q =>
      rw [h2] at hs
      simp only [Option.map_some, Option.some.injEq] at hs
      obtain ⟨hm, rfl⟩ : r ∈ g.records ∧ r.name = name := getRecord_mem h1
      have he := eval_same hn hn' hm h fuel
      simp only [hs, he]
      refine ⟨trivial, ?_⟩
      rw [embedLoop_same he]

theorem needs_refs {recs : List Record} {n m : Name} (h : Needs recs n m) : n = m ∨ ∃ r ∈ recs, m ∈ refs r.rule := by
  induction h with
  | self => exact .inl rfl
  | via hr _ hm _ ih =>
    rcases ih with rfl | h
    · exact .inr ⟨_, hr, hm⟩
    · exact .inr h

theorem defCalls_trans {g1 g2 g3 : Grammar} (h : DefCalls g1 g2) (h' : DefCalls g2 g3) : DefCalls g1 g3 := by
  induction h' with
  | done => exact h
  | more _ hc ih => exact .more ih hc

theorem Reachable.calls {g g' : Grammar} (h : Reachable g) (h' : DefCalls g g') : Reachable g' := by
  obtain ⟨g0, h0, hc⟩ := h
  exact ⟨g0, h0, defCalls_trans hc h'⟩

/-- No name has two rules, whatever calls made the grammar. -/
theorem reachable_unique {g : Grammar} (h : Reachable g) : (g.records.map Record.name).Nodup := by
  obtain ⟨g0, h0, hc⟩ := h
  have h1 : (g0.records.map Record.name).Nodup := by
    rcases h0 with rfl | ⟨text, h0⟩
    · exact List.nodup_nil
    · exact (accepted_facts h0 (splitLines_lines text)).2.1
  clear h0
  induction hc with
  | done => exact h1
  | more _ hc ih =>
    rcases call_records hc with ⟨_, h1, _⟩ | ⟨name, q, l, _, h2, _, h3, _⟩
    · rw [h1]; exact ih
    · rw [h3, List.map_append, List.nodup_append]
      refine ⟨ih, by simp, ?_⟩
      rintro a ha _ hb rfl
      simp only [List.map_cons, List.map_nil, List.mem_singleton] at hb
      exact getRecord_none.1 h2 (hb ▸ ha)

/-- **C65**: whatever calls follow - definitions that are accepted or rejected, `Validate` - a rule all of whose needs are met gives the
same results as before. -/
theorem C65_later_calls {g g' : Grammar} (h0 : Reachable g) (h : DefCalls g g') {name : Name} (hd : ∀ m, Needs g.records name m → ∃ r ∈ g.records, r.name = m)
    (fuel : Nat) (sample : List Rune) :
    g'.evalRule fuel name sample = g.evalRule fuel name sample ∧ g'.evalEmbed fuel name sample = g.evalEmbed fuel name sample := by
  have hn := reachable_unique h0
  have hn' := reachable_unique (h0.calls h)
  refine C65_same_rules hn hn' (fun m hm rule => ?_) fuel sample
  obtain ⟨r, hr, rfl⟩ := hd m hm
  have h1 := (env_some hn r.name r.rule).2 ⟨r, hr, rfl, rfl⟩
  have h2 : g'.env r.name = some r.rule := by
    unfold Grammar.env at h1 ⊢
    cases h3 : g.getRecord r.name with
    | none => rw [h3] at h1; cases h1
    | some q => rw [C31_stays h h3, ← h3]; exact h1
  rw [← env_some hn', ← env_some hn, h1, h2]

/-- In a grammar made from a text every need is met, so no further call changes what a rule of it gives. -/
theorem C65_text {text : List Rune} {g g' : Grammar} (h0 : Accepted text g) (h : DefCalls g g') {name : Name} (hd : ∃ r ∈ g.records, r.name = name)
    (fuel : Nat) (sample : List Rune) :
    g'.evalRule fuel name sample = g.evalRule fuel name sample ∧ g'.evalEmbed fuel name sample = g.evalEmbed fuel name sample := by
  obtain ⟨_, _, hc, _⟩ := accepted_facts h0 (splitLines_lines text)
  refine C65_later_calls ⟨g, .inr ⟨text, h0⟩, .done⟩ h (fun m hm => ?_) fuel sample
  rcases needs_refs hm with rfl | ⟨r, hr, hm⟩
  · exact hd
  · exact hc r hr m hm

/-! ## Documents -/

theorem rootsLoop_env {env env' : Env} {fuel : Nat} (flag : Int) : ∀ (rs : List Record), (∀ r ∈ rs, eval env' fuel r.rule = eval env fuel r.rule) →
    ∀ (m : List Rune) (cs : Stream), rootsLoop env' fuel flag rs m cs = rootsLoop env fuel flag rs m cs
  | [], _, _, _ => rfl
  | r :: rs, h, m, cs => by
    simp only [rootsLoop, h r List.mem_cons_self, rootsLoop_env flag rs (fun q hq => h q (List.mem_cons_of_mem _ hq))]

theorem rawLoop_env {env env' : Env} {fuel : Nat} {roots : List Record} (h : ∀ r ∈ roots, eval env' fuel r.rule = eval env fuel r.rule)
    {sch : Sched} (hs : sch.Fair) : ∀ (n i : Nat) (nodes : List Node) (flag : Int) (un : List Rune) (s : Stream),
    rawLoop env' fuel roots sch n i nodes flag un s = rawLoop env fuel roots sch n i nodes flag un s
  | 0, _, _, _, _, _ => rfl
  | n + 1, i, nodes, flag, un, s => by
    simp only [rawLoop, rootsLoop_env flag (sch.roots i roots) (fun r hr => h r ((hs.1 i roots).mem_iff.1 hr)), rawLoop_env h hs n]

theorem needs_step {recs : List Record} {a b : Name} (h : Needs recs a b) {r : Record} (hr : r ∈ recs) (hn : r.name = b) {m : Name} (hm : m ∈ refs r.rule) :
    Needs recs a m := by
  induction h with
  | self => exact .via hr hn hm .self
  | via hr' hn' hm' _ ih => exact .via hr' hn' hm' (ih hn)

theorem needs_trans {recs : List Record} {a b c : Name} (h : Needs recs a b) (h' : Needs recs b c) : Needs recs a c := by
  induction h with
  | self => exact h'
  | via hr hn hm _ ih => exact .via hr hn hm (ih h')

theorem needs_last {recs : List Record} {a b : Name} (h : Needs recs a b) : a = b ∨ ∃ r ∈ recs, Needs recs a r.name ∧ b ∈ refs r.rule := by
  induction h with
  | self => exact .inl rfl
  | @via n m k r hr hn hm _ ih =>
    rcases ih with rfl | ⟨q, hq, h1, h2⟩
    · exact .inr ⟨r, hr, hn ▸ .self, hm⟩
    · exact .inr ⟨q, hq, .via hr hn hm h1, h2⟩

theorem needs_back {recs recs' : List Record} {a b : Name} (h : Needs recs' a b) (hs : ∀ m, Needs recs a m → SameUnder recs recs' m) : Needs recs a b := by
  suffices ∀ z, Needs recs z a → (∀ m, Needs recs z m → SameUnder recs recs' m) → Needs recs z b from this a .self hs
  clear hs
  induction h with
  | self => exact fun z hz _ => hz
  | @via n m k r hr hn hm _ ih =>
    intro z hz hs
    obtain ⟨q, hq, h1, h2⟩ := (hs n hz r.rule).1 ⟨r, hr, hn, rfl⟩
    exact ih z (needs_step hz hq h1 (h2 ▸ hm)) hs

theorem _root_.Xbnf.Spec.SameUnder.symm {recs recs' : List Record} {n : Name} (h : SameUnder recs recs' n) : SameUnder recs' recs n := fun rule => (h rule).symm

theorem document_same {text text' : List Rune} {g g' : Grammar} (h : Accepted text g) (h' : Accepted text' g')
    (hroots : ∀ n, SameUnder g.roots g'.roots n) (hneeds : ∀ r ∈ g.roots, ∀ m, Needs g.records r.name m → SameUnder g.records g'.records m)
    {sch : Sched} (hs : sch.Fair) : ∃ sch', sch'.Fair ∧ ∀ fuel s, g'.evalRaw fuel sch' s = g.evalRaw fuel sch s := by
  obtain ⟨_, hn, _, hr, hir, _⟩ := accepted_facts h (splitLines_lines text)
  obtain ⟨_, hn', _, hr', hir', _⟩ := accepted_facts h' (splitLines_lines text')
  have hperm : (content g.roots).Perm (content g'.roots) := by
    refine perm_of_nodup (nodup_content hr) (nodup_content hr') ?_
    rintro ⟨n, r⟩
    rw [mem_content, mem_content]
    exact (hroots n r).symm
  have hex : ∀ i, ∃ l : List Record, l.Perm g'.roots ∧ content l = content (sch.roots i g.roots) := fun i =>
    perm_lift (fun r : Record => (r.name, r.rule)) (((hs.1 i g.roots).map _).trans hperm) rfl
  classical
  refine ⟨⟨fun i l => if l = g'.roots then (hex i).choose else l, sch.matched⟩, ⟨?_, hs.2⟩, ?_⟩
  · intro i l
    simp only
    split
    · rename_i h; rw [h]; exact (hex i).choose_spec.1
    · exact .refl _
  · intro fuel s
    unfold evalRaw
    split
    · rfl
    · rw [← rawLoop_env (env' := g'.env) (fun r hr => eval_same hn hn' ((hir r).1 hr).1 (hneeds r hr) fuel) hs]
      refine rawLoop_rules g'.env fuel g'.roots g.roots _ sch (fun i => ?_) (by intro i l; rfl) _ _ _ _ _ _
      simp only [if_true]
      have := congrArg (List.map Prod.snd) (hex i).choose_spec.2
      unfold content at this
      rw [List.map_map, List.map_map] at this
      exact this

/-- **C65**: two grammars with the same root rules, and the same rules under all names that these need, have the same outcomes on every
document: whatever the one can return in some order of its maps, the other can return in some order of its own. -/
theorem C65_document {text text' : List Rune} {g g' : Grammar} (h : Accepted text g) (h' : Accepted text' g')
    (hroots : ∀ n, SameUnder g.roots g'.roots n) (hneeds : ∀ r ∈ g.roots, ∀ m, Needs g.records r.name m → SameUnder g.records g'.records m) :
    (∀ sch : Sched, sch.Fair → ∃ sch' : Sched, sch'.Fair ∧ ∀ fuel s, g'.evalRaw fuel sch' s = g.evalRaw fuel sch s) ∧
    (∀ sch' : Sched, sch'.Fair → ∃ sch : Sched, sch.Fair ∧ ∀ fuel s, g.evalRaw fuel sch s = g'.evalRaw fuel sch' s) := by
  refine ⟨fun sch hs => document_same h h' hroots hneeds hs, fun sch hs => document_same h' h (fun n => SameUnder.symm (hroots n)) ?_ hs⟩
  intro r hr m hm
  obtain ⟨q, hq, h1, _⟩ := (hroots r.name r.rule).1 ⟨r, hr, rfl, rfl⟩
  rw [← h1] at hm
  exact SameUnder.symm (hneeds q hq m (needs_back hm (hneeds q hq)))

/-- **C65**: rules that no root rule needs can be left out.  The text without them is accepted, every document has the same outcomes, and
the rules left give the same results. -/
theorem C65_only_needed {text text' : List Rune} {ls' : List (List Rune)} {g : Grammar} {recs' : List Record} (h : Accepted text g)
    (hl' : Lines text' ls') (hd : Denotes 1 ls' recs') (hn' : (recs'.map Record.name).Nodup) (ho : OnlyNeeded g.records recs') :
    ∃ g', Accepted text' g' ∧ g'.records = recs' ∧
      (∀ sch : Sched, sch.Fair → ∃ sch' : Sched, sch'.Fair ∧ ∀ fuel s, g'.evalRaw fuel sch' s = g.evalRaw fuel sch s) ∧
      (∀ sch' : Sched, sch'.Fair → ∃ sch : Sched, sch.Fair ∧ ∀ fuel s, g.evalRaw fuel sch s = g'.evalRaw fuel sch' s) ∧
      ∀ r ∈ recs', ∀ fuel sample, g'.evalRule fuel r.name sample = g.evalRule fuel r.name sample ∧
        g'.evalEmbed fuel r.name sample = g.evalEmbed fuel r.name sample := by
  obtain ⟨_, hn, hc, _, hir, _⟩ := accepted_facts h (splitLines_lines text)
  have same : ∀ root, IsRoot g.records root → ∀ m, Needs g.records root.name m → SameUnder g.records recs' m := fun root hroot m hm rule =>
    ⟨fun hx => ((ho m rule).1 hx).1, fun hx => (ho m rule).2 ⟨hx, root, hroot, hm⟩⟩
  have hcl : Closed recs' := by
    intro r hr m hm
    obtain ⟨⟨q, hq, h1, h2⟩, root, hroot, hrn⟩ := (ho r.name r.rule).1 ⟨r, hr, rfl, rfl⟩
    obtain ⟨p, hp, hpm⟩ := hc q hq m (h2 ▸ hm)
    obtain ⟨p', hp', h3, _⟩ := (ho m p.rule).2 ⟨⟨p, hp, hpm, rfl⟩, root, hroot, needs_step hrn hq h1 (h2 ▸ hm)⟩
    exact ⟨p', hp', h3⟩
  obtain ⟨g', hg', rfl⟩ := (C32_accepts hl' recs').2 ⟨hd, hn', hcl⟩
  obtain ⟨_, _, _, _, hir', _⟩ := accepted_facts hg' hl'
  have hroots : ∀ n, SameUnder g.roots g'.roots n := by
    intro n rule
    constructor
    · rintro ⟨r, hr, rfl, rfl⟩
      obtain ⟨h1, h2⟩ := (hir' r).1 hr
      obtain ⟨⟨q, hq, h3, h4⟩, root, hroot, hrn⟩ := (ho r.name r.rule).1 ⟨r, h1, rfl, rfl⟩
      refine ⟨q, (hir q).2 ⟨hq, fun p hp hx => ?_⟩, h3, h4⟩
      rcases needs_last hrn with he | ⟨p', hp', h5, h6⟩
      · exact hroot.2 p hp (by rw [he, ← h3]; exact hx)
      · obtain ⟨p2, hp2, h7, h8⟩ := (ho p'.name p'.rule).2 ⟨⟨p', hp', rfl, rfl⟩, root, hroot, h5⟩
        exact h2 p2 hp2 (h8 ▸ h6)
    · rintro ⟨r, hr, rfl, rfl⟩
      have hroot := (hir r).1 hr
      obtain ⟨r', hr', h1, h2⟩ := (ho r.name r.rule).2 ⟨⟨r, hroot.1, rfl, rfl⟩, r, hroot, .self⟩
      refine ⟨r', (hir' r').2 ⟨hr', fun p hp hx => ?_⟩, h1, h2⟩
      obtain ⟨⟨p', hp', _, h4⟩, _⟩ := (ho p.name p.rule).1 ⟨p, hp, rfl, rfl⟩
      exact hroot.2 p' hp' (by rw [h4, ← h1]; exact hx)
  obtain ⟨d1, d2⟩ := C65_document h hg' hroots (fun r hr => same r ((hir r).1 hr))
  refine ⟨g', hg', rfl, d1, d2, fun r hr fuel sample => ?_⟩
  obtain ⟨_, root, hroot, hrn⟩ := (ho r.name r.rule).1 ⟨r, hr, rfl, rfl⟩
  refine C65_same_rules hn hn' (fun m hm => same root hroot m (needs_trans hrn hm)) fuel sample

/-! ## Cases -/

/-- The rules `a = b 'x'` and `b = 'y'`. -/
def ruleA : Rule := .concat { name := runes "a" } [.ref {} (runes "b"), .char {} 120 false]
def ruleB : Rule := .char { name := runes "b" } 121 false

def longText : List Rune := runes "a = b 'x'\nb = 'y'\nc = d\nd = c"
def shortText : List Rune := runes "b = 'y'\na = b 'x'"

theorem made_content {text : List Rune} {c : List (Name × Rule)} (h : (madeOf text).map (fun g => content g.records) = some c) :
    ∃ g, Accepted text g ∧ content g.records = c := by
  cases hm : madeOf text with
  | none => rw [hm] at h; cases h
  | some g =>
    rw [hm] at h
    obtain ⟨g', h1, h2⟩ := made_accepted (text := text) (by rw [hm]; rfl)
    rw [hm] at h1
    cases h1
    exact ⟨g, h2, by simpa using h⟩

theorem long_accepted : ∃ g, Accepted longText g ∧ content g.records =
    [(runes "a", ruleA), (runes "b", ruleB), (runes "c", .ref { name := runes "c" } (runes "d")), (runes "d", .ref { name := runes "d" } (runes "c"))] :=
  made_content (by decide +kernel)

theorem short_accepted : ∃ g, Accepted shortText g ∧ content g.records = [(runes "b", ruleB), (runes "a", ruleA)] :=
  made_content (by decide +kernel)

theorem needs_from {recs : List Record} {S : Name → Prop} (hS : ∀ p ∈ content recs, ∀ m ∈ refs p.2, S m → S p.1) {a b : Name} (h : Needs recs a b)
    (hb : S b) : S a := by
  induction h with
  | self => exact hb
  | @via n m k r hr hn hm _ ih =>
    subst hn
    exact hS (r.name, r.rule) (mem_content.2 ⟨r, hr, rfl, rfl⟩) m hm (ih hb)

/-- The hypotheses of `C65_only_needed` (and so of `C65_document`, `C65_same_rules`) hold of these two texts: the rules `c` and `d`, which refer
to each other, are left out, and the order is changed. -/
theorem C65_case : ∃ g g', Accepted longText g ∧ Accepted shortText g' ∧ OnlyNeeded g.records g'.records := by
  obtain ⟨g, hg, hc⟩ := long_accepted
  obtain ⟨g', hg', hc'⟩ := short_accepted
  refine ⟨g, g', hg, hg', fun n rule => ?_⟩
  rw [← mem_content, ← mem_content, hc', hc]
  have ha : ∃ r ∈ g.records, r.name = runes "a" ∧ r.rule = ruleA := by rw [← mem_content, hc]; decide +kernel
  obtain ⟨r, hr, hrn, hrr⟩ := ha
  have hroot : IsRoot g.records r := by
    refine ⟨hr, fun q hq => ?_⟩
    have hq := mem_content.2 ⟨q, hq, rfl, rfl⟩
    rw [hc] at hq
    rw [hrn]
    have key : ∀ p ∈ [(runes "a", ruleA), (runes "b", ruleB), (runes "c", .ref { name := runes "c" } (runes "d")),
      (runes "d", .ref { name := runes "d" } (runes "c"))], runes "a" ∉ refs p.2 := by decide +kernel
    exact key _ hq
  have hna : Needs g.records r.name (runes "a") := hrn ▸ .self
  have hnb : Needs g.records r.name (runes "b") := .via hr rfl (by rw [hrr]; decide +kernel) .self
  have hout : ∀ root, IsRoot g.records root → ¬ Needs g.records root.name (runes "c") ∧ ¬ Needs g.records root.name (runes "d") := by
    intro root hro
    have hcl : ∀ p ∈ content g.records, ∀ m ∈ refs p.2, (m = runes "c" ∨ m = runes "d") → p.1 = runes "c" ∨ p.1 = runes "d" := by
      rw [hc]; decide +kernel
    have hno : ¬ (root.name = runes "c" ∨ root.name = runes "d") := by
      have key : ∀ n, (n = runes "c" ∨ n = runes "d") → ∃ p ∈ content g.records, n ∈ refs p.2 := by
        rw [hc]
        rintro n (rfl | rfl) <;> decide +kernel
      intro h
      obtain ⟨⟨pn, pr⟩, hp, hpr⟩ := key _ h
      obtain ⟨q, hq, _, h2⟩ := mem_content.1 hp
      exact hro.2 q hq (h2 ▸ hpr)
    exact ⟨fun h => hno (needs_from hcl h (.inl rfl)), fun h => hno (needs_from hcl h (.inr rfl))⟩
  simp only [List.mem_cons, List.not_mem_nil, or_false, Prod.mk.injEq]
  constructor
  · rintro (⟨rfl, rfl⟩ | ⟨rfl, rfl⟩)
    · exact ⟨.inr (.inl ⟨rfl, rfl⟩), r, hroot, hnb⟩
    · exact ⟨.inl ⟨rfl, rfl⟩, r, hroot, hna⟩
  · rintro ⟨h | h | h | h, root, hro, hx⟩
    · exact .inr h
    · exact .inl h
    · rw [h.1] at hx; exact absurd hx (hout root hro).1
    · rw [h.1] at hx; exact absurd hx (hout root hro).2

/-- A rule that is added later: what `b` gives on "y" stays, what `a` gives on "y" changes, because `a` needs `b` (`C65_later_calls` is about
rules whose needs are met). -/
example : (match addRule 30 (runes "a = b 'x'") {} with
    | .ok _ g => match addRule 30 (runes "b = 'y'") g with
      | .ok _ g' => match g.evalRule 30 (runes "a") (runes "yx"), g'.evalRule 30 (runes "a") (runes "yx") with
        | .ok r, .ok r' => r.node.isNone && r'.node.isSome
        | _, _ => false
      | _ => false
    | _ => false) = true := by decide +kernel

/-- The hypotheses of `C65_text`: a rule is added to the grammar of `shortText`. -/
example : ∃ g g', Accepted shortText g ∧ DefCalls g g' ∧ g'.records.length = 3 ∧ ∃ r ∈ g.records, r.name = runes "a" := by
  obtain ⟨g, hm, ha⟩ := made_accepted (text := shortText) (by decide +kernel)
  have hk : (madeOf shortText).map (fun g => (match addRule 30 (runes "c = a | b") g with
      | .ok _ g' => g'.records.length == 3
      | _ => false) && g.records.any (fun r => r.name == runes "a")) = some true := by decide +kernel
  rw [hm] at hk
  simp only [Option.map_some, Option.some.injEq, Bool.and_eq_true, List.any_eq_true, beq_iff_eq] at hk
  obtain ⟨h1, h2⟩ := hk
  split at h1
  · rename_i hq
    exact ⟨g, _, ha, .more .done (.added hq), by simpa using h1, h2⟩
  · cases h1

end Xbnf.Props
