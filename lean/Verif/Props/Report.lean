import Verif.Model.Report
import Verif.Spec.Report
import Verif.Props.Serialize
import Verif.Props.Document
import Verif.Props.Truth
/-
C61: the errors of `EvalRaw` and their texts.
-/
namespace Xbnf.Props
open Xbnf Xbnf.Spec Xbnf.Grammar

variable {env : Env}

/-! ## The reports are the errors of `EvalRaw` -/

theorem rootsLoop_trace {fuel : Nat} {flag : Int} (rs : List Record) : ∀ (maxRead : List Rune) (cs : Stream),
    rootsLoop env fuel flag rs maxRead cs =
      (rootsTrace env fuel flag rs maxRead cs).bind (fun x => .ok (matchedOf x.1, x.2.1, x.2.2)) := by
  induction rs with
  | nil => intro maxRead cs; rfl
  | cons r rs ih =>
    intro maxRead cs
    simp only [rootsLoop, rootsTrace]
    cases he : eval env fuel r.rule flag (cs.pushBack maxRead) with
    | panic => rfl
    | oof => rfl
    | ok x =>
      simp only [Exec.ok_bind, ih]
      cases ht : rootsTrace env fuel flag rs (if maxRead.length < x.1.read.length then x.1.read else maxRead) x.2 with
      | panic => rfl
      | oof => rfl
      | ok y =>
        show Exec.ok _ = Exec.ok _
        simp only [matchedOf, List.filter_cons]

/-- What is left of a report when its contents are forgotten. -/
def plainly (x : Except Report (List Node) × Stream) : Except RawErr (List Node) × Stream :=
  (match x.1 with
    | .ok ns => .ok ns
    | .error rep => .error rep.kind, x.2)

theorem rawLoop_report {fuel : Nat} {roots : List Record} {sch : Sched} (n : Nat) :
    ∀ (i : Nat) (nodes : List Node) (flag : Int) (unused : List Rune) (s : Stream),
    rawLoop env fuel roots sch n i nodes flag unused s =
      (reportLoop env fuel roots sch n i nodes flag unused s).bind (fun x => .ok (plainly x)) := by
  induction n with
  | zero => intro i nodes flag unused s; rfl
  | succ n ih =>
    intro i nodes flag unused s
    simp only [rawLoop, reportLoop]
    by_cases hp : (s.pushBack unused).peek = EOFChar
    · rw [if_pos hp, if_pos hp]
      show Exec.ok _ = Exec.ok _
      simp only [plainly]
      by_cases hl : nodes.length = 0
      · simp [hl, Report.kind]
      · simp [hl]
    · rw [if_neg hp, if_neg hp, rootsLoop_trace]
      cases ht : rootsTrace env fuel flag (sch.roots i roots) [] (s.pushBack unused) with
      | panic => rfl
      | oof => rfl
      | ok x =>
        simp only [Exec.ok_bind]
        show (match pick (sch.matched i (matchedOf x.1)) with | .none => _ | .ambiguous _ _ => _ | .found r => _) = _
        cases hq : pick (sch.matched i (matchedOf x.1)) with
        | none => rfl
        | ambiguous a b => rfl
        | found r =>
          simp only
          cases hs : sliceFrom x.2.1 r.countUsed with
          | panic => rfl
          | oof => rfl
          | ok un => exact ih _ _ _ _ _

/-- `EvalRaw` with the contents of its errors is `EvalRaw`. -/
theorem C61_agrees (g : Grammar) (fuel : Nat) (sch : Sched) (s : Stream) :
    g.evalRaw fuel sch s = (g.evalReport fuel sch s).bind (fun x => .ok (plainly x)) := by
  unfold evalRaw evalReport
  by_cases hp : s.peek = EOFChar
  · rw [if_pos hp, if_pos hp]; rfl
  · rw [if_neg hp, if_neg hp]
    exact rawLoop_report ..

/-! ## What goes into a report -/

theorem _root_.Xbnf.Spec.Aligned.length {α β : Type} {R : α → β → Prop} {as : List α} {bs : List β} (h : Aligned R as bs) : as.length = bs.length := by
  induction h with
  | nil => rfl
  | cons _ _ ih => simp [ih]

theorem _root_.Xbnf.Spec.Aligned.mono {α β : Type} {R S : α → β → Prop} {as : List α} {bs : List β} (h : Aligned R as bs)
    (hRS : ∀ a ∈ as, ∀ b ∈ bs, R a b → S a b) : Aligned S as bs := by
  induction h with
  | nil => exact .nil
  | cons h _ ih =>
    exact .cons (hRS _ List.mem_cons_self _ List.mem_cons_self h)
      (ih (fun a ha b hb => hRS a (List.mem_cons_of_mem _ ha) b (List.mem_cons_of_mem _ hb)))

theorem _root_.Xbnf.Spec.Aligned.perm {α β : Type} {R : α → β → Prop} {bs bs' : List β} (hp : bs.Perm bs') :
    ∀ {as : List α}, Aligned R as bs → ∃ as', as.Perm as' ∧ Aligned R as' bs' := by
  induction hp with
  | nil => intro as h; exact ⟨as, .refl _, h⟩
  | cons x _ ih =>
    intro as h
    cases h with
    | cons h hs =>
      obtain ⟨as', h1, h2⟩ := ih hs
      exact ⟨_ :: as', h1.cons _, .cons h h2⟩
  | swap x y l =>
    intro as h
    cases h with
    | cons h hs =>
      cases hs with
      | cons h' hs => exact ⟨_, .swap _ _ _, .cons h' (.cons h hs)⟩
  | trans _ _ ih1 ih2 =>
    intro as h
    obtain ⟨as1, h1, h2⟩ := ih1 h
    obtain ⟨as2, h3, h4⟩ := ih2 h2
    exact ⟨as2, h1.trans h3, h4⟩

theorem _root_.Xbnf.Spec.Aligned.left {α β : Type} {R : α → β → Prop} {as : List α} {bs : List β} (h : Aligned R as bs) :
    ∀ b ∈ bs, ∃ a ∈ as, R a b := by
  induction h with
  | nil => intro b hb; cases hb
  | cons h _ ih =>
    intro b hb
    rcases List.mem_cons.1 hb with rfl | hb
    · exact ⟨_, List.mem_cons_self, h⟩
    · obtain ⟨a, ha, h⟩ := ih b hb
      exact ⟨a, List.mem_cons_of_mem _ ha, h⟩

/-- The result of the root rule `r`, tried on some stream. -/
def Tried (env : Env) (fuel : Nat) (flag : Int) (r : Record) (res : Res) : Prop :=
  ∃ t t', t.WF ∧ eval env fuel r.rule flag t = .ok (res, t')

theorem rootsTrace_tried {fuel : Nat} {flag : Int} (rs : List Record) : ∀ (maxRead : List Rune) (cs : Stream) {all m cs'}, cs.WF →
    rootsTrace env fuel flag rs maxRead cs = .ok (all, m, cs') → Aligned (Tried env fuel flag) rs all ∧ ∃ k, Adv k cs cs' := by
  induction rs with
  | nil =>
    intro maxRead cs all m cs' hw h
    simp only [rootsTrace, Exec.ok.injEq, Prod.mk.injEq] at h
    obtain ⟨rfl, _, rfl⟩ := h
    exact ⟨.nil, 0, .refl hw⟩
  | cons r rs ih =>
    intro maxRead cs all m cs' hw h
    have hwp := Stream.wf_pushBack hw maxRead
    simp only [rootsTrace] at h
    obtain ⟨⟨res, s1⟩, he, h⟩ := Exec.of_bind h
    obtain ⟨⟨all1, m1, s2⟩, ht, h⟩ := Exec.of_bind h
    simp only [Exec.ok.injEq, Prod.mk.injEq] at h
    obtain ⟨rfl, _, rfl⟩ := h
    obtain ⟨k, _, ha⟩ := eval_list hwp he
    obtain ⟨h1, k', h2⟩ := ih _ _ ha.wf.2 ht
    exact ⟨.cons ⟨_, _, hwp, he⟩ h1, _, (ha.trans h2).popBack⟩

theorem tried_count {fuel : Nat} {flag : Int} {r : Record} {res : Res} (h : Tried env fuel flag r res) : 0 ≤ res.countUsed := by
  obtain ⟨t, t', hw, he⟩ := h
  obtain ⟨k, hl, _⟩ := eval_list hw he
  have := (L.eval_safe (S := fun _ => True) trivial env fuel r.rule flag t.rem (fun _ _ => trivial)).of_ok hl
  have := this.1.le
  rw [Res.core_read, Res.core_unused] at this
  unfold Res.countUsed
  omega

theorem pickLoop_some_ne : ∀ (rs : List Res) (m : Int) (b : Res), pickLoop m (some b) rs ≠ .none
  | [], m, b, h => by cases h
  | r :: rs, m, b, h => by
    rw [L.pickLoop_some] at h
    split at h
    · exact pickLoop_some_ne rs m b h
    · split at h
      · cases h
      · exact pickLoop_some_ne rs _ r h

theorem pick_none {rs : List Res} (hc : ∀ r ∈ rs, 0 ≤ r.countUsed) (h : pick rs = .none) : rs = [] := by
  match rs, h with
  | [], _ => rfl
  | [r], h => cases h
  | r :: q :: rs, h =>
    have h0 := hc r List.mem_cons_self
    have : pick (r :: q :: rs) = pickLoop r.countUsed (some r) (q :: rs) := by
      rw [L.pick_cons (u := r.countUsed.toNat) _ (by omega)]
      congr 1
      omega
    rw [this] at h
    exact absurd h (pickLoop_some_ne _ _ _)

theorem pickLoop_two : ∀ (rs : List Res) (m : Int) (b x y : Res), b.countUsed = m → pickLoop m (some b) rs = .ambiguous x y →
    x.countUsed = y.countUsed ∧ ∃ rest, (b :: rs).Perm (x :: y :: rest)
  | [], m, b, x, y, _, h => by cases h
  | r :: rs, m, b, x, y, hb, h => by
    rw [L.pickLoop_some] at h
    split at h
    · obtain ⟨h1, rest, h2⟩ := pickLoop_two rs m b x y hb h
      exact ⟨h1, r :: rest, (List.Perm.swap _ _ _).trans ((h2.cons r).trans ((List.Perm.swap _ _ _).trans ((List.Perm.swap _ _ _).cons x)))⟩
    · split at h
      · rename_i hr
        cases h
        exact ⟨hb.trans hr.symm, rs, .refl _⟩
      · obtain ⟨h1, rest, h2⟩ := pickLoop_two rs _ r x y rfl h
        exact ⟨h1, b :: rest, (h2.cons b).trans ((List.Perm.swap _ _ _).trans ((List.Perm.swap _ _ _).cons x))⟩

theorem pick_two {rs : List Res} (hc : ∀ r ∈ rs, 0 ≤ r.countUsed) {x y : Res} (h : pick rs = .ambiguous x y) :
    x.countUsed = y.countUsed ∧ ∃ rest, rs.Perm (x :: y :: rest) := by
  match rs, h with
  | [], h => cases h
  | [r], h => cases h
  | r :: q :: rs, h =>
    have h0 := hc r List.mem_cons_self
    have : pick (r :: q :: rs) = pickLoop r.countUsed (some r) (q :: rs) := by
      rw [L.pick_cons (u := r.countUsed.toNat) _ (by omega)]
      congr 1
      omega
    rw [this] at h
    exact pickLoop_two _ _ _ _ _ rfl h

/-- The round in which an error comes up. -/
theorem report_round {fuel : Nat} {roots : List Record} {sch : Sched} (hfair : sch.Fair) (n : Nat) :
    ∀ (i : Nat) (nodes : List Node) (flag : Int) (unused : List Rune) (s : Stream) {rep s'}, s.WF →
    reportLoop env fuel roots sch n i nodes flag unused s = .ok (.error rep, s') →
    rep = .noNode ∨ ∃ flag o all, o.Perm roots ∧ Aligned (Tried env fuel flag) o all ∧
      ((rep = .noMatch (errorsOf all) ∧ ∀ res ∈ all, res.node = none) ∨
        ∃ x y rest, rep = .ambiguity y x ∧ x.countUsed = y.countUsed ∧ x.node.isSome ∧ y.node.isSome ∧ all.Perm (x :: y :: rest)) := by
  induction n with
  | zero => intro _ _ _ _ _ _ _ _ h; cases h
  | succ n ih =>
    intro i nodes flag unused s rep s' hw h
    simp only [reportLoop] at h
    have hwp := Stream.wf_pushBack hw unused
    split at h
    · simp only [Exec.ok.injEq, Prod.mk.injEq] at h
      split at h
      · cases h.1; exact .inl rfl
      · cases h.1
    · obtain ⟨⟨all, maxRead, cs⟩, ht, h⟩ := Exec.of_bind h
      obtain ⟨ha, k, hk⟩ := rootsTrace_tried _ _ _ hwp ht
      have hp := hfair.2 i (matchedOf all)
      have hcount : ∀ r ∈ sch.matched i (matchedOf all), 0 ≤ r.countUsed := by
        intro r hr
        obtain ⟨a, _, hh⟩ := ha.left r (List.mem_filter.1 (hp.mem_iff.1 hr)).1
        exact tried_count hh
      simp only at h
      cases hq : pick (sch.matched i (matchedOf all)) with
      | none =>
        rw [hq] at h
        cases h
        refine .inr ⟨flag, _, all, hfair.1 i roots, ha, .inl ⟨rfl, ?_⟩⟩
        have := pick_none hcount hq
        rw [this] at hp
        have := hp.symm.eq_nil
        intro res hres
        cases hn : res.node with
        | none => rfl
        | some nd =>
          have : res ∈ matchedOf all := List.mem_filter.2 ⟨hres, by rw [hn]; rfl⟩
          simp_all
      | ambiguous x y =>
        rw [hq] at h
        cases h
        obtain ⟨h1, rest, h2⟩ := pick_two hcount hq
        have h3 : (matchedOf all).Perm (x :: y :: rest) := hp.symm.trans h2
        have hx := (List.mem_filter.1 (h3.mem_iff.2 List.mem_cons_self)).2
        have hy := (List.mem_filter.1 (h3.mem_iff.2 (List.mem_cons_of_mem _ List.mem_cons_self))).2
        refine .inr ⟨flag, _, all, hfair.1 i roots, ha, 
          .inr ⟨x, y, rest ++ all.filter (fun r => !r.node.isSome), rfl, h1, hx, hy, ?_⟩⟩
        exact (List.filter_append_perm (fun r : Res => r.node.isSome) all).symm.trans (h3.append_right _)
      | found r =>
        rw [hq] at h
        simp only at h
        obtain ⟨un, _, h⟩ := Exec.of_bind h
        exact ih _ _ _ _ _ hk.popBack.wf.2 h

theorem agreed {g : Grammar} {fuel : Nat} {sch : Sched} {s s' : Stream} {rep : Report} (h : g.evalReport fuel sch s = .ok (.error rep, s')) :
    g.evalRaw fuel sch s = .ok (.error rep.kind, s') := by
  rw [C61_agrees, h]; rfl

theorem evalReport_round {g : Grammar} {fuel : Nat} {sch : Sched} (hfair : sch.Fair) {s s' : Stream} (hw : s.WF) {rep : Report}
    (h : g.evalReport fuel sch s = .ok (.error rep, s')) :
    rep = .empty ∨ ∃ flag o all, o.Perm g.roots ∧ Aligned (Tried g.env fuel flag) o all ∧
      ((rep = .noMatch (errorsOf all) ∧ ∀ res ∈ all, res.node = none) ∨
        ∃ x y rest, rep = .ambiguity y x ∧ x.countUsed = y.countUsed ∧ x.node.isSome ∧ y.node.isSome ∧ all.Perm (x :: y :: rest)) := by
  have hno := C24_some_node hfair hw (agreed h)
  unfold evalReport at h
  split at h
  · cases h; exact .inl rfl
  · rcases report_round hfair _ _ _ _ _ _ hw h with rfl | h
    · exact absurd rfl hno
    · exact .inr h

/-- If no root rule matches, the error is made from one error of each root rule, which is an error this rule gives. -/
theorem C61_no_match {g : Grammar} {fuel : Nat} {sch : Sched} (hfair : sch.Fair) {s s' : Stream} (hw : s.WF) {es : List Err}
    (h : g.evalReport fuel sch s = .ok (.error (.noMatch es), s')) :
    ∃ o, o.Perm g.roots ∧ Aligned (fun r e => Explains g.env r.rule e) o es := by
  rcases evalReport_round hfair hw h with h | ⟨flag, o, all, h1, h2, ⟨h3, h4⟩ | ⟨x, y, rest, h3, _⟩⟩
  · cases h
  · cases h3
    refine ⟨o, h1, ?_⟩
    clear h h1
    induction h2 with
    | nil => exact .nil
    | cons ht _ ih =>
      obtain ⟨t, t', hw, he⟩ := ht
      have hne := eval_told g.env fuel (Record.rule ‹Record›) flag t
      rw [he] at hne
      have hne := hne.1 (h4 _ List.mem_cons_self)
      simp only at hne
      rename_i b _ _ _ _
      cases hb : b.error with
      | none => exact absurd hb hne
      | some e =>
        simp only [errorsOf, List.filterMap_cons, hb]
        exact .cons (C57_explained he hb) (ih (fun res hr => h4 res (List.mem_cons_of_mem _ hr)))
  · cases h3

theorem ownName_node {r : Rule} {n : Node} (h : Conforms env ranged r n) (ho : OwnName r) : n.name = r.base.name := by
  cases h with
  | eof => exact ho.elim
  | ref => exact ho.elim
  | char h => exact h.name
  | range h => exact h.name
  | chars h => exact h.name
  | str h => exact h.name
  | group h => exact h.name
  | absent h => exact h.name
  | present h => exact h.name
  | rep h => exact h.name
  | choice h => exact h.name
  | concat h => exact h.name
  | block h => exact h.name

theorem tried_name {fuel : Nat} {flag : Int} {r : Record} {res : Res} (h : Tried env fuel flag r res) (hn : res.node.isSome)
    (ho : OwnName r.rule) : nodeName res = r.rule.base.name := by
  obtain ⟨t, t', hw, he⟩ := h
  obtain ⟨n, hn⟩ := Option.isSome_iff_exists.1 hn
  have := node_conforms (S := fun _ => True) (inR := ranged) hw (fun _ _ => trivial) trivial
    (fun _ _ _ h1 h2 => ⟨h1, .inl h2⟩) (fun _ _ _ _ h1 h2 _ => ⟨h2, .inr h1⟩) he hn
  rw [nodeName, hn]
  exact ownName_node this ho

/-- An ambiguity is reported for two different root rules that both match, with the same number of characters. -/
theorem C61_ambiguity {g : Grammar} {fuel : Nat} {sch : Sched} (hfair : sch.Fair) {s s' : Stream} (hw : s.WF) {x y : Res}
    (h : g.evalReport fuel sch s = .ok (.error (.ambiguity x y), s')) :
    ∃ a b rest flag, g.roots.Perm (a :: b :: rest) ∧ Tried g.env fuel flag a x ∧ Tried g.env fuel flag b y ∧
      x.node.isSome ∧ y.node.isSome ∧ x.countUsed = y.countUsed := by
  rcases evalReport_round hfair hw h with h | ⟨flag, o, all, h1, h2, ⟨h3, _⟩ | ⟨y', x', rest, h3, h4, h5, h6, h7⟩⟩
  · cases h
  · cases h3
  · cases h3
    obtain ⟨o', h8, h9⟩ := h2.perm h7
    cases h9 with
    | cons hb h9 =>
      cases h9 with
      | cons ha h9 => exact ⟨_, _, _, flag, (h1.symm.trans h8).trans (.swap _ _ _), ha, hb, h6, h5, h4.symm⟩

/-! ## Texts -/

theorem putRecord_nodup {m : List Record} {r : Record} (h : (m.map Record.name).Nodup) : ((putRecord m r).map Record.name).Nodup := by
  induction m with
  | nil => simp [putRecord]
  | cons x m ih =>
    simp only [List.map_cons, List.nodup_cons] at h
    unfold putRecord
    split
    · rename_i hx
      simp only [List.map_cons, List.nodup_cons]
      exact ⟨hx ▸ h.1, h.2⟩
    · rename_i hx
      simp only [List.map_cons, List.nodup_cons]
      refine ⟨?_, ih h.2⟩
      intro hc
      obtain ⟨y, hy, he⟩ := List.mem_map.1 hc
      rcases putRecord_mem m r y hy with rfl | hy
      · exact hx he.symm
      · exact h.1 (he ▸ List.mem_map_of_mem hy)

theorem putRecords_nodup : ∀ (rs m : List Record), (m.map Record.name).Nodup → ((rs.foldl putRecord m).map Record.name).Nodup
  | [], _, h => h
  | _ :: rs, _, h => putRecords_nodup rs _ (putRecord_nodup h)

theorem call_roots_nodup {g g' : Grammar} (h : DefCall g g') (hr : (g.roots.map Record.name).Nodup) : (g'.roots.map Record.name).Nodup := by
  have parsed : ∀ {fuel name text r}, parseRule fuel name text g = .ok r g' → (g'.roots.map Record.name).Nodup := by
    intro fuel name text r h
    have := parseRule_cases (fuel := fuel) (name := name) (text := text) (g := g)
    rw [h] at this
    obtain ⟨_, _, r0, _, _, _, h5⟩ := this
    rw [h5]
    exact hr
  have failed : ∀ {fuel name text e}, parseRule fuel name text g = .err e g' → (g'.roots.map Record.name).Nodup := by
    intro fuel name text e h
    have := parseRule_cases (fuel := fuel) (name := name) (text := text) (g := g)
    rw [h] at this
    rcases this with ⟨_, _, rfl⟩ | ⟨_, _, _, rfl⟩ | ⟨_, _, us, _, rfl⟩ <;> exact hr
  cases h with
  | parsed h => exact parsed h
  | notParsed h => exact failed h
  | added h =>
    rcases addRule_cases (fuel := ‹_›) (text := ‹_›) (g := g) with h' | ⟨n, b, h'⟩
    · rw [h] at h'; cases h'
    · rw [h] at h'; exact parsed h'.symm
  | notAdded h =>
    rcases addRule_cases (fuel := ‹_›) (text := ‹_›) (g := g) with h' | ⟨n, b, h'⟩
    · rw [h] at h'; cases h'; exact hr
    · rw [h] at h'; exact failed h'.symm
  | validated h =>
    unfold validate at h
    split at h
    · cases h
    · simp only [Option.some.injEq] at h
      subst h
      exact putRecords_nodup _ _ hr

/-- The root rules have different names. -/
theorem reachable_roots_nodup {g : Grammar} (h : Reachable g) : (g.roots.map Record.name).Nodup := by
  obtain ⟨g0, h0, hc⟩ := h
  have h1 : (g0.roots.map Record.name).Nodup := by
    rcases h0 with rfl | ⟨text, h0⟩
    · exact List.nodup_nil
    · exact (accepted_facts h0 (splitLines_lines text)).2.2.2.1
  induction hc with
  | done => exact h1
  | more _ hc ih => exact call_roots_nodup hc ih

theorem reachable_roots {g : Grammar} (h : Reachable g) : ∀ r ∈ g.roots, r ∈ g.records := by
  obtain ⟨g0, h0, hc⟩ := h
  have h1 : ∀ r ∈ g0.roots, r ∈ g0.records := by
    rcases h0 with rfl | ⟨text, h0⟩
    · intro r hr; cases hr
    · intro r hr; exact ((C32_roots h0 r).1 hr).1
  induction hc with
  | done => exact h1
  | more _ hc ih => exact call_roots hc ih

theorem reachable_held {g : Grammar} (h : Reachable g) : ∀ r ∈ g.records, Held r.rule := by
  intro r hr
  obtain ⟨_, r0, h1, h2⟩ := reachable_names h r hr
  exact ⟨r0, r.name, h1, h2⟩

theorem reachable_env {g : Grammar} (h : Reachable g) : ∀ n r, g.env n = some r → Held r := by
  intro n q hq
  unfold Grammar.env at hq
  cases hr : g.getRecord n with
  | none => rw [hr] at hq; cases hq
  | some r =>
    rw [hr] at hq
    cases hq
    exact reachable_held h r (List.mem_of_find?_eq_some hr)

theorem descs_aligned : ∀ (rs : List Record), (∀ r ∈ rs, Held r.rule) →
    ∃ ds, descs (rs.map Record.rule) = .ok ds ∧ Aligned (fun r d => Rule.desc (Record.rule r) = .ok d) rs ds
  | [], _ => ⟨[], rfl, .nil⟩
  | r :: rs, h => by
    obtain ⟨d, hd⟩ := desc_ok (h r List.mem_cons_self).describable
    obtain ⟨ds, h1, h2⟩ := descs_aligned rs (fun q hq => h q (List.mem_cons_of_mem _ hq))
    refine ⟨d :: ds, ?_, .cons hd h2⟩
    simp only [List.map_cons, descs, hd, h1, Exec.ok_bind]

theorem orList_cons (d : List Rune) : ∀ (before : List (List Rune)) (last : List Rune),
    orList (d :: (before ++ [last])) = d ++ (before.map (fun x => runes ", " ++ x)).flatten ++ runes " or " ++ last
  | [], last => by simp [orList]
  | [b], last => by simp [orList]
  | b :: c :: before, last => by
    have := orList_cons b (c :: before) last
    simp only [List.cons_append] at this ⊢
    rw [orList, this]
    simp

theorem desc_list {rs : List Record} {ds : List (List Rune)} (h : descs (rs.map Record.rule) = .ok ds) : Grammar.desc rs = .ok (orList ds) := by
  unfold Grammar.desc
  rw [h, Exec.ok_bind]
  congr 1
  cases ds with
  | nil => rfl
  | cons d ds =>
    simp only
    cases hr : ds.reverse with
    | nil => rw [List.reverse_eq_nil_iff.1 hr]; rfl
    | cons last before =>
      have : ds = before.reverse ++ [last] := by
        have := congrArg List.reverse hr
        simpa using this
      rw [this, orList_cons]

theorem joinErrors_ok : ∀ {es : List Err} {ms : List (List Rune)}, Aligned (fun e m => Err.message e = .ok m) es ms →
    joinErrors es = .ok (ms.map (· ++ runes "; ")).flatten := by
  intro es ms h
  induction h with
  | nil => rfl
  | cons h _ ih => simp only [joinErrors, h, ih, Exec.ok_bind]; simp

theorem messages_ok {es : List Err} (h : ∀ e ∈ es, ∃ m, e.message = .ok m ∧ ErrorText m) :
    ∃ ms, Aligned (fun e m => Err.message e = .ok m) es ms ∧ ∀ m ∈ ms, ErrorText m := by
  induction es with
  | nil => exact ⟨[], .nil, fun _ h => by cases h⟩
  | cons e es ih =>
    obtain ⟨m, h1, h2⟩ := h e List.mem_cons_self
    obtain ⟨ms, h3, h4⟩ := ih (fun q hq => h q (List.mem_cons_of_mem _ hq))
    refine ⟨m :: ms, .cons h1 h3, ?_⟩
    intro x hx
    rcases List.mem_cons.1 hx with rfl | hx
    · exact h2
    · exact h4 x hx

/-- The text of the error of a document that no root rule matches: the descriptions of all root rules, and an error of each. -/
theorem C61_no_match_text {g : Grammar} (hg : Reachable g) {fuel : Nat} {sch : Sched} (hfair : sch.Fair) {s s' : Stream} (hw : s.WF)
    {es : List Err} (h : g.evalReport fuel sch s = .ok (.error (.noMatch es), s')) {o : List Record} (ho : o.Perm g.roots)
    {order : List Err → List Err} (horder : ∀ l, (order l).Perm l) :
    ∃ ds ms o', (Report.noMatch es).text o order = .ok (runes "must be " ++ orList ds ++ runes ": " ++ (ms.map (· ++ runes "; ")).flatten) ∧
      Aligned (fun r d => Rule.desc (Record.rule r) = .ok d) o ds ∧ o'.Perm g.roots ∧
      Aligned (fun r m => ∃ e, Explains g.env (Record.rule r) e ∧ e.message = .ok m) o' ms ∧ ∀ m ∈ ms, ErrorText m := by
  obtain ⟨o1, h1, h2⟩ := C61_no_match hfair hw h
  have held := fun r hr => reachable_held hg r (reachable_roots hg r hr)
  obtain ⟨ds, h3, h4⟩ := descs_aligned o (fun r hr => held r (ho.mem_iff.1 hr))
  obtain ⟨o2, h5, h6⟩ := h2.perm (horder es).symm
  have hmsg : ∀ e ∈ order es, ∃ m, e.message = .ok m ∧ ErrorText m := by
    intro e he
    obtain ⟨r, hr, hx⟩ := h6.left e he
    obtain ⟨m, hm⟩ := message_ok (reachable_env hg) hx (held r (h1.mem_iff.1 (h5.mem_iff.2 hr)))
    exact ⟨m, hm, message_told hx hm⟩
  obtain ⟨ms, h7, h8⟩ := messages_ok hmsg
  refine ⟨ds, ms, o2, ?_, h4, h5.symm.trans h1, ?_, h8⟩
  · simp only [Report.text, joinErrors_ok h7, desc_list h3, Exec.ok_bind]
  · clear hmsg h8
    generalize order es = l at h6 h7
    clear h5
    induction h6 generalizing ms with
    | nil => cases h7; exact .nil
    | cons hx _ ih =>
      cases h7 with
      | cons hm h7 => exact .cons ⟨_, hx, hm⟩ (ih _ h7)

/-- The text of an ambiguity names two different root rules, unless one of them is just another name for a rule. -/
theorem C61_ambiguity_text {g : Grammar} (hg : Reachable g) {fuel : Nat} {sch : Sched} (hfair : sch.Fair) {s s' : Stream} (hw : s.WF)
    {x y : Res} (h : g.evalReport fuel sch s = .ok (.error (.ambiguity x y), s')) (hown : ∀ r ∈ g.roots, OwnName r.rule)
    (o : List Record) (order : List Err → List Err) :
    ∃ a ∈ g.roots, ∃ b ∈ g.roots, a.name ≠ b.name ∧ (Report.ambiguity x y).text o order =
      .ok (runes "ambiguity found: " ++ a.name ++ runes "(\"" ++ x.read.map viaUTF8 ++ runes "\") vs "
        ++ b.name ++ runes "(\"" ++ y.read.map viaUTF8 ++ runes "\")") := by
  obtain ⟨a, b, rest, flag, h1, h2, h3, h4, h5, h6⟩ := C61_ambiguity hfair hw h
  have ha : a ∈ g.roots := h1.mem_iff.2 List.mem_cons_self
  have hb : b ∈ g.roots := h1.mem_iff.2 (List.mem_cons_of_mem _ List.mem_cons_self)
  have hname : ∀ r ∈ g.roots, r.rule.base.name = r.name := by
    intro r hr
    obtain ⟨_, r0, _, h0⟩ := reachable_names hg r (reachable_roots hg r hr)
    rw [h0]
    cases r0 <;> rfl
  refine ⟨a, ha, b, hb, ?_, ?_⟩
  · have := (h1.map Record.name).nodup_iff.1 (reachable_roots_nodup hg)
    simp only [List.map_cons, List.nodup_cons, List.mem_cons, not_or] at this
    exact this.1.1
  · simp only [Report.text, tried_name h2 h4 (hown a ha), tried_name h3 h5 (hown b hb), hname a ha, hname b hb]

/-- Whatever the grammar and the text: the text of the error can be made. -/
theorem C61_text {g : Grammar} (hg : Reachable g) {fuel : Nat} {sch : Sched} (hfair : sch.Fair) {s s' : Stream} (hw : s.WF)
    {rep : Report} (h : g.evalReport fuel sch s = .ok (.error rep, s')) {o : List Record} (ho : o.Perm g.roots)
    {order : List Err → List Err} (horder : ∀ l, (order l).Perm l) : ∃ m, rep.text o order = .ok m := by
  cases rep with
  | empty => exact ⟨_, rfl⟩
  | noMatch es =>
    obtain ⟨_, _, _, h, _⟩ := C61_no_match_text hg hfair hw h ho horder
    exact ⟨_, h⟩
  | ambiguity => exact ⟨_, rfl⟩
  | noNode => exact ⟨_, rfl⟩

/-! ## Orderly documents -/

theorem rootsTrace_le (env : Env) {fuel fuel' : Nat} (hf : fuel ≤ fuel') (flag : Int)
    (rs : List Record) (m : List Rune) (cs : Stream) :
    (rootsTrace env fuel flag rs m cs).Le (rootsTrace env fuel' flag rs m cs) := by
  induction rs generalizing m cs with
  | nil => exact .rfl'
  | cons r rs ih =>
    simp only [rootsTrace]
    exact (eval_le env hf _ _ _).bind fun x => (ih _ _).bind fun y => .rfl'

theorem reportLoop_le (env : Env) {fuel fuel' : Nat} (hf : fuel ≤ fuel') (roots : List Record)
    (sch : Sched) {n n' : Nat} (hn : n ≤ n') (i : Nat) (nodes : List Node) (flag : Int)
    (unused : List Rune) (s : Stream) :
    (reportLoop env fuel roots sch n i nodes flag unused s).Le
      (reportLoop env fuel' roots sch n' i nodes flag unused s) := by
  induction n generalizing n' i nodes flag unused s with
  | zero => exact Or.inl rfl
  | succ n ih =>
    cases n' with
    | zero => omega
    | succ n' =>
      simp only [reportLoop]
      split
      · exact .rfl'
      · refine (rootsTrace_le env hf _ _ _ _).bind fun x => ?_
        cases pick (sch.matched i (matchedOf x.1)) with
        | none => exact .rfl'
        | ambiguous => exact .rfl'
        | found r => exact .bind .rfl' fun y => ih (by omega) _ _ _ _ _

theorem evalReport_le (g : Grammar) {fuel fuel' : Nat} (hf : fuel ≤ fuel') (sch : Sched) (s : Stream) :
    (g.evalReport fuel sch s).Le (g.evalReport fuel' sch s) := by
  unfold evalReport
  split
  · exact .rfl'
  · exact reportLoop_le _ hf _ _ hf _ _ _ _ _

theorem report_det {g : Grammar} {fuel fuel' : Nat} {sch : Sched} {s : Stream} {x y}
    (h : g.evalReport fuel sch s = .ok x) (h' : g.evalReport fuel' sch s = .ok y) : x = y := by
  have h1 := (evalReport_le g (Nat.le_max_left fuel fuel') sch s).of_ok h
  have h2 := (evalReport_le g (Nat.le_max_right fuel fuel') sch s).of_ok h'
  rw [h1] at h2
  exact Exec.ok.inj h2

/-- The result of the root rule `r` at index `q` of the text. -/
def TriedAt (env : Env) (fuel : Nat) (text : List Rune) (q : Nat) (flag : Int) (r : Record) (res : Res) : Prop :=
  ∃ t t', Here text q t ∧ eval env fuel r.rule flag t = .ok (res, t') ∧ definiteA (Spec.run env fuel r.rule flag (text.drop q))

theorem rootsTrace_at {fuel : Nat} {flag : Int} {text : List Rune} {p : Nat} (hv : Valid text) (rs : List Record) :
    ∀ (look : Nat) (cs : Stream), look ≤ (text.drop p).length → Here text (p + look) cs →
    (∀ r ∈ rs, definiteA (Spec.run env fuel r.rule flag (text.drop p))) →
    Steady (fun r => looked (Spec.run env fuel r flag (text.drop p))) look (rs.map (·.rule)) →
    ∀ {all m cs'}, rootsTrace env fuel flag rs ((text.drop p).take look) cs = .ok (all, m, cs') →
    Aligned (TriedAt env fuel text p flag) rs all := by
  induction rs with
  | nil =>
    intro look cs _ _ _ _ all m cs' h
    simp only [rootsTrace, Exec.ok.injEq, Prod.mk.injEq] at h
    obtain ⟨rfl, _, _⟩ := h
    exact .nil
  | cons r rs ih =>
    intro look cs hl hh hd hst all m cs' h
    have hin : Here text p (cs.pushBack ((text.drop p).take look)) := hh.push (by omega) (L.take_drop_sl _ _ _)
    have hk := know_of (eval_sim env fuel) (L.eval_ref env fuel) r.rule flag _ _ hin.wf hin.rem (hv.drop _)
    have hdr := hd r List.mem_cons_self
    simp only [rootsTrace] at h
    obtain ⟨⟨res, cs1⟩, hq, h⟩ := Exec.of_bind h
    obtain ⟨⟨all1, m1, cs2⟩, hq2, h⟩ := Exec.of_bind h
    simp only [Exec.ok.injEq, Prod.mk.injEq] at h
    obtain ⟨rfl, _, _⟩ := h
    refine .cons ⟨_, _, hin, hq, hdr⟩ ?_
    -- what is read
    have hfacts : ∃ k, k ≤ (text.drop p).length ∧ looked (Spec.run env fuel r.rule flag (text.drop p)) = k ∧
        res.read = (text.drop p).take k ∧ Adv k (cs.pushBack ((text.drop p).take look)) cs1 := by
      cases ha : Spec.run env fuel r.rule flag (text.drop p) with
      | oof => rw [ha] at hdr; exact absurd hdr.1 (by decide)
      | risky => rw [ha] at hdr; exact absurd hdr.2 (by decide)
      | fail n st =>
        rw [ha] at hk
        obtain ⟨k1, res', s', k2, k3, k4, k5, k6⟩ := hk
        rw [hq] at k2
        cases k2
        exact ⟨n, k1, rfl, k5, k3⟩
      | ambiguous n =>
        rw [ha] at hk
        obtain ⟨k1, res', s', k2, k3, k4, k5, k6⟩ := hk
        rw [hq] at k2
        cases k2
        exact ⟨n, k1, rfl, k5, k3⟩
      | hit nd u n st =>
        rw [ha] at hk
        obtain ⟨k0, k1, res', s', nd', k2, k3, k4, k5, k6, k7, k8⟩ := hk
        rw [hq] at k2
        cases k2
        exact ⟨n, k1, rfl, k6, k3⟩
    obtain ⟨k, hk1, hk2, hk3, hk4⟩ := hfacts
    cases rs with
    | nil =>
      simp only [rootsTrace, Exec.ok.injEq, Prod.mk.injEq] at hq2
      obtain ⟨rfl, _, _⟩ := hq2
      exact .nil
    | cons r' rs =>
      simp only [List.map_cons, Steady] at hst
      rw [hk2] at hst
      have hmax : (if ((text.drop p).take look).length < res.read.length then res.read else (text.drop p).take look) =
          (text.drop p).take k := by
        rw [hk3, List.length_take, List.length_take]
        split
        · rfl
        · congr 1; omega
      rw [hmax] at hq2
      exact ih k cs1 hk1 (hin.adv hk4) (fun x hx => hd x (List.mem_cons_of_mem _ hx))
        (by simpa only [List.map_cons] using hst.2) hq2

/-- Where the parsing of a document stops, and how white space is treated there. -/
def placeAt (run : Runner) (roots : List Rule) : Nat → Int → Nat → List Rune → Nat → Option (Nat × Int)
  | 0, _, _, _, _ => none
  | n + 1, flag, pending, l, p =>
    if l = [] then none
    else
      match roundAt run roots flag pending l with
      | .noMatch | .tie => some (p, flag)
      | .step _ u left st => placeAt run roots n (flagNext st) left (l.drop u) (p + u)
      | _ => none

theorem placeAt_halts {fuel : Nat} {roots : List Rule} {P : Int → List Rune → Prop} {text : List Rune} (n : Nat) :
    ∀ {flag : Int} {pending p q : Nat} {fl : Int}, Valid (text.drop p) →
    placeAt (Spec.run env fuel) roots n flag pending (text.drop p) p = some (q, fl) → P fl (text.drop q) →
    Halts env roots P flag (text.drop p) := by
  induction n with
  | zero => intro _ _ _ _ _ _ h; cases h
  | succ n ih =>
    intro flag pending p q fl hv h hP
    simp only [placeAt] at h
    by_cases hl : text.drop p = []
    · rw [if_pos hl] at h; cases h
    rw [if_neg hl] at h
    have hr := round_spec (env := env) (fuel := fuel) (roots := roots) (flag := flag) (pending := pending) hv
    cases hround : roundAt (Spec.run env fuel) roots flag pending (text.drop p) with
    | oof => rw [hround] at h; cases h
    | risky => rw [hround] at h; cases h
    | noMatch => rw [hround] at h; cases h; exact .here hl hP
    | tie => rw [hround] at h; cases h; exact .here hl hP
    | step nd u left st =>
      rw [hround] at hr h
      simp only at hr h
      have hu : ((text.drop p).take u).length = u := by rw [List.length_take]; omega
      have hw : RootWins env roots flag ((text.drop p).take u ++ (text.drop p).drop u) nd ((text.drop p).take u).length st := by
        rw [List.take_append_drop, hu]; exact hr.2
      have hne : (text.drop p).take u ++ (text.drop p).drop u ≠ [] := by rw [List.take_append_drop]; exact hl
      have hd := hv.drop u
      rw [List.drop_drop] at h hd
      have := Halts.next hne hw (by rw [List.drop_drop]; exact ih hd h hP)
      rwa [List.take_append_drop] at this

/-- The error of a document comes up at `placeAt`. -/
theorem reportLoop_at {fuel : Nat} {roots : List Record} {sch : Sched} (hfair : sch.Fair) {text : List Rune} (hv : Valid text)
    (n : Nat) : ∀ (i p : Nat) (nodes : List Node) (nodes' : List Node) (flag : Int) (unused : List Rune) (s : Stream) (x : Except RawErr (List Node)),
    Here text (p + unused.length) s → unused = (text.drop p).take unused.length →
    Doc.outcome (docAt (Spec.run env fuel) (roots.map (·.rule)) n flag unused.length (text.drop p) nodes') = some x →
    ∀ rep s', reportLoop env fuel roots sch n i nodes flag unused s = .ok (.error rep, s') →
    rep = .noNode ∨ ∃ q fl o all, placeAt (Spec.run env fuel) (roots.map (·.rule)) n flag unused.length (text.drop p) p = some (q, fl) ∧
      q < text.length ∧ o.Perm roots ∧ Aligned (TriedAt env fuel text q fl) o all ∧
      ((rep = .noMatch (errorsOf all) ∧ ∀ res ∈ all, res.node = none) ∨
        ∃ x y rest, rep = .ambiguity y x ∧ x.countUsed = y.countUsed ∧ x.node.isSome ∧ y.node.isSome ∧ all.Perm (x :: y :: rest)) := by
  induction n with
  | zero => intro i p nodes nodes' flag unused s x _ _ h; cases h
  | succ n ih =>
    intro i p nodes nodes' flag unused s x hh hun h rep s' hraw
    have hin : Here text p (s.pushBack unused) :=
      hh.push (by omega) (by rw [← L.take_drop_sl]; exact hun)
    have hvd := hv.drop p
    have hrem := hin.rem
    have hpeek : (s.pushBack unused).peek = EOFChar ↔ text.drop p = [] := by
      rw [L.peek_eq hin.wf, hrem]; exact L.peek_eof hvd
    simp only [docAt] at h
    simp only [reportLoop] at hraw
    by_cases hnil : text.drop p = []
    · rw [if_pos (hpeek.2 hnil)] at hraw
      split at hraw
      · cases hraw; exact .inl rfl
      · cases hraw
    · simp only [placeAt]
      rw [if_neg hnil] at h ⊢
      rw [if_neg (fun hc => hnil (hpeek.1 hc))] at hraw
      have hlt : p < text.length := by
        rcases Nat.lt_or_ge p text.length with h | h
        · exact h
        · exact absurd (List.drop_eq_nil_iff.2 h) hnil
      have hnot : roundAt (Spec.run env fuel) (roots.map (·.rule)) flag unused.length (text.drop p) ≠ .oof ∧
          roundAt (Spec.run env fuel) (roots.map (·.rule)) flag unused.length (text.drop p) ≠ .risky := by
        constructor <;> (intro hc; rw [hc] at h; cases h)
      obtain ⟨hd, hsteady⟩ := rootsAny hnot.1 hnot.2
      have hperm := hfair.1 i roots
      obtain ⟨ms, cs', look, e1, e2, e3, e4, e5, e6⟩ := rootsLoop_ref (env := env) (fuel := fuel) (flag := flag) hvd
        (sch.roots i roots) 0 (s.pushBack unused) hin.wf (Nat.zero_le _) (by rw [hrem, List.drop_zero])
        (fun r hr => hd r (hperm.mem_iff.1 hr)) (hsteady _ hperm)
      rw [rootsLoop_trace] at e2
      obtain ⟨⟨all, m1, cs1⟩, ht, e2⟩ := Exec.of_bind e2
      simp only [Exec.ok.injEq, Prod.mk.injEq] at e2
      obtain ⟨hall, rfl, rfl⟩ := e2
      have hat := rootsTrace_at (env := env) (fuel := fuel) (flag := flag) hv (sch.roots i roots) 0 (s.pushBack unused)
        (Nat.zero_le _) hin (fun r hr => hd r (hperm.mem_iff.1 hr)) (hsteady _ hperm) ht
      rw [List.take_zero] at ht
      rw [ht, Exec.ok_bind] at hraw
      simp only at hraw
      have hcount : ∀ r ∈ sch.matched i (matchedOf all), 0 ≤ r.countUsed := by
        intro r hr
        obtain ⟨a, _, t, t', h1, h2, _⟩ := hat.left r (List.mem_filter.1 ((hfair.2 i _).mem_iff.1 hr)).1
        exact tried_count ⟨t, t', h1.wf, h2⟩
      have elook : look = (roots.map (fun r => looked (Spec.run env fuel r.rule flag (text.drop p)))).foldr max 0 := by
        rw [e1]; exact foldr_max_perm (hperm.map _) 0
      have hhits := (hperm.map (fun r => Spec.run env fuel r.rule flag (text.drop p))).filterMap hitOf
      rw [← hall] at e5
      have hp := hfair.2 i (matchedOf all)
      obtain ⟨hits', p1, p2⟩ := hitsRef_perm hp.symm e5
      obtain ⟨q1, q2, q3⟩ := pick_any (hhits.symm.trans p1) p2
      have hadv := e4.popBack
      rw [Nat.sub_zero] at hadv
      have hround : roundAt (Spec.run env fuel) (roots.map (·.rule)) flag unused.length (text.drop p) =
          match ((roots.map (fun r => Spec.run env fuel r.rule flag (text.drop p))).filterMap hitOf).filter
            (fun h => h.2.1 == longest ((roots.map (fun r => Spec.run env fuel r.rule flag (text.drop p))).filterMap hitOf)) with
          | [] => .noMatch
          | [h] => if look < unused.length then .risky
              else if (((roots.map (fun r => Spec.run env fuel r.rule flag (text.drop p))).filterMap hitOf).map (fun h => h.2.1)).Nodup
              then .step h.1 h.2.1 (look - h.2.1) h.2.2 else .risky
          | _ => .tie := by
        have hn1 := hnot.1
        have hn2 := hnot.2
        unfold roundAt at hn1 hn2 ⊢
        simp only [List.map_map] at hn1 hn2 ⊢
        split at hn1
        · exact absurd rfl hn1
        rename_i ho
        rw [if_neg ho] at hn2 ⊢
        split at hn2
        · exact absurd rfl hn2
        rename_i hr
        rw [if_neg hr]
        split at hn2
        · exact absurd rfl hn2
        rename_i hs
        rw [if_neg hs, elook]
        rfl
      rw [hround] at h ⊢
      generalize hF : ((roots.map (fun r => Spec.run env fuel r.rule flag (text.drop p))).filterMap hitOf) = hits at *
      cases hfil : hits.filter (fun h => h.2.1 == longest hits) with
      | nil =>
        rw [q1 hfil] at hraw
        cases hraw
        refine .inr ⟨p, flag, _, all, rfl, hlt, hperm, hat, .inl ⟨rfl, ?_⟩⟩
        have := pick_none hcount (q1 hfil)
        rw [this] at hp
        have := hp.symm.eq_nil
        intro res hres
        cases hn : res.node with
        | none => rfl
        | some nd =>
          have hm : res ∈ matchedOf all := List.mem_filter.2 ⟨hres, by rw [hn]; rfl⟩
          rw [this] at hm
          cases hm
      | cons y ys =>
        cases ys with
        | cons z ys =>
          obtain ⟨a, b, hq⟩ := q2 _ _ _ hfil
          rw [hq] at hraw
          cases hraw
          obtain ⟨h1, rest, h2⟩ := pick_two hcount hq
          have h3 : (matchedOf all).Perm (a :: b :: rest) := hp.symm.trans h2
          have hx := (List.mem_filter.1 (h3.mem_iff.2 List.mem_cons_self)).2
          have hy := (List.mem_filter.1 (h3.mem_iff.2 (List.mem_cons_of_mem _ List.mem_cons_self))).2
          refine .inr ⟨p, flag, _, all, rfl, hlt, hperm, hat,
            .inr ⟨a, b, rest ++ all.filter (fun r => !r.node.isSome), rfl, h1, hx, hy, ?_⟩⟩
          exact (List.filter_append_perm (fun r : Res => r.node.isSome) all).symm.trans (h3.append_right _)
        | nil =>
          rw [hfil] at h
          simp only at h ⊢
          by_cases hpend : look < unused.length
          · rw [if_pos hpend] at h; cases h
          rw [if_neg hpend] at h ⊢
          by_cases hnd : (hits.map (fun h => h.2.1)).Nodup
          · rw [if_pos hnd] at h ⊢
            simp only at h ⊢
            obtain ⟨r, r1, r2, r3, r4⟩ := q3 y hfil hnd
            rw [r1] at hraw
            simp only at hraw
            have hyl : y.2.1 ≤ look := by
              have hy : y ∈ hits := (List.mem_filter.1 (show y ∈ hits.filter (fun h => h.2.1 == longest hits) by rw [hfil]; exact List.mem_singleton_self _)).1
              exact e6 y (hhits.mem_iff.2 hy)
            have hslice : sliceFrom ((text.drop p).take look) r.countUsed = .ok (((text.drop p).take look).drop y.2.1) := by
              rw [r3, sliceFrom_all _ _ (by rw [List.length_take]; omega)]
            rw [hslice, Exec.ok_bind] at hraw
            have hlen : (((text.drop p).take look).drop y.2.1).length = look - y.2.1 := by
              rw [List.length_drop, List.length_take]; omega
            have hpl : Here text (p + look) (cs1.popBack unused) := by
              have := hh.adv hadv
              rwa [show p + unused.length + (look - unused.length) = p + look by omega] at this
            have := ih (i + 1) (p + y.2.1) (nodes ++ r.node.toList) (nodes' ++ [y.1]) (flagNext y.2.2) (((text.drop p).take look).drop y.2.1)
              (cs1.popBack unused) x ?_ ?_ ?_ rep s' (by rw [← r4]; exact hraw)
            · rw [hlen, ← List.drop_drop] at this
              exact this
            · rw [hlen, show p + y.2.1 + (look - y.2.1) = p + look by omega]
              exact hpl
            · rw [hlen, ← List.drop_drop, List.drop_take]
            · rw [hlen, ← List.drop_drop]
              exact h
          · rw [if_neg hnd] at h
            cases h

theorem evalReport_at {g : Grammar} {fuel : Nat} {sch : Sched} (hfair : sch.Fair) {text : List Rune} (hv : Valid text)
    {s' : Stream} {F : Nat} {x : Except RawErr (List Node)}
    (hx : Doc.outcome (docAt (Spec.run g.env F) (g.roots.map (·.rule)) F SUGGEST_SKIP 0 text []) = some x)
    {rep : Report} (hne : text ≠ []) (h : g.evalReport fuel sch (Stream.ofChars text) = .ok (.error rep, s')) :
    ∃ q fl o all, placeAt (Spec.run g.env F) (g.roots.map (·.rule)) F SUGGEST_SKIP 0 text 0 = some (q, fl) ∧
      q < text.length ∧ o.Perm g.roots ∧ Aligned (TriedAt g.env F text q fl) o all ∧
      ((rep = .noMatch (errorsOf all) ∧ ∀ res ∈ all, res.node = none) ∨
        ∃ x y rest, rep = .ambiguity y x ∧ x.countUsed = y.countUsed ∧ x.node.isSome ∧ y.node.isSome ∧ all.Perm (x :: y :: rest)) := by
  have hs := ready_ofChars hv
  have hl := rem_ofChars text
  have hno := C24_some_node hfair hs.wf (agreed h)
  obtain ⟨y', s'', e1, _⟩ := evalRaw_ref (g := g) hfair hs.wf hs.valid (by rw [hl]; exact hne) (by rw [hl]; exact hx)
  rw [C61_agrees] at e1
  obtain ⟨z, hz, _⟩ := Exec.of_bind e1
  cases report_det h hz
  unfold evalReport at hz
  rw [if_neg (by rw [L.peek_eq hs.wf, L.peek_eof hs.valid, hl]; exact hne)] at hz
  rcases reportLoop_at hfair hv F 0 0 [] [] SUGGEST_SKIP [] (Stream.ofChars text) x (here_ofChars text) rfl hx _ _ hz with h | h
  · subst h; exact absurd rfl hno
  · exact h

theorem tried_fails {fuel : Nat} {text : List Rune} (hv : Valid text) {q : Nat} {fl : Int} {r : Record} {res : Res}
    (h : TriedAt env fuel text q fl r res) (hn : res.node = none) : Fails env r.rule fl (text.drop q) := by
  obtain ⟨t, t', h1, h2, h3, h4⟩ := h
  have hvd := hv.drop q
  have hrem : text.drop q = (Stream.ofChars (text.drop q)).rem := (rem_ofChars _).symm
  have k1 := know_adv (know_of (eval_sim env fuel) (L.eval_ref env fuel) r.rule fl _ _ h1.wf h1.rem hvd) (by intro hc; rw [hc] at h3; cases h3) (by intro hc; rw [hc] at h4; cases h4)
  have k2 := know_adv (know_of (eval_sim env fuel) (L.eval_ref env fuel) r.rule fl _ _ (ready_ofChars hvd).wf hrem.symm hvd) (by intro hc; rw [hc] at h3; cases h3) (by intro hc; rw [hc] at h4; cases h4)
  obtain ⟨_, res1, s1, a1, _, a2⟩ := k1
  obtain ⟨_, res2, s2, b1, _, b2⟩ := k2
  rw [h2] at a1
  cases a1
  refine ⟨fuel, res2, s2, b1, ?_⟩
  cases hc : res2.node with
  | none => rfl
  | some n => exact absurd hn (a2.1 (b2.2 (by rw [hc]; simp)))

/-- An error of the rule `r` at index `q` of the text, where `r` does not match, and what it says is so. -/
def ErrorThere (env : Env) (text : List Rune) (q : Nat) (fl : Int) (r : Record) (e : Err) : Prop :=
  Fails env r.rule fl (text.drop q) ∧ Explains env r.rule e ∧ ∃ idx : Int, Holds text idx e

/-- The error of an orderly document that no root rule matches: the root rules match, one after the other, up to a
place at which none of them matches, and the errors are errors of the root rules at this place, one of each, and say what is so. -/
theorem C61_true_partial {g : Grammar} {fuel : Nat} {sch : Sched} (hfair : sch.Fair) {text : List Rune} (hv : Valid text) (hne : text ≠ [])
    (ho : Orderly g.env (g.roots.map (·.rule)) text) {s' : Stream} {es : List Err}
    (h : g.evalReport fuel sch (Stream.ofChars text) = .ok (.error (.noMatch es), s')) :
    ∃ q fl, q < text.length ∧ Halts g.env (g.roots.map (·.rule)) (fun f l => f = fl ∧ l = text.drop q) SUGGEST_SKIP text ∧
      ∃ o, o.Perm g.roots ∧ Aligned (ErrorThere g.env text q fl) o es := by
  obtain ⟨F, x, hx⟩ := orderly_outcome ho
  obtain ⟨q, fl, o, all, h1, h2, h3, h4, ⟨h5, h6⟩ | ⟨_, _, _, h5, _⟩⟩ := evalReport_at hfair hv hx hne h
  · cases h5
    refine ⟨q, fl, h2, placeAt_halts (p := 0) F hv h1 ⟨rfl, rfl⟩, o, h3, ?_⟩
    clear h3 h
    induction h4 with
    | nil => exact .nil
    | @cons r res rs all ht _ ih =>
      have hnone := h6 _ List.mem_cons_self
      have hf := tried_fails hv ht hnone
      obtain ⟨t, t', e1, e2, e3, e4⟩ := ht
      have hb := eval_told g.env F r.rule fl t
      rw [e2] at hb
      have hb := hb.1 hnone
      cases hr : res.error with
      | none => exact absurd hr hb
      | some e =>
        simp only [errorsOf, List.filterMap_cons, hr]
        refine .cons ⟨hf, C57_explained e2 hr, res.errIdx, ?_⟩ (ih (fun res hr => h6 res (List.mem_cons_of_mem _ hr)))
        exact (eval_true g.env F r.rule fl text q t hv e1 (by intro hc; rw [hc] at e3; cases e3) (by intro hc; rw [hc] at e4; cases e4) _ e2 e hr).1
  · cases h5

theorem _root_.Xbnf.Spec.Aligned.swap {α β : Type} {R : α → β → Prop} {as : List α} {bs : List β} (h : Aligned R as bs) : Aligned (fun b a => R a b) bs as := by
  induction h with
  | nil => exact .nil
  | cons h _ ih => exact .cons h ih

theorem errors_same {fuel : Nat} {text : List Rune} {q : Nat} {fl : Int} {o : List Record} {all : List Res} (h : Aligned (TriedAt env fuel text q fl) o all) :
    ∀ {all'}, Aligned (TriedAt env fuel text q fl) o all' → Aligned (fun e e' => SameErr (some e) (some e')) (errorsOf all) (errorsOf all') := by
  induction h with
  | nil => intro all' h; cases h; exact .nil
  | @cons r res o all ht _ ih =>
    intro all' h
    cases h with
    | @cons _ res' _ all' ht' h =>
      obtain ⟨t, t', a1, a2, _⟩ := ht
      obtain ⟨u, u', b1, b2, _⟩ := ht'
      have := eval_twin env fuel r.rule fl t u ⟨a1.wf, b1.wf, by rw [a1.rem, b1.rem], by rw [a1.cursor, b1.cursor]⟩
      rw [a2, b2] at this
      have hs : SameErr res.error res'.error := this.1.2.1
      have hs' := hs
      unfold SameErr at hs
      simp only [errorsOf, List.filterMap_cons]
      cases hr : res.error with
      | none =>
        rw [hr] at hs
        cases hr' : res'.error with
        | none => exact ih h
        | some e' => rw [hr'] at hs; cases hs
      | some e =>
        rw [hr] at hs
        cases hr' : res'.error with
        | none => rw [hr'] at hs; cases hs
        | some e' => rw [hr'] at hs; exact .cons hs (ih h)

/-- The order in which maps are visited does not matter for the error of an orderly document: it is of the same kind, and it
is made from the same errors, apart from their order and positions. -/
theorem C61_order_partial {g : Grammar} {fuel fuel' : Nat} {sch sch' : Sched} (hfair : sch.Fair) (hfair' : sch'.Fair)
    {text : List Rune} (hv : Valid text) (ho : Orderly g.env (g.roots.map (·.rule)) text) {s1 s2 : Stream} {rep rep' : Report}
    (h : g.evalReport fuel sch (Stream.ofChars text) = .ok (.error rep, s1))
    (h' : g.evalReport fuel' sch' (Stream.ofChars text) = .ok (.error rep', s2)) :
    rep.kind = rep'.kind ∧ ∀ es es', rep = .noMatch es → rep' = .noMatch es' →
      ∃ l, l.Perm es' ∧ Aligned (fun e e' => SameErr (some e) (some e')) es l := by
  constructor
  · have := C25_order_partial hfair hfair' (ready_ofChars hv) (by rw [rem_ofChars]; exact ho) (agreed h) (agreed h')
    exact Except.error.inj this
  · rintro es es' rfl rfl
    have hne : text ≠ [] := by
      intro hc
      unfold evalReport at h
      rw [if_pos (by rw [L.peek_eq (ready_ofChars hv).wf, L.peek_eof (ready_ofChars hv).valid, rem_ofChars]; exact hc)] at h
      cases h
    obtain ⟨F, x, hx⟩ := orderly_outcome ho
    obtain ⟨q, fl, o, all, h1, h2, h3, h4, ⟨h5, h6⟩ | ⟨_, _, _, h5, _⟩⟩ := evalReport_at hfair hv hx hne h
    · obtain ⟨q', fl', o', all', g1, g2, g3, g4, ⟨g5, g6⟩ | ⟨_, _, _, g5, _⟩⟩ := evalReport_at hfair' hv hx hne h'
      · rw [h1] at g1
        cases g1
        cases h5
        cases g5
        obtain ⟨all'', k1, k2⟩ := (g4.swap).perm (g3.trans h3.symm)
        exact ⟨errorsOf all'', (k1.symm.filterMap _), errors_same h4 k2.swap⟩
      · cases g5
    · cases h5

/-! ## Examples and limits -/

theorem reachable_grammarOf {text : List Rune} (h : (match fromString (text.length + 2) text with | .ok _ _ => true | _ => false) = true) :
    Reachable (grammarOf text) :=
  ⟨_, .inr ⟨_, accepted_grammarOf h⟩, .done⟩

/-- The text of the error that `EvalRaw` returns for a document. -/
def reported (g : Grammar) (sch : Sched) (roots : List Record) (order : List Err → List Err) (text : String) : Exec (List Rune) :=
  (g.evalReport 40 sch (Stream.ofChars (runes text))).bind (fun x =>
    match x.1 with
    | .ok _ => .ok []
    | .error rep => rep.text roots order)

def itemsText : List Rune := runes "items = \"item\" {\"1\"}+\nstop = \"stop\""

/-- Hypotheses of `C61_no_match_text`, `C61_true_partial` and `C61_order_partial`, and the text of the error in two orders. -/
example : Reachable (grammarOf itemsText) ∧
    Orderly (grammarOf itemsText).env ((grammarOf itemsText).roots.map (·.rule)) (runes "item 1 stop item") ∧
    reported (grammarOf itemsText) forward (grammarOf itemsText).roots id "item 1 stop item" =
      .ok (runes "must be items or stop: items: 1 or more time(s) of \"1\": 0 less than minimal 1; missing stop at L1:12; ") ∧
    reported (grammarOf itemsText) backward (grammarOf itemsText).roots.reverse id "item 1 stop item" =
      .ok (runes "must be stop or items: missing stop at L1:12; items: 1 or more time(s) of \"1\": 0 less than minimal 1; ") :=
  ⟨reachable_grammarOf (by decide +kernel), orderly_of (fuel := 20) (by decide +kernel), by decide +kernel, by decide +kernel⟩

def lastText : List Rune := runes "items = \"item\" {\"1\"}+\nstop = \"stop\"\nend = 'end'"

/-- Three root rules: the position of an error depends on the order in which the map is visited. -/
theorem C61_position_counterexample : Reachable (grammarOf lastText) ∧
    reported (grammarOf lastText) forward (grammarOf lastText).roots id "item 1 stop item" =
      .ok (runes "must be items, stop or end: items: 1 or more time(s) of \"1\": 0 less than minimal 1; missing stop at L1:12; missing end at L1:9; ") ∧
    reported (grammarOf lastText) backward (grammarOf lastText).roots List.reverse "item 1 stop item" =
      .ok (runes "must be items, stop or end: items: 1 or more time(s) of \"1\": 0 less than minimal 1; missing stop at L1:12; missing end at L1:12; ") :=
  ⟨reachable_grammarOf (by decide +kernel), by decide +kernel, by decide +kernel⟩

/-- Hypotheses of `C61_ambiguity_text`: two rules for the same text. -/
example : Reachable (grammarOf (runes "a = 'x'\nb = ~\"x\"")) ∧ (∀ r ∈ (grammarOf (runes "a = 'x'\nb = ~\"x\"")).roots, OwnName r.rule) ∧
    reported (grammarOf (runes "a = 'x'\nb = ~\"x\"")) forward (grammarOf (runes "a = 'x'\nb = ~\"x\"")).roots id "x" =
      .ok (runes "ambiguity found: b(\"x\") vs a(\"x\")") := by
  refine ⟨reachable_grammarOf (by decide +kernel), ?_, by decide +kernel⟩
  have h : ∀ r ∈ (grammarOf (runes "a = 'x'\nb = ~\"x\"")).roots, r.rule = .char { name := runes "a" } 120 false ∨
      r.rule = .str { name := runes "b", virt := true } (runes "x") := by decide +kernel
  intro r hr
  rcases h r hr with h | h <;> rw [h] <;> trivial

/-- An ambiguity between two root rules that are other names for a rule is reported with the name of that rule, twice: the
text names neither of them. -/
theorem C61_alias_counterexample : Reachable (grammarOf (runes "a = c\nb = c\nc = 'x'")) ∧
    (grammarOf (runes "a = c\nb = c\nc = 'x'")).roots.map (·.name) = [runes "a", runes "b"] ∧
    reported (grammarOf (runes "a = c\nb = c\nc = 'x'")) forward (grammarOf (runes "a = c\nb = c\nc = 'x'")).roots id "x" =
      .ok (runes "ambiguity found: c(\"x\") vs c(\"x\")") :=
  ⟨reachable_grammarOf (by decide +kernel), by decide +kernel, by decide +kernel⟩

end Xbnf.Props
