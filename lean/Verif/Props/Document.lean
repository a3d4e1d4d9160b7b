import Verif.Lemmas.Document
import Verif.Props.Yield
import Verif.Props.Levels
import Verif.Props.Embed
/-
C24 and C25: whole documents (`EvalRaw`, `Eval`).

Full statement of C24: when `EvalRaw` succeeds, its nodes are root matches that follow each other and
cover the input.  It is false when a round looks less far than the one before
(`C24_counterexample`: the rest of the look-ahead is dropped).  Full statement of C25: the order in
which Go visits its maps does not matter.  It is false (`C25_counterexample`).  Both hold for
`Orderly` documents.
-/
namespace Xbnf.Props
open Spec Grammar

variable {env : Env}

theorem roundAt_hit {fuel : Nat} {roots : List Rule} {flag : Int} {pending : Nat} {l : List Rune} {nd u left st}
    (h : roundAt (Spec.run env fuel) roots flag pending l = .step nd u left st) :
    ∃ r ∈ roots, ∃ n, Spec.run env fuel r flag l = .hit nd u n st := by
  unfold roundAt at h
  simp only at h
  repeat' split at h
  all_goals first
    | (cases h; done)
    | skip
  rename_i y hf _ hn
  simp only [Round.step.injEq] at h
  obtain ⟨rfl, rfl, _, rfl⟩ := h
  have hy := (List.mem_filter.1 (show y ∈ List.filter _ _ by rw [hf]; exact List.mem_singleton_self _)).1
  obtain ⟨a, ha, he⟩ := List.mem_filterMap.1 hy
  obtain ⟨r, hr, rfl⟩ := List.mem_map.1 ha
  refine ⟨r, hr, ?_⟩
  cases hrun : Spec.run env fuel r flag l with
  | hit nd u n st => rw [hrun] at he; cases he; exact ⟨n, rfl⟩
  | _ => rw [hrun] at he; cases he

theorem docAt_yield {fuel : Nat} {roots : List Rule} (n : Nat) : ∀ {flag : Int} {pending : Nat} {l : List Rune}
    {nodes ns : List Node}, Valid l → docAt (Spec.run env fuel) roots n flag pending l nodes = .nodes ns →
    solid (yieldL ns) = solid (yieldL nodes) ++ solid l := by
  induction n with
  | zero => intro _ _ _ _ _ _ h; cases h
  | succ n ih =>
    intro flag pending l nodes ns hv h
    simp only [docAt] at h
    split at h
    · rename_i hl
      cases h
      rw [hl, solid_nil, List.append_nil]
    · cases hround : roundAt (Spec.run env fuel) roots flag pending l with
      | step nd u left st =>
        rw [hround] at h
        obtain ⟨r, _, m, hrun⟩ := roundAt_hit hround
        have hy := run_yield hv hrun
        rw [ih (hv.drop u) h, yieldL_append, yieldL_one, solid_append, hy, List.append_assoc, ← solid_append,
          List.take_append_drop]
      | _ => rw [hround] at h; cases h

/-- What `EvalRaw` returned for an orderly document is what the document semantics says. -/
theorem orderly_raw {g : Grammar} {fuel : Nat} {sch : Sched} (hfair : sch.Fair) {s s' : Stream} (hw : s.WF)
    (hv : Valid s.rem) (hne : s.rem ≠ []) {y : Except RawErr (List Node)}
    (ho : Orderly g.env (g.roots.map (·.rule)) s.rem) (h : g.evalRaw fuel sch s = .ok (y, s')) :
    ∃ F, Doc.outcome (docAt (Spec.run g.env F) (g.roots.map (·.rule)) F SUGGEST_SKIP 0 s.rem []) =
      some (y.map (List.map Node.erase)) := by
  obtain ⟨F, x, hx⟩ := orderly_outcome ho
  obtain ⟨y', s'', e1, e2⟩ := evalRaw_ref hfair hw hv hne hx
  have := raw_det h e1
  simp only [Prod.mk.injEq] at this
  obtain ⟨rfl, rfl⟩ := this
  exact ⟨F, by rw [hx, e2]⟩

/-- The nodes are longest root matches that follow each other without a gap and cover the whole
input; if there is an error, the matches lead to a place at which no root matches, or two match
equally long. -/
theorem C24_document_partial {g : Grammar} {fuel : Nat} {sch : Sched} (hfair : sch.Fair) {s s' : Stream}
    (hs : Ready s) (hne : s.rem ≠ []) {y : Except RawErr (List Node)}
    (ho : Orderly g.env (g.roots.map (·.rule)) s.rem) (h : g.evalRaw fuel sch s = .ok (y, s')) :
    match y with
    | .ok nodes => Document g.env (g.roots.map (·.rule)) SUGGEST_SKIP s.rem (nodes.map Node.erase)
    | .error .noMatch => Halts g.env (g.roots.map (·.rule))
        (fun flag l => ∀ r ∈ g.roots.map (·.rule), Fails g.env r flag l) SUGGEST_SKIP s.rem
    | .error .ambiguity => Halts g.env (g.roots.map (·.rule))
        (fun flag l => Tied g.env flag l (g.roots.map (·.rule))) SUGGEST_SKIP s.rem
    | .error _ => False := by
  obtain ⟨F, hF⟩ := orderly_raw hfair hs.wf hs.valid hne ho h
  have hspec := docAt_spec (env := g.env) (fuel := F) (roots := g.roots.map (·.rule)) F (flag := SUGGEST_SKIP)
    (pending := 0) (nodes := []) hs.valid
  cases hd : docAt (Spec.run g.env F) (g.roots.map (·.rule)) F SUGGEST_SKIP 0 s.rem [] with
  | oof => rw [hd] at hF; cases hF
  | risky => rw [hd] at hF; cases hF
  | noMatch =>
    rw [hd] at hF hspec
    cases y with
    | ok ns => cases hF
    | error e =>
      simp only [Doc.outcome, Except.map, Option.some.injEq, Except.error.injEq] at hF
      subst hF
      exact hspec
  | ambiguity =>
    rw [hd] at hF hspec
    cases y with
    | ok ns => cases hF
    | error e =>
      simp only [Doc.outcome, Except.map, Option.some.injEq, Except.error.injEq] at hF
      subst hF
      exact hspec
  | nodes ns =>
    rw [hd] at hF hspec
    cases y with
    | error e => cases hF
    | ok ms =>
      simp only [Doc.outcome, Except.map, Option.some.injEq, Except.ok.injEq] at hF
      obtain ⟨more, e1, e2⟩ := hspec
      rw [List.nil_append] at e1
      rw [hF] at e1
      show Document _ _ _ _ (ms.map Node.erase)
      rw [e1]
      exact e2

/-- The text of the nodes is the text of the input, apart from white space. -/
theorem C24_text_partial {g : Grammar} {fuel : Nat} {sch : Sched} (hfair : sch.Fair) {s s' : Stream}
    (hs : Ready s) {nodes : List Node} (ho : Orderly g.env (g.roots.map (·.rule)) s.rem)
    (h : g.evalRaw fuel sch s = .ok (.ok nodes, s')) : solid (astText nodes) = solid s.rem := by
  have hne : s.rem ≠ [] := by
    intro hc
    unfold evalRaw at h
    rw [if_pos (by rw [L.peek_eq hs.wf, L.peek_eof hs.valid]; exact hc)] at h
    cases h
  obtain ⟨F, hF⟩ := orderly_raw hfair hs.wf hs.valid hne ho h
  cases hd : docAt (Spec.run g.env F) (g.roots.map (·.rule)) F SUGGEST_SKIP 0 s.rem [] with
  | nodes ns =>
    rw [hd] at hF
    simp only [Doc.outcome, Except.map, Option.some.injEq, Except.ok.injEq] at hF
    have := docAt_yield F hs.valid hd
    rw [← (astText_spaced nodes).solid, ← yieldL_erase, eraseL_eq_map, ← hF, this]
    rfl
  | _ => rw [hd] at hF; cases hF

/-- An orderly document is parsed: `EvalRaw` returns, in every order. -/
theorem C24_returns_partial {g : Grammar} {s : Stream} (hs : Ready s) (hne : s.rem ≠ [])
    (ho : Orderly g.env (g.roots.map (·.rule)) s.rem) :
    ∃ fuel, ∀ sch : Sched, sch.Fair → ∃ y s', g.evalRaw fuel sch s = .ok (y, s') := by
  obtain ⟨F, x, hx⟩ := orderly_outcome ho
  refine ⟨F, fun sch hfair => ?_⟩
  obtain ⟨y, s', e1, _⟩ := evalRaw_ref hfair hs.wf hs.valid hne hx
  exact ⟨y, s', e1⟩

/-! ### Without conditions -/

theorem rootsLoop_conform {fuel : Nat} {flag : Int} (rs : List Record) : ∀ (maxRead : List Rune) (cs : Stream)
    {ms m cs'}, cs.WF → rootsLoop env fuel flag rs maxRead cs = .ok (ms, m, cs') →
    ∀ x ∈ ms, ∃ n, x.node = some n ∧ ∃ r ∈ rs, Conforms env ranged r.rule n := by
  induction rs with
  | nil =>
    intro _ _ _ _ _ _ h
    simp only [rootsLoop, Exec.ok.injEq, Prod.mk.injEq] at h
    obtain ⟨rfl, _⟩ := h
    intro x hx; cases hx
  | cons r rs ih =>
    intro maxRead cs ms m cs' hw h
    simp only [rootsLoop] at h
    have hwp := Stream.wf_pushBack hw maxRead
    cases he : eval env fuel r.rule flag (cs.pushBack maxRead) with
    | panic => rw [he] at h; cases h
    | oof => rw [he] at h; cases h
    | ok y =>
      obtain ⟨res, s1⟩ := y
      rw [he, Exec.ok_bind] at h
      obtain ⟨k, _, ha⟩ := eval_list hwp he
      simp only at h
      generalize (if maxRead.length < res.read.length then res.read else maxRead) = mr at h
      cases hl : rootsLoop env fuel flag rs mr s1 with
      | panic => rw [hl] at h; cases h
      | oof => rw [hl] at h; cases h
      | ok z =>
        obtain ⟨ms', m', cs''⟩ := z
        rw [hl, Exec.ok_bind] at h
        simp only [Exec.ok.injEq, Prod.mk.injEq] at h
        obtain ⟨rfl, _⟩ := h
        have hi := ih _ _ ha.wf.2 hl
        intro x hx
        have hx : (x = res ∧ res.node.isSome) ∨ x ∈ ms' := by
          split at hx
          · rename_i hn
            rcases List.mem_cons.1 hx with rfl | hx
            · exact .inl ⟨rfl, hn⟩
            · exact .inr hx
          · exact .inr hx
        rcases hx with ⟨rfl, hn⟩ | hx
        · obtain ⟨n, hn⟩ := Option.isSome_iff_exists.1 hn
          exact ⟨n, hn, r, List.mem_cons_self, node_conforms (S := fun _ => True) hwp (fun _ _ => trivial) trivial
            (fun _ _ _ h1 h2 => ⟨h1, .inl h2⟩) (fun _ _ _ _ h1 h2 _ => ⟨h2, .inr h1⟩) he hn⟩
        · obtain ⟨n, h1, q, h2, h3⟩ := hi x hx
          exact ⟨n, h1, q, List.mem_cons_of_mem _ h2, h3⟩

theorem pickLoop_mem : ∀ (ms : List Res) (m : Int) (b : Option Res) {r : Res}, pickLoop m b ms = .found r →
    b = some r ∨ r ∈ ms
  | [], _, none, _, h => by cases h
  | [], _, some b, _, h => by cases h; exact .inl rfl
  | x :: xs, m, b, r, h => by
    have e : pickLoop m b (x :: xs) = if x.countUsed < m then pickLoop m b xs
        else if x.countUsed = m ∧ b.isSome then .ambiguous (b.getD {}) x else pickLoop x.countUsed (some x) xs := by
      cases b <;> rfl
    rw [e] at h
    split at h
    · rcases pickLoop_mem xs _ _ h with h | h
      · exact .inl h
      · exact .inr (List.mem_cons_of_mem _ h)
    · split at h
      · cases h
      · rcases pickLoop_mem xs _ _ h with h | h
        · cases h; exact .inr List.mem_cons_self
        · exact .inr (List.mem_cons_of_mem _ h)

theorem pick_mem {ms : List Res} {r : Res} (h : pick ms = .found r) : r ∈ ms := by
  match ms, h with
  | [x], h => cases h; exact List.mem_singleton_self _
  | x :: y :: ms, h =>
    rcases pickLoop_mem (x :: y :: ms) _ _ h with h | h
    · cases h
    · exact h

theorem rawLoop_conform {fuel : Nat} {roots : List Record} {sch : Sched} (hfair : sch.Fair) (n : Nat) :
    ∀ (i : Nat) (nodes : List Node) (flag : Int) (unused : List Rune) (s : Stream) {y s'}, s.WF →
    (∀ x ∈ nodes, ∃ r ∈ roots, Conforms env ranged r.rule x) →
    rawLoop env fuel roots sch n i nodes flag unused s = .ok (y, s') →
    (∀ ns, y = .ok ns → ns ≠ [] ∧ ∀ x ∈ ns, ∃ r ∈ roots, Conforms env ranged r.rule x) ∧
    (y = .error .noNode → nodes = [] ∧ (s.pushBack unused).peek = EOFChar) ∧ y ≠ .error .empty := by
  induction n with
  | zero => intro _ _ _ _ _ _ _ _ _ h; cases h
  | succ n ih =>
    intro i nodes flag unused s y s' hw hc h
    simp only [rawLoop] at h
    have hwp := Stream.wf_pushBack hw unused
    split at h
    · rename_i hpk
      simp only [Exec.ok.injEq, Prod.mk.injEq] at h
      obtain ⟨rfl, _⟩ := h
      split
      · rename_i hz
        exact ⟨fun _ h => (by cases h), fun _ => ⟨List.length_eq_zero_iff.1 hz, hpk⟩, fun h => (by cases h)⟩
      · rename_i hz
        refine ⟨fun ns h => ?_, fun h => (by cases h), fun h => (by cases h)⟩
        cases h
        exact ⟨fun h0 => hz (by rw [h0]; rfl), hc⟩
    · cases hl : rootsLoop env fuel flag (sch.roots i roots) [] (s.pushBack unused) with
      | panic => rw [hl] at h; cases h
      | oof => rw [hl] at h; cases h
      | ok z =>
        obtain ⟨ms, maxRead, cs⟩ := z
        rw [hl, Exec.ok_bind] at h
        simp only at h
        have hall := rootsLoop_all env fuel flag (sch.roots i roots) [] (s.pushBack unused) hwp
        rw [hl] at hall
        obtain ⟨_, _, k, hadv⟩ := hall
        have hconf := rootsLoop_conform _ _ _ hwp hl
        cases hp : pick (sch.matched i ms) with
        | none => rw [hp] at h; cases h; exact ⟨fun _ h => (by cases h), fun h => (by cases h), fun h => (by cases h)⟩
        | ambiguous =>
          rw [hp] at h; cases h
          exact ⟨fun _ h => (by cases h), fun h => (by cases h), fun h => (by cases h)⟩
        | found r =>
          rw [hp] at h
          simp only at h
          obtain ⟨x, hx, q, hq, hcq⟩ := hconf r ((hfair.2 i ms).mem_iff.1 (pick_mem hp))
          cases hsl : sliceFrom maxRead r.countUsed with
          | panic => rw [hsl] at h; cases h
          | oof => rw [hsl] at h; cases h
          | ok un =>
            rw [hsl, Exec.ok_bind, hx] at h
            have := ih _ _ _ _ _ hadv.popBack.wf.2 (by
              intro z hz
              rcases List.mem_append.1 hz with hz | hz
              · exact hc z hz
              · simp only [Option.toList_some, List.mem_singleton] at hz
                subst hz
                exact ⟨q, (hfair.1 i roots).mem_iff.1 hq, hcq⟩) h
            refine ⟨this.1, fun h => ?_, this.2.2⟩
            have := (this.2.1 h).1
            simp at this

/-- Whatever the grammar and the input: a successful `EvalRaw` returns at least one node, and each is a
tree of a root rule. -/
theorem C24_nodes {g : Grammar} {fuel : Nat} {sch : Sched} (hfair : sch.Fair) {s s' : Stream} (hw : s.WF)
    {nodes : List Node} (h : g.evalRaw fuel sch s = .ok (.ok nodes, s')) :
    nodes ≠ [] ∧ ∀ x ∈ nodes, ∃ r ∈ g.roots, Conforms g.env ranged r.rule x := by
  unfold evalRaw at h
  split at h
  · cases h
  · exact (rawLoop_conform hfair fuel 0 [] _ [] s hw (fun _ hx => (by cases hx)) h).1 nodes rfl

/-- The error "no AST node found" is never returned. -/
theorem C24_some_node {g : Grammar} {fuel : Nat} {sch : Sched} (hfair : sch.Fair) {s s' : Stream} (hw : s.WF)
    {y} (h : g.evalRaw fuel sch s = .ok (y, s')) : y ≠ .error .noNode := by
  unfold evalRaw at h
  split at h
  · cases h; intro hc; cases hc
  · rename_i hpk
    intro hc
    exact hpk ((rawLoop_conform hfair fuel 0 [] _ [] s hw (fun _ hx => (by cases hx)) h).2.1 hc).2

/-- "Empty stream" is reported exactly for an empty input. -/
theorem C24_empty {g : Grammar} {fuel : Nat} {sch : Sched} (hfair : sch.Fair) {s s' : Stream} (hs : Ready s)
    {y} (h : g.evalRaw fuel sch s = .ok (y, s')) : y = .error .empty ↔ s.rem = [] := by
  unfold evalRaw at h
  split at h
  · rename_i hpk
    cases h
    rw [L.peek_eq hs.wf, L.peek_eof hs.valid] at hpk
    exact ⟨fun _ => hpk, fun _ => rfl⟩
  · rename_i hpk
    rw [L.peek_eq hs.wf, L.peek_eof hs.valid] at hpk
    exact ⟨fun hc => absurd hc (rawLoop_conform hfair fuel 0 [] _ [] s hs.wf (fun _ hx => (by cases hx)) h).2.2,
      fun hc => absurd hc hpk⟩

/-- At every level that does not remove marked nodes, `Eval` keeps the text `EvalRaw` found, apart
from white space. -/
theorem C30_eval_text {g : Grammar} {fuel : Nat} {sch : Sched} (hfair : sch.Fair) {s s' : Stream} (hw : s.WF)
    {level : Int} (h1 : level ≠ 1) (h2 : level ≠ 2) {ns : List Node}
    (h : g.evalAST fuel sch s level = .ok (.ok ns, s')) :
    ∃ raw, g.evalRaw fuel sch s = .ok (.ok raw, s') ∧ solid (astText ns) = solid (astText raw) := by
  obtain ⟨raw, hr, hm⟩ := C30_eval h
  cases raw with
  | error e => cases hm
  | ok ms =>
    cases hm
    refine ⟨ms, hr, C30_basic_text level h1 h2 ms ?_⟩
    intro n hn
    obtain ⟨r, _, hc⟩ := (C24_nodes hfair hw hr).2 n hn
    exact hc.leafy

/-- So for an orderly document the text of the AST at level 0 is the text of the input, apart from
white space. -/
theorem C24_eval_text_partial {g : Grammar} {fuel : Nat} {sch : Sched} (hfair : sch.Fair) {s s' : Stream}
    (hs : Ready s) {level : Int} (h1 : level ≠ 1) (h2 : level ≠ 2) {ns : List Node}
    (ho : Orderly g.env (g.roots.map (·.rule)) s.rem)
    (h : g.evalAST fuel sch s level = .ok (.ok ns, s')) : solid (astText ns) = solid s.rem := by
  obtain ⟨raw, hr, ht⟩ := C30_eval_text hfair hs.wf h1 h2 h
  rw [ht, C24_text_partial hfair hs ho hr]

/-! ## C25 -/

/-- For an orderly document the order in which the maps are visited does not matter: the same nodes
(positions aside), or the same error. -/
theorem C25_order_partial {g : Grammar} {fuel fuel' : Nat} {sch sch' : Sched} (hfair : sch.Fair)
    (hfair' : sch'.Fair) {s s1 s2 : Stream} (hs : Ready s) (ho : Orderly g.env (g.roots.map (·.rule)) s.rem)
    {y y'} (h : g.evalRaw fuel sch s = .ok (y, s1)) (h' : g.evalRaw fuel' sch' s = .ok (y', s2)) :
    y.map (List.map Node.erase) = y'.map (List.map Node.erase) := by
  by_cases hne : s.rem = []
  · rw [(C24_empty hfair hs h).2 hne, (C24_empty hfair' hs h').2 hne]
  · obtain ⟨F, x, hx⟩ := orderly_outcome ho
    obtain ⟨z, t, e1, e2⟩ := evalRaw_ref hfair hs.wf hs.valid hne hx
    obtain ⟨z', t', e1', e2'⟩ := evalRaw_ref hfair' hs.wf hs.valid hne hx
    have := raw_det h e1
    have h3 := raw_det h' e1'
    simp only [Prod.mk.injEq] at this h3
    rw [this.1, h3.1, e2, e2']

theorem rawLoop_single {fuel : Nat} {roots : List Record} {sch sch' : Sched} (hfair : sch.Fair) (hfair' : sch'.Fair)
    (hone : roots.length ≤ 1) (n : Nat) : ∀ (i : Nat) (nodes : List Node) (flag : Int) (unused : List Rune) (s : Stream),
    rawLoop env fuel roots sch n i nodes flag unused s = rawLoop env fuel roots sch' n i nodes flag unused s := by
  have perm1 : ∀ {α : Type} {a b : List α}, a.Perm b → b.length ≤ 1 → a = b := by
    intro α a b hp hb
    match b, hb with
    | [], _ => exact hp.eq_nil
    | [x], _ => exact hp.eq_singleton
  have rl : ∀ i, sch.roots i roots = sch'.roots i roots := fun i =>
    (perm1 (hfair.1 i roots) hone).trans (perm1 (hfair'.1 i roots) hone).symm
  have hms : ∀ (rs : List Record), rs.length ≤ 1 → ∀ flag m cs ms m' cs', rootsLoop env fuel flag rs m cs = .ok (ms, m', cs') →
      ms.length ≤ 1 := by
    intro rs hl flag m cs ms m' cs' h
    match rs, hl with
    | [], _ =>
      simp only [rootsLoop, Exec.ok.injEq, Prod.mk.injEq] at h
      rw [← h.1]; exact Nat.zero_le _
    | [r], _ =>
      simp only [rootsLoop] at h
      cases he : eval env fuel r.rule flag (cs.pushBack m) with
      | panic => rw [he] at h; cases h
      | oof => rw [he] at h; cases h
      | ok y =>
        rw [he, Exec.ok_bind, Exec.ok_bind] at h
        simp only [Exec.ok.injEq, Prod.mk.injEq] at h
        rw [← h.1]
        split <;> simp
  induction n with
  | zero => intro _ _ _ _ _; rfl
  | succ n ih =>
    intro i nodes flag unused s
    simp only [rawLoop, rl i]
    split
    · rfl
    · cases hl : rootsLoop env fuel flag (sch'.roots i roots) [] (s.pushBack unused) with
      | panic => rfl
      | oof => rfl
      | ok z =>
        obtain ⟨ms, m, cs⟩ := z
        rw [Exec.ok_bind, Exec.ok_bind]
        have hlen := hms _ (by rw [(hfair'.1 i roots).length_eq]; exact hone) _ _ _ _ _ _ hl
        have e : sch.matched i ms = sch'.matched i ms :=
          (perm1 (hfair.2 i ms) hlen).trans (perm1 (hfair'.2 i ms) hlen).symm
        simp only [e]
        cases pick (sch'.matched i ms) with
        | none => rfl
        | ambiguous => rfl
        | found r =>
          simp only
          cases sliceFrom m r.countUsed with
          | panic => rfl
          | oof => rfl
          | ok un => rw [Exec.ok_bind, Exec.ok_bind]; exact ih _ _ _ _ _

/-- With at most one root rule the outcome does not depend on the order of the maps at all. -/
theorem C25_single_root {g : Grammar} {fuel : Nat} {sch sch' : Sched} (hfair : sch.Fair) (hfair' : sch'.Fair)
    (hone : g.roots.length ≤ 1) (s : Stream) : g.evalRaw fuel sch s = g.evalRaw fuel sch' s := by
  unfold evalRaw
  split
  · rfl
  · exact rawLoop_single hfair hfair' hone _ _ _ _ _ _

/-! ### Cases -/

/-- Visiting in the given order. -/
def forward : Sched := ⟨fun _ l => l, fun _ l => l⟩
/-- Visiting in the opposite order. -/
def backward : Sched := ⟨fun _ l => l.reverse, fun _ l => l.reverse⟩

theorem forward_fair : forward.Fair := ⟨fun _ l => .refl l, fun _ l => .refl l⟩
theorem backward_fair : backward.Fair := ⟨fun _ l => l.reverse_perm, fun _ l => l.reverse_perm⟩

/-- A grammar whose rules are all roots. -/
def rootGrammar (rs : List (String × Rule)) : Grammar :=
  let recs := rs.map (fun p => { name := runes p.1, rule := p.2, line := 1 : Record })
  { records := recs, roots := recs }

/-- What the user sees of `EvalRaw`. -/
def rawTexts (x : Exec (Except RawErr (List Node) × Stream)) : Option (RawErr ⊕ List (List Rune)) :=
  match x with
  | .ok (.ok ns, _) => some (.inr (ns.map Node.text))
  | .ok (.error e, _) => some (.inl e)
  | _ => none

def orderlyDoc : Doc → Bool
  | .oof | .risky => false
  | _ => true

theorem orderly_of {fuel : Nat} {roots : List Rule} {l : List Rune}
    (h : orderlyDoc (docAt (Spec.run env fuel) roots fuel SUGGEST_SKIP 0 l []) = true) : Orderly env roots l :=
  ⟨fuel, (by intro hc; rw [hc] at h; cases h), (by intro hc; rw [hc] at h; cases h)⟩

/-- `item: "item" "0"|"1"`, `stop: "stop"`. -/
def itemsAndStops : Grammar :=
  rootGrammar [("item", .concat {} [.str {} (runes "item"), .rep {} (.str {} (runes "1")) 1 0]),
    ("stop", .str {} (runes "stop"))]

/-- Non-vacuity: an orderly document with two roots and several matches. -/
example : Orderly itemsAndStops.env (itemsAndStops.roots.map (·.rule)) (runes "item 1 1 stop item 1") ∧
    rawTexts (itemsAndStops.evalRaw 20 forward (Stream.ofChars (runes "item 1 1 stop item 1"))) =
      some (.inr [runes "item 1 1", runes "stop", runes "item 1"]) ∧
    rawTexts (itemsAndStops.evalRaw 20 backward (Stream.ofChars (runes "item 1 1 stop item 1"))) =
      some (.inr [runes "item 1 1", runes "stop", runes "item 1"]) := by
  refine ⟨orderly_of (fuel := 20) ?_, ?_, ?_⟩ <;> decide +kernel

/-- Non-vacuity: orderly documents that are rejected. -/
example : Orderly itemsAndStops.env (itemsAndStops.roots.map (·.rule)) (runes "stop item") ∧
    rawTexts (itemsAndStops.evalRaw 20 forward (Stream.ofChars (runes "stop item"))) = some (.inl .noMatch) := by
  refine ⟨orderly_of (fuel := 20) ?_, ?_⟩ <;> decide +kernel

/-- Two literals that match the same text. -/
def twins : Grammar := rootGrammar [("a", lit "a"), ("b", .str {} (runes "a"))]

example : Orderly twins.env (twins.roots.map (·.rule)) (runes "a") ∧
    rawTexts (twins.evalRaw 20 backward (Stream.ofChars (runes "a"))) = some (.inl .ambiguity) := by
  refine ⟨orderly_of (fuel := 20) ?_, ?_⟩ <;> decide +kernel

/-- The end of a document is not found behind trailing white space. -/
theorem C24_trailing_space :
    rawTexts (itemsAndStops.evalRaw 20 forward (Stream.ofChars (runes "stop"))) = some (.inr [runes "stop"]) ∧
    rawTexts (itemsAndStops.evalRaw 20 forward (Stream.ofChars (runes "stop\n"))) = some (.inl .noMatch) := by
  decide +kernel

/-- C24 is false in full: `'xbbc' | 'x' | 'b'` on "xbbb" succeeds with two nodes, and two of the
characters are gone. -/
theorem C24_counterexample :
    rawTexts ((rootGrammar [("r", xb)]).evalRaw 20 forward (Stream.ofChars (runes "xbbb"))) =
      some (.inr [runes "x", runes "b"]) := by decide +kernel

/-- Three root literals. -/
def threeRoots : Grammar := rootGrammar [("a", lit "abc"), ("b", lit "x"), ("c", lit "abcd")]

/-- C25 is false in full: whether "abcd" is accepted depends on the order. -/
theorem C25_counterexample :
    forward.Fair ∧ backward.Fair ∧
    rawTexts (threeRoots.evalRaw 20 forward (Stream.ofChars (runes "abcd"))) = some (.inl .noMatch) ∧
    rawTexts (threeRoots.evalRaw 20 backward (Stream.ofChars (runes "abcd"))) = some (.inr [runes "abcd"]) :=
  ⟨forward_fair, backward_fair, by decide +kernel, by decide +kernel⟩

/-- Non-vacuity of `C25_single_root`: there are different fair orders, and grammars with one root. -/
example : (rootGrammar [("r", xb)]).roots.length ≤ 1 ∧ forward.Fair ∧ backward.Fair ∧
    forward.roots 0 [⟨[1], xb, 1⟩, ⟨[2], xb, 1⟩] ≠ backward.roots 0 [⟨[1], xb, 1⟩, ⟨[2], xb, 1⟩] :=
  ⟨by decide, forward_fair, backward_fair, by
    intro h
    have := congrArg (fun l => l.map Record.name) h
    exact absurd this (by decide)⟩

end Xbnf.Props
