import Verif.Props.Document
import Verif.Props.Embed
/-
C81: a rule tried by `rule.Eval` or `EvalRule`, a document parsed by `EvalRaw` and a text searched by
`EvalEmbed` tell the same story.
-/
namespace Xbnf.Props
open Spec Grammar

theorem perm_single {α : Type} {a : α} {l : List α} (h : l.Perm [a]) : l = [a] := List.perm_singleton.1 h

/-- The root rules, when there is one. -/
theorem rootsLoop_one {env : Env} {fuel : Nat} {flag : Int} {rc : Record} {s : Stream} {res : Res} {s1 : Stream}
    (h : eval env fuel rc.rule flag s = .ok (res, s1)) :
    rootsLoop env fuel flag [rc] [] s = .ok (if res.node.isSome then [res] else [], res.read, s1) := by
  have hp : s.pushBack [] = s := rfl
  have hq : s1.popBack [] = s1 := rfl
  simp only [rootsLoop, hp, h, Exec.ok_bind, hq, Exec.ok.injEq, Prod.mk.injEq, and_true, true_and]
  by_cases h0 : res.read = []
  · simp [h0]
  · rw [if_pos (by cases hr : res.read with
      | nil => exact absurd hr h0
      | cons c l => simp)]

theorem rawLoop_prefix {env : Env} {fuel : Nat} {roots : List Record} {sch : Sched} (n : Nat) :
    ∀ (i : Nat) (nodes : List Node) (flag : Int) (unused : List Rune) (s : Stream) (out : List Node) (s' : Stream),
      rawLoop env fuel roots sch n i nodes flag unused s = .ok (.ok out, s') →
      ∃ more, out = nodes ++ more ∧ (more = [] → (s.pushBack unused).peek = EOFChar ∨
        ∃ r, r.node = none ∧ ∃ ms m cs, rootsLoop env fuel flag (sch.roots i roots) [] (s.pushBack unused) = .ok (ms, m, cs) ∧
          pick (sch.matched i ms) = .found r) := by
  induction n with
  | zero => intro _ _ _ _ _ _ _ h; cases h
  | succ n ih =>
    intro i nodes flag unused s out s' h
    simp only [rawLoop] at h
    split at h
    · rename_i hpk
      split at h
      · cases h
      · simp only [Exec.ok.injEq, Prod.mk.injEq, Except.ok.injEq] at h
        exact ⟨[], by rw [h.1, List.append_nil], fun _ => .inl hpk⟩
    · obtain ⟨⟨ms, m, cs⟩, hr, h⟩ := Exec.of_bind h
      simp only at h
      cases hp : pick (sch.matched i ms) with
      | none => rw [hp] at h; cases h
      | ambiguous => rw [hp] at h; cases h
      | found r =>
        rw [hp] at h
        obtain ⟨un, _, h⟩ := Exec.of_bind h
        obtain ⟨more, e, _⟩ := ih _ _ _ _ _ _ _ h
        refine ⟨r.node.toList ++ more, by rw [e, List.append_assoc], fun he => .inr ⟨r, ?_, ms, m, cs, hr, hp⟩⟩
        cases hn : r.node with
        | none => rfl
        | some n => rw [hn] at he; cases he

/-- The first round of `EvalRaw` with one root rule, after `rule.Eval` found a tree. -/
theorem evalRaw_one {g : Grammar} {fuel : Nat} {sch : Sched} (hfair : sch.Fair) {rc : Record} (hroots : g.roots = [rc])
    {s s1 s2 : Stream} (hs : Ready s) (hne : s.rem ≠ []) {res : Res} (he : eval g.env fuel rc.rule SUGGEST_SKIP s = .ok (res, s1))
    {y : Except RawErr (List Node)} (h : g.evalRaw fuel sch s = .ok (y, s2)) :
    (res.node = none ∧ y = .error .noMatch) ∨
    ∃ n un k, res.node = some n ∧ sliceFrom res.read res.countUsed = .ok un ∧ fuel = k + 1 ∧
      rawLoop g.env fuel g.roots sch k 1 [n] (if res.sticky then SUGGEST_NOT_SKIP else SUGGEST_SKIP) un s1 = .ok (y, s2) := by
  unfold evalRaw at h
  rw [if_neg (by rw [L.peek_eq hs.wf, L.peek_eof hs.valid]; exact hne)] at h
  cases fuel with
  | zero => cases h
  | succ k =>
    have hp : s.pushBack [] = s := rfl
    have hq : s1.popBack [] = s1 := rfl
    have hr : sch.roots 0 g.roots = [rc] := by
      have := hfair.1 0 g.roots
      rw [hroots] at this ⊢
      exact perm_single this
    rw [rawLoop] at h
    simp only [hp] at h
    rw [if_neg (by rw [L.peek_eq hs.wf, L.peek_eof hs.valid]; exact hne), hr, rootsLoop_one he, Exec.ok_bind] at h
    simp only [hq] at h
    cases hn : res.node with
    | none =>
      have : sch.matched 0 [] = [] := List.perm_nil.1 (hfair.2 0 [])
      simp only [hn, Option.isSome_none, Bool.false_eq_true, if_false, this, pick] at h
      simp only [Exec.ok.injEq, Prod.mk.injEq] at h
      exact .inl ⟨rfl, h.1.symm⟩
    | some n =>
      have : sch.matched 0 [res] = [res] := perm_single (hfair.2 0 [res])
      simp only [hn, Option.isSome_some, if_true, this, pick] at h
      obtain ⟨un, hu, h⟩ := Exec.of_bind h
      exact .inr ⟨n, un, k, rfl, hu, rfl, h⟩

/-- One root rule: `EvalRaw` finds no match at the beginning exactly if `rule.Eval` finds no tree; and if it returns
trees, the first of them is the tree of `rule.Eval`, positions included. -/
theorem C81_first {g : Grammar} {fuel fuel' : Nat} {sch : Sched} (hfair : sch.Fair) {rc : Record} (hroots : g.roots = [rc])
    {s s1 s2 : Stream} (hs : Ready s) (hne : s.rem ≠ []) {res : Res} (he : eval g.env fuel rc.rule SUGGEST_SKIP s = .ok (res, s1))
    {y : Except RawErr (List Node)} (h : g.evalRaw fuel' sch s = .ok (y, s2)) :
    (res.node = none → y = .error .noMatch) ∧ ∀ nodes, y = .ok nodes → ∃ n rest, res.node = some n ∧ nodes = n :: rest := by
  have he' := eval_mono (Nat.le_max_left fuel fuel') he
  have h' := (evalRaw_le g (Nat.le_max_right fuel fuel') sch s).of_ok h
  rcases evalRaw_one hfair hroots hs hne he' h' with ⟨h1, h2⟩ | ⟨n, un, k, h1, h2, h3, h4⟩
  · exact ⟨fun _ => h2, fun nodes hy => by rw [h2] at hy; cases hy⟩
  · refine ⟨fun hc => (by rw [h1] at hc; cases hc), fun nodes hy => ?_⟩
    subst hy
    obtain ⟨more, e, _⟩ := rawLoop_prefix k _ _ _ _ _ _ _ h4
    exact ⟨n, more, h1, e⟩

/-- A document that is one tree: `EvalRaw` returns just this tree exactly if `EvalRule` returns it and uses the whole
text.  (For evaluations that are not regular the two can differ: `C81_counterexample`.) -/
theorem C81_whole_partial {g : Grammar} {fuel fuel' : Nat} {sch : Sched} (hfair : sch.Fair) {rc : Record} (hroots : g.roots = [rc])
    (hrec : g.getRecord rc.name = some rc) {text : List Rune} (hv : Valid text) (hne : text ≠ [])
    (hr : Regular g.env rc.rule SUGGEST_SKIP text) {res : Res} (he : g.evalRule fuel rc.name text = .ok res)
    {y : Except RawErr (List Node)} {s2 : Stream} (h : g.evalRaw fuel' sch (Stream.ofChars text) = .ok (y, s2)) (n : Node) :
    y = .ok [n] ↔ res.node = some n ∧ res.countUsed = text.length := by
  have hs := ready_ofChars hv
  have hl := rem_ofChars text
  unfold evalRule at he
  rw [hrec] at he
  obtain ⟨⟨res', s1⟩, he, h0⟩ := Exec.of_bind he
  cases h0
  obtain ⟨hread, used, hused, hcount⟩ := C21_read_is_consumed_partial hs (by rw [hl]; exact hr) he
  rw [hl] at hread
  have hlen : text.length = used.length + res.unused.length + s1.rem.length := by
    rw [hread, hused]; simp [Nat.add_assoc]
  have hready := (C42_only_consumes hs he).1
  have he' := eval_mono (Nat.le_max_left fuel fuel') he
  have h' := (evalRaw_le g (Nat.le_max_right fuel fuel') sch _).of_ok h
  rcases evalRaw_one hfair hroots hs (by rw [hl]; exact hne) he' h' with ⟨h1, h2⟩ | ⟨nd, un, k, h1, h2, h3, h4⟩
  · rw [h2, h1]
    constructor
    · intro hc; cases hc
    · rintro ⟨hc, _⟩; cases hc
  · have hun : un = res.unused := by
      rw [hcount, hused, sliceFrom_all _ _ (by simp)] at h2
      simpa using h2.symm
    subst hun
    have hvu : Valid (res.unused ++ s1.rem) := by
      intro c hc
      apply hv
      rw [hread, hused]
      rcases List.mem_append.1 hc with h | h
      · simp [h]
      · simp [h]
    have hpeek : (s1.pushBack res.unused).peek = EOFChar ↔ res.unused = [] ∧ s1.rem = [] := by
      rw [L.peek_eq (Stream.wf_pushBack hready.wf _), Stream.rem_pushBack, L.peek_eof hvu, List.append_eq_nil_iff]
    have hdone : res.countUsed = text.length ↔ res.unused = [] ∧ s1.rem = [] := by
      rw [hcount, hlen, ← List.length_eq_zero_iff, ← List.length_eq_zero_iff]
      omega
    rw [hdone, h1, ← hpeek]
    constructor
    · rintro rfl
      obtain ⟨more, e, hm⟩ := rawLoop_prefix k _ _ _ _ _ _ _ h4
      simp only [List.singleton_append, List.cons.injEq] at e
      obtain ⟨rfl, rfl⟩ := e
      refine ⟨rfl, ?_⟩
      rcases hm rfl with hm | ⟨r, hrn, ms, m, cs, hms, hp⟩
      · exact hm
      · obtain ⟨nd, hnd, _⟩ := rootsLoop_conform _ _ _ (Stream.wf_pushBack hready.wf _) hms r
          ((hfair.2 1 ms).mem_iff.1 (pick_mem hp))
        rw [hrn] at hnd
        cases hnd
    · rintro ⟨hn, hpk⟩
      cases hn
      cases k with
      | zero => cases h4
      | succ k =>
        rw [rawLoop] at h4
        simp only at h4
        rw [if_pos hpk] at h4
        simp only [List.length_singleton, Nat.succ_ne_zero, if_false, Exec.ok.injEq, Prod.mk.injEq] at h4
        exact h4.1.symm

/-- The full claim is false for rules that are not regular: `< '"' '\\' '"' >` on `"a\"b"`, six characters, is one
tree for `EvalRaw`, while the result of `EvalRule` counts seven characters as used. -/
theorem C81_counterexample :
    rawTexts ((rootGrammar [("r", .block {} quote false quote (some (.char {} 92 false)) [])]).evalRaw 30 forward
      (Stream.ofChars (runes "\"a\\\"b\""))) = some (.inr [runes "\"a\"b\""]) ∧
    (match (rootGrammar [("r", .block {} quote false quote (some (.char {} 92 false)) [])]).evalRule 30 (runes "r")
      (runes "\"a\\\"b\"") with
     | .ok res => some (res.node.map Node.text, res.countUsed)
     | _ => none) = some (some (runes "\"a\"b\""), 7) ∧ (runes "\"a\\\"b\"").length = 6 := by
  refine ⟨?_, ?_, ?_⟩ <;> decide +kernel

/-- Non-vacuity: one root, a text of one tree with a gap and a text of two. -/
def pairGrammar : Grammar := rootGrammar [("r", .concat {} [lit "ab", .str {} (runes "cd")])]

example : (pairGrammar.roots.length = 1 ∧ rawTexts (pairGrammar.evalRaw 20 forward (Stream.ofChars (runes "ab cd"))) = some (.inr [runes "ab cd"]) ∧
    rawTexts (pairGrammar.evalRaw 20 forward (Stream.ofChars (runes "abcd ab cd"))) = some (.inr [runes "ab cd", runes "ab cd"]) ∧
    rawTexts (pairGrammar.evalRaw 20 forward (Stream.ofChars (runes "abc"))) = some (.inl .noMatch)) ∧
    Regular pairGrammar.env (.concat {} [lit "ab", .str {} (runes "cd")]) SUGGEST_SKIP (runes "ab cd") ∧
    Regular pairGrammar.env (.concat {} [lit "ab", .str {} (runes "cd")]) SUGGEST_SKIP (runes "abcd ab cd") :=
  ⟨by decide +kernel, regular_of (fuel := 9) (by decide +kernel), regular_of (fuel := 9) (by decide +kernel)⟩

/-! ### `EvalEmbed` -/

theorem embedLoop_first {env : Env} {fuel : Nat} {r : Rule} (n : Nat) : ∀ (kids : List Node) (text : List Rune) (s : Stream) (out : List Node),
    embedLoop env fuel r n kids text s = .ok out →
    ∃ more, out = kids ++ more ∧ (text ≠ [] → ∃ t rest, more = t :: rest ∧ t.ruleType = .text ∧ ∃ u, t.chars = text ++ u) := by
  induction n with
  | zero => intro _ _ _ _ h; cases h
  | succ n ih =>
    intro kids text s out h
    rw [embedLoop] at h
    obtain ⟨⟨res, cs⟩, _, h⟩ := Exec.of_bind h
    simp only at h
    cases hn : res.node with
    | none =>
      simp only [hn] at h
      split at h
      · simp only [Exec.ok.injEq] at h
        refine ⟨textNodes text, h.symm, fun ht => ?_⟩
        unfold textNodes
        rw [if_pos (List.length_pos_iff.2 ht)]
        exact ⟨_, [], rfl, rfl, [], by simp⟩
      · obtain ⟨more, e, hm⟩ := ih _ _ _ _ h
        refine ⟨more, e, fun _ => ?_⟩
        obtain ⟨t, rest, h1, h2, u, h3⟩ := hm (by simp)
        exact ⟨t, rest, h1, h2, (cs.pushBack res.unused).next.1 :: u, by rw [h3]; simp⟩
    | some nd =>
      simp only [hn] at h
      obtain ⟨more, e, _⟩ := ih _ _ _ _ h
      refine ⟨textNodes text ++ [nd] ++ more, by rw [e]; simp, fun ht => ?_⟩
      unfold textNodes
      rw [if_pos (List.length_pos_iff.2 ht)]
      exact ⟨_, _, rfl, rfl, [], by simp⟩

/-- `EvalEmbed` begins with a match exactly if `rule.Eval`, told not to skip, finds one at the beginning of the sample, and
then its first child is that tree, positions included; otherwise its first child, if it has any, is a text node. -/
theorem C81_embed {g : Grammar} {fuel fuel' : Nat} {rc : Record} {name : Name} (hrec : g.getRecord name = some rc)
    {sample : List Rune} {res out : Res} {s1 : Stream} (he : eval g.env fuel rc.rule NOT_SKIP (Stream.ofChars sample) = .ok (res, s1))
    (h : g.evalEmbed fuel' name sample = .ok out) :
    ∃ e, out.node = some e ∧ (∀ n, res.node = some n → ∃ rest, e.children = n :: rest) ∧
      (res.node = none → ∀ c rest, e.children = c :: rest → c.ruleType = .text) := by
  have he' := eval_mono (Nat.le_max_left fuel fuel') he
  have h' := (evalEmbed_le g (Nat.le_max_right fuel fuel') name sample).of_ok h
  revert he' h'
  generalize max fuel fuel' = F
  intro he' h'
  unfold evalEmbed at h'
  rw [hrec] at h'
  obtain ⟨kids, hk, h'⟩ := Exec.of_bind h'
  simp only [Exec.ok.injEq] at h'
  subst h'
  refine ⟨_, rfl, ?_⟩
  cases F with
  | zero => cases hk
  | succ F =>
    rw [embedLoop, he', Exec.ok_bind] at hk
    simp only at hk
    cases hn : res.node with
    | none =>
      simp only [hn] at hk
      refine ⟨fun _ hc => by (cases hc), fun _ c rest hc => ?_⟩
      split at hk
      · simp only [textNodes, List.length_nil, Nat.lt_irrefl, gt_iff_lt, if_false, List.append_nil, Exec.ok.injEq] at hk
        subst hk
        cases hc
      · obtain ⟨more, e, hm⟩ := embedLoop_first _ _ _ _ _ hk
        obtain ⟨t, rest', h1, h2, _⟩ := hm (by simp)
        simp only [List.nil_append] at e
        simp only [e, h1, List.cons.injEq] at hc
        rw [← hc.1]; exact h2
    | some nd =>
      simp only [hn, textNodes, List.length_nil, Nat.lt_irrefl, gt_iff_lt, if_false, List.append_nil, List.nil_append] at hk
      obtain ⟨more, e, _⟩ := embedLoop_first _ _ _ _ _ hk
      refine ⟨fun n hc => ?_, fun hc => by (cases hc)⟩
      cases hc
      exact ⟨more, e⟩

/-- Non-vacuity: a sample that begins with a match, one that does not, and one that would if blanks were skipped. -/
example : childTexts ((oneRuleGrammar (lit "ab")).evalEmbed 20 (runes "r") (runes "ab ab")) =
      some [(.chars, runes "ab"), (.text, runes " "), (.chars, runes "ab")] ∧
    childTexts ((oneRuleGrammar (lit "ab")).evalEmbed 20 (runes "r") (runes "xab")) = some [(.text, runes "x"), (.chars, runes "ab")] ∧
    childTexts ((oneRuleGrammar (lit "ab")).evalEmbed 20 (runes "r") (runes " ab")) = some [(.text, runes " "), (.chars, runes "ab")] := by
  refine ⟨?_, ?_, ?_⟩ <;> decide +kernel

/-! ### `Eval` -/

/-- A document of one tree that is neither sticky nor marked as no data: `Eval` at its first level makes of it what
`MergeStickyNodes` and `RemoveRedundantNodes` make of the tree of `EvalRule`. -/
theorem C81_simplified_partial {n : Node} (hs : n.sticky = false) (hd : n.mergeSticky.nonData = false) {level : Int}
    (h0 : level ≠ LevelRaw) (h1 : level ≠ LevelNoVirtual) (h2 : level ≠ LevelDataOnly) :
    simplify level [n] = [n.mergeSticky.removeRedundant] := by
  simp [simplify, h0, h1, h2, mergeStickyNodes, mergeLoop, hs, astRemoveRedundant, hd]

/-- Two named rules side by side. -/
def stuckGrammar : Grammar :=
  let x : Record := ⟨runes "x", .chars { name := runes "x" } (runes "a"), 1⟩
  let y : Record := ⟨runes "y", .chars { name := runes "y" } (runes "b"), 2⟩
  let r : Record := ⟨runes "r", .concat { name := runes "r" } [.ref {} (runes "x"), .ref {} (runes "y")], 3⟩
  { records := [x, y, r], roots := [r] }

/-- The name and the text of a node and of its children. -/
def nodeOutline (n : Node) : (List Rune × List Rune) × List (List Rune × List Rune) :=
  ((n.name, n.chars), n.children.map fun c => (c.name, c.chars))

/-- For a sticky tree the two differ: with `x = 'a'`, `y = 'b'`, `r = x y` and the document "ab", `Eval` returns a leaf `r`,
`EvalRule` and the two simplifications a node `r` with one child `x` of the text "ab". -/
theorem C81_simplified_counterexample :
    (match stuckGrammar.evalAST 20 forward (Stream.ofChars (runes "ab")) LevelBasic with
     | .ok (.ok ns, _) => some (ns.map nodeOutline)
     | _ => none) = some [((runes "r", runes "ab"), [])] ∧
    (match stuckGrammar.evalRule 20 (runes "r") (runes "ab") with
     | .ok res => res.node.map fun n => nodeOutline n.mergeSticky.removeRedundant
     | _ => none) = some ((runes "r", []), [(runes "x", runes "ab")]) := by
  refine ⟨?_, ?_⟩ <;> decide +kernel

end Xbnf.Props
