import Verif.Lemmas.Outcome
/-
Properties of the rules one by one: C12, C13, C14, C18 in terms of the evaluations of their parts,
C20 and C21 about the bookkeeping of characters.

These are proved for evaluations that are `Regular`: the reference semantics `Spec.run` does not
answer `risky`.  The situations that are risky are exactly those in which the library loses
look-ahead, reads it twice, or reports a tie that is none; the counterexamples below show what
happens then.
-/
namespace Xbnf.Props
open Spec

variable {env : Env}

theorem children_erase (n : Node) : n.erase.children = n.children.map Node.erase := by
  cases n; simp [Node.erase, eraseL_eq_map]

theorem chars_erase (n : Node) : n.erase.chars = n.chars := by
  cases n; simp [Node.erase]

/-- What the result is when the reference answers with a match. -/
theorem ref_hit {l : List Rune} {res : Res} {k : Nat} {nd u n st}
    (h : Ref l (.hit nd u n st) (.ok (res.core, k))) :
    res.node.map Node.erase = some nd ∧ res.countUsed = u ∧ res.read = l.take n ∧
      res.unused = (l.take n).drop u ∧ u ≤ n ∧ n ≤ l.length ∧ k = n := by
  obtain ⟨h1, h2, h3⟩ := h
  simp only [Exec.ok.injEq, Prod.mk.injEq] at h3
  obtain ⟨h3, h4⟩ := h3
  have e1 := congrArg Res.node h3
  have e2 := congrArg Res.read h3
  have e3 := congrArg Res.unused h3
  simp only [Res.core] at e1 e2 e3
  refine ⟨e1, ?_, e2, e3, h1, h2, h4⟩
  simp only [Res.countUsed, e2, e3, List.length_take, List.length_drop]
  omega

theorem ref_fail {l : List Rune} {res : Res} {k : Nat} {n st}
    (h : Ref l (.fail n st) (.ok (res.core, k))) :
    res.node = none ∧ res.read = l.take n ∧ res.unused = l.take n ∧ n ≤ l.length ∧ k = n := by
  obtain ⟨h1, h3⟩ := h
  simp only [Exec.ok.injEq, Prod.mk.injEq] at h3
  obtain ⟨h3, h4⟩ := h3
  have e1 := congrArg Res.node h3
  have e2 := congrArg Res.read h3
  have e3 := congrArg Res.unused h3
  simp only [Res.core] at e1 e2 e3
  exact ⟨by simpa using e1, e2, e3, h1, h4⟩

theorem ref_ambiguous {l : List Rune} {res : Res} {k : Nat} {n}
    (h : Ref l (.ambiguous n) (.ok (res.core, k))) :
    res.node = none ∧ res.read = l.take n ∧ res.unused = [] ∧ n ≤ l.length ∧ k = n := by
  obtain ⟨h1, h3⟩ := h
  simp only [Exec.ok.injEq, Prod.mk.injEq] at h3
  obtain ⟨h3, h4⟩ := h3
  have e1 := congrArg Res.node h3
  have e2 := congrArg Res.read h3
  have e3 := congrArg Res.unused h3
  simp only [Res.core] at e1 e2 e3
  exact ⟨by simpa using e1, e2, e3, h1, h4⟩

/-- The text of a leaf with characters of the input. -/
theorem leaf_text (n : Node) {l : List Rune} (hv : Valid l) (hc : n.chars = l)
    (hk : n.children = []) : n.text = l := by
  obtain ⟨rt, nm, ch, cs, p, st, v, nd, tk⟩ := n
  simp only at hc hk
  subst hc hk
  rw [Node.text]
  split
  · split
    · rename_i he
      subst he
      exact absurd (hv EOFChar (by simp)) (by decide)
    · rfl
  · rename_i hc
    have : ch = [] := List.eq_nil_of_length_eq_zero (by omega)
    subst this
    simp [textLoop]

/-- Is it an answer? -/
def definite : Ans → Bool
  | .oof | .risky => false
  | _ => true

theorem regular_of {fuel : Nat} {r : Rule} {flag : Int} {l : List Rune}
    (h : definite (Spec.run env fuel r flag l) = true) : Regular env r flag l :=
  ⟨fuel, (by intro hc; rw [hc] at h; cases h), (by intro hc; rw [hc] at h; cases h)⟩

/-- A literal without annotations. -/
def lit (t : String) : Rule := .chars {} (runes t)

/-! ## C12 -/

/-- A repetition returns the trees of consecutive matches of its rule, as many as there are up to
the maximum, and fails exactly when these are fewer than the minimum. -/
theorem C12_repetition_exact_partial {b : RuleBase} {r : Rule} {mn mx : Nat} {flag : Int}
    {fuel : Nat} {s s' : Stream} {res : Res} (h : Ready s)
    (hr : Regular env (.rep b r mn mx) flag s.rem)
    (he : eval env fuel (.rep b r mn mx) flag s = .ok (res, s')) :
    ∃ nds q, Repeats env r flag s.rem 0 nds q ∧ RepStops env r mx flag s.rem q nds.length ∧
      (res.node = none ↔ nds.length < mn) ∧
      ∀ n, res.node = some n → n.children.map Node.erase = nds ∧ res.countUsed = q := by
  obtain ⟨F, k, h1, h2, _, _, href⟩ := regular_eval h hr he
  cases F with
  | zero => exact absurd rfl h1
  | succ F =>
    obtain ⟨nds, q, e1, e2, n, st, e3⟩ := repAt_spec (env := env) (fuel := F) (b := b) (r := r)
      (mn := mn) (mx := mx) (F := F) (pos := 0) (look := 0) (st := true) (flag := flag)
      (nodes := []) h.valid ⟨h1, h2⟩
    simp only [List.nil_append] at e2 e3
    refine ⟨nds, q, e1, e2, ?_⟩
    simp only [Spec.run] at href
    rw [e3] at href
    unfold repEnd at href
    by_cases hc : nds.length < mn
    · rw [if_pos hc] at href
      have := ref_fail href
      exact ⟨⟨fun _ => hc, fun _ => this.1⟩, fun n hn => by rw [this.1] at hn; cases hn⟩
    · rw [if_neg hc] at href
      obtain ⟨g1, g2, _⟩ := ref_hit href
      constructor
      · constructor
        · intro hn; rw [hn] at g1; cases g1
        · intro hn; exact absurd hn hc
      · intro m hm
        rw [hm] at g1
        simp only [Option.map_some, Option.some.injEq] at g1
        have := congrArg Node.children g1
        rw [children_erase] at this
        exact ⟨this, g2⟩

/-- The rule `'xbbc' | 'x' | 'b'`. -/
def xb : Rule := .choice {} [[lit "xbbc", lit "x", lit "b"]]

/-- The full claim is false: `{ 'xbbc' | 'x' | 'b' }<5>` matches "xbbb", with seven children and
seven characters used out of four. -/
theorem C12_counterexample :
    seen (eval noRules 30 (.rep {} xb 5 0) SUGGEST_SKIP (Stream.ofChars (runes "xbbb"))) =
      some (some (runes "xbbbbbb", 7), runes "xbbbbbb", [], []) := by decide +kernel

/-- Non-vacuity: `{ 'ab' }<2,0>` finds two on "ababc". -/
example : Regular noRules (.rep {} (lit "ab") 2 0) SUGGEST_SKIP (runes "ababc") :=
  regular_of (fuel := 9) (by decide +kernel)
example : seen (eval noRules 9 (.rep {} (lit "ab") 2 0) SUGGEST_SKIP (Stream.ofChars (runes "ababc"))) =
    some (some (runes "abab", 2), runes "ababc", runes "c", []) := by decide +kernel
/-- Non-vacuity: `{ 'ab' }<3,0>` fails on "ababc". -/
example : Regular noRules (.rep {} (lit "ab") 3 0) SUGGEST_SKIP (runes "ababc") :=
  regular_of (fuel := 9) (by decide +kernel)

/-! ## C13 -/

/-- A choice that matches returns the tree of the alternative that uses most characters, in the
first group in which one matches. -/
theorem C13_choice_longest_partial {b : RuleBase} {gs : List (List Rule)} {flag : Int}
    {fuel : Nat} {s s' : Stream} {res : Res} {n : Node} (h : Ready s)
    (hr : Regular env (.choice b gs) flag s.rem)
    (he : eval env fuel (.choice b gs) flag s = .ok (res, s')) (hn : res.node = some n) :
    ∃ g c u, FirstGroup env flag s.rem gs g ∧ Wins env flag s.rem g c u ∧
      n.children.map Node.erase = [c] ∧ res.countUsed = u := by
  obtain ⟨F, k, h1, h2, _, _, href⟩ := regular_eval h hr he
  cases F with
  | zero => exact absurd rfl h1
  | succ F =>
    simp only [Spec.run] at href h1 h2
    cases ha : choiceAt (Spec.run env F) b flag s.rem gs 0 true with
    | oof => exact absurd ha h1
    | risky => exact absurd ha h2
    | fail m st => rw [ha] at href; rw [(ref_fail href).1] at hn; cases hn
    | ambiguous m => rw [ha] at href; rw [(ref_ambiguous href).1] at hn; cases hn
    | hit nd u m st =>
      rw [ha] at href
      obtain ⟨g1, g2, _⟩ := ref_hit href
      obtain ⟨g, c, e1, e2, e3⟩ := choiceAt_hit h.valid ha
      refine ⟨g, c, u, e1, e2, ?_, g2⟩
      rw [hn] at g1
      simp only [Option.map_some, Option.some.injEq] at g1
      rw [← children_erase, g1, e3]
      rfl

/-- A choice without a match either found two alternatives of equal, greatest length in the first
group in which one matches, and says so, or no alternative of any group matches. -/
theorem C13_choice_fails_partial {b : RuleBase} {gs : List (List Rule)} {flag : Int}
    {fuel : Nat} {s s' : Stream} {res : Res} (h : Ready s)
    (hr : Regular env (.choice b gs) flag s.rem)
    (he : eval env fuel (.choice b gs) flag s = .ok (res, s')) (hn : res.node = none) :
    ((∃ x y, res.error = some (.ambiguity b.name x y)) ∧ ∃ g, FirstGroup env flag s.rem gs g ∧ Tied env flag s.rem g) ∨
    ((∀ n x y, res.error ≠ some (.ambiguity n x y)) ∧ ∀ g ∈ gs, ∀ r ∈ g, Fails env r flag s.rem) := by
  obtain ⟨F, k, h1, h2, hF, _, href⟩ := regular_eval h hr he
  cases F with
  | zero => exact absurd rfl h1
  | succ F =>
    simp only [Spec.run] at href h1 h2
    simp only [eval] at hF
    have herr := choiceLoop_error (eval_sim env F) (L.eval_ref env F) (.choice b gs) b flag s.rem h.valid gs 0
      (Nat.zero_le _) {} rfl s h.wf rfl hF
    cases ha : choiceAt (Spec.run env F) b flag s.rem gs 0 true with
    | oof => exact absurd ha h1
    | risky => exact absurd ha h2
    | hit nd u m st =>
      rw [ha] at href
      obtain ⟨g1, _⟩ := ref_hit href
      rw [hn] at g1; cases g1
    | fail m st =>
      have : (choiceAt (Spec.run env F) b flag s.rem gs 0 ({} : ChoiceState).sticky) = .fail m st := ha
      rw [this] at herr
      obtain ⟨e, herr⟩ := herr
      exact .inr ⟨by rw [herr]; simp, choiceAt_fail h.valid ha⟩
    | ambiguous m =>
      have : (choiceAt (Spec.run env F) b flag s.rem gs 0 ({} : ChoiceState).sticky) = .ambiguous m := ha
      rw [this] at herr
      exact .inl ⟨herr, choiceAt_ambiguous h.valid ha⟩

theorem lit_matches {t l : String} {u : Nat} {nd : Node}
    (h : Spec.run noRules 1 (lit t) SUGGEST_SKIP (runes l) = .hit nd u u true) :
    Matches noRules (lit t) SUGGEST_SKIP (runes l) nd u true :=
  matches_of_run (fun c hc => by
    simp only [runes, List.mem_map] at hc
    obtain ⟨c', _, rfl⟩ := hc
    intro he
    have : (0 : Int) ≤ (c'.toNat : Int) := Int.natCast_nonneg _
    rw [he] at this
    exact absurd this (by decide)) h

/-- The full claim is false: `'a' | 'a' | 'ab'` on "ab" reports an ambiguity although 'ab' uses most
characters. -/
theorem C13_counterexample :
    ∃ res s' nd, eval noRules 9 (.choice {} [[lit "a", lit "a", lit "ab"]]) SUGGEST_SKIP
        (Stream.ofChars (runes "ab")) = .ok (res, s') ∧
      res.node.isNone = true ∧ res.error = some (.ambiguity [] ([], runes "a") ([], runes "a")) ∧
      Wins noRules SUGGEST_SKIP (runes "ab") [lit "a", lit "a", lit "ab"] nd 2 := by
  refine ⟨_, _, leaf .chars {} true (runes "ab"), rfl, rfl, rfl, [lit "a", lit "a"], lit "ab", [],
    true, rfl, lit_matches rfl, ?_⟩
  intro r' hr' nd u' st' hm
  have : r' = lit "a" := by
    simp only [List.append_nil, List.mem_cons, List.not_mem_nil, or_false] at hr'
    rcases hr' with rfl | rfl <;> rfl
  subst this
  have ha : Matches noRules (lit "a") SUGGEST_SKIP (runes "ab") (leaf .chars {} true (runes "a")) 1 true :=
    lit_matches rfl
  have := (matches_det hm ha).2.1
  omega

/-- Non-vacuity: two groups, the second never tried. -/
example : Regular noRules (.choice {} [[lit "a", lit "abc", lit "x"], [lit "abcd"]]) SUGGEST_SKIP
    (runes "abcd") := regular_of (fuel := 9) (by decide +kernel)
example : seen (eval noRules 9 (.choice {} [[lit "a", lit "abc", lit "x"], [lit "abcd"]]) SUGGEST_SKIP
      (Stream.ofChars (runes "abcd"))) =
    some (some (runes "abc", 1), runes "abc", [], runes "d") := by decide +kernel
/-- Non-vacuity: a tie. -/
example : Regular noRules (.choice {} [[lit "x"], [lit "a", lit "a"]]) SUGGEST_SKIP (runes "ab") :=
  regular_of (fuel := 9) (by decide +kernel)

/-! ## C14 -/

/-- A concatenation matches when its parts match one after the other, each where the one before
stopped; its children are their trees and it uses what they use. -/
theorem C14_concatenation_partial {b : RuleBase} {rs : List Rule} {flag : Int}
    {fuel : Nat} {s s' : Stream} {res : Res} (h : Ready s)
    (hr : Regular env (.concat b rs) flag s.rem)
    (he : eval env fuel (.concat b rs) flag s = .ok (res, s')) :
    (∀ n, res.node = some n → ∃ q, Sequence env s.rem rs flag 0 (n.children.map Node.erase) q ∧
      res.countUsed = q) ∧
    (res.node = none → Stuck env s.rem rs flag 0) := by
  obtain ⟨F, k, h1, h2, _, _, href⟩ := regular_eval h hr he
  cases F with
  | zero => exact absurd rfl h1
  | succ F =>
    simp only [Spec.run] at href h1 h2
    cases ha : seqAt (Spec.run env F) b s.rem rs 0 0 true flag [] with
    | oof => exact absurd ha h1
    | risky => exact absurd ha h2
    | ambiguous m => exact absurd ha seqAt_not_ambiguous
    | fail m st =>
      rw [ha] at href
      have := (ref_fail href).1
      exact ⟨fun n hn => by rw [this] at hn; simp at hn, fun _ => seqAt_fail h.valid ha⟩
    | hit nd u m st =>
      rw [ha] at href
      obtain ⟨g1, g2, _⟩ := ref_hit href
      obtain ⟨nds, e1, e2⟩ := seqAt_hit h.valid ha
      refine ⟨?_, fun hn => by rw [hn] at g1; cases g1⟩
      intro n hn
      rw [hn] at g1
      simp only [Option.map_some, Option.some.injEq] at g1
      refine ⟨u, ?_, g2⟩
      rw [← children_erase, g1, e2]
      exact e1

/-- The full claim is false: `('a' | 'abx') 'b' 'c' 'c'` matches "abc", using four characters. -/
theorem C14_counterexample :
    seen (eval noRules 30 (.concat {} [.choice {} [[lit "a", lit "abx"]], lit "b", lit "c", lit "c"])
        SUGGEST_SKIP (Stream.ofChars (runes "abc"))) =
      some (some (runes "abcc", 4), runes "abcc", [], []) := by decide +kernel

/-- Non-vacuity: look-ahead of the first part is read again by the second. -/
example : Regular noRules (.concat {} [.choice {} [[lit "a", lit "abx"]], lit "bcd"]) SUGGEST_SKIP
    (runes "abcd") := regular_of (fuel := 9) (by decide +kernel)
example : seen (eval noRules 9 (.concat {} [.choice {} [[lit "a", lit "abx"]], lit "bcd"]) SUGGEST_SKIP
      (Stream.ofChars (runes "abcd"))) =
    some (some (runes "abcd", 2), runes "abcd", [], []) := by decide +kernel
/-- Non-vacuity: stuck at the second part. -/
example : Regular noRules (.concat {} [lit "a", lit "bcd"]) SUGGEST_SKIP (runes "abce") :=
  regular_of (fuel := 9) (by decide +kernel)

/-! ## C18 -/

/-- A block that matches: the open rule matches, the content is exactly the text up to the first
place where the close rule matches, no excluded text and no escape begins in it, and the close is
used unless it is virtual. -/
theorem C18_block_partial {b : RuleBase} {o c : Rule} {v : Bool} {e : Option Rule} {xs : List Rule}
    {flag : Int} {fuel : Nat} {s s' : Stream} {res : Res} {n : Node} (h : Ready s)
    (hr : Regular env (.block b o v c e xs) flag s.rem)
    (he : eval env fuel (.block b o v c e xs) flag s = .ok (res, s')) (hn : res.node = some n) :
    ∃ on u sto q cn uc stc content, Matches env o flag s.rem on u sto ∧
      Content env c e xs s.rem u q ∧ (∀ x ∈ xs, Fails env x NOT_SKIP (s.rem.drop q)) ∧
      Matches env c NOT_SKIP (s.rem.drop q) cn uc stc ∧
      n.children.map Node.erase = [on, content] ++ (if v then [] else [cn]) ∧
      content.text = (s.rem.drop u).take (q - u) ∧
      res.countUsed = ((if v then q else q + uc : Nat) : Int) := by
  obtain ⟨F, k, h1, h2, _, _, href⟩ := regular_eval h hr he
  cases F with
  | zero => exact absurd rfl h1
  | succ F =>
    simp only [Spec.run] at href h1 h2
    cases ho : Spec.run env F o flag s.rem with
    | oof => rw [ho] at h1; exact absurd rfl h1
    | risky => rw [ho] at h2; exact absurd rfl h2
    | fail m st => rw [ho] at href; rw [(ref_fail href).1] at hn; cases hn
    | ambiguous m => rw [ho] at href; rw [(ref_ambiguous href).1] at hn; cases hn
    | hit on u m st =>
      rw [ho] at href h1 h2
      simp only at href h1 h2
      have hl : u ≤ s.rem.length := by
        have := L.eval_ref env F o flag s.rem h.valid
        rw [ho] at this
        obtain ⟨i1, i2, _⟩ := this
        omega
      split at h1
      · rename_i hc; rw [if_pos hc] at h2; exact absurd rfl h2
      · rename_i hc
        rw [if_neg hc] at h2 href
        obtain ⟨q, c1, c2, c3⟩ := blockAt_spec h.valid hl ⟨h1, h2⟩
        cases ha : blockAt (Spec.run env F) b v c e xs on u s.rem F u m with
        | oof => exact absurd ha h1
        | risky => exact absurd ha h2
        | ambiguous m => rw [ha] at c3; exact c3.elim
        | fail m st => rw [ha] at href; rw [(ref_fail href).1] at hn; cases hn
        | hit nd u' m' st' =>
          rw [ha] at href c3
          obtain ⟨g1, g2, _⟩ := ref_hit href
          obtain ⟨c4, cn, uc, stc, c5, c6, c7⟩ := c3
          refine ⟨on, u, st, q, cn, uc, stc,
            { ruleType := .chars, chars := (s.rem.drop u).take (q - u), sticky := true },
            matches_of_run h.valid ho, c1, c4, c5, ?_, ?_, ?_⟩
          · rw [hn] at g1
            simp only [Option.map_some, Option.some.injEq] at g1
            rw [← children_erase, g1, c7]
            rfl
          · exact leaf_text _ ((h.valid.drop u).take _) rfl rfl
          · rw [g2, c6]

/-- A block that does not match: the open rule does not, or an excluded text comes before the close,
or the close never comes. -/
theorem C18_block_fails_partial {b : RuleBase} {o c : Rule} {v : Bool} {e : Option Rule}
    {xs : List Rule} {flag : Int} {fuel : Nat} {s s' : Stream} {res : Res} (h : Ready s)
    (hr : Regular env (.block b o v c e xs) flag s.rem)
    (he : eval env fuel (.block b o v c e xs) flag s = .ok (res, s')) (hn : res.node = none) :
    Fails env o flag s.rem ∨
    ∃ on u sto q, Matches env o flag s.rem on u sto ∧ Content env c e xs s.rem u q ∧
      ((∃ x ∈ xs, ∃ nd ux st, Matches env x NOT_SKIP (s.rem.drop q) nd ux st) ∨
       (q = s.rem.length ∧ Fails env c NOT_SKIP (s.rem.drop q))) := by
  obtain ⟨F, k, h1, h2, _, _, href⟩ := regular_eval h hr he
  cases F with
  | zero => exact absurd rfl h1
  | succ F =>
    simp only [Spec.run] at href h1 h2
    cases ho : Spec.run env F o flag s.rem with
    | oof => rw [ho] at h1; exact absurd rfl h1
    | risky => rw [ho] at h2; exact absurd rfl h2
    | fail m st => exact .inl (fails_of_run h.valid (.inl ⟨_, _, ho⟩))
    | ambiguous m => exact .inl (fails_of_run h.valid (.inr ⟨_, ho⟩))
    | hit on u m st =>
      right
      rw [ho] at href h1 h2
      simp only at href h1 h2
      have hl : u ≤ s.rem.length := by
        have := L.eval_ref env F o flag s.rem h.valid
        rw [ho] at this
        obtain ⟨i1, i2, _⟩ := this
        omega
      split at h1
      · rename_i hc; rw [if_pos hc] at h2; exact absurd rfl h2
      · rename_i hc
        rw [if_neg hc] at h2 href
        obtain ⟨q, c1, c2, c3⟩ := blockAt_spec h.valid hl ⟨h1, h2⟩
        refine ⟨on, u, st, q, matches_of_run h.valid ho, c1, ?_⟩
        cases ha : blockAt (Spec.run env F) b v c e xs on u s.rem F u m with
        | oof => exact absurd ha h1
        | risky => exact absurd ha h2
        | ambiguous m => rw [ha] at c3; exact c3.elim
        | fail m st =>
          rw [ha] at c3
          rcases c3 with c3 | ⟨c3, _, c4⟩
          · exact .inl c3
          · exact .inr ⟨c3, c4⟩
        | hit nd u' m' st' =>
          rw [ha] at href
          obtain ⟨g1, _⟩ := ref_hit href
          rw [hn] at g1; cases g1

/-- The double quote. -/
def quote : Rule := .char {} 34 false

/-- The full claim is false for escapes: `< '"' '\\' '"' >` on `"a\b"` doubles the escape character. -/
theorem C18_counterexample :
    (match eval noRules 30 (.block {} quote false quote (some (.char {} 92 false)) []) SUGGEST_SKIP
        (Stream.ofChars (runes "\"a\\b\"")) with
      | .ok (r, _) => r.node.map (fun n => n.children.map Node.text)
      | _ => none) = some [runes "\"", runes "a\\\\b", runes "\""] := by decide +kernel

/-- An excluded text is lost when two excludes tie: `< '"' !'a' !'a' '"' >` on `"xay"`. -/
theorem C18_exclude_counterexample :
    (match eval noRules 30 (.block {} quote false quote none [lit "a", lit "a"]) SUGGEST_SKIP
        (Stream.ofChars (runes "\"xay\"")) with
      | .ok (r, _) => r.node.map (fun n => n.children.map Node.text)
      | _ => none) = some [runes "\"", runes "xy", runes "\""] := by decide +kernel

/-- Non-vacuity: a comment up to its two-character close. -/
example : Regular noRules (.block {} (lit "/*") false (lit "*/") none [lit "@"]) SUGGEST_SKIP
    (runes " /* a * b */ c") := regular_of (fuel := 30) (by decide +kernel)
example : (match eval noRules 30 (.block {} (lit "/*") false (lit "*/") none [lit "@"]) SUGGEST_SKIP
        (Stream.ofChars (runes " /* a * b */ c")) with
      | .ok (r, _) => r.node.map (fun n => n.children.map Node.text)
      | _ => none) = some [runes "/*", runes " a * b ", runes "*/"] := by decide +kernel
/-- Non-vacuity: an excluded text comes first; the close never comes. -/
example : Regular noRules (.block {} (lit "/*") false (lit "*/") none [lit "@"]) SUGGEST_SKIP
    (runes "/* a @ b */") := regular_of (fuel := 30) (by decide +kernel)
example : Regular noRules (.block {} (lit "/*") true (lit "*/") none []) SUGGEST_SKIP
    (runes "/* a") := regular_of (fuel := 30) (by decide +kernel)

/-! ## C20 and C21 -/

/-- Apart from ambiguity, an evaluation without a match reports as unused everything it read:
pushing that back restores the input. -/
theorem C20_failure_gives_back_partial {r : Rule} {flag : Int} {fuel : Nat} {s s' : Stream}
    {res : Res} (h : Ready s) (hr : Regular env r flag s.rem)
    (hna : ∀ F n, Spec.run env F r flag s.rem ≠ .ambiguous n)
    (he : eval env fuel r flag s = .ok (res, s')) (hn : res.node = none) :
    res.unused = res.read ∧ (s'.pushBack res.unused).rem = s.rem := by
  obtain ⟨F, k, h1, h2, _, hadv, href⟩ := regular_eval h hr he
  cases ha : Spec.run env F r flag s.rem with
  | oof => exact absurd ha h1
  | risky => exact absurd ha h2
  | ambiguous m => exact absurd ha (hna F m)
  | hit nd u m st =>
    rw [ha] at href
    obtain ⟨g1, _⟩ := ref_hit href
    rw [hn] at g1; cases g1
  | fail m st =>
    rw [ha] at href
    obtain ⟨_, g2, g3, _, g5⟩ := ref_fail href
    refine ⟨by rw [g3, g2], ?_⟩
    rw [Stream.rem_pushBack, g3, hadv.rem, g5, List.take_append_drop]

/-- The characters reported read are exactly those consumed, and the unused ones are the last of
them: what was used and what is unused make up what was read. -/
theorem C21_read_is_consumed_partial {r : Rule} {flag : Int} {fuel : Nat} {s s' : Stream}
    {res : Res} (h : Ready s) (hr : Regular env r flag s.rem)
    (he : eval env fuel r flag s = .ok (res, s')) :
    s.rem = res.read ++ s'.rem ∧ ∃ used, res.read = used ++ res.unused ∧
      res.countUsed = used.length := by
  obtain ⟨F, k, h1, h2, _, hadv, href⟩ := regular_eval h hr he
  cases ha : Spec.run env F r flag s.rem with
  | oof => exact absurd ha h1
  | risky => exact absurd ha h2
  | ambiguous m =>
    rw [ha] at href
    obtain ⟨_, g2, g3, _, g5⟩ := ref_ambiguous href
    refine ⟨by rw [g2, hadv.rem, g5, List.take_append_drop], res.read, by rw [g3]; simp, ?_⟩
    simp [Res.countUsed, g3]
  | hit nd u m st =>
    rw [ha] at href
    obtain ⟨_, _, g3, g4, g5, g6, g7⟩ := ref_hit href
    refine ⟨by rw [g3, hadv.rem, g7, List.take_append_drop], s.rem.take u, ?_, ?_⟩
    · rw [g3, g4]
      have : s.rem.take u = (s.rem.take m).take u := by rw [List.take_take, Nat.min_eq_left g5]
      rw [this, List.take_append_drop]
    · simp only [Res.countUsed, g3, g4, List.length_take, List.length_drop]; omega
  | fail m st =>
    rw [ha] at href
    obtain ⟨_, g2, g3, _, g5⟩ := ref_fail href
    refine ⟨by rw [g2, hadv.rem, g5, List.take_append_drop], [], by rw [g3, g2]; rfl, ?_⟩
    simp [Res.countUsed, g2, g3]

/-- The full claim C20 is false: an ambiguous choice reports what it read as used. -/
theorem C20_counterexample :
    seen (eval noRules 9 (.choice {} [[lit "a", lit "a"]]) SUGGEST_SKIP (Stream.ofChars (runes "ab"))) =
      some (none, runes "a", [], runes "b") := by decide +kernel

/-- The full claim C21 is false: a block with an escaped close reports seven characters read out of
six, and not in their order. -/
theorem C21_counterexample :
    seen (eval noRules 30 (.block {} quote false quote (some (.char {} 92 false)) []) SUGGEST_SKIP
        (Stream.ofChars (runes "\"a\\\"b\""))) =
      some (some (runes "\"a\"b\"", 3), runes "\"\\\"a\"b\"", [], []) := by decide +kernel

/-- Non-vacuity: a failure after five characters, all given back. -/
example : seen (eval noRules 9 (.concat {} [lit "ab", .str {} (runes "cd"), lit "e"]) SUGGEST_SKIP
      (Stream.ofChars (runes "ab cdf"))) =
    some (none, runes "ab cdf", runes "ab cdf", []) := by decide +kernel
example : Regular noRules (.concat {} [lit "ab", .str {} (runes "cd"), lit "e"]) SUGGEST_SKIP
    (runes "ab cdf") := regular_of (fuel := 9) (by decide +kernel)

end Xbnf.Props
