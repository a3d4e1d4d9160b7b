import Verif.Lemmas.Local
import Verif.Props.Document
import Verif.Props.Rules
import Verif.Props.Yield
/-
What the library does with the beginning of a text does not depend on the rest: C55.
-/
namespace Xbnf.Props
open Spec Grammar

theorem sameTo_retext {n : Nat} {s t : Stream} (h : SameTo n s t) : t = s.retext t.whole ∧ s.whole.take n = t.whole.take n := by
  induction s generalizing t with
  | base b =>
    match t, h with
    | .base b', h =>
      obtain ⟨h1, h2, h3⟩ := h
      refine ⟨?_, h3.symm⟩
      cases b'; cases b
      simp only at h1 h2
      simp [Stream.retext, Stream.whole, h1, h2]
  | pre p c u ih =>
    match t, h with
    | .pre p' c' u', h =>
      obtain ⟨rfl, rfl, h3⟩ := h
      have := ih h3
      exact ⟨by simp only [Stream.retext, Stream.whole]; rw [← this.1], this.2⟩

theorem retext_sameTo {n : Nat} {s : Stream} {l : List Rune} (h : s.whole.take n = l.take n) : SameTo n s (s.retext l) := by
  induction s with
  | base b => exact ⟨rfl, rfl, h.symm⟩
  | pre p c u ih => exact ⟨rfl, rfl, ih h⟩

/-- From a fact about the other text to one about any stream that is the same that far. -/
theorem loc_sameTo {α : Type} {f : Stream → Exec (α × Stream)} {s s' : Stream} {x : α}
    (h : Loc s s' (fun t => f (s.retext t) = .ok (x, s'.retext t))) {t : Stream} (ht : SameTo (s'.low + 1) s t) :
    ∃ t', f t = .ok (x, t') ∧ SameTo (s'.low + 1) s' t' := by
  obtain ⟨h1, h2⟩ := sameTo_retext ht
  refine ⟨s'.retext t.whole, ?_, retext_sameTo (by rw [h.whole]; exact h2)⟩
  have := h.move t.whole h2
  rwa [← h1] at this

/-- The whole result of an evaluation (tree, positions, errors, characters read and left) and what it
does to the stream depend only on the characters it consumes and the next one. -/
theorem C55_eval {env : Env} {fuel : Nat} {r : Rule} {flag : Int} {s s' t : Stream} {res : Res} (hw : s.WF)
    (he : eval env fuel r flag s = .ok (res, s')) (ht : SameTo (s'.low + 1) s t) :
    ∃ t', eval env fuel r flag t = .ok (res, t') ∧ SameTo (s'.low + 1) s' t' :=
  loc_sameTo (eval_loc env fuel r flag s res s' hw he) ht

theorem sameTo_ofChars {n : Nat} {l l' : List Rune} (h : l'.take n = l.take n) : SameTo n (Stream.ofChars l) (Stream.ofChars l') :=
  ⟨rfl, rfl, h⟩

theorem sameTo_cursor {n : Nat} {s t : Stream} (h : SameTo n s t) : t.cursor = s.cursor := by
  induction s generalizing t with
  | base b => match t, h with | .base b', h => simp only [Stream.cursor, h.1]
  | pre p c u ih =>
    match t, h with
    | .pre p' c' u', h => obtain ⟨rfl, rfl, h3⟩ := h; simp only [Stream.cursor, ih h3]

theorem low_cursor_ofChars {k : Nat} {l : List Rune} {s' : Stream} (h : Adv k (Stream.ofChars l) s') : s'.low = k ∧ s'.cursor = k := by
  match s', h with
  | .base b', h =>
    have : b'.cursor = k := by have := h.2.1; simpa [Base.ofChars] using this
    exact ⟨this, by simp only [Stream.cursor, this]⟩

/-- On a fresh stream: if the cursor is `k` after the evaluation, every text with the same first `k + 1`
characters gives the same result and the same cursor. -/
theorem C55_text {env : Env} {fuel : Nat} {r : Rule} {flag : Int} {l l' : List Rune} {s' : Stream} {res : Res} {k : Nat}
    (he : eval env fuel r flag (Stream.ofChars l) = .ok (res, s')) (hk : s'.cursor = k) (hl : l'.take (k + 1) = l.take (k + 1)) :
    ∃ t', eval env fuel r flag (Stream.ofChars l') = .ok (res, t') ∧ t'.cursor = k := by
  have hw : (Stream.ofChars l).WF := Nat.zero_le _
  obtain ⟨j, _, ha⟩ := eval_list hw he
  obtain ⟨h1, h2⟩ := low_cursor_ofChars ha
  have hjk : j = k := by rw [h2] at hk; exact Int.ofNat_inj.1 hk
  subst hjk
  obtain ⟨t', e1, e2⟩ := C55_eval hw he (t := Stream.ofChars l') (by rw [h1]; exact sameTo_ofChars hl)
  exact ⟨t', e1, by rw [sameTo_cursor e2, h2]⟩

/-- What comes behind the next character does not matter: any other ending, or none, gives the same. -/
theorem C55_rest {env : Env} {fuel : Nat} {r : Rule} {flag : Int} {a x : List Rune} {s' : Stream} {res : Res}
    (he : eval env fuel r flag (Stream.ofChars (a ++ x)) = .ok (res, s')) (hk : s'.cursor < a.length) (y : List Rune) :
    ∃ t', eval env fuel r flag (Stream.ofChars (a ++ y)) = .ok (res, t') ∧ t'.cursor = s'.cursor := by
  have hw : (Stream.ofChars (a ++ x)).WF := Nat.zero_le _
  obtain ⟨j, _, ha⟩ := eval_list hw he
  obtain ⟨h1, h2⟩ := low_cursor_ofChars ha
  rw [h2]
  refine C55_text he h2 ?_
  have : j + 1 ≤ a.length := by omega
  rw [List.take_append_of_le_length this, List.take_append_of_le_length this]

/-- Non-vacuity: an evaluation that stops in the middle of the text, one that fails there, and a next
character that matters. -/
example :
    (∃ res s', eval noRules 9 (.rep {} (.str {} (runes "ab")) 0 0) SUGGEST_SKIP (Stream.ofChars (runes "ab ab ac" ++ runes "dc"))
      = .ok (res, s') ∧ s'.cursor = 8 ∧ res.node.map (·.children.length) = some 2) ∧
    (∃ res s', eval noRules 9 (.concat {} [lit "a", lit "b"]) SUGGEST_SKIP (Stream.ofChars (runes "ac" ++ runes "zz"))
      = .ok (res, s') ∧ s'.cursor = 2 ∧ res.node = none) := by
  refine ⟨⟨_, _, rfl, by decide +kernel⟩, ⟨_, _, rfl, by decide +kernel⟩⟩

/-- One character beyond the cursor can matter. -/
theorem C55_next_matters :
    seen (eval noRules 9 (.eof {}) NOT_SKIP (Stream.ofChars (runes ""))) ≠
      seen (eval noRules 9 (.eof {}) NOT_SKIP (Stream.ofChars (runes "x"))) ∧
    (∀ res s', eval noRules 9 (.eof {}) NOT_SKIP (Stream.ofChars (runes "")) = .ok (res, s') → s'.cursor = 0) := by
  refine ⟨by decide +kernel, ?_⟩
  intro res s' h
  have : (Exec.ok (res, s') : Exec (Res × Stream)) = .ok (evalEOF {} NOT_SKIP (Stream.ofChars (runes ""))) := h.symm
  rw [Exec.ok.injEq] at this
  rw [show s' = (evalEOF {} NOT_SKIP (Stream.ofChars (runes ""))).2 from congrArg Prod.snd this]
  decide +kernel

/-! ### EvalRule -/

/-- `EvalRule` does not give its stream away, but `CharsRead`: in a regular evaluation these are the
characters consumed, and a text with the same beginning, one character further, gives the same result. -/
theorem C55_evalRule_partial {g : Grammar} {fuel : Nat} {name : Name} {l l' : List Rune} {res : Res} {rec : Record} (hv : Valid l)
    (hg : g.getRecord name = some rec) (hr : Regular g.env rec.rule SUGGEST_SKIP l)
    (he : g.evalRule fuel name l = .ok res) (hl : l'.take (res.read.length + 1) = l.take (res.read.length + 1)) :
    g.evalRule fuel name l' = .ok res := by
  simp only [Grammar.evalRule, hg] at he ⊢
  obtain ⟨⟨res', s'⟩, h1, h2⟩ := Exec.of_bind he
  simp only [Exec.ok.injEq] at h2
  subst h2
  obtain ⟨F, k, g1, g2, _, g4, g5⟩ := regular_eval (ready_ofChars hv) (by rw [rem_ofChars]; exact hr) h1
  rw [rem_ofChars] at g1 g2 g5
  have hk : res'.read.length = k := by
    cases ha : Spec.run g.env F rec.rule SUGGEST_SKIP l with
    | oof => exact absurd ha g1
    | risky => exact absurd ha g2
    | fail m st => rw [ha] at g5; obtain ⟨_, e1, _, e2, rfl⟩ := ref_fail g5; rw [e1, List.length_take]; omega
    | ambiguous m => rw [ha] at g5; obtain ⟨_, e1, _, e2, rfl⟩ := ref_ambiguous g5; rw [e1, List.length_take]; omega
    | hit nd u m st => rw [ha] at g5; obtain ⟨_, _, e1, _, _, e2, rfl⟩ := ref_hit g5; rw [e1, List.length_take]; omega
  obtain ⟨t', e1, _⟩ := C55_text (l' := l') h1 (low_cursor_ofChars g4).2 (by rw [← hk]; exact hl)
  rw [e1]; rfl

/-- The text and the size of `CharsRead` of the result of `EvalRule`. -/
def readBy (x : Exec Res) : Option (Option (List Rune) × Nat) :=
  match x with
  | .ok res => some (res.node.map (·.text), res.read.length)
  | _ => none

/-- Non-vacuity: a rule that matches the beginning of a text and reads "a b x". -/
def firstGrammar : Grammar := rootGrammar [("as", .concat {} [lit "a", .rep {} (.str {} (runes "b")) 0 0])]

example : Regular firstGrammar.env (.concat {} [lit "a", .rep {} (.str {} (runes "b")) 0 0]) SUGGEST_SKIP (runes "a b xyz") ∧
    readBy (firstGrammar.evalRule 9 (runes "as") (runes "a b xyz")) = some (some (runes "a b"), 5) :=
  ⟨regular_of (fuel := 9) (by decide +kernel), by decide +kernel⟩

/-- `[ '(' ; ')' ; ; 'ab', 'ab' ]`: a block with two excludes that match the same text. -/
def losing : Grammar := rootGrammar [("bl", .block {} (lit "(") false (lit ")") none [lit "ab", lit "ab"])]

/-- Without regularity `CharsRead` does not tell: ambiguous excludes lose characters, so that two are
reported as read of "(ab)", and "(ab" is the same up to the third, but does not match. -/
theorem C55_counterexample :
    readBy (losing.evalRule 9 (runes "bl") (runes "(ab)")) = some (some (runes "()"), 2) ∧
    readBy (losing.evalRule 9 (runes "bl") (runes "(ab")) = some (none, 1) := by
  decide +kernel

/-! ### EvalRaw -/

theorem rootsLoop_loc {env : Env} {fuel : Nat} {flag : Int} : ∀ {rs : List Record} {read read' : List Rune} {s s' : Stream} {ms : List Res},
    s.WF → rootsLoop env fuel flag rs read s = .ok (ms, read', s') →
    Loc s s' (fun t => rootsLoop env fuel flag rs read (s.retext t) = .ok (ms, read', s'.retext t))
  | [], read, read', s, s', ms, hw, he => by
    simp only [rootsLoop, Exec.ok.injEq, Prod.mk.injEq] at he
    obtain ⟨rfl, rfl, rfl⟩ := he
    exact (Loc.refl hw).mono fun _ _ => rfl
  | r :: rs, read, read', s, s', ms, hw, he => by
    simp only [rootsLoop] at he
    obtain ⟨⟨r1, cs⟩, h1, he⟩ := Exec.of_bind he
    have l1 := (eval_loc env fuel _ _ _ _ _ (Stream.wf_pushBack hw _) h1).push
    obtain ⟨⟨ms', m, u⟩, h2, he⟩ := Exec.of_bind he
    simp only at he
    simp only [Exec.ok.injEq, Prod.mk.injEq] at he
    obtain ⟨rfl, rfl, rfl⟩ := he
    refine ((l1.trans (rootsLoop_loc l1.wf h2)).pop read).mono ?_
    rintro t ⟨e1, e2⟩
    rw [retext_pushBack] at e1
    simp only [rootsLoop, e1, Exec.ok_bind, e2, retext_popBack]

theorem rawLoop_loc {env : Env} {fuel : Nat} {roots : List Record} {sch : Sched} : ∀ {n i : Nat} {nodes : List Node} {flag : Int} {unused : List Rune}
    {s s' : Stream} {x : Except RawErr (List Node)}, s.WF → rawLoop env fuel roots sch n i nodes flag unused s = .ok (x, s') →
    Loc s s' (fun t => rawLoop env fuel roots sch n i nodes flag unused (s.retext t) = .ok (x, s'.retext t))
  | 0, i, nodes, flag, unused, s, s', x, hw, he => by simp [rawLoop] at he
  | n + 1, i, nodes, flag, unused, s, s', x, hw, he => by
    simp only [rawLoop] at he ⊢
    have hw' := Stream.wf_pushBack hw unused
    have l0 : Loc s s (fun t => ((s.retext t).pushBack unused).peek = (s.pushBack unused).peek) :=
      ⟨Nat.le_refl _, hw, rfl, fun t ht => by
        have := (peek_loc hw').move t (by rwa [low_pushBack, whole_pushBack])
        rwa [retext_pushBack] at this⟩
    by_cases hp : (s.pushBack unused).peek = EOFChar
    · rw [if_pos hp] at he
      simp only [Exec.ok.injEq, Prod.mk.injEq] at he
      obtain ⟨rfl, rfl⟩ := he
      exact l0.mono fun t e0 => by rw [if_pos (e0.trans hp)]
    · rw [if_neg hp] at he
      obtain ⟨⟨ms, read, cs⟩, h1, he⟩ := Exec.of_bind he
      have l1 : Loc s (cs.popBack unused) (fun t => rootsLoop env fuel flag (sch.roots i roots) [] ((s.retext t).pushBack unused) =
          .ok (ms, read, cs.retext t)) :=
        ((rootsLoop_loc hw' h1).push.pop unused).mono fun t ht => by rwa [retext_pushBack] at ht
      simp only at he
      cases hk : pick (sch.matched i ms) with
      | none =>
        simp only [hk, Exec.ok.injEq, Prod.mk.injEq] at he
        obtain ⟨rfl, rfl⟩ := he
        refine (l0.trans l1).mono ?_
        rintro t ⟨e0, e1⟩
        rw [if_neg (by rw [e0]; exact hp)]
        simp only [e1, Exec.ok_bind, hk, retext_popBack]
      | ambiguous =>
        simp only [hk, Exec.ok.injEq, Prod.mk.injEq] at he
        obtain ⟨rfl, rfl⟩ := he
        refine (l0.trans l1).mono ?_
        rintro t ⟨e0, e1⟩
        rw [if_neg (by rw [e0]; exact hp)]
        simp only [e1, Exec.ok_bind, hk, retext_popBack]
      | found r =>
        simp only [hk] at he
        obtain ⟨unused', h2, he⟩ := Exec.of_bind he
        refine ((l0.trans l1).trans (rawLoop_loc l1.wf he)).mono ?_
        rintro t ⟨⟨e0, e1⟩, e2⟩
        rw [retext_popBack] at e2
        rw [if_neg (by rw [e0]; exact hp)]
        simp only [e1, Exec.ok_bind, hk, h2, e2]

theorem evalRaw_loc {g : Grammar} {fuel : Nat} {sch : Sched} {s s' : Stream} {x : Except RawErr (List Node)} (hw : s.WF)
    (he : g.evalRaw fuel sch s = .ok (x, s')) : Loc s s' (fun t => g.evalRaw fuel sch (s.retext t) = .ok (x, s'.retext t)) := by
  simp only [evalRaw] at he ⊢
  have l0 := peek_loc hw
  by_cases hp : s.peek = EOFChar
  · rw [if_pos hp] at he
    simp only [Exec.ok.injEq, Prod.mk.injEq] at he
    obtain ⟨rfl, rfl⟩ := he
    exact l0.mono fun t e0 => by rw [if_pos (e0.trans hp)]
  · rw [if_neg hp] at he
    refine (l0.trans (rawLoop_loc hw he)).mono ?_
    rintro t ⟨e0, e1⟩
    rw [if_neg (by rw [e0]; exact hp), e1]

/-- `EvalRaw`, whatever the order in which the maps are visited: what it returns, trees or error, and how
far it reads depend only on the characters it consumes and the next one. -/
theorem C55_evalRaw {g : Grammar} {fuel : Nat} {sch : Sched} {s s' t : Stream} {x : Except RawErr (List Node)} (hw : s.WF)
    (he : g.evalRaw fuel sch s = .ok (x, s')) (ht : SameTo (s'.low + 1) s t) :
    ∃ t', g.evalRaw fuel sch t = .ok (x, t') ∧ SameTo (s'.low + 1) s' t' :=
  loc_sameTo (evalRaw_loc hw he) ht

/-- The same for `Eval`. -/
theorem C55_evalAST {g : Grammar} {fuel : Nat} {sch : Sched} {level : Int} {s s' t : Stream} {x : Except RawErr (List Node)} (hw : s.WF)
    (he : g.evalAST fuel sch s level = .ok (x, s')) (ht : SameTo (s'.low + 1) s t) :
    ∃ t', g.evalAST fuel sch t level = .ok (x, t') ∧ SameTo (s'.low + 1) s' t' := by
  simp only [evalAST] at he ⊢
  obtain ⟨⟨y, u⟩, h1, he⟩ := Exec.of_bind he
  simp only [Exec.ok.injEq, Prod.mk.injEq] at he
  obtain ⟨rfl, rfl⟩ := he
  obtain ⟨t', e1, e2⟩ := C55_evalRaw hw h1 ht
  exact ⟨t', by rw [e1]; rfl, e2⟩

/-- The error of `EvalRaw`, and where it leaves the stream. -/
def rawError (x : Exec (Except RawErr (List Node) × Stream)) : Option (RawErr × Int) :=
  match x with
  | .ok (.error e, s) => some (e, s.cursor)
  | _ => none

/-- Non-vacuity: `EvalRaw` gives up at the third item, whatever follows. -/
example : rawError (firstGrammar.evalRaw 9 forward (Stream.ofChars (runes "a b a ca a"))) = some (.noMatch, 7) ∧
    SameTo 8 (Stream.ofChars (runes "a b a ca a")) (Stream.ofChars (runes "a b a caaaaa")) :=
  ⟨by decide +kernel, by decide +kernel, by decide +kernel, by decide +kernel⟩

end Xbnf.Props
