import Verif.Lemmas.Work
import Verif.Lemmas.WorkFuel
import Verif.Lemmas.Linear
import Verif.Props.Predictive
import Verif.Lemmas.RuleEq
/-
C75: how much work an evaluation is.
-/
namespace Xbnf.Props
open Spec

/-! ### A grammar for which the work doubles with each character -/

/-- `a` begins twice with the same reference. -/
def doubling : Grammar :=
  match Grammar.fromString 1000 (runes "s = a\na = ('x' a 'y') | ('x' a 'z') | 'x'") with
  | .ok g _ => g
  | _ => {}

/-- One of the two alternatives. -/
def doublingPart (c : Rune) : Rule := .group {} (.concat {} [.char {} 120 false, .ref {} (runes "a"), .char {} c false])

/-- The rule `a`. -/
def doublingRule : Rule := .choice { name := runes "a" } [[doublingPart 121, doublingPart 122, .char {} 120 false]]

theorem doubling_env : doubling.env (runes "a") = some doublingRule := by
  decide +kernel

theorem doubling_record : (doubling.getRecord (runes "a")).map (·.rule) = some doublingRule := by
  decide +kernel

/-- `n` times `x`. -/
def xs (n : Nat) : List Rune := List.replicate n 120

theorem blank_xs (skip : Bool) (n : Nat) : blank skip (xs n) = [] := by
  cases n with
  | zero => cases skip <;> rfl
  | succ n =>
    have : isWhiteSpace 120 = false := by decide +kernel
    cases skip with
    | false => rfl
    | true => simp [blank, xs, List.replicate_succ, this]

theorem char_not_x (env : Env) (k : Nat) (c : Rune) (hc : (120 == c) = false) (hc' : c ≠ EOFChar) (flag : Int) (n : Nat) :
    Spec.run env (k + 1) (.char {} c false) flag (xs n) = .fail 0 true := by
  simp only [Spec.run, if_neg hc', oneAt, blank_xs]
  cases n with
  | zero => rfl
  | succ n => simp [xs, List.replicate_succ, hc]

theorem char_x (env : Env) (k : Nat) (flag : Int) (n : Nat) :
    Spec.run env (k + 1) (.char {} 120 false) flag (xs (n + 1)) = .hit (leaf .char {} true [120]) 1 1 true := by
  have h : (120 : Rune) ≠ EOFChar := by decide
  simp only [Spec.run, if_neg h, oneAt, blank_xs]
  rfl

theorem char_nil (env : Env) (k : Nat) (flag : Int) :
    Spec.run env (k + 1) (.char {} 120 false) flag (xs 0) = .fail 0 true := by
  have h : (120 : Rune) ≠ EOFChar := by decide
  simp only [Spec.run, if_neg h, oneAt, blank_xs]
  rfl

/-- What one of the two alternatives does, and the rules it tries. -/
theorem part_x (k n : Nat) (flag : Int) (c : Rune) (hc : (120 == c) = false) (hc' : c ≠ EOFChar)
    (h : ∀ flag, (n = 0 → Spec.run doubling.env k doublingRule flag (xs n) = .fail 0 true) ∧
      (0 < n → ∃ nd st, Spec.run doubling.env k doublingRule flag (xs n) = .hit nd 1 n st) ∧
      2 ^ n ≤ tries doubling.env k doublingRule flag (xs n)) :
    (∃ st, Spec.run doubling.env (k + 3) (doublingPart c) flag (xs (n + 1)) = .fail (n + 1) st) ∧
      2 ^ n ≤ tries doubling.env (k + 3) (doublingPart c) flag (xs (n + 1)) := by
  obtain ⟨h1, h2, h3⟩ := h (flagAfter flag (leaf .char {} true [120]) true)
  have hd : (xs (n + 1)).drop (0 + 1) = xs n := rfl
  have hr : ∀ fl, Spec.run doubling.env (k + 1) (.ref {} (runes "a")) fl (xs n) =
      match Spec.run doubling.env k doublingRule fl (xs n) with
      | .hit nd u n st => .hit (flip {} nd) u n st
      | a => a := by
    intro fl
    simp only [Spec.run, doubling_env]
    cases Spec.run doubling.env k doublingRule fl (xs n) <;> rfl
  refine ⟨?_, ?_⟩
  · simp only [doublingPart, Spec.run.eq_def _ (k + 3), Spec.run.eq_def _ (k + 2), seqAt, List.drop_zero, char_x, hd, hr]
    rcases Nat.eq_zero_or_pos n with h0 | h0
    · rw [h1 h0]
      subst h0
      exact ⟨_, rfl⟩
    · obtain ⟨nd, st, h2⟩ := h2 h0
      have hd2 : (xs (n + 1)).drop (0 + 1 + 1) = xs (n - 1) := by
        obtain ⟨m, rfl⟩ : ∃ m, n = m + 1 := ⟨n - 1, by omega⟩
        rfl
      rw [h2]
      simp only [hd2, char_not_x _ _ c hc hc']
      rw [if_neg (fun h => absurd h.1 (by omega)), if_neg (fun h => absurd h.1 (by omega))]
      refine ⟨true && true && st && true, ?_⟩
      simp only [Ans.fail.injEq, and_true]
      omega
  · simp only [doublingPart, tries.eq_def _ (k + 3), tries.eq_def _ (k + 2), seqTries, List.drop_zero, char_x, hd]
    simp only [tries.eq_def _ (k + 1), doubling_env]
    refine Nat.le_trans h3 ?_
    generalize tries doubling.env k doublingRule _ _ = x
    exact (fun (a b : Nat) => show a ≤ 1 + (1 + (1 + 0 + (1 + a + b))) by omega) x _

/-- What the rule does, and the rules it tries. -/
theorem doubling_x (n : Nat) : ∀ (k : Nat) (flag : Int), 4 * n + 4 ≤ k →
    (n = 0 → Spec.run doubling.env k doublingRule flag (xs n) = .fail 0 true) ∧
      (0 < n → ∃ nd st, Spec.run doubling.env k doublingRule flag (xs n) = .hit nd 1 n st) ∧
      2 ^ n ≤ tries doubling.env k doublingRule flag (xs n) := by
  induction n with
  | zero =>
    intro k flag hk
    obtain ⟨k, rfl⟩ : ∃ k', k = k' + 4 := ⟨k - 4, by omega⟩
    refine ⟨fun _ => ?_, fun h => absurd h (Nat.lt_irrefl _), ?_⟩
    · simp only [doublingRule, doublingPart, Spec.run.eq_def _ (k + 4), Spec.run.eq_def _ (k + 3), Spec.run.eq_def _ (k + 2),
        choiceAt, altsAt, seqAt, List.drop_zero, char_nil, oneAt, blank_xs]
      rfl
    · rw [tries.eq_def]
      exact Nat.le_add_right _ _
  | succ n ih =>
    intro k flag hk
    obtain ⟨k, rfl⟩ : ∃ k', k = k' + 4 := ⟨k - 4, by omega⟩
    have ih := fun fl => ih k fl (by omega)
    obtain ⟨⟨st1, a1⟩, a2⟩ := part_x k n flag 121 (by decide) (by decide) ih
    obtain ⟨⟨st2, b1⟩, b2⟩ := part_x k n flag 122 (by decide) (by decide) ih
    refine ⟨fun h => by omega, fun _ => ?_, ?_⟩
    · simp only [doublingRule, Spec.run.eq_def _ (k + 4), choiceAt, altsAt, a1, b1, char_x]
      have hb : ∀ nd : Node, best [(nd, 1, true)] = .one nd 1 true := fun nd => rfl
      simp only [hb]
      refine ⟨_, _, congr (congrArg (Ans.hit _ 1) ?_) rfl⟩
      omega
    · simp only [doublingRule, tries.eq_def _ (k + 4), choiceTries, allTries, List.map_cons, List.sum_cons]
      generalize tries doubling.env (k + 3) (doublingPart 121) flag (xs (n + 1)) = x at a2 ⊢
      generalize tries doubling.env (k + 3) (doublingPart 122) flag (xs (n + 1)) = y at b2 ⊢
      rw [Nat.pow_succ]
      refine Nat.le_trans (show 2 ^ n * 2 ≤ x + y by omega) ?_
      exact (fun (a b c d : Nat) => show a + b ≤ 1 + (a + (b + c) + d) by omega) x y _ _

/-- The number of calls does not depend on the fuel of the model, once the evaluation ends. -/
theorem C75_fuel {g : Grammar} {fuel fuel' : Nat} (hf : fuel ≤ fuel') {name : Name} {sample : List Rune} {res : Res}
    (h : g.evalRule fuel name sample = .ok res) : g.workRule fuel' name sample = g.workRule fuel name sample := by
  unfold Grammar.evalRule at h
  unfold Grammar.workRule
  cases hr : g.getRecord name with
  | none => rfl
  | some rc =>
    rw [hr] at h
    obtain ⟨x, he, _⟩ := Exec.of_bind h
    exact (work_fuel g.env fuel hf rc.rule _ _ (by rw [he]; simp)).2

/-- Two evaluations that end make the same number of calls. -/
theorem C75_calls_det {g : Grammar} {fuel fuel' : Nat} {name : Name} {sample : List Rune} {res res' : Res}
    (h : g.evalRule fuel name sample = .ok res) (h' : g.evalRule fuel' name sample = .ok res') :
    g.workRule fuel' name sample = g.workRule fuel name sample := by
  rw [← C75_fuel (Nat.le_max_left fuel fuel') h, ← C75_fuel (Nat.le_max_right fuel fuel') h']

/-- The work is not bounded by any polynomial in the length of the text: with the rule
`a = ('x' a 'y') | ('x' a 'z') | 'x'`, evaluating `n` times `x` returns, finds a tree (which uses one
character) and makes at least `2 ^ n` calls of `Eval`. -/
theorem C75_exponential_counterexample (n : Nat) :
    (∃ fuel res, doubling.evalRule fuel (runes "a") (xs (n + 1)) = .ok res ∧ res.node.isSome = true ∧ res.countUsed = 1) ∧
    ∀ fuel res, doubling.evalRule fuel (runes "a") (xs (n + 1)) = .ok res →
      2 ^ (n + 1) ≤ doubling.workRule fuel (runes "a") (xs (n + 1)) := by
  have hv : Valid (xs (n + 1)) := by
    intro c hc
    rw [List.eq_of_mem_replicate hc]
    decide
  obtain ⟨rc, hrc, hrule⟩ := Option.map_eq_some_iff.1 doubling_record
  have hs := ready_ofChars hv
  have hl := rem_ofChars (xs (n + 1))
  have key : ∀ k, 4 * (n + 1) + 4 ≤ k → (∃ res, doubling.evalRule k (runes "a") (xs (n + 1)) = .ok res ∧
      res.node.isSome = true ∧ res.countUsed = 1) ∧ 2 ^ (n + 1) ≤ doubling.workRule k (runes "a") (xs (n + 1)) := by
    intro k hk
    obtain ⟨_, h2, h3⟩ := doubling_x (n + 1) k SUGGEST_SKIP hk
    obtain ⟨nd, st, h2⟩ := h2 (by omega)
    have h1' : Spec.run doubling.env k doublingRule SUGGEST_SKIP (Stream.ofChars (xs (n + 1))).rem ≠ .oof := by
      rw [hl, h2]; simp
    have h2' : Spec.run doubling.env k doublingRule SUGGEST_SKIP (Stream.ofChars (xs (n + 1))).rem ≠ .risky := by
      rw [hl, h2]; simp
    obtain ⟨res, s', j, e, _, href⟩ := run_eval hs h1' h2'
    rw [hl, h2] at href
    obtain ⟨g1, g2, _⟩ := ref_hit href
    refine ⟨⟨res, ?_, ?_, g2⟩, ?_⟩
    · simp only [Grammar.evalRule, hrc, hrule, e]
      rfl
    · simp only [Option.map_eq_some_iff] at g1
      obtain ⟨nd', g1, _⟩ := g1
      rw [g1]; rfl
    · simp only [Grammar.workRule, hrc, hrule]
      rw [work_eq _ _ _ _ _ hs.wf hs.valid h1' h2', hl]
      exact h3
  refine ⟨?_, fun fuel res h => ?_⟩
  · obtain ⟨⟨res, h⟩, _⟩ := key _ (Nat.le_refl _)
    exact ⟨_, res, h⟩
  · obtain ⟨⟨res', h', _⟩, hw⟩ := key _ (Nat.le_refl _)
    rw [C75_calls_det h' h]
    exact hw

/-- The grammar is accepted, and `a` is not left-recursive. -/
example : doubling.validate.isSome = true ∧ doubling.roots.map (·.name) = [runes "s"] ∧
    (List.range 6).map (fun n => doubling.workRule 60 (runes "a") (xs n)) = [8, 26, 64, 140, 292, 596] := by
  decide +kernel

/-! ### Predictive grammars -/

/-- In a predictive grammar (C58) the work is at most proportional to the length of the text: there is a
number `K` such that `EvalRule` makes at most `K * (n + 1)` calls on every text of `n` characters whose
white space is that of ASCII. -/
theorem C75_linear {g : Grammar} (hg : Predictive g) :
    ∃ K, ∀ (name : Name) (sample : List Rune), Valid sample → Tidy sample → ∀ (fuel : Nat) (res : Res),
      g.evalRule fuel name sample = .ok res → g.workRule fuel name sample ≤ K * (sample.length + 1) := by
  obtain ⟨c, hc⟩ := hg
  have hcert := certified hc
  have hnamed : ∀ name r, g.env name = some r → r ∈ g.records.map (·.rule) := by
    intro name r h
    simp only [Grammar.env, Option.map_eq_some_iff] at h
    obtain ⟨rc, hrc, rfl⟩ := h
    exact List.mem_map_of_mem (List.mem_of_find?_eq_some hrc)
  obtain ⟨U, hU1, hU2⟩ := Shape.closed_env hnamed (g.records.map (·.rule))
  obtain ⟨M, B, hfix⟩ := Shape.fixed hcert.left hU2
  refine ⟨M + B, fun name sample hv ht fuel res h => ?_⟩
  cases hrc : g.getRecord name with
  | none => simp [Grammar.workRule, hrc]
  | some rc =>
    have hcov := hcert.covers hrc (flag := SUGGEST_SKIP) (by decide)
    simp only [Certificate.covers, Bool.and_eq_true, Option.isSome_iff_exists] at hcov
    obtain ⟨⟨s, hs⟩, hreps⟩ := hcov
    obtain ⟨F, hF⟩ := hcert.ends hreps sample.length
    obtain ⟨_, hplain⟩ := hF F (Nat.le_refl _) SUGGEST_SKIP s hs sample hv ht (Nat.le_refl _)
    have hr := ready_ofChars hv
    have hl := rem_ofChars sample
    have h1 : Spec.run g.env F rc.rule SUGGEST_SKIP (Stream.ofChars sample).rem ≠ .oof := by
      rw [hl]; intro h; rw [h] at hplain; cases hplain
    have h2 : Spec.run g.env F rc.rule SUGGEST_SKIP (Stream.ofChars sample).rem ≠ .risky := by
      rw [hl]; intro h; rw [h] at hplain; cases hplain
    obtain ⟨res', s', j, e, _, _⟩ := run_eval hr h1 h2
    have hev : g.evalRule F name sample = .ok res' := by
      simp only [Grammar.evalRule, hrc, e]
      rfl
    rw [C75_calls_det hev h]
    simp only [Grammar.workRule, hrc]
    rw [work_eq _ _ _ _ _ hr.wf hr.valid h1 h2, hl]
    exact Shape.tries_le hcert.shapes hcert.left hfix F
      (hU1 _ (List.mem_map_of_mem (List.mem_of_find?_eq_some hrc))) hs ht

/-- The grammars of expressions and of values are of this kind. -/
example : (∃ K, ∀ (name : Name) (sample : List Rune), Valid sample → Tidy sample → ∀ (fuel : Nat) (res : Res),
      arith.evalRule fuel name sample = .ok res → arith.workRule fuel name sample ≤ K * (sample.length + 1)) ∧
    ∃ K, ∀ (name : Name) (sample : List Rune), Valid sample → Tidy sample → ∀ (fuel : Nat) (res : Res),
      json.evalRule fuel name sample = .ok res → json.workRule fuel name sample ≤ K * (sample.length + 1) :=
  ⟨C75_linear ⟨_, arith_checks.1.1⟩, C75_linear ⟨_, json_checks.1.1⟩⟩

end Xbnf.Props
