import Verif.Props.TreeSize
/-
C77, the other side: without the condition that the evaluation is regular the claim is false.  A rule is
given for which the tree of a text of `n + 1` characters has `n² + n + 3` nodes.
-/
namespace Xbnf.Props
open Spec Grammar

/-- `{ ( 'x' {'b'} 'c' ) | 'x' | 'b' }`: a choice that reads all of the text before it takes `x`. -/
def growingItem : Rule :=
  .choice {} [[.concat {} [.char {} 120 false, .rep {} (.char {} 98 false) 0 0, .char {} 99 false],
    .char {} 120 false, .char {} 98 false]]

def growingRule : Rule := .rep {} growingItem 0 0

/-- `n` times `b`. -/
def bs (n : Nat) : List Rune := List.replicate n 98

theorem bs_succ (n : Nat) : bs (n + 1) = 98 :: bs n := rfl

theorem bs_length (n : Nat) : (bs n).length = n := List.length_replicate

theorem bs_append (m n : Nat) : bs m ++ bs n = bs (m + n) := List.replicate_append_replicate

/-- `n (n + 1) / 2`. -/
def triangle : Nat → Nat
  | 0 => 0
  | n + 1 => triangle n + n + 1

theorem triangle_eq (n : Nat) : 2 * triangle n = n * n + n := by
  induction n with
  | zero => rfl
  | succ n ih =>
    have : (n + 1) * (n + 1) = n * n + 2 * n + 1 := by
      rw [Nat.mul_add, Nat.add_mul]; omega
    simp only [triangle, this]; omega

section
variable (env : Env) (k : Nat) (flag : Int) (l : List Rune)

theorem char_hit (c : Rune) (h : c = 120 ∨ c = 98) :
    L.eval env (k + 1) (.char {} c false) flag (c :: l) =
      .ok ({ node := some (leafNode .char {} true [c] none), read := [c], sticky := true }, 1) := by
  simp only [L.eval, L.evalChar, L.spaces]
  by_cases hf : flag = SUGGEST_SKIP
  · subst hf; rcases h with rfl | rfl <;> rfl
  · simp only [hf, decide_false]; rcases h with rfl | rfl <;> rfl

theorem char_miss (c d : Rune) (h : c = 120 ∧ d = 98 ∨ c = 98 ∧ d = 120) :
    L.eval env (k + 1) (.char {} c false) flag (d :: l) = .ok ({ sticky := true }, 0) := by
  simp only [L.eval, L.evalChar, L.spaces]
  by_cases hf : flag = SUGGEST_SKIP
  · subst hf; rcases h with ⟨rfl, rfl⟩ | ⟨rfl, rfl⟩ <;> rfl
  · simp only [hf, decide_false]; rcases h with ⟨rfl, rfl⟩ | ⟨rfl, rfl⟩ <;> rfl

theorem char_end (c : Rune) : L.eval env (k + 1) (.char {} c false) flag [] = .ok ({ sticky := true }, 0) := by
  simp only [L.eval, L.evalChar]; rfl
end

/-- One more round of a repetition without maximum. -/
theorem rep_round {ev : L.Ev} {r : Rule} {st : SeqState} {l : List Rune} {res : Res} {k : Nat} {n : Node} {read unused : List Rune}
    (hp : L.peek (st.unused ++ l) ≠ EOFChar) (he : ev r st.flag (st.unused ++ l) = .ok (res, k)) (hn : res.node = some n)
    (ha : account st.read st.unused res = .ok (read, unused)) {fuel : Nat} {out : SeqState} {k2 : Nat}
    (hloop : L.repLoop ev r 0 fuel { st with read := read, unused := unused, sticky := st.sticky && res.sticky, pos := none, nodes := st.nodes ++ [n] }
      ((st.unused ++ l).drop k) = .ok (out, k2)) :
    L.repLoop ev r 0 (fuel + 1) st l = .ok (out, k + k2 - st.unused.length) := by
  rw [L.repLoop, if_neg hp, he, Exec.ok_bind]
  simp only [ha, Exec.ok_bind, hn]
  rw [if_neg (by omega), hloop, Exec.ok_bind]

theorem rep_end {ev : L.Ev} {r : Rule} {st : SeqState} {l : List Rune} (hp : L.peek (st.unused ++ l) = EOFChar) (fuel : Nat) :
    L.repLoop ev r 0 (fuel + 1) st l = .ok (st, 0) := by
  rw [L.repLoop, if_pos hp]

theorem bs_loop (env : Env) (k n : Nat) (st : SeqState) (hu : st.unused = []) (fuel : Nat) :
    ∃ st', L.repLoop (L.eval env (k + 1)) (.char {} 98 false) 0 (n + 1 + fuel) st (bs n) = .ok (st', n) ∧
      st'.read = st.read ++ bs n ∧ st'.unused = [] := by
  induction n generalizing st with
  | zero =>
    refine ⟨st, ?_, by simp [bs], hu⟩
    rw [show 0 + 1 + fuel = fuel + 1 by omega]
    exact rep_end (by rw [hu]; rfl) _
  | succ n ih =>
    obtain ⟨st', h, h1, h2⟩ := ih { st with read := st.read ++ [98], unused := [], sticky := st.sticky && true, pos := none, nodes := st.nodes ++ [leafNode .char {} true [98] none] } rfl
    refine ⟨st', ?_, by rw [h1, bs_succ, List.append_assoc]; rfl, h2⟩
    rw [show n + 1 + 1 + fuel = (n + 1 + fuel) + 1 by omega]
    have := rep_round (ev := L.eval env (k + 1)) (r := .char {} 98 false) (st := st) (l := bs (n + 1)) (k := 1)
      (read := st.read ++ [98]) (unused := []) (by rw [hu, bs_succ]; intro h; cases h)
      (by rw [hu]; exact char_hit _ _ _ _ _ (.inr rfl)) rfl (by rw [hu]; rfl) (by rw [hu]; exact h)
    rw [this, hu, List.length_nil, Nat.sub_zero, Nat.add_comm]

/-- A concatenation of three rules, the last of which does not hit at the end of the text. -/
theorem concat_long {ev : L.Ev} {a b c : Rule} {n : Nat} {na nb : Node} {f : Int} {res : Res}
    (ha : ev a f (120 :: bs (n + 1)) = .ok ({ node := some na, read := [120], sticky := true }, 1))
    (hb : ev b (nextFlag f na true) (bs (n + 1)) = .ok (res, n + 1)) (hbn : res.node = some nb) (hbr : res.read = bs (n + 1)) (hbu : res.unused = [])
    (hc : ∀ f, ev c f [] = .ok ({ sticky := true }, 0)) :
    ∃ out, L.concatLoop ev {} [a, b, c] { flag := f } (120 :: bs (n + 1)) = .ok (out, n + 2) ∧ out.node = none ∧ out.read = 120 :: bs (n + 1) := by
  have a1 : account [] [] { node := some na, read := [120], sticky := true } = .ok ([120], []) := rfl
  have a2 : account [120] [] res = .ok (120 :: bs (n + 1), []) := by
    unfold account
    rw [hbr, hbu, if_pos (by rw [bs_length]; exact Nat.succ_pos n)]
    rfl
  have a3 : account (120 :: bs (n + 1)) [] { sticky := true } = .ok (120 :: bs (n + 1), []) := rfl
  have d1 : (120 :: bs (n + 1)).drop 1 = bs (n + 1) := rfl
  have d2 : (bs (n + 1)).drop (n + 1) = [] := List.drop_eq_nil_of_le (Nat.le_of_eq (bs_length _))
  refine ⟨{ read := 120 :: bs (n + 1), unused := 120 :: bs (n + 1), sticky := (true && true && res.sticky) && true }, ?_, rfl, rfl⟩
  rw [L.concatLoop]
  simp only [List.nil_append, ha, Exec.ok_bind, a1, d1]
  rw [L.concatLoop]
  simp only [List.nil_append, hb, Exec.ok_bind, a2, d2, hbn]
  rw [L.concatLoop]
  simp only [List.nil_append, hc, Exec.ok_bind, a3, List.length_nil]
  rw [show 1 + (n + 1 + (0 - 0) - 0) - 0 = n + 2 by omega]

/-- A choice of three rules, the second of which hits. -/
theorem choice_second {ev : L.Ev} {a b c : Rule} {n : Nat} {nb : Node} {f : Int} {res : Res}
    (ha : ev a f (120 :: bs (n + 1)) = .ok (res, n + 2)) (han : res.node = none) (har : res.read = 120 :: bs (n + 1))
    (hb : ev b f (120 :: bs (n + 1)) = .ok ({ node := some nb, read := [120], sticky := true }, 1))
    (hc : ev c f (120 :: bs (n + 1)) = .ok ({ sticky := true }, 0)) :
    ∃ out st, L.choiceLoop ev {} f [[a, b, c]] [] true (120 :: bs (n + 1)) = .ok (out, n + 2) ∧
      out.node = some (branchNode .choice {} st [nb] none) ∧ out.read = 120 :: bs (n + 1) ∧ out.unused = bs (n + 1) := by
  have d : (120 :: bs (n + 1)).drop (n + 2 - 0) = [] := List.drop_eq_nil_of_le (by rw [List.length_cons, bs_length]; omega)
  have l1 : (0 : Nat) < (120 :: bs (n + 1)).length := Nat.succ_pos _
  have l2 : ¬ (120 :: bs (n + 1)).length < 1 := by rw [List.length_cons]; omega
  have hg : ∃ st, L.choiceGroup ev f [a, b, c] [] true (120 :: bs (n + 1)) =
      .ok ([{ node := some nb, read := [120], sticky := true }], 120 :: bs (n + 1), st, n + 2) := by
    refine ⟨((true && res.sticky) && true) && true, ?_⟩
    rw [L.choiceGroup, List.nil_append, ha, Exec.ok_bind]
    simp only [List.length_nil, har, han, d, l1, if_true]
    rw [L.choiceGroup, List.append_nil, hb, Exec.ok_bind]
    simp only [List.drop_nil, List.length_cons, List.length_nil, Nat.zero_add]
    rw [if_neg (by omega), L.choiceGroup, List.append_nil, hc, Exec.ok_bind]
    simp only [List.drop_nil, List.length_nil, Nat.not_lt_zero, if_false]
    rw [L.choiceGroup]
    simp only [Exec.ok_bind, Option.isSome_some, Option.isSome_none, if_true, Bool.false_eq_true, if_false]
    rw [show n + 2 - 0 + (1 - ((bs (n + 1)).length + 1) + (0 - (120 :: bs (n + 1)).length + 0)) = n + 2 by omega]
  obtain ⟨st, hg⟩ := hg
  have hs : sliceFrom (120 :: bs (n + 1)) (1 : Int) = .ok (bs (n + 1)) := by
    unfold sliceFrom
    rw [if_pos ⟨by omega, by rw [List.length_cons]; omega⟩]
    rfl
  refine ⟨{ node := some (branchNode .choice {} st [nb] none), read := 120 :: bs (n + 1), unused := bs (n + 1), sticky := st }, st, ?_, rfl, rfl, rfl⟩
  rw [L.choiceLoop, hg, Exec.ok_bind]
  simp only [pick, Res.countUsed]
  rw [show (([120] : List Rune).length : Int) - (([] : List Rune).length : Int) = 1 from rfl, hs]
  rfl

/-- At `x` the choice reads all of the text, and takes `x`. -/
theorem item_x (env : Env) (n fuel : Nat) :
    ∃ res nd, L.eval env (fuel + n + 5) growingItem SUGGEST_SKIP (120 :: bs (n + 1)) = .ok (res, n + 2) ∧
      res.node = some nd ∧ nd.countNodes = 2 ∧ res.read = 120 :: bs (n + 1) ∧ res.unused = bs (n + 1) := by
  have hx := fun l => char_hit env (fuel + n + 3) SUGGEST_SKIP l 120 (.inl rfl)
  have hx' := fun l => char_hit env (fuel + n + 2) SUGGEST_SKIP l 120 (.inl rfl)
  have hb := fun l => char_miss env (fuel + n + 3) SUGGEST_SKIP l 98 120 (.inr ⟨rfl, rfl⟩)
  obtain ⟨st, hl, hr, hu⟩ := bs_loop env (fuel + n + 1) (n + 1) { flag := nextFlag SUGGEST_SKIP (leafNode .char {} true [120] none) true } rfl fuel
  rw [show n + 1 + 1 + fuel = fuel + n + 2 by omega] at hl
  have hrep : L.eval env (fuel + n + 3) (.rep {} (.char {} 98 false) 0 0) (nextFlag SUGGEST_SKIP (leafNode .char {} true [120] none) true) (bs (n + 1)) =
      .ok (L.repFinish {} 0 st, n + 1) := by
    rw [L.eval]
    simp only [L.evalRep]
    rw [hl, Exec.ok_bind]
  obtain ⟨res, hc, hcn, hcr⟩ := concat_long (hx' _) hrep rfl hr hu (fun f => char_end env (fuel + n + 2) f 99)
  obtain ⟨out, st', h, h1, h2, h3⟩ := choice_second (ev := L.eval env (fuel + n + 4)) (f := SUGGEST_SKIP) (a := .concat {} [.char {} 120 false, .rep {} (.char {} 98 false) 0 0, .char {} 99 false]) hc hcn hcr (hx _) (hb _)
  exact ⟨out, _, h, h1, rfl, h2, h3⟩

/-- At `b` it takes `b`. -/
theorem item_b (env : Env) (k : Nat) (l : List Rune) :
    ∃ res nd, L.eval env (k + 3) growingItem SUGGEST_SKIP (98 :: l) = .ok (res, 1) ∧
      res.node = some nd ∧ nd.countNodes = 2 ∧ res.read = [98] ∧ res.unused = [] :=
  ⟨_, _, rfl, rfl, rfl, rfl, rfl⟩

/-- Once `m` characters are given back, each of them is seen again in every further round. -/
theorem again (env : Env) (k N : Nat) (j t : Nat) (hN : triangle j + t = N) (fuel : Nat) (st : SeqState)
    (hf : st.flag = SUGGEST_SKIP) (hu : st.unused = bs j) :
    ∃ st' m, L.repLoop (L.eval env (k + 3)) growingItem 0 (fuel + N + 1) st (bs t) = .ok (st', m) ∧
      countNodesL st'.nodes = countNodesL st.nodes + 2 * N ∧
      st'.read.length + j = st.read.length + N ∧ st'.unused = [] := by
  induction N generalizing j t st with
  | zero =>
    obtain rfl : t = 0 := by omega
    obtain rfl : j = 0 := by
      cases j with
      | zero => rfl
      | succ j => simp only [triangle] at hN; omega
    exact ⟨st, 0, rep_end (by rw [hu]; rfl) _, rfl, rfl, hu⟩
  | succ N ih =>
    have hpos : ∃ m, j + t = m + 1 := by
      cases t with
      | succ t => exact ⟨j + t, rfl⟩
      | zero =>
        cases j with
        | zero => simp only [triangle] at hN; omega
        | succ j => exact ⟨j, rfl⟩
    obtain ⟨m, hm⟩ := hpos
    have hl : st.unused ++ bs t = 98 :: bs m := by rw [hu, bs_append, hm, bs_succ]
    obtain ⟨res, nd, he, hn, hc, hr, hru⟩ := item_b env k (bs m)
    have ha : ∃ rd, account st.read st.unused res = .ok (rd, bs (j - 1)) ∧ rd.length = st.read.length + (1 - j) := by
      unfold account Res.charsUsed Res.countUsed
      rw [hr, hru, hu, bs_length]
      cases j with
      | zero => exact ⟨st.read ++ [98], rfl, by simp⟩
      | succ j =>
        refine ⟨st.read, ?_, by omega⟩
        have h1 : sliceTo ([98] : List Rune) ((([98] : List Rune).length : Int) - (([] : List Rune).length : Int)) = .ok [98] := rfl
        have h2 : sliceFrom (bs (j + 1)) ((([98] : List Rune).length : Nat) : Int) = .ok (bs j) := by
          unfold sliceFrom
          rw [if_pos ⟨by simp, by rw [bs_length]; simp only [List.length_singleton]; omega⟩]
          rfl
        rw [if_neg (by simp), h1, Exec.ok_bind, h2, Exec.ok_bind, bs_length, Nat.add_sub_cancel]
        split
        · obtain rfl : j = 0 := by simp only [List.length_singleton] at *; omega
          rfl
        · rfl
    obtain ⟨rd, ha, hlen⟩ := ha
    have hstep : triangle (j - 1) + m = N := by
      cases j with
      | zero => simp only [triangle, Nat.zero_sub] at hN ⊢; omega
      | succ j => simp only [triangle, Nat.add_sub_cancel] at hN ⊢; omega
    obtain ⟨st', m', h, h1, h2, h3⟩ := ih (j - 1) m hstep
      { st with read := rd, unused := bs (j - 1), sticky := st.sticky && res.sticky, pos := none, nodes := st.nodes ++ [nd] } hf rfl
    refine ⟨st', _, rep_round (fuel := fuel + N + 1) (by rw [hl]; intro h; cases h) (by rw [hl, hf]; exact he) hn ha (by rw [hl]; exact h), ?_, ?_, h3⟩
    · rw [h1, Size.countL_append, Size.countL_one, hc]; omega
    · have := hlen
      simp only at h2
      rw [hlen] at h2
      omega

/-- All rounds. -/
theorem growing_list (env : Env) (n : Nat) :
    ∃ res nd k, L.eval env (triangle (n + 1) + n + 8) growingRule SUGGEST_SKIP (120 :: bs (n + 1)) = .ok (res, k) ∧
      res.node = some nd ∧ nd.countNodes = 3 + 2 * triangle (n + 1) ∧ res.countUsed = 1 + triangle (n + 1) := by
  obtain ⟨res, nd, he, hn, hc, hr, hu⟩ := item_x env n (triangle (n + 1) + 2)
  rw [show triangle (n + 1) + 2 + n + 5 = triangle (n + 1) + n + 4 + 3 by omega] at he
  obtain ⟨st, m, h, h1, h2, h3⟩ := again env (triangle (n + 1) + n + 4) _ (n + 1) 0 rfl (n + 5)
    { flag := SUGGEST_SKIP, read := 120 :: bs (n + 1), unused := bs (n + 1), sticky := true && res.sticky, nodes := [nd] } rfl rfl
  rw [show n + 5 + (triangle (n + 1) + 0) + 1 = triangle (n + 1) + n + 4 + 2 by omega] at h
  have ha : account [] [] res = .ok (120 :: bs (n + 1), bs (n + 1)) := by
    unfold account
    rw [hr, hu, if_pos (by simp)]
    rfl
  have hd : (([] : List Rune) ++ 120 :: bs (n + 1)).drop (n + 2) = bs 0 :=
    List.drop_eq_nil_of_le (by simp [bs])
  have hloop := rep_round (ev := L.eval env (triangle (n + 1) + n + 7)) (r := growingItem) (st := { flag := SUGGEST_SKIP })
    (l := 120 :: bs (n + 1)) (by intro h; cases h) he hn ha (fuel := triangle (n + 1) + n + 6) (by rw [hd]; exact h)
  refine ⟨L.repFinish {} 0 st, branchNode .repetition {} st.sticky st.nodes none, n + 2 + m, ?_, rfl, ?_, ?_⟩
  · rw [L.eval.eq_def]
    simp only [growingRule, L.evalRep]
    rw [hloop]
    rfl
  · rw [Size.count_eq]
    show 1 + countNodesL st.nodes = _
    rw [h1, Size.countL_one, hc]; omega
  · show ((st.read.length : Int) - (st.unused.length : Int)) = _
    rw [h3]
    simp only [List.length_cons, bs_length, Nat.add_zero, List.length_nil] at h2 ⊢
    omega

theorem eval_ok_of_list {env : Env} {fuel : Nat} {r : Rule} {flag : Int} {s : Stream} (h : s.WF) {res : Res} {k : Nat}
    (hl : L.eval env fuel r flag s.rem = .ok (res, k)) : ∃ res' s', eval env fuel r flag s = .ok (res', s') ∧ res'.core = res := by
  have := eval_sim env fuel r flag s h
  rw [hl] at this
  cases he : eval env fuel r flag s with
  | oof => rw [he] at this; exact this.elim
  | panic => rw [he] at this; exact this.elim
  | ok x => rw [he] at this; exact ⟨x.1, x.2, rfl, this.1⟩

theorem core_count {res : Res} {nd : Node} (h : res.core.node = some nd) :
    ∃ nd', res.node = some nd' ∧ nd'.countNodes = nd.countNodes := by
  rw [Res.core_node, Option.map_eq_some_iff] at h
  obtain ⟨nd', h1, rfl⟩ := h
  exact ⟨nd', h1, (Size.count_erase nd').symm⟩

/-- The full claim is false: `{ ( 'x' {'b'} 'c' ) | 'x' | 'b' }` takes an `x` and `n + 1` times `b` and returns
a tree that stands for `1 + (n + 1) (n + 2) / 2` characters, with more than `n²` nodes. -/
theorem C77_counterexample :
    (∀ n : Nat, ∃ (fuel : Nat) (res : Res) (nd : Node),
      (oneRuleGrammar growingRule).evalRule fuel (runes "r") (120 :: List.replicate (n + 1) 98) = .ok res ∧ res.node = some nd ∧
      nd.countNodes = 3 + (n + 1) * (n + 2) ∧ 2 * res.countUsed = ((2 + (n + 1) * (n + 2) : Nat) : Int)) ∧
    ¬ ∃ K, ∀ sample : List Rune, Valid sample → ∀ (fuel : Nat) (res : Res) (nd : Node),
      (oneRuleGrammar growingRule).evalRule fuel (runes "r") sample = .ok res → res.node = some nd →
      nd.countNodes ≤ K * (sample.length + 1) := by
  have hv : ∀ n, Valid (120 :: bs n) := by
    intro n c hc
    simp only [bs, List.mem_cons, List.mem_replicate] at hc
    rcases hc with rfl | ⟨_, rfl⟩ <;> decide
  have h : ∀ n : Nat, ∃ (fuel : Nat) (res : Res) (nd : Node),
      (oneRuleGrammar growingRule).evalRule fuel (runes "r") (120 :: bs (n + 1)) = .ok res ∧ res.node = some nd ∧
      nd.countNodes = 3 + (n + 1) * (n + 2) ∧ 2 * res.countUsed = ((2 + (n + 1) * (n + 2) : Nat) : Int) := by
    intro n
    obtain ⟨res, nd, k, he, hn, hc, hu⟩ := growing_list (oneRuleGrammar growingRule).env n
    have ht : (n + 1) * (n + 2) = 2 * triangle (n + 1) := by
      rw [triangle_eq, Nat.mul_succ]
    generalize triangle (n + 1) = T at *
    obtain ⟨res', s', hx, rfl⟩ := eval_ok_of_list (s := Stream.ofChars (120 :: bs (n + 1))) (ready_ofChars (hv (n + 1))).wf
      (by rw [rem_ofChars]; exact he)
    obtain ⟨nd', hn', hc'⟩ := core_count hn
    have hg : (oneRuleGrammar growingRule).getRecord (runes "r") = some { name := runes "r", rule := growingRule, line := 1 } := by rfl
    refine ⟨T + n + 8, res', nd', ?_, hn', by omega, ?_⟩
    · simp only [Grammar.evalRule, hg]
      rw [hx, Exec.ok_bind]
    · rw [Res.core_count] at hu
      rw [hu, ht]; omega
  refine ⟨h, fun ⟨K, hK⟩ => ?_⟩
  obtain ⟨fuel, res, nd, h1, h2, h3, _⟩ := h (K + 2)
  have := hK _ (hv _) fuel res nd h1 h2
  rw [h3, List.length_cons, bs_length] at this
  have h4 : K * (K + 2 + 1 + 1 + 1) ≤ (K + 2 + 1) * (K + 2 + 2) := by
    have : (K + 2 + 1) * (K + 2 + 2) = K * (K + 2 + 1 + 1 + 1) + (2 * K + 12) := by
      simp only [Nat.add_mul, Nat.mul_add]; omega
    omega
  omega

end Xbnf.Props
