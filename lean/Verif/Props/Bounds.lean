import Verif.Lemmas.Fuel
/-
C87: the bounds of a repetition that allow what is there do not matter.
-/
namespace Xbnf.Props
open Xbnf Grammar

variable {env : Env}

theorem of_bind_ok {α β : Type} {x : Exec α} {f : α → Exec β} {b : β} (h : (x >>= f) = .ok b) : ∃ a, x = .ok a ∧ f a = .ok b := by
  cases x with
  | ok a => exact ⟨a, rfl, h⟩
  | panic => cases h
  | oof => cases h

/-- A repetition that matches has as many children as the loop has found, and the loop does not know of the minimum. -/
theorem rep_loop {fuel : Nat} {b : RuleBase} {r : Rule} {mn mx : Nat} {flag : Int} {s s1 : Stream} {res : Res}
    (h : eval env fuel (.rep b r mn mx) flag s = .ok (res, s1)) :
    ∃ f st why, fuel = f + 1 ∧ repLoop (eval env f) r mx f { flag := flag } s = .ok (st, why, s1) ∧ res = repFinish (.rep b r mn mx) mn st why s1 := by
  cases fuel with
  | zero => cases h
  | succ f =>
    simp only [eval, evalRep] at h
    obtain ⟨⟨st, why, s'⟩, e1, h⟩ := of_bind_ok h
    simp only [Exec.ok.injEq, Prod.mk.injEq] at h
    obtain ⟨h1, rfl⟩ := h
    exact ⟨f, st, why, rfl, e1, h1.symm⟩

theorem repFinish_node {self : Rule} {mn : Nat} {st : SeqState} {why : Option Res} {s : Stream} {n : Node}
    (h : (repFinish self mn st why s).node = some n) : mn ≤ st.nodes.length ∧ n.children = st.nodes := by
  unfold repFinish at h
  simp only at h
  split at h
  · cases h
  · rename_i hc
    simp only [Option.some.injEq] at h
    subst h
    exact ⟨Nat.le_of_not_lt hc, rfl⟩

/-- The lower bound only decides whether there is a match: with any lower bound that the matches found meet, the result is the same in
every respect, on every stream. -/
theorem C87_lower {fuel : Nat} {b : RuleBase} {r : Rule} {mn mx : Nat} {flag : Int} {s s1 : Stream} {res : Res} {n : Node}
    (h : eval env fuel (.rep b r mn mx) flag s = .ok (res, s1)) (hn : res.node = some n) {mn' : Nat} (hm : mn' ≤ n.children.length) :
    eval env fuel (.rep b r mn' mx) flag s = .ok (res, s1) := by
  obtain ⟨f, st, why, rfl, e, rfl⟩ := rep_loop h
  obtain ⟨h1, h2⟩ := repFinish_node hn
  rw [h2] at hm
  simp only [eval, evalRep, e]
  dsimp only [Bind.bind, Exec.bind]
  simp only [repFinish, if_neg (Nat.not_lt.2 hm), if_neg (Nat.not_lt.2 h1)]
  rfl

/-- And with a lower bound that they do not meet there is no match, and the same characters are read. -/
theorem C87_lower_fails {fuel : Nat} {b : RuleBase} {r : Rule} {mn mx : Nat} {flag : Int} {s s1 : Stream} {res : Res} {n : Node}
    (h : eval env fuel (.rep b r mn mx) flag s = .ok (res, s1)) (hn : res.node = some n) {mn' : Nat} (hm : n.children.length < mn') :
    ∃ res', eval env fuel (.rep b r mn' mx) flag s = .ok (res', s1) ∧ res'.node = none ∧ res'.read = res.read ∧ res'.sticky = res.sticky := by
  obtain ⟨f, st, why, rfl, e, rfl⟩ := rep_loop h
  obtain ⟨h1, h2⟩ := repFinish_node hn
  rw [h2] at hm
  refine ⟨repFinish (.rep b r mn' mx) mn' st why s1, ?_, ?_⟩
  · simp only [eval, evalRep, e]
    rfl
  · simp only [repFinish, if_pos hm, if_neg (Nat.not_lt.2 h1)]
    exact ⟨trivial, trivial, trivial⟩

/-- The loop is the same with another maximum if neither is reached. -/
theorem repLoop_upper {ev : Evaluator} {r : Rule} {mx mx' : Nat} : ∀ (fuel : Nat) (st : SeqState) (s : Stream) (out : SeqState) (why : Option Res)
    (s1 : Stream), repLoop ev r mx fuel st s = .ok (out, why, s1) → (mx = 0 ∨ out.nodes.length < mx) → (mx' = 0 ∨ out.nodes.length < mx') →
      st.nodes.length ≤ out.nodes.length ∧ repLoop ev r mx' fuel st s = .ok (out, why, s1)
  | 0, _, _, _, _, _, h, _, _ => by cases h
  | fuel + 1, st, s, out, why, s1, h, h1, h2 => by
    simp only [repLoop] at h ⊢
    split at h
    · rename_i hp
      simp only [Exec.ok.injEq, Prod.mk.injEq] at h
      obtain ⟨rfl, rfl, rfl⟩ := h
      rw [if_pos hp]
      exact ⟨Nat.le_refl _, rfl⟩
    · rename_i hp
      rw [if_neg hp]
      obtain ⟨⟨res, cs⟩, e1, h⟩ := of_bind_ok h
      obtain ⟨⟨read, unused⟩, e2, h⟩ := of_bind_ok h
      rw [e1]
      dsimp only [Bind.bind, Exec.bind] at h ⊢
      rw [e2]
      dsimp only at h ⊢
      cases hn : res.node with
      | none =>
        rw [hn] at h
        simp only [Exec.ok.injEq, Prod.mk.injEq] at h ⊢
        obtain ⟨rfl, rfl, rfl⟩ := h
        exact ⟨Nat.le_refl _, rfl, rfl, rfl⟩
      | some n =>
        rw [hn] at h
        simp only [List.length_append, List.length_singleton] at h ⊢
        split at h
        · rename_i hc
          simp only [Exec.ok.injEq, Prod.mk.injEq] at h
          obtain ⟨rfl, rfl, rfl⟩ := h
          simp only [List.length_append, List.length_singleton] at h1
          omega
        · obtain ⟨⟨o, w, cs'⟩, e3, h⟩ := of_bind_ok (x := repLoop ev r mx fuel _ cs) h
          simp only [Exec.ok.injEq, Prod.mk.injEq] at h
          obtain ⟨rfl, rfl, rfl⟩ := h
          obtain ⟨k1, k2⟩ := repLoop_upper fuel _ cs o w cs' e3 h1 h2
          simp only [List.length_append, List.length_singleton] at k1
          refine ⟨by omega, ?_⟩
          rw [if_neg (by omega), k2]

/-- An upper bound that is not reached does not matter: with any other that is not reached either, the result is the same in every
respect, on every stream. -/
theorem C87_upper {fuel : Nat} {b : RuleBase} {r : Rule} {mn mx mx' : Nat} {flag : Int} {s s1 : Stream} {res : Res} {n : Node}
    (h : eval env fuel (.rep b r mn mx) flag s = .ok (res, s1)) (hn : res.node = some n) (h1 : mx = 0 ∨ n.children.length < mx)
    (h2 : mx' = 0 ∨ n.children.length < mx') : eval env fuel (.rep b r mn mx') flag s = .ok (res, s1) := by
  obtain ⟨f, st, why, rfl, e, rfl⟩ := rep_loop h
  obtain ⟨h3, h4⟩ := repFinish_node hn
  rw [h4] at h1 h2
  have k := (repLoop_upper f _ s st why s1 e h1 h2).2
  simp only [eval, evalRep, k]
  dsimp only [Bind.bind, Exec.bind]
  simp only [repFinish, if_neg (Nat.not_lt.2 h3)]
  rfl

/-- A loop that goes on longer finds the same and then more. -/
theorem repLoop_more {ev : Evaluator} {r : Rule} {mx mx' : Nat} (hm : mx' = 0 ∨ (0 < mx ∧ mx ≤ mx')) : ∀ (fuel : Nat) (st : SeqState) (s : Stream)
    (out out' : SeqState) (why why' : Option Res) (s1 s2 : Stream), (mx = 0 ∨ st.nodes.length < mx) → repLoop ev r mx fuel st s = .ok (out, why, s1) →
      repLoop ev r mx' fuel st s = .ok (out', why', s2) → st.nodes <+: out.nodes ∧ out.nodes <+: out'.nodes ∧ ((out.nodes = out'.nodes ∧ (mx = 0 ∨ out.nodes.length < mx)) ∨ out.nodes.length = mx)
  | 0, _, _, _, _, _, _, _, _, _, h, _ => by cases h
  | fuel + 1, st, s, out, out', why, why', s1, s2, hs, h, h' => by
    simp only [repLoop] at h h'
    split at h
    · rename_i hp
      rw [if_pos hp] at h'
      simp only [Exec.ok.injEq, Prod.mk.injEq] at h h'
      obtain ⟨rfl, _⟩ := h
      obtain ⟨rfl, _⟩ := h'
      exact ⟨List.prefix_rfl, List.prefix_rfl, .inl ⟨rfl, hs⟩⟩
    · rename_i hp
      rw [if_neg hp] at h'
      obtain ⟨⟨res, cs⟩, e1, h⟩ := of_bind_ok h
      obtain ⟨⟨read, unused⟩, e2, h⟩ := of_bind_ok h
      rw [e1] at h'
      dsimp only [Bind.bind, Exec.bind] at h h'
      rw [e2] at h'
      dsimp only at h h'
      cases hn : res.node with
      | none =>
        rw [hn] at h h'
        simp only [Exec.ok.injEq, Prod.mk.injEq] at h h'
        obtain ⟨rfl, _⟩ := h
        obtain ⟨rfl, _⟩ := h'
        exact ⟨List.prefix_rfl, List.prefix_rfl, .inl ⟨rfl, hs⟩⟩
      | some n =>
        rw [hn] at h h'
        simp only [List.length_append, List.length_singleton] at h h'
        have own : ∀ {o w c t}, repLoop ev r mx' fuel t cs = .ok (o, w, c) → t.nodes <+: o.nodes := by
          intro o w c t e
          exact repLoop_grows fuel t cs o w c e
        split at h
        · rename_i hc
          simp only [Exec.ok.injEq, Prod.mk.injEq] at h
          obtain ⟨rfl, _⟩ := h
          refine ⟨List.prefix_append _ _, ?_, .inr (by simp only [List.length_append, List.length_singleton]; omega)⟩
          split at h'
          · simp only [Exec.ok.injEq, Prod.mk.injEq] at h'
            obtain ⟨rfl, _⟩ := h'
            exact List.prefix_rfl
          · obtain ⟨⟨o, w, cs'⟩, e3, h'⟩ := of_bind_ok (x := repLoop ev r mx' fuel _ cs) h'
            simp only [Exec.ok.injEq, Prod.mk.injEq] at h'
            obtain ⟨rfl, _⟩ := h'
            exact own e3
        · rename_i hc
          rw [if_neg (by omega)] at h'
          obtain ⟨⟨o, w, cs'⟩, e3, h⟩ := of_bind_ok (x := repLoop ev r mx fuel _ cs) h
          obtain ⟨⟨o', w', cs''⟩, e3', h'⟩ := of_bind_ok (x := repLoop ev r mx' fuel _ cs) h'
          simp only [Exec.ok.injEq, Prod.mk.injEq] at h h'
          obtain ⟨rfl, _⟩ := h
          obtain ⟨rfl, _⟩ := h'
          obtain ⟨k1, k2⟩ := repLoop_more hm fuel _ cs _ _ w w' cs' cs'' (by simp only [List.length_append, List.length_singleton]; omega) e3 e3'
          exact ⟨(List.prefix_append _ _).trans k1, k2⟩
where
  repLoop_grows : ∀ (fuel : Nat) (st : SeqState) (s : Stream) (out : SeqState) (why : Option Res) (s1 : Stream),
      repLoop ev r mx' fuel st s = .ok (out, why, s1) → st.nodes <+: out.nodes
    | 0, _, _, _, _, _, h => by cases h
    | fuel + 1, st, s, out, why, s1, h => by
      simp only [repLoop] at h
      split at h
      · simp only [Exec.ok.injEq, Prod.mk.injEq] at h
        obtain ⟨rfl, _⟩ := h
        exact List.prefix_rfl
      · obtain ⟨⟨res, cs⟩, e1, h⟩ := of_bind_ok h
        obtain ⟨⟨read, unused⟩, e2, h⟩ := of_bind_ok h
        dsimp only [Bind.bind, Exec.bind] at h
        cases hn : res.node with
        | none =>
          rw [hn] at h
          simp only [Exec.ok.injEq, Prod.mk.injEq] at h
          obtain ⟨rfl, _⟩ := h
          exact List.prefix_rfl
        | some n =>
          rw [hn] at h
          dsimp only at h
          split at h
          · simp only [Exec.ok.injEq, Prod.mk.injEq] at h
            obtain ⟨rfl, _⟩ := h
            exact List.prefix_append _ _
          · obtain ⟨⟨o, w, cs'⟩, e3, h⟩ := of_bind_ok (x := repLoop ev r mx' fuel _ cs) h
            simp only [Exec.ok.injEq, Prod.mk.injEq] at h
            obtain ⟨rfl, _⟩ := h
            exact (List.prefix_append _ _).trans (repLoop_grows fuel _ cs _ _ _ e3)

/-- A lower bound that is met and an upper bound `mx` do nothing but keep the first `mx` of the matches that are found without an upper
bound or with a higher one. -/
theorem C87_first {fuel fuel' : Nat} {b b' : RuleBase} {r : Rule} {mn mx mn' mx' : Nat} (hm : 0 < mx) (hx : mx' = 0 ∨ mx ≤ mx') {flag : Int}
    {s s1 s2 : Stream} {res res' : Res} {n n' : Node} (h : eval env fuel (.rep b r mn mx) flag s = .ok (res, s1)) (hn : res.node = some n)
    (h' : eval env fuel' (.rep b' r mn' mx') flag s = .ok (res', s2)) (hn' : res'.node = some n') : n.children = n'.children.take mx := by
  obtain ⟨f, st, why, e0, e, rfl⟩ := rep_loop (eval_mono (Nat.le_max_left fuel fuel') h)
  obtain ⟨f', st', why', e0', e', rfl⟩ := rep_loop (eval_mono (Nat.le_max_right fuel fuel') h')
  obtain rfl : f = f' := by omega
  rw [(repFinish_node hn).2, (repFinish_node hn').2]
  obtain ⟨_, k1, k2⟩ := repLoop_more (hx.imp id fun hx => ⟨hm, hx⟩) f { flag := flag } s st st' why why' s1 s2 (.inr hm) e e'
  rcases k2 with ⟨k2, k3⟩ | k2
  · rw [← k2, List.take_of_length_le (by omega)]
  · obtain ⟨t, ht⟩ := k1
    rw [← ht, List.take_left' k2]

theorem account_first {r : Res} {read unused : List Rune} (h : account [] [] r = .ok (read, unused)) : read = r.read ∧ unused = r.unused := by
  unfold account at h
  split at h
  · obtain ⟨x, e, h⟩ := of_bind_ok h
    simp only [sliceFrom, List.length_nil] at e
    split at e
    · simp only [Exec.ok.injEq] at e
      simp only [Exec.ok.injEq, Prod.mk.injEq] at h
      subst e
      exact ⟨by rw [← h.1]; rfl, h.2.symm⟩
    · cases e
  · rename_i hc
    have hr : r.read = [] := by
      cases hx : r.read with
      | nil => rfl
      | cons a l => rw [hx] at hc; simp at hc
    obtain ⟨x, e, h⟩ := of_bind_ok h
    simp only [Res.charsUsed, sliceTo, Res.countUsed, hr, List.length_nil] at e
    split at e
    · rename_i hu
      have hu : r.unused = [] := List.eq_nil_of_length_eq_zero (by omega)
      obtain ⟨y, e2, h⟩ := of_bind_ok h
      simp only [sliceFrom, List.drop_nil] at e2
      split at e2
      · simp only [Exec.ok.injEq] at e2
        subst e2
        split at h
        · simp only [Exec.ok.injEq, Prod.mk.injEq] at h
          exact ⟨by rw [← h.1, hr], h.2.symm⟩
        · simp only [Exec.ok.injEq, Prod.mk.injEq] at h
          exact ⟨by rw [← h.1, hr], by rw [← h.2, hu]⟩
      · cases e2
    · cases e

/-- Before the end of the text `{x}<0,1>` finds what `[x]` finds: the same children, the same characters read and left over, and the same
report about white space. -/
theorem C87_option {fuel : Nat} {b b' : RuleBase} {r : Rule} {flag : Int} {s s1 : Stream} {res : Res} (hp : s.peek ≠ EOFChar)
    (h : eval env fuel (.rep b r 0 1) flag s = .ok (res, s1)) :
    ∃ res' n n', eval env fuel (.option b' r) flag s = .ok (res', s1) ∧ res.node = some n ∧ res'.node = some n' ∧
      n'.children = n.children ∧ res'.read = res.read ∧ res'.unused = res.unused ∧ res'.sticky = res.sticky := by
  obtain ⟨f, st, why, rfl, e, rfl⟩ := rep_loop h
  cases f with
  | zero => cases e
  | succ f =>
    have e0 : s.pushBack ({ flag := flag } : SeqState).unused = s := by simp [Stream.pushBack]
    simp only [repLoop, e0, if_neg hp] at e
    obtain ⟨⟨q, cs⟩, e1, e⟩ := of_bind_ok e
    obtain ⟨⟨read, unused⟩, e2, e⟩ := of_bind_ok e
    obtain ⟨rfl, rfl⟩ := account_first e2
    have e3 : cs.popBack ({ flag := flag } : SeqState).unused = cs := by simp [Stream.popBack]
    simp only [e3, Bool.true_and, List.nil_append, List.length_singleton] at e
    refine ⟨optionRes b' q, ?_⟩
    have k : eval env (f + 1 + 1) (.option b' r) flag s = .ok (optionRes b' q, cs) := by
      rw [eval]
      simp only [e1]
      rfl
    cases hn : q.node with
    | none =>
      rw [hn] at e
      simp only [Exec.ok.injEq, Prod.mk.injEq] at e
      obtain ⟨rfl, rfl, rfl⟩ := e
      refine ⟨_, branchNode .option b' q.sticky [] none, k, rfl, by simp only [optionRes, hn], rfl, ?_⟩
      simp only [optionRes, hn, repFinish]
      exact ⟨rfl, rfl, rfl⟩
    | some n =>
      rw [hn] at e
      simp only [Nat.lt_add_one, true_and, if_true, Exec.ok.injEq, Prod.mk.injEq] at e
      obtain ⟨rfl, rfl, rfl⟩ := e
      refine ⟨_, branchNode .option b' q.sticky [n] n.pos, k, rfl, by simp only [optionRes, hn], rfl, ?_⟩
      simp only [optionRes, hn, repFinish]
      exact ⟨rfl, rfl, rfl⟩

end Xbnf.Props
