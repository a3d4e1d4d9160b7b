import Verif.Spec.Outcome
import Verif.Lemmas.Ref
import Verif.Lemmas.Fuel
import Verif.Props.Eval
/-
From the reference semantics to statements about evaluations.
-/
namespace Xbnf.Props
open Spec

variable {env : Env}

/-- What a definite answer of the reference says about an evaluation. -/
theorem run_eval' {fuel : Nat} {r : Rule} {flag : Int} {s : Stream} (hw : s.WF) (hv : Valid s.rem)
    (h1 : Spec.run env fuel r flag s.rem ≠ .oof) (h2 : Spec.run env fuel r flag s.rem ≠ .risky) :
    ∃ res s' k, eval env fuel r flag s = .ok (res, s') ∧ Adv k s s' ∧
      Ref s.rem (Spec.run env fuel r flag s.rem) (.ok (res.core, k)) := by
  have hr := L.eval_ref env fuel r flag s.rem hv
  have key : ∃ x, L.eval env fuel r flag s.rem = .ok x := by
    revert hr h1 h2
    cases Spec.run env fuel r flag s.rem with
    | oof => intro h1; exact absurd rfl h1
    | risky => intro _ h2; exact absurd rfl h2
    | fail n st => intro _ _ hr; exact ⟨_, hr.2⟩
    | ambiguous n => intro _ _ hr; exact ⟨_, hr.2⟩
    | hit nd u n st => intro _ _ hr; exact ⟨_, hr.2.2⟩
  obtain ⟨x, hx⟩ := key
  obtain ⟨res, s', e1, e2, e3⟩ := list_eval hw hx
  refine ⟨res, s', x.2, e1, e3, ?_⟩
  rw [hx] at hr
  rw [e2]
  exact hr

theorem run_eval {fuel : Nat} {r : Rule} {flag : Int} {s : Stream} (h : Ready s)
    (h1 : Spec.run env fuel r flag s.rem ≠ .oof) (h2 : Spec.run env fuel r flag s.rem ≠ .risky) :
    ∃ res s' k, eval env fuel r flag s = .ok (res, s') ∧ Adv k s s' ∧
      Ref s.rem (Spec.run env fuel r flag s.rem) (.ok (res.core, k)) :=
  run_eval' h.wf h.valid h1 h2

/-- Two evaluations that end give the same. -/
theorem eval_det {fuel fuel' : Nat} {r : Rule} {flag : Int} {s : Stream} {x y : Res × Stream}
    (h : eval env fuel r flag s = .ok x) (h' : eval env fuel' r flag s = .ok y) : x = y := by
  have h1 := eval_mono (Nat.le_max_left fuel fuel') h
  have h2 := eval_mono (Nat.le_max_right fuel fuel') h'
  rw [h1] at h2
  exact Exec.ok.inj h2

theorem regular_eval {r : Rule} {flag : Int} {s s' : Stream} {res : Res} {fuel : Nat} (h : Ready s)
    (hr : Regular env r flag s.rem) (he : eval env fuel r flag s = .ok (res, s')) :
    ∃ F k, Spec.run env F r flag s.rem ≠ .oof ∧ Spec.run env F r flag s.rem ≠ .risky ∧
      eval env F r flag s = .ok (res, s') ∧ Adv k s s' ∧
      Ref s.rem (Spec.run env F r flag s.rem) (.ok (res.core, k)) := by
  obtain ⟨F, h1, h2⟩ := hr
  obtain ⟨res2, s2, k, e1, e2, e3⟩ := run_eval h h1 h2
  have := eval_det he e1
  simp only [Prod.mk.injEq] at this
  obtain ⟨rfl, rfl⟩ := this
  exact ⟨F, k, h1, h2, e1, e2, e3⟩

theorem matches_of_run {fuel : Nat} {r : Rule} {flag : Int} {l : List Rune} (hv : Valid l) {nd u n st}
    (h : Spec.run env fuel r flag l = .hit nd u n st) : Matches env r flag l nd u st := by
  have hs := ready_ofChars hv
  have hl := rem_ofChars l
  obtain ⟨res, s', k, e1, e2, e3⟩ := run_eval (env := env) (fuel := fuel) (r := r) (flag := flag) hs
    (by rw [hl, h]; intro hc; cases hc) (by rw [hl, h]; intro hc; cases hc)
  rw [hl, h] at e3
  obtain ⟨g1, g2, g3⟩ := e3
  simp only [Exec.ok.injEq, Prod.mk.injEq] at g3
  have g := g3.1
  refine ⟨fuel, res, s', e1, ?_, ?_, ?_⟩
  · rw [← Res.core_node, g]
  · rw [← Res.core_count, g]
    simp only [Res.countUsed, List.length_take, List.length_drop]
    omega
  · rw [← Res.core_sticky, g]

theorem fails_of_run {fuel : Nat} {r : Rule} {flag : Int} {l : List Rune} (hv : Valid l)
    (h : (∃ n st, Spec.run env fuel r flag l = .fail n st) ∨
      ∃ n, Spec.run env fuel r flag l = .ambiguous n) : Fails env r flag l := by
  have hs := ready_ofChars hv
  have hl := rem_ofChars l
  obtain ⟨res, s', k, e1, e2, e3⟩ := run_eval (env := env) (fuel := fuel) (r := r) (flag := flag) hs
    (by rw [hl]; rcases h with ⟨n, st, h⟩ | ⟨n, h⟩ <;> rw [h] <;> intro hc <;> cases hc)
    (by rw [hl]; rcases h with ⟨n, st, h⟩ | ⟨n, h⟩ <;> rw [h] <;> intro hc <;> cases hc)
  rw [hl] at e3
  refine ⟨fuel, res, s', e1, ?_⟩
  have : res.node.map Node.erase = none := by
    rw [← Res.core_node]
    rcases h with ⟨n, st, h⟩ | ⟨n, h⟩ <;> rw [h] at e3 <;>
    · have := e3.2
      simp only [Exec.ok.injEq, Prod.mk.injEq] at this
      rw [this.1]
  simpa using this

theorem matches_det {r : Rule} {flag : Int} {l : List Rune} {nd nd' u u' st st'}
    (h : Matches env r flag l nd u st) (h' : Matches env r flag l nd' u' st') :
    nd = nd' ∧ u = u' ∧ st = st' := by
  obtain ⟨f, res, s', e1, e2, e3, e4⟩ := h
  obtain ⟨f', res', s'', e1', e2', e3', e4'⟩ := h'
  have := eval_det e1 e1'
  simp only [Prod.mk.injEq] at this
  obtain ⟨rfl, rfl⟩ := this
  rw [e2] at e2'
  refine ⟨Option.some.inj e2', by omega, by rw [← e4, e4']⟩

theorem matches_not_fails {r : Rule} {flag : Int} {l : List Rune} {nd u st}
    (h : Matches env r flag l nd u st) (h' : Fails env r flag l) : False := by
  obtain ⟨f, res, s', e1, e2, e3, e4⟩ := h
  obtain ⟨f', res', s'', e1', e2'⟩ := h'
  have := eval_det e1 e1'
  simp only [Prod.mk.injEq] at this
  obtain ⟨rfl, rfl⟩ := this
  rw [e2'] at e2
  cases e2

/-! ### The loops -/

theorem seqAt_hit {fuel b l} (hv : Valid l) {rs : List Rule} {pos look st flag nodes nd u n s}
    (h : seqAt (Spec.run env fuel) b l rs pos look st flag nodes = .hit nd u n s) :
    ∃ nds, Sequence env l rs flag pos nds u ∧ nd = inner .concatenate b s (nodes ++ nds) := by
  induction rs generalizing pos look st flag nodes with
  | nil =>
    simp only [seqAt, Ans.hit.injEq] at h
    obtain ⟨rfl, rfl, rfl, rfl⟩ := h
    exact ⟨[], .nil, by rw [List.append_nil]⟩
  | cons r rs ih =>
    simp only [seqAt] at h
    cases hr : Spec.run env fuel r flag (l.drop pos) with
    | hit nd1 u1 n1 st1 =>
      rw [hr] at h
      simp only at h
      split at h
      · cases h
      · obtain ⟨nds, i1, i2⟩ := ih h
        exact ⟨nd1 :: nds, .cons (matches_of_run (hv.drop _) hr) i1, by rw [i2]; simp⟩
    | _ => rw [hr] at h; cases h

theorem seqAt_fail {fuel b l} (hv : Valid l) {rs : List Rule} {pos look st flag nodes n s}
    (h : seqAt (Spec.run env fuel) b l rs pos look st flag nodes = .fail n s) :
    Stuck env l rs flag pos := by
  induction rs generalizing pos look st flag nodes with
  | nil => cases h
  | cons r rs ih =>
    simp only [seqAt] at h
    cases hr : Spec.run env fuel r flag (l.drop pos) with
    | hit nd1 u1 n1 st1 =>
      rw [hr] at h
      simp only at h
      split at h
      · cases h
      · exact .later (matches_of_run (hv.drop _) hr) (ih h)
    | fail n1 st1 => exact .here (fails_of_run (hv.drop _) (.inl ⟨_, _, hr⟩))
    | ambiguous n1 => exact .here (fails_of_run (hv.drop _) (.inr ⟨_, hr⟩))
    | _ => rw [hr] at h; cases h

theorem seqAt_not_ambiguous {run : Runner} {b l} {rs : List Rule} {pos look st flag nodes n} :
    seqAt run b l rs pos look st flag nodes ≠ .ambiguous n := by
  induction rs generalizing pos look st flag nodes with
  | nil => intro h; cases h
  | cons r rs ih =>
    intro h
    simp only [seqAt] at h
    repeat' split at h
    all_goals first
      | (cases h; done)
      | exact ih h

theorem repAt_spec {fuel b l} (hv : Valid l) {r : Rule} {mn mx F pos look st flag nodes}
    (hd : repAt (Spec.run env fuel) b r mn mx flag l F pos look st nodes ≠ .oof ∧
      repAt (Spec.run env fuel) b r mn mx flag l F pos look st nodes ≠ .risky) :
    ∃ nds q, Repeats env r flag l pos nds q ∧ RepStops env r mx flag l q (nodes ++ nds).length ∧
      ∃ n s, repAt (Spec.run env fuel) b r mn mx flag l F pos look st nodes =
        repEnd b mn q n s (nodes ++ nds) := by
  induction F generalizing pos look st nodes with
  | zero => exact absurd rfl hd.1
  | succ F ih =>
    simp only [repAt] at hd ⊢
    split
    · rename_i hnil
      exact ⟨[], pos, .nil, .inl hnil, look, st, by simp⟩
    · rename_i hnil
      rw [if_neg hnil] at hd
      cases hr : Spec.run env fuel r flag (l.drop pos) with
      | oof => rw [hr] at hd; exact absurd rfl hd.1
      | risky => rw [hr] at hd; exact absurd rfl hd.2
      | ambiguous n => rw [hr] at hd; exact absurd rfl hd.2
      | fail n1 s1 =>
        exact ⟨[], pos, .nil, .inr (.inl (fails_of_run (hv.drop _) (.inl ⟨_, _, hr⟩))), max look (pos + n1),
          st && s1,
          by simp⟩
      | hit nd u n1 s1 =>
        have hm := matches_of_run (hv.drop _) hr
        rw [hr] at hd
        simp only at hd ⊢
        split
        · rename_i hmx
          rw [if_pos hmx] at hd
          split
          · rename_i hk; rw [if_pos hk] at hd; exact absurd rfl hd.2
          · exact ⟨[nd], pos + u, .cons hnil hm .nil, .inr (.inr ⟨hmx.1, by simp [hmx.2]⟩), _, _, rfl⟩
        · rename_i hmx
          rw [if_neg hmx] at hd
          split
          · rename_i hk; rw [if_pos hk] at hd; exact absurd rfl hd.2
          · rename_i hk
            rw [if_neg hk] at hd
            obtain ⟨nds, q, i1, i2, n, s, i3⟩ := ih hd
            exact ⟨nd :: nds, q, .cons hnil hm i1, by simpa using i2, n, s, by rw [i3]; simp⟩

theorem altsAt_hits {fuel flag l} (hv : Valid l) {rs : List Rule} {look st hits look' st'}
    (h : altsAt (Spec.run env fuel) flag l rs look st = .ok hits look' st') :
    HitList env flag l rs hits := by
  induction rs generalizing look st hits look' st' with
  | nil =>
    simp only [altsAt, Alts.ok.injEq] at h
    obtain ⟨rfl, _⟩ := h
    exact .nil
  | cons r rs ih =>
    simp only [altsAt] at h
    cases hr : Spec.run env fuel r flag l with
    | oof => rw [hr] at h; cases h
    | risky => rw [hr] at h; cases h
    | fail n s => rw [hr] at h; exact .miss (fails_of_run hv (.inl ⟨_, _, hr⟩)) (ih h)
    | ambiguous n => rw [hr] at h; exact .miss (fails_of_run hv (.inr ⟨_, hr⟩)) (ih h)
    | hit nd u n s =>
      rw [hr] at h
      simp only at h
      split at h
      · rename_i ha
        simp only [Alts.ok.injEq] at h
        obtain ⟨rfl, _⟩ := h
        exact .hit (matches_of_run hv hr) (ih ha)
      · rename_i hne
        exact absurd h (hne _ _ _)

/-- No alternative matches. -/
theorem _root_.Xbnf.Spec.HitList.none {flag l} {rs : List Rule} (h : HitList env flag l rs []) :
    ∀ r ∈ rs, Fails env r flag l := by
  generalize hh : ([] : List (Node × Nat × Bool)) = hs at h
  induction h with
  | nil => intro r hr; cases hr
  | miss h _ ih =>
    intro r hr
    rcases List.mem_cons.1 hr with rfl | hr
    · exact h
    · exact ih hh r hr
  | hit => cases hh

theorem _root_.Xbnf.Spec.HitList.mem {flag l} {rs : List Rule} {hs} (h : HitList env flag l rs hs) {x}
    (hx : x ∈ hs) : ∃ r ∈ rs, Matches env r flag l x.1 x.2.1 x.2.2 := by
  induction h with
  | nil => cases hx
  | miss _ _ ih =>
    obtain ⟨r, hr, hm⟩ := ih hx
    exact ⟨r, by simp [hr], hm⟩
  | hit h _ ih =>
    rcases List.mem_cons.1 hx with rfl | hx
    · exact ⟨_, by simp, h⟩
    · obtain ⟨r, hr, hm⟩ := ih hx
      exact ⟨r, by simp [hr], hm⟩

/-- Every alternative fails or is in the list. -/
theorem _root_.Xbnf.Spec.HitList.all {flag l} {rs : List Rule} {hs} (h : HitList env flag l rs hs) {r nd u st}
    (hr : r ∈ rs) (hm : Matches env r flag l nd u st) : (nd, u, st) ∈ hs := by
  induction h with
  | nil => cases hr
  | miss h _ ih =>
    rcases List.mem_cons.1 hr with rfl | hr
    · exact (matches_not_fails hm h).elim
    · exact ih hr
  | hit h _ ih =>
    rcases List.mem_cons.1 hr with rfl | hr
    · obtain ⟨rfl, rfl, rfl⟩ := matches_det hm h
      simp
    · exact List.mem_cons_of_mem _ (ih hr)

/-- No alternative uses `m` characters if no hit does. -/
theorem _root_.Xbnf.Spec.HitList.filter_nil {flag l} {rs : List Rule} {hs} (h : HitList env flag l rs hs) {m : Nat}
    (hf : hs.filter (fun z => z.2.1 == m) = []) :
    ∀ r ∈ rs, ∀ nd u st, Matches env r flag l nd u st → u ≠ m := by
  intro r hr nd u st hm hu
  have := h.all hr hm
  rw [List.filter_eq_nil_iff] at hf
  exact hf _ this (by simp [hu])

/-- The only hit that uses `m` characters comes from one alternative; no other uses `m`. -/
theorem _root_.Xbnf.Spec.HitList.filter_one {flag l} {rs : List Rule} {hs} (h : HitList env flag l rs hs) {m : Nat} {y}
    (hf : hs.filter (fun z => z.2.1 == m) = [y]) :
    ∃ rs1 r rs2, rs = rs1 ++ r :: rs2 ∧ Matches env r flag l y.1 y.2.1 y.2.2 ∧
      ∀ r' ∈ rs1 ++ rs2, ∀ nd u st, Matches env r' flag l nd u st → u ≠ m := by
  induction h with
  | nil => cases hf
  | @miss r rs hs h hr ih =>
    obtain ⟨rs1, r1, rs2, e1, e2, e3⟩ := ih hf
    refine ⟨r :: rs1, r1, rs2, by rw [e1]; rfl, e2, ?_⟩
    intro r' hr' nd u st hm
    rcases List.mem_cons.1 (show r' ∈ r :: (rs1 ++ rs2) from hr') with rfl | hr'
    · exact (matches_not_fails hm h).elim
    · exact e3 r' hr' nd u st hm
  | @hit r rs nd u st hs h hr ih =>
    rw [List.filter_cons] at hf
    by_cases hu : u = m
    · rw [if_pos (by simpa using hu)] at hf
      simp only [List.cons.injEq] at hf
      obtain ⟨rfl, hf⟩ := hf
      exact ⟨[], r, rs, rfl, h, hr.filter_nil hf⟩
    · rw [if_neg (by simpa using hu)] at hf
      obtain ⟨rs1, r1, rs2, e1, e2, e3⟩ := ih hf
      refine ⟨r :: rs1, r1, rs2, by rw [e1]; rfl, e2, ?_⟩
      intro r' hr' nd' u' st' hm
      rcases List.mem_cons.1 (show r' ∈ r :: (rs1 ++ rs2) from hr') with rfl | hr'
      · obtain ⟨_, rfl, _⟩ := matches_det hm h; exact hu
      · exact e3 r' hr' nd' u' st' hm

theorem _root_.Xbnf.Spec.HitList.filter_two {flag l} {rs : List Rule} {hs} (h : HitList env flag l rs hs) {m : Nat}
    {y z ys} (hf : hs.filter (fun z => z.2.1 == m) = y :: z :: ys) :
    ∃ rs1 r rs2 r' rs3, rs = rs1 ++ r :: rs2 ++ r' :: rs3 ∧ (∃ nd st, Matches env r flag l nd m st) ∧
      ∃ nd st, Matches env r' flag l nd m st := by
  induction h generalizing y with
  | nil => cases hf
  | @miss r rs hs h hr ih =>
    obtain ⟨rs1, r1, rs2, r2, rs3, e1, e2, e3⟩ := ih hf
    exact ⟨r :: rs1, r1, rs2, r2, rs3, by rw [e1]; rfl, e2, e3⟩
  | @hit r rs nd u st hs h hr ih =>
    rw [List.filter_cons] at hf
    by_cases hu : u = m
    · rw [if_pos (by simpa using hu)] at hf
      simp only [List.cons.injEq] at hf
      have hz : z ∈ hs.filter (fun z => z.2.1 == m) := by rw [hf.2]; simp
      rw [List.mem_filter] at hz
      obtain ⟨r2, hr2, hm⟩ := hr.mem hz.1
      obtain ⟨a, c, rfl⟩ := List.append_of_mem hr2
      refine ⟨[], r, a, r2, c, by simp, ⟨nd, st, hu ▸ h⟩, z.1, z.2.2, ?_⟩
      have : z.2.1 = m := by simpa using hz.2
      rw [← this]; exact hm
    · rw [if_neg (by simpa using hu)] at hf
      obtain ⟨rs1, r1, rs2, r2, rs3, e1, e2, e3⟩ := ih hf
      exact ⟨r :: rs1, r1, rs2, r2, rs3, by rw [e1]; rfl, e2, e3⟩

theorem best_one {hits nd u st} (h : best hits = .one nd u st) :
    hits.filter (fun z => z.2.1 == u) = [(nd, u, st)] ∧ ∀ z ∈ hits, z.2.1 ≤ u := by
  unfold best at h
  split at h
  · cases h
  · rename_i x hf
    split at h
    · cases h
    · simp only [Best.one.injEq] at h
      obtain ⟨rfl, rfl, rfl⟩ := h
      have hx : x ∈ hits.filter (fun z => z.2.1 == longest hits) := by rw [hf]; simp
      have hl : x.2.1 = longest hits := by simpa using (List.mem_filter.1 hx).2
      rw [hl]
      exact ⟨by rw [hf, ← hl], fun z hz => L.le_longest hz⟩
  · cases h

theorem best_mem {hits nd u st} (h : best hits = .one nd u st) : (nd, u, st) ∈ hits := by
  have h1 := (best_one h).1
  have : (nd, u, st) ∈ hits.filter (fun z => z.2.1 == u) := by rw [h1]; simp
  exact (List.mem_filter.1 this).1

theorem best_tie {hits} (h : best hits = .tie) :
    (∃ y z ys, hits.filter (fun z => z.2.1 == longest hits) = y :: z :: ys) := by
  unfold best at h
  split at h
  · cases h
  · split at h <;> cases h
  · rename_i h1 h2
    generalize hits.filter (fun z => z.2.1 == longest hits) = l at h1 h2
    match l, h1, h2 with
    | [], h1, _ => exact absurd rfl h1
    | [x], _, h2 => exact absurd rfl (h2 x)
    | y :: z :: ys, _, _ => exact ⟨y, z, ys, rfl⟩

theorem best_none {hits} (h : best hits = .none) : hits = [] := by
  cases hits with
  | nil => rfl
  | cons x xs =>
    obtain ⟨y, hy, hyl⟩ := L.longest_mem (x :: xs) (by simp)
    unfold best at h
    split at h
    · rename_i hf
      rw [List.filter_eq_nil_iff] at hf
      exact absurd (by simpa using hyl) (hf y hy)
    · split at h <;> cases h
    · cases h

theorem _root_.Xbnf.Spec.FirstGroup.cons {flag l gs g g0} (h0 : ∀ r ∈ g0, Fails env r flag l)
    (h : FirstGroup env flag l gs g) : FirstGroup env flag l (g0 :: gs) g := by
  obtain ⟨gs1, gs2, rfl, h2⟩ := h
  refine ⟨g0 :: gs1, gs2, rfl, ?_⟩
  intro g' hg'
  rcases List.mem_cons.1 hg' with rfl | hg'
  · exact h0
  · exact h2 g' hg'

theorem choiceAt_hit {fuel b flag l} (hv : Valid l) {gs look st nd u n s}
    (h : choiceAt (Spec.run env fuel) b flag l gs look st = .hit nd u n s) :
    ∃ g c, FirstGroup env flag l gs g ∧ Wins env flag l g c u ∧ nd = inner .choice b s [c] := by
  induction gs generalizing look st with
  | nil => cases h
  | cons g gs ih =>
    simp only [choiceAt] at h
    split at h
    · cases h
    · cases h
    · rename_i hits look1 st1 ha
      have hh := altsAt_hits hv ha
      split at h
      · rename_i hb
        obtain ⟨g', c, h1, h2⟩ := ih h
        have := best_none hb
        subst this
        exact ⟨g', c, h1.cons hh.none, h2⟩
      · cases h
      · cases h
      · rename_i c u' st' hb
        simp only [Ans.hit.injEq] at h
        obtain ⟨rfl, rfl, rfl, rfl⟩ := h
        obtain ⟨b1, b2⟩ := best_one hb
        obtain ⟨rs1, r, rs2, e1, e2, e3⟩ := hh.filter_one b1
        refine ⟨g, c, ⟨[], gs, rfl, by simp⟩, ⟨rs1, r, rs2, st', e1, e2, ?_⟩, rfl⟩
        intro r' hr' nd u2 st2 hm
        have hm1 := e3 r' hr' nd u2 st2 hm
        have hm2 := b2 _ (hh.all (by rw [e1]; simp only [List.mem_append, List.mem_cons] at hr' ⊢; rcases hr' with h | h <;> simp [h]) hm)
        simp only at hm2
        omega

theorem choiceAt_fail {fuel b flag l} (hv : Valid l) {gs look st n s}
    (h : choiceAt (Spec.run env fuel) b flag l gs look st = .fail n s) :
    ∀ g ∈ gs, ∀ r ∈ g, Fails env r flag l := by
  induction gs generalizing look st with
  | nil => simp
  | cons g gs ih =>
    simp only [choiceAt] at h
    split at h
    · cases h
    · cases h
    · rename_i hits look1 st1 ha
      have hh := altsAt_hits hv ha
      split at h
      · rename_i hb
        have := best_none hb
        subst this
        intro g' hg'
        rcases List.mem_cons.1 hg' with rfl | hg'
        · exact hh.none
        · exact ih h g' hg'
      all_goals cases h

theorem choiceAt_ambiguous {fuel b flag l} (hv : Valid l) {gs look st n}
    (h : choiceAt (Spec.run env fuel) b flag l gs look st = .ambiguous n) :
    ∃ g, FirstGroup env flag l gs g ∧ Tied env flag l g := by
  induction gs generalizing look st with
  | nil => cases h
  | cons g gs ih =>
    simp only [choiceAt] at h
    split at h
    · cases h
    · cases h
    · rename_i hits look1 st1 ha
      have hh := altsAt_hits hv ha
      split at h
      · rename_i hb
        obtain ⟨g', h1, h2⟩ := ih h
        have := best_none hb
        subst this
        exact ⟨g', h1.cons hh.none, h2⟩
      · rename_i hb
        obtain ⟨y, z, ys, hf⟩ := best_tie hb
        obtain ⟨rs1, r, rs2, r', rs3, e1, e2, e3⟩ := hh.filter_two hf
        refine ⟨g, ⟨[], gs, rfl, by simp⟩, _, rs1, r, rs2, r', rs3, e1, e2, e3, ?_⟩
        intro r'' hr'' nd u st hm
        exact L.le_longest (hh.all hr'' hm)
      · cases h
      · cases h

/-- The error of a choice tells ambiguity from failure. -/
theorem choiceLoop_error {ev evL run} (hsim : EvSim ev evL) (hev : EvRef run evL) (q : Rule) (b : RuleBase)
    (flag : Int) (l : List Rune) (hv : Valid l) (gs : List (List Rule)) (look : Nat)
    (hl : look ≤ l.length) (st : ChoiceState) (hst : st.read = l.take look) (s : Stream)
    (hw : s.WF) (hs : s.rem = l.drop look) {res s'}
    (he : choiceLoop ev q flag gs st s = .ok (res, s')) :
    match choiceAt run b flag l gs look st.sticky with
    | .ambiguous _ => ∃ x y, res.error = some (.ambiguity q.base.name x y)
    | .fail _ _ => ∃ e, res.error = some (.inChoice q e)
    | _ => True := by
  induction gs generalizing look st s res s' with
  | nil =>
    simp only [choiceLoop, Exec.ok.injEq, Prod.mk.injEq] at he
    obtain ⟨rfl, _⟩ := he
    exact ⟨_, rfl⟩
  | cons g gs ih =>
    simp only [choiceAt]
    cases ha : altsAt run flag l g look st.sticky with
    | oof => trivial
    | risky => trivial
    | ok hits look1 sticky1 =>
      obtain ⟨h1, h2, h3, ms, h4, h5⟩ := L.choiceGroup_ref hev flag l hv g look hl st.sticky ha
      have hp := L.pick_best h4
      have hg := choiceGroup_sim hsim flag g st s hw
      rw [hst, hs, h5] at hg
      simp only [choiceLoop] at he
      cases hc : choiceGroup ev flag g st s with
      | panic => rw [hc] at he; cases he
      | oof => rw [hc] at he; cases he
      | ok x =>
        obtain ⟨ms', st', s1⟩ := x
        rw [hc] at hg
        obtain ⟨g1, g2, g3, g4⟩ := hg
        simp only at g1 g2 g3 g4
        rw [hc, Exec.ok_bind] at he
        simp only at he
        have hpc : pick ms = (pick ms').core := by rw [← g1, pick_core]
        simp only
        cases hb : best hits with
        | none =>
          rw [hb] at hp
          rw [hp.1] at hpc
          have : pick ms' = .none := by
            revert hpc; cases pick ms' <;> simp [Pick.core]
          rw [this] at he
          have hr1 : s1.rem = l.drop look1 := by
            rw [g4.rem, hs, List.drop_drop]; congr 1; omega
          have := ih look1 h2 st' g2 s1 g4.wf.2 hr1 he
          rw [g3] at this
          exact this
        | tie =>
          rw [hb] at hp
          obtain ⟨_, _, hp⟩ := hp
          rw [hp] at hpc
          have : ∃ x y, pick ms' = .ambiguous x y := by
            revert hpc; cases pick ms' <;> simp [Pick.core]
          obtain ⟨_, _, this⟩ := this
          rw [this] at he
          simp only [Exec.ok.injEq, Prod.mk.injEq] at he
          obtain ⟨rfl, _⟩ := he
          exact ⟨_, _, rfl⟩
        | order => trivial
        | one nd u st'' => trivial

/-! ### Blocks -/

theorem escapeAt_fail {fuel escape noEx l n st} (hv : Valid l)
    (h : escapeAt (Spec.run env fuel) escape noEx l = .fail n st) :
    ∀ e ∈ escape, Fails env e NOT_SKIP l := by
  cases escape with
  | none => intro e he; cases he
  | some e =>
    intro e' he'
    cases he'
    simp only [escapeAt] at h
    cases hr : Spec.run env fuel e NOT_SKIP l with
    | fail n st => exact fails_of_run hv (.inl ⟨_, _, hr⟩)
    | ambiguous n => exact fails_of_run hv (.inr ⟨_, hr⟩)
    | _ => rw [hr] at h; cases h

theorem excludeAt_fail {fuel excludes l n st} (hv : Valid l)
    (h : excludeAt (Spec.run env fuel) excludes l = .fail n st) :
    ∀ r ∈ excludes, Fails env r NOT_SKIP l := by
  unfold excludeAt at h
  split at h
  · cases h
  · cases h
  · rename_i ha
    have hh := altsAt_hits hv ha
    split at h
    · rename_i hb
      have := best_none hb
      subst this
      exact hh.none
    · cases h
    · cases h

theorem excludeAt_hit {fuel excludes l nd u n st} (hv : Valid l)
    (h : excludeAt (Spec.run env fuel) excludes l = .hit nd u n st) :
    ∃ r ∈ excludes, Matches env r NOT_SKIP l nd u st := by
  unfold excludeAt at h
  split at h
  · cases h
  · cases h
  · rename_i ha
    have hh := altsAt_hits hv ha
    split at h
    · cases h
    · rename_i hb
      simp only [Ans.hit.injEq] at h
      obtain ⟨rfl, rfl, _, rfl⟩ := h
      obtain ⟨b1, b2⟩ := best_one hb
      exact hh.mem (best_mem hb)
    · cases h

theorem blockAt_spec {fuel b v close escape excludes opn start l F pos look} (hv : Valid l)
    (hp : pos ≤ l.length)
    (hd : blockAt (Spec.run env fuel) b v close escape excludes opn start l F pos look ≠ .oof ∧
      blockAt (Spec.run env fuel) b v close escape excludes opn start l F pos look ≠ .risky) :
    ∃ q, Content env close escape excludes l pos q ∧
      (∀ e ∈ escape, Fails env e NOT_SKIP (l.drop q)) ∧
      match blockAt (Spec.run env fuel) b v close escape excludes opn start l F pos look with
      | .hit nd u _ _ => (∀ x ∈ excludes, Fails env x NOT_SKIP (l.drop q)) ∧
          ∃ c uc st, Matches env close NOT_SKIP (l.drop q) c uc st ∧
            u = (if v then q else q + uc) ∧
            nd = inner .block b false ([opn, { ruleType := .chars, chars := (l.drop start).take (q - start), sticky := true }] ++ if v then [] else [c])
      | .fail _ _ => (∃ x ∈ excludes, ∃ nd u st, Matches env x NOT_SKIP (l.drop q) nd u st) ∨
          (q = l.length ∧ (∀ x ∈ excludes, Fails env x NOT_SKIP (l.drop q)) ∧
            Fails env close NOT_SKIP (l.drop q))
      | _ => False := by
  induction F generalizing pos look with
  | zero => exact absurd rfl hd.1
  | succ F ih =>
    have hvd := hv.drop pos
    have hc0 : Content env close escape excludes l pos pos :=
      ⟨Nat.le_refl _, hp, fun i h1 h2 => by omega⟩
    simp only [blockAt] at hd ⊢
    cases he : escapeAt (Spec.run env fuel) escape excludes.isEmpty (l.drop pos) with
    | oof => rw [he] at hd; exact absurd rfl hd.1
    | risky => rw [he] at hd; exact absurd rfl hd.2
    | ambiguous => rw [he] at hd; exact absurd rfl hd.2
    | hit => rw [he] at hd; exact absurd rfl hd.2
    | fail ne ste =>
      have hesc := escapeAt_fail hvd he
      rw [he] at hd
      simp only at hd ⊢
      cases hx : excludeAt (Spec.run env fuel) excludes (l.drop pos) with
      | oof => rw [hx] at hd; exact absurd rfl hd.1
      | risky => rw [hx] at hd; exact absurd rfl hd.2
      | ambiguous => rw [hx] at hd; exact absurd rfl hd.2
      | hit xnd xu nx xst =>
        rw [hx] at hd
        simp only at hd ⊢
        split at hd
        · exact absurd rfl hd.2
        · rename_i hk
          refine ⟨pos, hc0, hesc, ?_⟩
          rw [if_neg hk]
          obtain ⟨r, hr, hm⟩ := excludeAt_hit hvd hx
          exact .inl ⟨r, hr, _, _, _, hm⟩
      | fail nx xst =>
        have hex := excludeAt_fail hvd hx
        rw [hx] at hd
        simp only at hd ⊢
        cases hr : Spec.run env fuel close NOT_SKIP (l.drop pos) with
        | oof => rw [hr] at hd; exact absurd rfl hd.1
        | risky => rw [hr] at hd; exact absurd rfl hd.2
        | ambiguous => rw [hr] at hd; exact absurd rfl hd.2
        | hit c u n cst =>
          rw [hr] at hd
          simp only at hd ⊢
          split at hd
          · exact absurd rfl hd.2
          · rename_i hk
            refine ⟨pos, hc0, hesc, ?_⟩
            rw [if_neg hk]
            exact ⟨hex, c, u, cst, matches_of_run hvd hr, rfl, rfl⟩
        | fail n cst =>
          have hcf := fails_of_run hvd (.inl ⟨_, _, hr⟩)
          rw [hr] at hd
          simp only at hd ⊢
          split at hd
          · rename_i hnil
            refine ⟨pos, hc0, hesc, ?_⟩
            rw [if_pos hnil]
            have := congrArg List.length hnil
            simp only [List.length_drop, List.length_nil] at this
            exact .inr ⟨by omega, hex, hcf⟩
          · rename_i hnil
            have hlt : pos + 1 ≤ l.length := by
              rcases Nat.lt_or_ge pos l.length with h | h
              · omega
              · exact absurd (List.drop_eq_nil_of_le h) hnil
            obtain ⟨q, ⟨c1, c2, c3⟩, i2, i3⟩ := ih hlt hd
            refine ⟨q, ⟨by omega, c2, ?_⟩, i2, ?_⟩
            · intro i h1 h2
              rcases Nat.lt_or_ge pos i with h | h
              · exact c3 i h h2
              · have : i = pos := by omega
                subst this
                exact ⟨hesc, hex, hcf⟩
            · rw [if_neg hnil]; exact i3

end Xbnf.Props
