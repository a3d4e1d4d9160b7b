import Verif.Spec.Language
import Verif.Lemmas.PredictiveRun
import Verif.Lemmas.Outcome
/-
The reference semantics and the language of a grammar.
-/
namespace Xbnf.Props
open Spec

variable {env : Env}

/-! ### What reports stickiness without matching -/

theorem misses_of_run {fuel : Nat} {r : Rule} {flag : Int} {l : List Rune} (hv : Valid l) {n st}
    (h : Spec.run env fuel r flag l = .fail n st) : Misses env r flag l st := by
  have hl := rem_ofChars l
  obtain ⟨res, s', k, e1, e2, e3⟩ := run_eval (env := env) (fuel := fuel) (r := r) (flag := flag) (ready_ofChars hv)
    (by rw [hl, h]; intro hc; cases hc) (by rw [hl, h]; intro hc; cases hc)
  rw [hl, h] at e3
  have g := e3.2
  simp only [Exec.ok.injEq, Prod.mk.injEq] at g
  refine ⟨fuel, res, s', e1, ?_, ?_⟩
  · have : res.node.map Node.erase = none := by rw [← Res.core_node, g.1]
    simpa using this
  · rw [← Res.core_sticky, g.1]

theorem misses_of_ambiguous {fuel : Nat} {r : Rule} {flag : Int} {l : List Rune} (hv : Valid l) {n}
    (h : Spec.run env fuel r flag l = .ambiguous n) : Misses env r flag l false := by
  have hl := rem_ofChars l
  obtain ⟨res, s', k, e1, e2, e3⟩ := run_eval (env := env) (fuel := fuel) (r := r) (flag := flag) (ready_ofChars hv)
    (by rw [hl, h]; intro hc; cases hc) (by rw [hl, h]; intro hc; cases hc)
  rw [hl, h] at e3
  have g := e3.2
  simp only [Exec.ok.injEq, Prod.mk.injEq] at g
  refine ⟨fuel, res, s', e1, ?_, ?_⟩
  · have : res.node.map Node.erase = none := by rw [← Res.core_node, g.1]
    simpa using this
  · rw [← Res.core_sticky, g.1]

theorem misses_det {r : Rule} {flag : Int} {l : List Rune} {st st'} (h : Misses env r flag l st) (h' : Misses env r flag l st') :
    st = st' := by
  obtain ⟨_, _, _, e1, _, e2⟩ := h
  obtain ⟨_, _, _, e1', _, e2'⟩ := h'
  have := eval_det e1 e1'
  simp only [Prod.mk.injEq] at this
  rw [← e2, ← e2', this.1]

theorem misses_fails {r : Rule} {flag : Int} {l : List Rune} {st} (h : Misses env r flag l st) : Fails env r flag l := by
  obtain ⟨f, res, s', e, h, _⟩ := h
  exact ⟨f, res, s', e, h⟩

/-! ### Every match is in the language -/

/-- The stickiness an answer reports. -/
def stickyOf : Ans → Bool
  | .fail _ st | .hit _ _ _ st => st
  | _ => false

theorem altsAt_sticky {run : Runner} {flag : Int} {l : List Rune} {rs : List Rule} : ∀ {look sticky hits look' sticky'},
    altsAt run flag l rs look sticky = .ok hits look' sticky' →
    sticky' = (sticky && rs.all (fun r => stickyOf (run r flag l))) ∧
    (∀ r ∈ rs, run r flag l ≠ .oof ∧ run r flag l ≠ .risky) ∧
    ∀ h ∈ hits, ∃ rs1 r rs2 n, rs = rs1 ++ r :: rs2 ∧ run r flag l = .hit h.1 h.2.1 n h.2.2 := by
  induction rs with
  | nil =>
    intro look sticky hits look' sticky' h
    simp only [altsAt, Alts.ok.injEq] at h
    obtain ⟨rfl, rfl, rfl⟩ := h
    exact ⟨by simp, by simp, by simp⟩
  | cons r rs ih =>
    intro look sticky hits look' sticky' h
    rw [altsAt] at h
    have grow : ∀ {hs : List (Node × Nat × Bool)}, (∀ h ∈ hs, ∃ rs1 r rs2 n, rs = rs1 ++ r :: rs2 ∧ run r flag l = .hit h.1 h.2.1 n h.2.2) →
        ∀ h ∈ hs, ∃ rs1 r' rs2 n, r :: rs = rs1 ++ r' :: rs2 ∧ run r' flag l = .hit h.1 h.2.1 n h.2.2 := by
      intro hs hh h hm
      obtain ⟨rs1, r', rs2, n, e1, e2⟩ := hh h hm
      exact ⟨r :: rs1, r', rs2, n, by rw [e1]; rfl, e2⟩
    cases hr : run r flag l with
    | oof => rw [hr] at h; cases h
    | risky => rw [hr] at h; cases h
    | fail n st =>
      rw [hr] at h
      obtain ⟨h1, h2, h3⟩ := ih h
      refine ⟨by rw [h1]; simp [hr, stickyOf, Bool.and_assoc], ?_, grow h3⟩
      intro r' hr'
      rcases List.mem_cons.1 hr' with rfl | hr'
      · rw [hr]; exact ⟨by simp, by simp⟩
      · exact h2 r' hr'
    | ambiguous n =>
      rw [hr] at h
      obtain ⟨h1, h2, h3⟩ := ih h
      refine ⟨by rw [h1]; simp [hr, stickyOf], ?_, grow h3⟩
      intro r' hr'
      rcases List.mem_cons.1 hr' with rfl | hr'
      · rw [hr]; exact ⟨by simp, by simp⟩
      · exact h2 r' hr'
    | hit nd u n st =>
      rw [hr] at h
      simp only at h
      cases ha : altsAt run flag l rs (max look n) (sticky && st) with
      | oof => rw [ha] at h; cases h
      | risky => rw [ha] at h; cases h
      | ok hs lk sk =>
        rw [ha] at h
        simp only [Alts.ok.injEq] at h
        obtain ⟨rfl, rfl, rfl⟩ := h
        obtain ⟨h1, h2, h3⟩ := ih ha
        refine ⟨by rw [h1]; simp [hr, stickyOf, Bool.and_assoc], ?_, ?_⟩
        · intro r' hr'
          rcases List.mem_cons.1 hr' with rfl | hr'
          · rw [hr]; exact ⟨by simp, by simp⟩
          · exact h2 r' hr'
        · intro h hm
          rcases List.mem_cons.1 hm with rfl | hm
          · exact ⟨[], r, rs, n, rfl, hr⟩
          · exact grow h3 h hm

theorem choiceAt_sticky {run : Runner} {b : RuleBase} {flag : Int} {l : List Rune} {gs : List (List Rule)} :
    ∀ {look sticky nd u n st}, choiceAt run b flag l gs look sticky = .hit nd u n st →
    ∃ gs1 rs1 r rs2 gs2 nd0 n0 st0, gs = gs1 ++ (rs1 ++ r :: rs2) :: gs2 ∧ run r flag l = .hit nd0 u n0 st0 ∧
      st = (sticky && (st0 && (gs1.flatten ++ rs1 ++ rs2).all (fun r => stickyOf (run r flag l)))) ∧
      nd = inner .choice b st [nd0] ∧ ∀ r' ∈ gs1.flatten ++ rs1 ++ rs2, run r' flag l ≠ .oof ∧ run r' flag l ≠ .risky := by
  induction gs with
  | nil => intro look sticky nd u n st h; cases h
  | cons g gs ih =>
    intro look sticky nd u n st h
    rw [choiceAt] at h
    cases ha : altsAt run flag l g look sticky with
    | oof => rw [ha] at h; cases h
    | risky => rw [ha] at h; cases h
    | ok hits look' sticky' =>
      rw [ha] at h
      simp only at h
      obtain ⟨h1, h2, h3⟩ := altsAt_sticky ha
      cases hb : best hits with
      | tie => rw [hb] at h; cases h
      | order => rw [hb] at h; cases h
      | none =>
        rw [hb] at h
        obtain ⟨gs1, rs1, r, rs2, gs2, nd0, n0, st0, e1, e2, e3, e4, e5⟩ := ih h
        refine ⟨g :: gs1, rs1, r, rs2, gs2, nd0, n0, st0, by rw [e1]; rfl, e2, ?_, e4, ?_⟩
        · rw [e3, h1]
          simp only [List.flatten_cons, List.all_append, Bool.and_assoc]
          cases sticky <;> cases st0 <;> simp
        · intro r' hr'
          simp only [List.flatten_cons, List.append_assoc, List.mem_append] at hr' e5
          rcases hr' with hr' | hr'
          · exact h2 r' hr'
          · exact e5 r' hr'
      | one nd0 u0 st0 =>
        rw [hb] at h
        simp only [Ans.hit.injEq] at h
        obtain ⟨rfl, rfl, rfl, rfl⟩ := h
        obtain ⟨rs1, r, rs2, n0, e1, e2⟩ := h3 _ (best_mem hb)
        refine ⟨[], rs1, r, rs2, gs, nd0, n0, st0, by rw [e1]; rfl, e2, ?_, rfl, ?_⟩
        · rw [h1, e1]
          simp only [List.flatten_nil, List.nil_append, List.all_append, List.all_cons, e2, stickyOf]
          cases sticky <;> cases st0 <;> simp
        · intro r' hr'
          apply h2
          rw [e1]
          simp only [List.flatten_nil, List.nil_append, List.mem_append, List.mem_cons] at hr' ⊢
          rcases hr' with h | h <;> simp [h]

/-- Every match of the reference semantics is in the language. -/
theorem run_derives {fuel : Nat} : ∀ {r flag l nd u n st}, Valid l → Spec.run env fuel r flag l = .hit nd u n st →
    Derives env (.one r) flag l [nd] u st := by
  induction fuel with
  | zero => intro r flag l nd u n st _ h; cases h
  | succ fuel ih =>
    intro r flag l nd u n st hv h
    have hm := matches_of_run hv h
    cases r with
    | eof b => exact .terminal rfl hm
    | char b t x => exact .terminal rfl hm
    | range b x xu y yu => exact .terminal rfl hm
    | chars b t => exact .terminal rfl hm
    | str b t => exact .terminal rfl hm
    | group b r =>
      rw [Spec.run] at h
      cases hr : Spec.run env fuel r flag l with
      | hit nd0 u0 n0 st0 =>
        simp only [hr, Ans.hit.injEq] at h
        obtain ⟨rfl, rfl, rfl, rfl⟩ := h
        exact .group (ih hv hr)
      | _ => simp [hr] at h
    | option b r =>
      rw [Spec.run] at h
      cases hr : Spec.run env fuel r flag l with
      | hit nd0 u0 n0 st0 =>
        simp only [hr, Ans.hit.injEq] at h
        obtain ⟨rfl, rfl, rfl, rfl⟩ := h
        exact .present (ih hv hr)
      | fail n0 st0 =>
        simp only [hr, Ans.hit.injEq] at h
        obtain ⟨rfl, rfl, rfl, rfl⟩ := h
        exact .absent fun st' hst => misses_det (misses_of_run hv hr) hst
      | _ => simp [hr] at h
    | ref b name =>
      rw [Spec.run] at h
      cases he : env name with
      | none => simp [he] at h
      | some r =>
        cases hr : Spec.run env fuel r flag l with
        | hit nd0 u0 n0 st0 =>
          simp only [he, hr, Ans.hit.injEq] at h
          obtain ⟨rfl, rfl, rfl, rfl⟩ := h
          exact .ref he (ih hv hr)
        | _ => simp [he, hr] at h
    | block b o v c e xs =>
      rw [Spec.run] at h
      cases hr : Spec.run env fuel o flag l with
      | hit nd0 u0 n0 st0 => exact .block hm (ih hv hr)
      | _ => simp [hr] at h
    | choice b gs =>
      rw [Spec.run] at h
      obtain ⟨gs1, rs1, r, rs2, gs2, nd0, n0, st0, rfl, e2, e3, rfl, e5⟩ := choiceAt_sticky h
      rw [Bool.true_and] at e3
      subst e3
      refine .choice (ih hv e2) _ ?_
      intro r' hr' st' hst
      obtain ⟨h1, h2⟩ := e5 r' hr'
      cases hx : Spec.run env fuel r' flag l with
      | oof => exact absurd hx h1
      | risky => exact absurd hx h2
      | fail n st => exact misses_det (misses_of_run hv hx) hst
      | ambiguous n => exact misses_det (misses_of_ambiguous hv hx) hst
      | hit nd u n st => exact (matches_not_fails (matches_of_run hv hx) (misses_fails hst)).elim
    | concat b rs =>
      rw [Spec.run] at h
      have key : ∀ (rs : List Rule) (pos look : Nat) (sticky : Bool) (flag : Int) (nodes : List Node),
          seqAt (Spec.run env fuel) b l rs pos look sticky flag nodes = .hit nd u n st →
          ∃ nds v st', Derives env (.parts rs) flag (l.drop pos) nds v st' ∧ u = pos + v ∧ st = (sticky && st') ∧
            nd = inner .concatenate b st (nodes ++ nds) := by
        intro rs
        induction rs with
        | nil =>
          intro pos look sticky flag nodes h
          simp only [seqAt, Ans.hit.injEq] at h
          obtain ⟨rfl, rfl, rfl, rfl⟩ := h
          exact ⟨[], 0, true, .done, rfl, by simp, by simp⟩
        | cons r rs ihs =>
          intro pos look sticky flag nodes h
          rw [seqAt] at h
          cases hr : Spec.run env fuel r flag (l.drop pos) with
          | hit nd0 u0 n0 st0 =>
            simp only [hr] at h
            split at h
            · cases h
            · obtain ⟨nds, v, st', e1, e2, e3, e4⟩ := ihs _ _ _ _ _ h
              rw [← List.drop_drop] at e1
              exact ⟨nd0 :: nds, u0 + v, st0 && st', .next (ih (hv.drop pos) hr) e1, by omega,
                by rw [e3, Bool.and_assoc], by rw [e4]; simp⟩
          | _ => simp [hr] at h
      obtain ⟨nds, v, st', e1, e2, e3, e4⟩ := key rs _ _ _ _ _ h
      rw [Nat.zero_add] at e2
      rw [Bool.true_and] at e3
      subst e2 e3 e4
      exact .concat e1
    | rep b r mn mx =>
      rw [Spec.run] at h
      have key : ∀ (k pos look : Nat) (sticky : Bool) (nodes : List Node), (mx = 0 ∨ nodes.length < mx) →
          repAt (Spec.run env fuel) b r mn mx flag l k pos look sticky nodes = .hit nd u n st →
          ∃ nds v st' last, Derives env (.rounds r) flag (l.drop pos) nds v st' ∧ u = pos + v ∧
            mn ≤ nodes.length + nds.length ∧ (mx = 0 ∨ nodes.length + nds.length ≤ mx) ∧
            (if (0 < mx ∧ nodes.length + nds.length = mx) ∨ l.drop u = [] then last = true
               else ∀ st', Misses env r flag (l.drop u) st' → last = st') ∧
            st = (sticky && (st' && last)) ∧ nd = inner .repetition b st (nodes ++ nds) := by
        intro k
        induction k with
        | zero => intro pos look sticky nodes _ h; cases h
        | succ k ihk =>
          intro pos look sticky nodes hmx h
          rw [repAt] at h
          split at h
          · rename_i hnil
            unfold repEnd at h
            split at h
            · cases h
            · simp only [Ans.hit.injEq] at h
              obtain ⟨rfl, rfl, rfl, rfl⟩ := h
              exact ⟨[], 0, true, true, .stop, rfl, by simp; omega, by simp; omega,
                by rw [if_pos (.inr hnil)], by simp, by simp⟩
          · rename_i hne
            cases hr : Spec.run env fuel r flag (l.drop pos) with
            | oof => simp [hr] at h
            | risky => simp [hr] at h
            | ambiguous n0 => simp [hr] at h
            | fail n0 st0 =>
              simp only [hr] at h
              unfold repEnd at h
              split at h
              · cases h
              · simp only [Ans.hit.injEq] at h
                obtain ⟨rfl, rfl, rfl, rfl⟩ := h
                refine ⟨[], 0, true, st0, .stop, rfl, by simp; omega, by simp; omega, ?_, by simp, by simp⟩
                rw [if_neg]
                · exact fun st' hst => misses_det (misses_of_run (hv.drop pos) hr) hst
                · rintro (⟨h1, h2⟩ | h)
                  · simp at h2; omega
                  · exact hne h
            | hit nd0 u0 n0 st0 =>
              simp only [hr] at h
              split at h
              · rename_i hmax
                split at h
                · cases h
                · unfold repEnd at h
                  split at h
                  · cases h
                  · simp only [Ans.hit.injEq] at h
                    obtain ⟨rfl, rfl, rfl, rfl⟩ := h
                    rename_i hmn
                    simp only [List.length_append, List.length_cons, List.length_nil] at hmn
                    refine ⟨[nd0], u0 + 0, st0 && true, true, .again hne (ih (hv.drop pos) hr) .stop, by omega,
                      by simp; omega, by simp; omega, ?_, by simp, by simp⟩
                    rw [if_pos (.inl ⟨hmax.1, by simpa using hmax.2⟩)]
              · rename_i hmax
                split at h
                · cases h
                · obtain ⟨nds, v, st', last, e1, e2, e3, e4, e5, e6, e7⟩ := ihk _ _ _ _ (by
                    simp only [List.length_append, List.length_cons, List.length_nil]
                    by_cases h0 : mx = 0
                    · exact .inl h0
                    · right
                      have : ¬ (nodes.length + 1 = mx) := fun he => hmax ⟨by omega, he⟩
                      omega) h
                  simp only [List.length_append, List.length_cons, List.length_nil] at e3 e4 e5
                  rw [← List.drop_drop] at e1
                  refine ⟨nd0 :: nds, u0 + v, st0 && st', last, .again hne (ih (hv.drop pos) hr) e1, by omega,
                    by simp; omega, by simp; omega, ?_, by rw [e6]; simp [Bool.and_assoc], by rw [e7]; simp⟩
                  simpa [Nat.add_assoc, Nat.add_comm 1] using e5
      obtain ⟨nds, v, st', last, e1, e2, e3, e4, e5, e6, e7⟩ := key _ _ _ _ _ (by simp; omega) h
      simp only [List.length_nil, Nat.zero_add, List.nil_append, Bool.true_and] at e2 e3 e4 e5 e6 e7
      subst e2 e6 e7
      exact .rep e1 e3 e4 e5

/-! ### With which characters what is in the language can begin -/

/-- The sets are right for the named rules, and one character decides in them. -/
def Decided (t : Sets) (env : Env) : Prop :=
  ∀ name r, env name = some r → (nulB t.nullable r = true → t.nullable.contains name = true) ∧
    Sets.within (t.firstOf r) (t.firstGet name) = true ∧ Sets.within (t.moreOf r) (t.moreGet name) = true ∧
    t.decides r = true

theorem has_within {a b : CharSet} (h : Sets.within a b = true) {c : Rune} (hc : a.has c = true) : b.has c = true := by
  unfold CharSet.has at *
  rw [List.any_eq_true] at *
  obtain ⟨i, hi, h1⟩ := hc
  exact ⟨i, by simpa using List.all_eq_true.1 h i hi, h1⟩

theorem begins_within {a b : CharSet} (h : Sets.within a b = true) {l : List Rune} (hc : begins a l = true) :
    begins b l = true := by
  unfold begins at *
  split at hc
  · cases hc
  · exact has_within h hc

theorem blanks_drop {l : List Rune} (h : blanks l = l.length) (u : Nat) : blanks (l.drop u) = (l.drop u).length := by
  have hall : ∀ c ∈ l, isWhiteSpace c = true := by
    have : l.takeWhile isWhiteSpace = l := (List.takeWhile_prefix _).eq_of_length h
    intro c hc
    rw [← this] at hc
    exact List.all_eq_true.1 List.all_takeWhile c hc
  have key : ∀ m : List Rune, (∀ c ∈ m, isWhiteSpace c = true) → m.takeWhile isWhiteSpace = m := by
    intro m hm
    induction m with
    | nil => rfl
    | cons c m ih =>
      rw [List.takeWhile_cons, if_pos (hm c (by simp)), ih fun c hc => hm c (List.mem_cons_of_mem _ hc)]
  unfold blanks
  rw [key _ fun c hc => hall c (List.mem_of_mem_drop hc)]

/-- What the parser says agrees with what can be read, unless it did not say anything or got into one of
the situations of Spec/Peg.lean. -/
def Found (nd : Node) (u : Nat) (st : Bool) : Ans → Prop
  | .oof | .risky => True
  | .fail _ _ | .ambiguous _ => False
  | .hit nd' u' _ st' => nd' = nd ∧ u' = u ∧ st' = st

theorem found_of_matches {fuel : Nat} {r : Rule} {flag : Int} {l : List Rune} (hv : Valid l) {nd u st}
    (h : Matches env r flag l nd u st) : Found nd u st (Spec.run env fuel r flag l) := by
  cases hr : Spec.run env fuel r flag l with
  | oof => trivial
  | risky => trivial
  | fail n st => exact matches_not_fails h (fails_of_run hv (.inl ⟨_, _, hr⟩))
  | ambiguous n => exact matches_not_fails h (fails_of_run hv (.inr ⟨_, hr⟩))
  | hit nd' u' n st' => exact matches_det (matches_of_run hv hr) h

/-- A terminal whose shape is known begins as its shape says. -/
theorem terminal_begins {r : Rule} {flag : Int} {l : List Rune} (hv : Valid l) (ht : Tidy l) {nd u st}
    (hm : Matches env r flag l nd u st) (htm : terminal r = true) {s : Shape}
    (hs : shapeOf (fun _ _ => none) r flag = some s) (hn : s.null = false) :
    begins s.first l = true ∨ (s.eof = true ∧ blanks l = l.length) := by
  have hf := Shape.run_fits (T := fun _ _ => none) (env := env) (by intro _ _ _ h; cases h) 1 r flag s hs l ht
  have hg := found_of_matches (fuel := 1) hv hm
  cases hr : Spec.run env 1 r flag l with
  | oof =>
    exfalso
    have h1 : ∀ rt b skip p, oneAt rt b skip p l ≠ .oof := by
      intro rt b skip p h
      unfold oneAt at h
      simp only at h
      split at h
      · cases h
      · split at h
        · cases h
        · split at h <;> cases h
    have h2 : ∀ rt b s skip text, textAt rt b s skip text l ≠ .oof := by
      intro rt b s skip text h
      unfold textAt at h
      simp only at h
      repeat' split at h
      all_goals cases h
    cases r <;> try (cases htm; done)
    all_goals simp only [Spec.run] at hr
    · unfold eofAt at hr
      simp only at hr
      split at hr <;> cases hr
    · split at hr
      · cases hr
      · exact h1 _ _ _ _ hr
    · split at hr
      · cases hr
      · exact h1 _ _ _ _ hr
    · exact h2 _ _ _ _ _ hr
    · exact h2 _ _ _ _ _ hr
  | risky => rw [hr] at hf; exact hf.elim
  | fail n st => rw [hr] at hg; exact hg.elim
  | ambiguous n => rw [hr] at hg; exact hg.elim
  | hit nd' u' n st' =>
    rw [hr] at hf
    rcases hf with ⟨h, _⟩ | ⟨⟨h | h, _⟩, _⟩
    · rw [hn] at h; cases h
    · exact .inl h.1
    · exact .inr ⟨h.1, h.2.1⟩

/-- With which characters a reading of the goal can begin. -/
def Begins (t : Sets) (l : List Rune) (nds : List Node) (u : Nat) : Goal → Prop
  | .one r => t.decides r = true →
      begins (t.firstOf r) l = true ∨ (nulB t.nullable r = true ∧ (u = 0 ∨ blanks l = l.length))
  | .parts rs => t.decidesSeq rs = true →
      begins (t.firstSeq rs) l = true ∨ (nulAll t.nullable rs = true ∧ (u = 0 ∨ blanks l = l.length))
  | .rounds r => t.decides r = true → nulB t.nullable r = false →
      begins (t.firstOf r) l = true ∨ (nds = [] ∧ u = 0)

theorem firstL_mem {t : Sets} {rs : List Rule} {r : Rule} (h : r ∈ rs) {l : List Rune}
    (hb : begins (t.firstOf r) l = true) : begins (t.firstL rs) l = true := by
  induction rs with
  | nil => cases h
  | cons r' rs ih =>
    rw [Sets.firstL, Shape.begins_union]
    rcases List.mem_cons.1 h with rfl | h
    · simp [hb]
    · simp [ih h]

theorem firstLL_mem {t : Sets} {gs : List (List Rule)} {r : Rule} (h : r ∈ gs.flatten) {l : List Rune}
    (hb : begins (t.firstOf r) l = true) : begins (t.firstLL gs) l = true := by
  induction gs with
  | nil => cases h
  | cons g gs ih =>
    rw [Sets.firstLL, Shape.begins_union]
    rw [List.flatten_cons, List.mem_append] at h
    rcases h with h | h
    · simp [firstL_mem h hb]
    · simp [ih h]

theorem moreL_mem {t : Sets} {rs : List Rule} {r : Rule} (h : r ∈ rs) {l : List Rune}
    (hb : begins (t.moreOf r) l = true) : begins (t.moreL rs) l = true := by
  induction rs with
  | nil => cases h
  | cons r' rs ih =>
    rw [Sets.moreL, Shape.begins_union]
    rcases List.mem_cons.1 h with rfl | h
    · simp [hb]
    · simp [ih h]

theorem moreLL_mem {t : Sets} {gs : List (List Rule)} {r : Rule} (h : r ∈ gs.flatten) {l : List Rune}
    (hb : begins (t.moreOf r) l = true) : begins (t.moreLL gs) l = true := by
  induction gs with
  | nil => cases h
  | cons g gs ih =>
    rw [Sets.moreLL, Shape.begins_union]
    rw [List.flatten_cons, List.mem_append] at h
    rcases h with h | h
    · simp [moreL_mem h hb]
    · simp [ih h]

theorem decidesL_mem {t : Sets} {rs : List Rule} (hd : t.decidesL rs = true) {r : Rule} (h : r ∈ rs) : t.decides r = true := by
  induction rs with
  | nil => cases h
  | cons r' rs ih =>
    rw [Sets.decidesL, Bool.and_eq_true] at hd
    rcases List.mem_cons.1 h with rfl | h
    · exact hd.1
    · exact ih hd.2 h

theorem decidesLL_mem {t : Sets} {gs : List (List Rule)} (hd : t.decidesLL gs = true) {r : Rule} (h : r ∈ gs.flatten) :
    t.decides r = true := by
  induction gs with
  | nil => cases h
  | cons g gs ih =>
    rw [Sets.decidesLL, Bool.and_eq_true] at hd
    rw [List.flatten_cons, List.mem_append] at h
    rcases h with h | h
    · exact decidesL_mem hd.1 h
    · exact ih hd.2 h

theorem differ_mem {t : Sets} {rs : List Rule} (hd : t.differ rs = true) {r : Rule} (h : r ∈ rs) :
    nulB t.nullable r = false := by
  induction rs with
  | nil => cases h
  | cons r' rs ih =>
    simp only [Sets.differ, Bool.and_eq_true, Bool.not_eq_true'] at hd
    rcases List.mem_cons.1 h with rfl | h
    · exact hd.1.1
    · exact ih hd.2 h

theorem differ_apart {t : Sets} {as bs : List Rule} {r : Rule} (hd : t.differ (as ++ r :: bs) = true) :
    ∀ r' ∈ as ++ bs, (t.firstOf r).apart (t.firstOf r') = true := by
  induction as with
  | nil =>
    simp only [List.nil_append, Sets.differ, Bool.and_eq_true, List.all_eq_true] at hd
    exact hd.1.2
  | cons a as ih =>
    simp only [List.cons_append, Sets.differ, Bool.and_eq_true, List.all_eq_true] at hd
    intro r' hr'
    rcases List.mem_cons.1 hr' with rfl | hr'
    · exact Shape.apart_symm (hd.1.2 r (by simp))
    · exact ih hd.2 r' hr'

theorem begins_of_derives {t : Sets} (hD : Decided t env) {g flag l nds u st} (h : Derives env g flag l nds u st) :
    Valid l → Tidy l → Begins t l nds u g := by
  induction h with
  | @terminal r flag l nd u st htm hm =>
    intro hv ht hd
    cases r <;> try (cases htm; done)
    · have := terminal_begins hv ht hm htm (by rw [shapeOf]) rfl
      rcases this with h | h
      · rw [Shape.begins_nil] at h; cases h
      · exact .inr ⟨rfl, .inr h.2⟩
    · rename_i b c us
      simp only [Sets.decides, decide_eq_true_eq] at hd
      have := terminal_begins hv ht hm htm (by rw [shapeOf, oneShape, if_pos hd]) rfl
      simpa [Sets.firstOf, nulB] using this
    · rename_i b x xu y yu
      simp only [Sets.decides, decide_eq_true_eq] at hd
      have := terminal_begins hv ht hm htm (by rw [shapeOf, oneShape, if_pos hd]) rfl
      simpa [Sets.firstOf, nulB] using this
    · rename_i b s
      cases s with
      | nil => cases hd
      | cons c s =>
        simp only [Sets.decides, Bool.and_eq_true, decide_eq_true_eq, Bool.not_eq_true'] at hd
        have := terminal_begins hv ht hm htm (by rw [shapeOf, textShape, if_pos hd]) rfl
        simpa [Sets.firstOf, nulB] using this
    · rename_i b s
      cases s with
      | nil => cases hd
      | cons c s =>
        simp only [Sets.decides, Bool.and_eq_true, decide_eq_true_eq, Bool.not_eq_true'] at hd
        have := terminal_begins hv ht hm htm (by rw [shapeOf, textShape, if_pos hd]) rfl
        simpa [Sets.firstOf, nulB] using this
  | block hm ho ih =>
    intro hv ht hd
    simp only [Sets.decides, Bool.and_eq_true, Bool.not_eq_true'] at hd
    rcases ih hv ht hd.1 with h | h
    · exact .inl h
    · rw [hd.2] at h; cases h.1
  | group h ih => exact ih
  | present h ih =>
    intro hv ht hd
    simp only [Sets.decides, Bool.and_eq_true, Bool.not_eq_true'] at hd
    rcases ih hv ht hd.1 with h | h
    · exact .inl h
    · rw [hd.2] at h; cases h.1
  | absent hst => exact fun _ _ _ => .inr ⟨rfl, .inl rfl⟩
  | @choice b gs1 rs1 r rs2 gs2 flag l nd u st h f hf ih =>
    intro hv ht hd
    simp only [Sets.decides, Bool.and_eq_true] at hd
    have hm : r ∈ (gs1 ++ (rs1 ++ r :: rs2) :: gs2).flatten := by simp
    rcases ih hv ht (decidesLL_mem hd.1 hm) with h | h
    · exact .inl (firstLL_mem hm h)
    · rw [differ_mem hd.2 hm] at h; cases h.1
  | concat h ih => exact ih
  | @rep b r mn mx flag l nds u st last h hmn hmx hlast ih =>
    intro hv ht hd
    simp only [Sets.decides, Bool.and_eq_true, Bool.not_eq_true'] at hd
    rcases ih hv ht hd.1.1 hd.1.2 with h | ⟨rfl, rfl⟩
    · exact .inl h
    · have : mn = 0 := by simpa using hmn
      exact .inr ⟨by simp [nulB, this], .inl rfl⟩
  | ref hr h ih =>
    intro hv ht _
    obtain ⟨h1, h2, _, h4⟩ := hD _ _ hr
    exact (ih hv ht h4).imp (begins_within h2) (fun h => ⟨h1 h.1, h.2⟩)
  | done => exact fun _ _ _ => .inr ⟨rfl, .inl rfl⟩
  | @next r rs flag l nd u st nds v st' h hs ih ihs =>
    intro hv ht hd
    simp only [Sets.decidesSeq, Bool.and_eq_true] at hd
    have key : ∀ {l'}, begins (t.firstOf r) l' = true → begins (t.firstSeq (r :: rs)) l' = true := by
      intro l' h
      rw [Sets.firstSeq]
      split
      · rw [Shape.begins_union]; simp [h]
      · exact h
    rcases ih hv ht hd.1.1 with h | ⟨hn, h⟩
    · exact .inl (key h)
    · have hall : nulAll t.nullable rs = true → nulAll t.nullable (r :: rs) = true := by
        intro h; rw [nulAll, hn, h]; rfl
      have h2 := ihs (hv.drop u) (ht.drop u) hd.2
      rcases h with rfl | h
      · rw [List.drop_zero] at h2
        rcases h2 with h2 | ⟨h2, h3⟩
        · left
          rw [Sets.firstSeq, if_pos hn, Shape.begins_union]; simp [h2]
        · exact .inr ⟨hall h2, by omega⟩
      · rcases h2 with h2 | ⟨h2, h3⟩
        · rw [Shape.begins_all_blank (blanks_drop h u)] at h2; cases h2
        · exact .inr ⟨hall h2, .inr h⟩
  | stop => exact fun _ _ _ _ => .inr ⟨rfl, rfl⟩
  | again hl h hs ih ihs =>
    intro hv ht hd hn
    rcases ih hv ht hd with h | h
    · exact .inl h
    · rw [hn] at h; cases h.1

/-- A match of a rule that is never empty begins with one of its characters. -/
theorem hit_begins {t : Sets} (hD : Decided t env) {r : Rule} (hd : t.decides r = true) (hn : nulB t.nullable r = false)
    {fuel : Nat} {flag : Int} {l : List Rune} (hv : Valid l) (ht : Tidy l) {nd u n st}
    (h : Spec.run env fuel r flag l = .hit nd u n st) : begins (t.firstOf r) l = true := by
  rcases begins_of_derives hD (run_derives hv h) hv ht hd with h | h
  · exact h
  · rw [hn] at h; cases h.1

/-! ### What is in the language is found -/

/-- The rule did not match; `f` is right about the stickiness it reports, if it reports any. -/
def Says (f : Rule → Bool) (r : Rule) : Ans → Prop
  | .oof | .risky => True
  | .fail _ st => f r = st
  | .ambiguous _ => f r = false
  | .hit _ _ _ _ => False

theorem altsAt_none {run : Runner} {flag : Int} {l : List Rune} {f : Rule → Bool} {rs : List Rule}
    (h : ∀ r ∈ rs, Says f r (run r flag l)) : ∀ {look sticky},
    altsAt run flag l rs look sticky = .oof ∨ altsAt run flag l rs look sticky = .risky ∨
    ∃ look', altsAt run flag l rs look sticky = .ok [] look' (sticky && rs.all f) := by
  induction rs with
  | nil => intro look sticky; exact .inr (.inr ⟨look, by simp [altsAt]⟩)
  | cons r rs ih =>
    intro look sticky
    have ih := @ih (fun r' hr' => h r' (List.mem_cons_of_mem _ hr'))
    have hr0 := h r (by simp)
    rw [altsAt]
    cases hr : run r flag l <;> rw [hr] at hr0
    · exact .inl rfl
    · exact .inr (.inl rfl)
    · rename_i n st
      have hr0 : f r = st := hr0
      simpa [hr0, Bool.and_assoc] using @ih (max look n) (sticky && st)
    · rename_i n
      have hr0 : f r = false := hr0
      simpa [hr0] using @ih (max look n) false
    · exact hr0.elim

theorem altsAt_only {run : Runner} {flag : Int} {l : List Rune} {f : Rule → Bool} {rs1 rs2 : List Rule} {r : Rule} {nd : Node}
    {u : Nat} {st : Bool} (hf : Found nd u st (run r flag l))
    (h : ∀ r ∈ rs1 ++ rs2, Says f r (run r flag l)) : ∀ {look sticky},
    altsAt run flag l (rs1 ++ r :: rs2) look sticky = .oof ∨ altsAt run flag l (rs1 ++ r :: rs2) look sticky = .risky ∨
    ∃ look', altsAt run flag l (rs1 ++ r :: rs2) look sticky =
      .ok [(nd, u, st)] look' (sticky && (st && (rs1 ++ rs2).all f)) := by
  induction rs1 with
  | nil =>
    intro look sticky
    rw [List.nil_append, altsAt]
    cases hr : run r flag l with
    | oof => exact .inl rfl
    | risky => exact .inr (.inl rfl)
    | fail n st => rw [hr] at hf; exact hf.elim
    | ambiguous n => rw [hr] at hf; exact hf.elim
    | hit nd' u' n st' =>
      rw [hr] at hf
      obtain ⟨rfl, rfl, rfl⟩ := hf
      simp only
      rcases @altsAt_none run flag l f rs2 h (max look n) (sticky && st') with h | h | ⟨look', h⟩ <;> rw [h]
      · exact .inl rfl
      · exact .inr (.inl rfl)
      · exact .inr (.inr ⟨look', by simp [Bool.and_assoc]⟩)
  | cons r' rs1 ih =>
    intro look sticky
    have ih := @ih (fun r' hr' => h r' (List.mem_cons_of_mem _ hr'))
    have hr0 := h r' (by simp)
    rw [List.cons_append, altsAt]
    cases hr : run r' flag l <;> rw [hr] at hr0
    · exact .inl rfl
    · exact .inr (.inl rfl)
    · rename_i n st0
      have hr0 : f r' = st0 := hr0
      have := @ih (max look n) (sticky && st0)
      have e : (sticky && (st && (r' :: rs1 ++ rs2).all f)) = (sticky && st0 && (st && (rs1 ++ rs2).all f)) := by
        rw [List.cons_append, List.all_cons, hr0]
        cases sticky <;> cases st <;> cases st0 <;> rfl
      rw [e]; exact this
    · rename_i n
      have hr0 : f r' = false := hr0
      have := @ih (max look n) false
      have e : (sticky && (st && (r' :: rs1 ++ rs2).all f)) = false := by
        rw [List.cons_append, List.all_cons, hr0]; simp
      rw [e]; simpa using this
    · exact hr0.elim

theorem choiceAt_only {run : Runner} {b : RuleBase} {flag : Int} {l : List Rune} {f : Rule → Bool} {gs1 gs2 : List (List Rule)}
    {rs1 rs2 : List Rule} {r : Rule} {nd : Node} {u : Nat} {st : Bool} (hf : Found nd u st (run r flag l))
    (h : ∀ r ∈ gs1.flatten ++ rs1 ++ rs2, Says f r (run r flag l)) : ∀ {look sticky},
    Found (inner .choice b (sticky && (st && (gs1.flatten ++ rs1 ++ rs2).all f)) [nd]) u
      (sticky && (st && (gs1.flatten ++ rs1 ++ rs2).all f))
      (choiceAt run b flag l (gs1 ++ (rs1 ++ r :: rs2) :: gs2) look sticky) := by
  induction gs1 with
  | nil =>
    intro look sticky
    rw [List.nil_append, choiceAt]
    rcases @altsAt_only run flag l f rs1 rs2 r nd u st hf h look sticky with h | h | ⟨look', h⟩ <;> rw [h]
    · trivial
    · trivial
    · simp only [Shape.best_one]
      exact ⟨rfl, rfl, rfl⟩
  | cons g gs1 ih =>
    intro look sticky
    have ih := @ih (fun r' hr' => h r' (by
      simp only [List.flatten_cons, List.append_assoc, List.mem_append] at hr' ⊢
      exact .inr hr'))
    rw [List.cons_append, choiceAt]
    rcases @altsAt_none run flag l f g (fun r' hr' => h r' (by simp [hr'])) look sticky with h | h | ⟨look', h⟩ <;> rw [h]
    · trivial
    · trivial
    · have hb : best [] = .none := rfl
      simp only [hb]
      have := @ih look' (sticky && g.all f)
      have e : (sticky && (st && ((g :: gs1).flatten ++ rs1 ++ rs2).all f)) =
          (sticky && g.all f && (st && (gs1.flatten ++ rs1 ++ rs2).all f)) := by
        simp only [List.flatten_cons, List.append_assoc, List.all_append]
        cases sticky <;> cases st <;> simp
      rw [e]; exact this

/-- What can be read is found, unless it could go on. -/
def Reached (env : Env) (t : Sets) (flag : Int) (l : List Rune) (nds : List Node) (u : Nat) (st : Bool) : Goal → Prop
  | .one r => t.decides r = true → (∀ fuel, ∀ nd ∈ nds, Found nd u st (Spec.run env fuel r flag l)) ∨
      begins (t.moreOf r) (l.drop u) = true
  | .parts rs => t.decidesSeq rs = true → (∀ fuel b L pos look sticky nodes, L.drop pos = l →
      Found (inner .concatenate b (sticky && st) (nodes ++ nds)) (pos + u) (sticky && st)
        (seqAt (Spec.run env fuel) b L rs pos look sticky flag nodes)) ∨ begins (t.moreSeq rs) (l.drop u) = true
  | .rounds r => t.decides r = true → nulB t.nullable r = false → (t.firstOf r).apart (t.moreOf r) = true →
      (∀ fuel b mn mx L k pos look sticky nodes last, L.drop pos = l → (mx = 0 ∨ nodes.length < mx) →
        mn ≤ nodes.length + nds.length → (mx = 0 ∨ nodes.length + nds.length ≤ mx) →
        (if (0 < mx ∧ nodes.length + nds.length = mx) ∨ l.drop u = [] then last = true
            else ∀ st', Misses env r flag (l.drop u) st' → last = st') →
        Found (inner .repetition b (sticky && (st && last)) (nodes ++ nds)) (pos + u) (sticky && (st && last))
          (repAt (Spec.run env fuel) b r mn mx flag L k pos look sticky nodes)) ∨
      begins ((t.firstOf r).union (t.moreOf r)) (l.drop u) = true

theorem reached_of_derives {t : Sets} (hD : Decided t env) {g flag l nds u st} (h : Derives env g flag l nds u st) :
    Valid l → Tidy l → Reached env t flag l nds u st g := by
  induction h with
  | terminal htm hm =>
    intro hv ht hd
    refine .inl fun fuel nd hnd => ?_
    rw [List.mem_singleton.1 hnd]
    exact found_of_matches hv hm
  | block hm ho ih =>
    intro hv ht hd
    refine .inl fun fuel nd hnd => ?_
    rw [List.mem_singleton.1 hnd]
    exact found_of_matches hv hm
  | @group b r flag l nd u st h ih =>
    intro hv ht hd
    refine (ih hv ht hd).imp_left fun h fuel nd' hnd => ?_
    rw [List.mem_singleton.1 hnd]
    cases fuel with
    | zero => trivial
    | succ fuel =>
      have := h fuel nd (by simp)
      rw [Spec.run]
      cases hr : Spec.run env fuel r flag l <;> rw [hr] at this
      · trivial
      · trivial
      · exact this
      · exact this
      · obtain ⟨rfl, rfl, rfl⟩ := this; exact ⟨rfl, rfl, rfl⟩
  | @present b r flag l nd u st h ih =>
    intro hv ht hd
    simp only [Sets.decides, Bool.and_eq_true, Bool.not_eq_true'] at hd
    rcases ih hv ht hd.1 with h | h
    · refine .inl fun fuel nd' hnd => ?_
      rw [List.mem_singleton.1 hnd]
      cases fuel with
      | zero => trivial
      | succ fuel =>
        have := h fuel nd (by simp)
        rw [Spec.run]
        cases hr : Spec.run env fuel r flag l <;> rw [hr] at this
        · trivial
        · trivial
        · exact this.elim
        · exact this.elim
        · obtain ⟨rfl, rfl, rfl⟩ := this; exact ⟨rfl, rfl, rfl⟩
    · right
      rw [Sets.moreOf, Shape.begins_union]; simp [h]
  | @absent b r flag l st hst =>
    intro hv ht hd
    simp only [Sets.decides, Bool.and_eq_true, Bool.not_eq_true'] at hd
    by_cases hb : begins (t.firstOf r) l = true
    · right
      rw [Sets.moreOf, Shape.begins_union, List.drop_zero]; simp [hb]
    · refine .inl fun fuel nd' hnd => ?_
      rw [List.mem_singleton.1 hnd]
      cases fuel with
      | zero => trivial
      | succ fuel =>
        rw [Spec.run]
        cases hr : Spec.run env fuel r flag l with
        | oof => trivial
        | risky => trivial
        | ambiguous n => trivial
        | fail n st' =>
          have := hst _ (misses_of_run hv hr)
          subst this
          exact ⟨rfl, rfl, rfl⟩
        | hit nd u n st' => exact absurd (hit_begins hD hd.1 hd.2 hv ht hr) hb
  | @choice b gs1 rs1 r rs2 gs2 flag l nd u st h f hf ih =>
    intro hv ht hd
    simp only [Sets.decides, Bool.and_eq_true] at hd
    have hm : r ∈ (gs1 ++ (rs1 ++ r :: rs2) :: gs2).flatten := by simp
    rcases ih hv ht (decidesLL_mem hd.1 hm) with h' | h'
    · refine .inl fun fuel nd' hnd => ?_
      rw [List.mem_singleton.1 hnd]
      cases fuel with
      | zero => trivial
      | succ fuel =>
        rw [Spec.run]
        have hno : ∀ r' ∈ gs1.flatten ++ rs1 ++ rs2, ∀ nd u n st, Spec.run env fuel r' flag l ≠ .hit nd u n st := by
          intro r' hr' nd u n st he
          have hap := differ_apart (t := t) (as := gs1.flatten ++ rs1) (bs := rs2 ++ gs2.flatten) (r := r) (by
            have := hd.2; simpa using this) r' (by
              simp only [List.mem_append] at hr' ⊢
              rcases hr' with h | h
              · exact .inl h
              · exact .inr (.inl h))
          have hm' : r' ∈ (gs1 ++ (rs1 ++ r :: rs2) :: gs2).flatten := by
            simp only [List.mem_append] at hr'
            simp only [List.flatten_append, List.flatten_cons, List.mem_append, List.mem_cons]
            rcases hr' with (h | h) | h <;> simp [h]
          have h1 := hit_begins hD (decidesLL_mem hd.1 hm') (differ_mem hd.2 hm') hv ht he
          have h2 : begins (t.firstOf r) l = true := by
            rcases begins_of_derives hD h hv ht (decidesLL_mem hd.1 hm) with h | h
            · exact h
            · rw [differ_mem hd.2 hm] at h; cases h.1
          rw [Shape.begins_apart hap h2] at h1
          cases h1
        have hsays : ∀ r' ∈ gs1.flatten ++ rs1 ++ rs2, Says f r' (Spec.run env fuel r' flag l) := by
          intro r' hr'
          cases hx : Spec.run env fuel r' flag l with
          | oof => trivial
          | risky => trivial
          | fail n st => exact hf r' hr' _ (misses_of_run hv hx)
          | ambiguous n => exact hf r' hr' _ (misses_of_ambiguous hv hx)
          | hit nd u n st => exact absurd hx (hno r' hr' _ _ _ _)
        have := @choiceAt_only (Spec.run env fuel) b flag l f gs1 gs2 rs1 rs2 r nd u st (h' fuel nd (by simp)) hsays 0 true
        simpa using this
    · exact .inr (moreLL_mem hm h')
  | @concat b rs flag l nds u st h ih =>
    intro hv ht hd
    refine (ih hv ht hd).imp_left fun h fuel nd' hnd => ?_
    rw [List.mem_singleton.1 hnd]
    cases fuel with
    | zero => trivial
    | succ fuel =>
      rw [Spec.run]
      simpa using h fuel b l 0 0 true [] rfl
  | @rep b r mn mx flag l nds u st last h hmn hmx hlast ih =>
    intro hv ht hd
    simp only [Sets.decides, Bool.and_eq_true, Bool.not_eq_true'] at hd
    refine (ih hv ht hd.1.1 hd.1.2 hd.2).imp_left fun h fuel nd' hnd => ?_
    rw [List.mem_singleton.1 hnd]
    cases fuel with
    | zero => trivial
    | succ fuel =>
      rw [Spec.run]
      simpa using h fuel b mn mx l fuel 0 0 true [] last rfl (by simp; omega) (by simpa using hmn) (by simpa using hmx)
        (by simpa using hlast)
  | @ref b name r flag l nd u st hr h ih =>
    intro hv ht _
    obtain ⟨_, _, h3, h4⟩ := hD _ _ hr
    refine (ih hv ht h4).imp (fun h fuel nd' hnd => ?_) (begins_within h3)
    rw [List.mem_singleton.1 hnd]
    cases fuel with
    | zero => trivial
    | succ fuel =>
      have := h fuel nd (by simp)
      rw [Spec.run]
      simp only [hr]
      cases hx : Spec.run env fuel r flag l <;> rw [hx] at this
      · trivial
      · trivial
      · exact this
      · exact this
      · obtain ⟨rfl, rfl, rfl⟩ := this; exact ⟨rfl, rfl, rfl⟩
  | done =>
    intro hv ht _
    refine .inl fun fuel b L pos look sticky nodes hL => ?_
    rw [seqAt]
    exact ⟨by simp, by simp, by simp⟩
  | @next r rs flag l nd u st nds v st' h hs ih ihs =>
    intro hv ht hd
    simp only [Sets.decidesSeq, Bool.and_eq_true] at hd
    have ihs := ihs (hv.drop u) (ht.drop u) hd.2
    rw [← List.drop_drop]
    rcases ih hv ht hd.1.1 with h1 | h1
    · rcases ihs with h2 | h2
      · refine .inl fun fuel b L pos look sticky nodes hL => ?_
        have := h1 fuel nd (by simp)
        rw [seqAt, hL]
        cases hx : Spec.run env fuel r flag l <;> rw [hx] at this
        · trivial
        · trivial
        · exact this
        · exact this
        · rename_i nd u n st
          obtain ⟨rfl, rfl, rfl⟩ := this
          simp only
          split
          · trivial
          · have := h2 fuel b L (pos + u) (max look (pos + n)) (sticky && st) (nodes ++ [nd]) (by rw [← hL, List.drop_drop])
            simpa [Bool.and_assoc, Nat.add_assoc] using this
      · right
        rw [Sets.moreSeq]
        split
        · rw [Shape.begins_union, h2, Bool.or_true]
        · exact h2
    · rcases begins_of_derives hD hs (hv.drop u) (ht.drop u) hd.2 with h2 | ⟨h2, h3⟩
      · rw [Shape.begins_apart hd.1.2 h2] at h1; cases h1
      · rcases h3 with rfl | h3
        · right
          rw [Sets.moreSeq, if_pos h2, Shape.begins_union, List.drop_zero]; simp [h1]
        · rw [Shape.begins_all_blank h3] at h1; cases h1
  | @stop r flag l =>
    intro hv ht hd hn _
    by_cases hb : begins (t.firstOf r) l = true
    · right
      rw [Shape.begins_union, List.drop_zero]; simp [hb]
    · refine .inl fun fuel b mn mx L k pos look sticky nodes last hL hmx hmn hmx' hlast => ?_
      simp only [List.length_nil, Nat.add_zero, List.drop_zero] at hmn hmx' hlast
      cases k with
      | zero => trivial
      | succ k =>
        rw [repAt, hL]
        split
        · rename_i hnil
          rw [if_pos (.inr hnil)] at hlast
          subst hlast
          unfold repEnd
          rw [if_neg (by omega)]
          exact ⟨by simp, rfl, by simp⟩
        · rename_i hne
          cases hr : Spec.run env fuel r flag l with
          | oof => trivial
          | risky => trivial
          | ambiguous n => trivial
          | hit nd u n st => exact absurd (hit_begins hD hd hn hv ht hr) hb
          | fail n st =>
            rw [if_neg (by rintro (h | h)
                           · omega
                           · exact hne h)] at hlast
            have := hlast _ (misses_of_run hv hr)
            subst this
            simp only
            unfold repEnd
            rw [if_neg (by omega)]
            exact ⟨by simp, rfl, by simp⟩
  | @again r flag l nd u st nds v st' hl h hs ih ihs =>
    intro hv ht hd hn hap
    have ihs := ihs (hv.drop u) (ht.drop u) hd hn hap
    rw [← List.drop_drop]
    rcases ih hv ht hd with h1 | h1
    · rcases ihs with h2 | h2
      · refine .inl fun fuel b mn mx L k pos look sticky nodes last hL hmx hmn hmx' hlast => ?_
        cases k with
        | zero => trivial
        | succ k =>
          have := h1 fuel nd (by simp)
          rw [repAt, hL, if_neg hl]
          cases hx : Spec.run env fuel r flag l <;> rw [hx] at this
          · trivial
          · trivial
          · exact this.elim
          · exact this.elim
          · rename_i nd u n st
            obtain ⟨rfl, rfl, rfl⟩ := this
            simp only
            simp only [List.length_cons] at hmn hmx' hlast
            split
            · rename_i hmax
              split
              · trivial
              · have hnil : nds = [] := by
                  apply List.eq_nil_of_length_eq_zero; omega
                subst hnil
                rw [if_pos (.inl ⟨hmax.1, by simpa using hmax.2⟩)] at hlast
                subst hlast
                cases hs
                unfold repEnd
                rw [if_neg (by simp at hmn ⊢; omega)]
                exact ⟨by simp, by simp, by simp⟩
            · rename_i hmax
              split
              · trivial
              · have := h2 fuel b mn mx L k (pos + u) (max look (pos + n)) (sticky && st) (nodes ++ [nd]) last (by rw [← hL, List.drop_drop])
                  (by simp; omega) (by simp; omega) (by simp; omega)
                  (by simpa [Nat.add_assoc, Nat.add_comm 1] using hlast)
                simpa [Bool.and_assoc, Nat.add_assoc] using this
      · exact .inr h2
    · rcases begins_of_derives hD hs (hv.drop u) (ht.drop u) hd hn with h2 | ⟨rfl, rfl⟩
      · rw [Shape.begins_apart hap h2] at h1; cases h1
      · right
        rw [Shape.begins_union, List.drop_zero]; simp [h1]

end Xbnf.Props
