import Verif.Lemmas.Twin
import Verif.Props.Yield
import Verif.Props.Errors
import Verif.Lemmas.RuleEq
/-
C51: which error a failed evaluation reports, and where.

Full statement: a choice that does not match reports the error of the alternative that got furthest,
and `ErrIdx` says how far that is.  It is false at the beginning of a text: an alternative that fails
at index 0 does not count, and if all do the error has no cause (`C51_no_cause`).
-/
namespace Xbnf.Props
open Spec Grammar

variable {env : Env}

/-! ### Same place, same error (C41) -/

/-- Two streams with the same characters left and the same cursor give the same error, apart from the
positions in it, and the same index. -/
theorem C41_errors (env : Env) (fuel : Nat) (r : Rule) (flag : Int) {s t : Stream} (hs : Ready s) (ht : Ready t)
    (h : s.rem = t.rem) (hc : s.cursor = t.cursor) {res res' : Res} {s' t' : Stream}
    (he : eval env fuel r flag s = .ok (res, s')) (he' : eval env fuel r flag t = .ok (res', t')) :
    SameErr res.error res'.error ∧ res.errIdx = res'.errIdx ∧ s'.cursor = t'.cursor := by
  have htw : Twin s t := ⟨hs.wf, ht.wf, h, hc⟩
  have := eval_twin env fuel r flag s t htw
  rw [he, he'] at this
  obtain ⟨⟨_, h1, h2⟩, k, h3, h4⟩ := this
  exact ⟨h1, h2, (htw.adv h3 h4).cursor⟩

/-! ### Choices -/

theorem furthest_step {xs : List Res} {e : Option Err} {i : Int} (h : Furthest xs e i) (x : Res) {e' : Option Err}
    (he : SameErr e' x.error) : Furthest (xs ++ [x]) (if x.errIdx > i then e' else e) (if x.errIdx > i then x.errIdx else i) := by
  split
  · rename_i hgt
    right
    refine ⟨xs, x, [], rfl, ?_, ?_, by simp, he, rfl⟩
    · rcases h with ⟨rfl, _, _⟩ | ⟨_, y, _, _, h0, _, _, _, rfl⟩ <;> omega
    · intro y hy
      rcases h with ⟨rfl, _, h⟩ | ⟨a, z, c, rfl, h0, h1, h2, _, rfl⟩
      · have := h y hy; omega
      · rcases List.mem_append.1 hy with hy | hy
        · have := h1 y hy; omega
        · rcases List.mem_cons.1 hy with rfl | hy
          · exact hgt
          · have := h2 y hy; omega
  · rename_i hle
    rcases h with ⟨rfl, rfl, h⟩ | ⟨a, z, c, rfl, h0, h1, h2, hz, rfl⟩
    · left
      refine ⟨rfl, rfl, fun y hy => ?_⟩
      rcases List.mem_append.1 hy with hy | hy
      · exact h y hy
      · rw [List.mem_singleton.1 hy]; omega
    · right
      refine ⟨a, z, c ++ [x], by simp, h0, h1, fun y hy => ?_, hz, rfl⟩
      rcases List.mem_append.1 hy with hy | hy
      · exact h2 y hy
      · rw [List.mem_singleton.1 hy]; omega

theorem Failed.append {flag : Int} {s : Stream} {rs rs' : List Rule} {xs xs' : List Res} (h : Failed env flag s rs xs)
    (h' : Failed env flag s rs' xs') : Failed env flag s (rs ++ rs') (xs ++ xs') := by
  induction h with
  | nil => exact h'
  | cons he hn _ ih => exact .cons he hn ih

theorem choiceGroup_blame {fuel : Nat} {flag : Int} {l : List Rune} {s0 : Stream} (hw : s0.WF) (hv : Valid l) (hrem : s0.rem = l)
    (rs : List Rule) : ∀ (look : Nat) (st : ChoiceState) (s : Stream) (done : List Res), look ≤ l.length → st.read = l.take look →
    Adv look s0 s → Furthest done st.maxErr st.maxErrCursor →
    ∀ {sy hits look' sy' ms st' s'}, altsAt (Spec.run env fuel) flag l rs look sy = .ok hits look' sy' →
    choiceGroup (eval env fuel) flag rs st s = .ok (ms, st', s') →
    look' ≤ l.length ∧ st'.read = l.take look' ∧ Adv look' s0 s' ∧ L.HitsRef hits (ms.map Res.core) ∧
    (ms = [] → ∃ xs, Failed env flag s0 rs xs ∧ Furthest (done ++ xs) st'.maxErr st'.maxErrCursor) := by
  induction rs with
  | nil =>
    intro look st s done hl hst ha hf sy hits look' sy' ms st' s' hr he
    simp only [altsAt, Alts.ok.injEq] at hr
    obtain ⟨rfl, rfl, rfl⟩ := hr
    simp only [choiceGroup, Exec.ok.injEq, Prod.mk.injEq] at he
    obtain ⟨rfl, rfl, rfl⟩ := he
    exact ⟨hl, hst, ha, trivial, fun _ => ⟨[], .nil, by rwa [List.append_nil]⟩⟩
  | cons r rs ih =>
    intro look st s done hl hst ha hf sy hits look' sy' ms st' s' hr he
    have hlen : st.read.length = look := by rw [hst, List.length_take]; omega
    have hwp := Stream.wf_pushBack ha.wf.2 st.read
    have hremp : (s.pushBack st.read).rem = l := by
      rw [Stream.rem_pushBack, ha.rem, hrem, hst, List.take_append_drop]
    have htw : Twin s0 (s.pushBack st.read) := ⟨hw, hwp, by rw [hrem, hremp], by rw [cursor_pushBack, ha.cursor, hlen]; omega⟩
    have hkn := know_of (eval_sim env fuel) (L.eval_ref env fuel) r flag _ _ hwp hremp hv
    have htwin := eval_twin env fuel r flag _ _ htw
    simp only [altsAt] at hr
    have hread : ∀ n, n ≤ l.length → ∀ rd, rd = l.take n →
        (if st.read.length < rd.length then rd else st.read) = l.take (max look n) := by
      rintro n hn rd rfl
      rw [hlen, List.length_take, Nat.min_eq_left hn]
      split
      · congr 1; omega
      · rw [hst]; congr 1; omega
    have hpop : ∀ n cs, Adv n (s.pushBack st.read) cs → Adv (max look n) s0 (cs.popBack st.read) := by
      intro n cs hadv
      have := ha.trans hadv.popBack
      rw [hlen] at this
      have e : look + (n - look) = max look n := by omega
      rwa [e] at this
    -- a failed alternative
    have hfail : ∀ {n res cs sy1}, n ≤ l.length → eval env fuel r flag (s.pushBack st.read) = .ok (res, cs) →
        Adv n (s.pushBack st.read) cs → res.node = none → res.read = l.take n →
        altsAt (Spec.run env fuel) flag l rs (max look n) sy1 = .ok hits look' sy' →
        look' ≤ l.length ∧ st'.read = l.take look' ∧ Adv look' s0 s' ∧ L.HitsRef hits (ms.map Res.core) ∧
        (ms = [] → ∃ xs, Failed env flag s0 (r :: rs) xs ∧ Furthest (done ++ xs) st'.maxErr st'.maxErrCursor) := by
      intro n res cs sy1 k1 k2 k3 k4 k5 hr
      unfold choiceGroup at he
      rw [k2, Exec.ok_bind] at he
      simp only [k4] at he
      rw [k2] at htwin
      obtain ⟨⟨x, t⟩, hx, hsame⟩ : ∃ x, eval env fuel r flag s0 = .ok x ∧ x.1.Same res := by
        cases hq : eval env fuel r flag s0 with
        | ok x => rw [hq] at htwin; exact ⟨x, rfl, htwin.1⟩
        | panic => rw [hq] at htwin; exact htwin.elim
        | oof => rw [hq] at htwin; exact htwin.elim
      simp only at hsame
      have hxn : x.node = none := by
        have := hsame.isSome
        rw [k4] at this
        cases hxn : x.node with
        | none => rfl
        | some _ => rw [hxn] at this; cases this
      have hstep := furthest_step hf x hsame.2.1.symm
      rw [hsame.2.2] at hstep
      have key : ∀ st1 : ChoiceState, st1.read = l.take (max look n) → Furthest (done ++ [x]) st1.maxErr st1.maxErrCursor →
          choiceGroup (eval env fuel) flag rs st1 (cs.popBack st.read) = .ok (ms, st', s') →
          look' ≤ l.length ∧ st'.read = l.take look' ∧ Adv look' s0 s' ∧ L.HitsRef hits (ms.map Res.core) ∧
          (ms = [] → ∃ xs, Failed env flag s0 (r :: rs) xs ∧ Furthest (done ++ xs) st'.maxErr st'.maxErrCursor) := by
        intro st1 h1 h2 h3
        obtain ⟨g1, g2, g3, g4, g5⟩ := ih (max look n) st1 _ (done ++ [x]) (by omega) h1 (hpop n cs k3) h2 hr h3
        refine ⟨g1, g2, g3, g4, fun hm => ?_⟩
        obtain ⟨xs, f1, f2⟩ := g5 hm
        exact ⟨x :: xs, .cons hx hxn f1, by rwa [List.append_assoc] at f2⟩
      split at he
      · rename_i hgt
        rw [if_pos hgt, if_pos hgt] at hstep
        exact key _ (hread n k1 _ k5) hstep he
      · rename_i hgt
        rw [if_neg hgt, if_neg hgt] at hstep
        exact key ⟨if st.read.length < res.read.length then res.read else st.read, st.sticky && res.sticky, st.maxErr, st.maxErrCursor⟩
          (hread n k1 _ k5) hstep he
    cases hrr : Spec.run env fuel r flag l with
    | oof => rw [hrr] at hr; cases hr
    | risky => rw [hrr] at hr; cases hr
    | fail n st1 =>
      rw [hrr] at hr hkn
      obtain ⟨k1, res, cs, k2, k3, k4, k5, k6⟩ := hkn
      exact hfail k1 k2 k3 k4 k5 hr
    | ambiguous n =>
      rw [hrr] at hr hkn
      obtain ⟨k1, res, cs, k2, k3, k4, k5, k6⟩ := hkn
      exact hfail k1 k2 k3 k4 k5 hr
    | hit nd u n st1 =>
      rw [hrr] at hr hkn
      obtain ⟨k0, k1, res, cs, nd', k2, k3, k4, k5, k6, k7, k8⟩ := hkn
      simp only at hr
      split at hr
      · rename_i hits1 look1 sy1 hrs
        simp only [Alts.ok.injEq] at hr
        obtain ⟨rfl, rfl, rfl⟩ := hr
        unfold choiceGroup at he
        rw [k2, Exec.ok_bind] at he
        simp only [k4] at he
        obtain ⟨⟨ms1, st2, s2⟩, hq, he⟩ := Exec.of_bind he
        simp only [Exec.ok.injEq, Prod.mk.injEq] at he
        obtain ⟨rfl, rfl, rfl⟩ := he
        obtain ⟨g1, g2, g3, g4, g5⟩ := ih (max look n)
          ⟨if st.read.length < res.read.length then res.read else st.read, st.sticky && res.sticky, st.maxErr, st.maxErrCursor⟩
          _ done (by omega) (hread n k1 _ k6) (hpop n cs k3) hf hrs hq
        have hcu : res.countUsed = (u : Int) := by
          simp only [Res.countUsed, k6, k7, List.length_take, List.length_drop] at k1 ⊢
          omega
        refine ⟨g1, g2, g3, ⟨⟨?_, hcu, k8⟩, g4⟩, fun hc => by cases hc⟩
        rw [Res.core_node, k4, Option.map_some, k5]
      · rename_i hne
        exact absurd hr (hne _ _ _)

theorem choiceLoop_blame {fuel : Nat} {q : Rule} {b : RuleBase} {flag : Int} {l : List Rune} {s0 : Stream} (hw : s0.WF) (hv : Valid l)
    (hrem : s0.rem = l) (gs : List (List Rule)) : ∀ (look : Nat) (st : ChoiceState) (s : Stream) (done : List Res),
    look ≤ l.length → st.read = l.take look → Adv look s0 s → Furthest done st.maxErr st.maxErrCursor →
    ∀ {sy n sy' res s'}, choiceAt (Spec.run env fuel) b flag l gs look sy = .fail n sy' →
    choiceLoop (eval env fuel) q flag gs st s = .ok (res, s') →
    ∃ xs e, Failed env flag s0 gs.flatten xs ∧ Furthest (done ++ xs) e res.errIdx ∧ res.error = some (.inChoice q (e.getD .nil)) := by
  induction gs with
  | nil =>
    intro look st s done hl hst ha hf sy n sy' res s' _ he
    simp only [choiceLoop, Exec.ok.injEq, Prod.mk.injEq] at he
    obtain ⟨rfl, rfl⟩ := he
    exact ⟨[], st.maxErr, .nil, by rwa [List.append_nil], rfl⟩
  | cons g gs ih =>
    intro look st s done hl hst ha hf sy n sy' res s' hr he
    simp only [choiceAt] at hr
    unfold choiceLoop at he
    cases hal : altsAt (Spec.run env fuel) flag l g look sy with
    | oof => rw [hal] at hr; cases hr
    | risky => rw [hal] at hr; cases hr
    | ok hits look1 sy1 =>
      rw [hal] at hr
      obtain ⟨⟨ms, st1, s1⟩, hq, he⟩ := Exec.of_bind he
      obtain ⟨g1, g2, g3, g4, g5⟩ := choiceGroup_blame hw hv hrem g look st s done hl hst ha hf hal hq
      simp only at hr he
      have hpb := L.pick_best g4
      rw [pick_core] at hpb
      cases hb : best hits with
      | tie => rw [hb] at hr; cases hr
      | order => rw [hb] at hr; cases hr
      | one nd u st => rw [hb] at hr; cases hr
      | none =>
        rw [hb] at hr hpb
        simp only at hr
        obtain ⟨hp1, hp2⟩ := hpb
        have hpk : pick ms = .none := by
          cases hp : pick ms with
          | none => rfl
          | found r => rw [hp] at hp1; cases hp1
          | ambiguous => rw [hp] at hp1; cases hp1
        have hms : ms = [] := by
          rw [hp2] at g4
          cases ms with
          | nil => rfl
          | cons m ms => exact g4.elim
        obtain ⟨xs, f1, f2⟩ := g5 hms
        rw [hpk] at he
        obtain ⟨ys, e, e1, e2, e3⟩ := ih look1 st1 s1 (done ++ xs) g1 g2 g3 f2 hr he
        exact ⟨xs ++ ys, e, by rw [List.flatten_cons]; exact Failed.append f1 e1, by rwa [List.append_assoc] at e2, e3⟩

/-- A choice that does not match, and is not ambiguous, reports the error of the first of the
alternatives that got furthest, each tried on its own; alternatives that failed at index 0 do not
count.  (Missing from the full claim: these, and evaluations that are not regular.) -/
theorem C51_choice_partial {fuel : Nat} {b : RuleBase} {gs : List (List Rule)} {flag : Int} {s s' : Stream} {res : Res}
    (h : Ready s) (hr : Regular env (.choice b gs) flag s.rem) (he : eval env fuel (.choice b gs) flag s = .ok (res, s'))
    (hn : res.node = none) (ha : ∀ x y, res.error ≠ some (.ambiguity b.name x y)) :
    ∃ xs e, Failed env flag s gs.flatten xs ∧ Furthest xs e res.errIdx ∧ res.error = some (.inChoice (.choice b gs) (e.getD .nil)) := by
  obtain ⟨F, k, h1, h2, h3, h4, h5⟩ := regular_eval h hr he
  cases F with
  | zero => cases h3
  | succ F =>
    simp only [Spec.run] at h1 h2 h5
    simp only [eval] at h3
    have hf : Furthest [] ({} : ChoiceState).maxErr ({} : ChoiceState).maxErrCursor := .inl ⟨rfl, rfl, fun x hx => by cases hx⟩
    cases hc : choiceAt (Spec.run env F) b flag s.rem gs 0 true with
    | oof => exact absurd hc h1
    | risky => exact absurd hc h2
    | fail n st =>
      exact choiceLoop_blame h.wf h.valid rfl gs 0 {} s [] (Nat.zero_le _) rfl (Adv.refl h.wf) hf hc h3
    | hit nd u n st =>
      rw [hc] at h5
      have := (ref_hit h5).1
      rw [hn] at this
      cases this
    | ambiguous n =>
      have herr := choiceLoop_error (eval_sim env F) (L.eval_ref env F) (.choice b gs) b flag s.rem h.valid gs 0
        (Nat.zero_le _) {} rfl s h.wf rfl h3
      have : (choiceAt (Spec.run env F) b flag s.rem gs 0 ({} : ChoiceState).sticky) = .ambiguous n := hc
      rw [this] at herr
      obtain ⟨x, y, herr⟩ := herr
      exact absurd herr (ha x y)

/-! ### Concatenations -/

theorem concatLoop_blame {fuel : Nat} (q : Rule) (b : RuleBase) {l : List Rune} {c : Int} (hv : Valid l) (rs : List Rule) : ∀ (pos look : Nat)
    (st : SeqState) (_ : L.At l pos look st) (s : Stream), s.WF → s.rem = l.drop look → s.cursor = c + look →
    ∀ {n sy nodes}, seqAt (Spec.run env fuel) b l rs pos look st.sticky st.flag nodes = .fail n sy →
    ∀ {res s'}, concatLoop (eval env fuel) q rs st s = .ok (res, s') →
    ∃ r f p, StuckAt env l rs st.flag pos r f p ∧ ∀ t : Stream, t.WF → t.rem = l.drop p → t.cursor = c + p →
      ∃ x t', eval env fuel r f t = .ok (x, t') ∧ x.node = none ∧ res.errIdx = x.errIdx ∧
        SameErr res.error (some (.inConcat q (x.error.getD .nil))) := by
  induction rs with
  | nil => intro pos look st h s _ _ _ n sy nodes hr; cases hr
  | cons r rs ih =>
    intro pos look st h s hw hrem hcur n sy nodes hr res s' he
    have h1 := h.le
    have h2 := h.len
    have hwp := Stream.wf_pushBack hw st.unused
    have hremp : (s.pushBack st.unused).rem = l.drop pos := by
      rw [Stream.rem_pushBack, hrem, h.unused, L.sl_append_drop h1]
    have hlen : st.unused.length = look - pos := by rw [h.unused, L.sl_length h2]
    have hcurp : (s.pushBack st.unused).cursor = c + pos := by rw [cursor_pushBack, hcur, hlen]; omega
    have hkn := know_of (eval_sim env fuel) (L.eval_ref env fuel) r st.flag _ _ hwp hremp (hv.drop _)
    simp only [seqAt] at hr
    unfold concatLoop at he
    have failed : ∀ {res1 cs}, eval env fuel r st.flag (s.pushBack st.unused) = .ok (res1, cs) → res1.node = none →
        ∃ r' f p, StuckAt env l (r :: rs) st.flag pos r' f p ∧ ∀ t : Stream, t.WF → t.rem = l.drop p → t.cursor = c + p →
        ∃ x t', eval env fuel r' f t = .ok (x, t') ∧ x.node = none ∧ res.errIdx = x.errIdx ∧
          SameErr res.error (some (.inConcat q (x.error.getD .nil))) := by
      intro res1 cs k2 k4
      rw [k2, Exec.ok_bind] at he
      obtain ⟨⟨rd, un⟩, _, he⟩ := Exec.of_bind he
      simp only [k4, Exec.ok.injEq, Prod.mk.injEq] at he
      obtain ⟨rfl, _⟩ := he
      refine ⟨r, st.flag, pos, .here, fun t ht1 ht2 ht3 => ?_⟩
      have htwin := eval_twin env fuel r st.flag t (s.pushBack st.unused) ⟨ht1, hwp, by rw [ht2, hremp], by rw [ht3, hcurp]⟩
      rw [k2] at htwin
      cases hq : eval env fuel r st.flag t with
      | panic => rw [hq] at htwin; exact htwin.elim
      | oof => rw [hq] at htwin; exact htwin.elim
      | ok x =>
        rw [hq] at htwin
        obtain ⟨hsame, _⟩ := htwin
        refine ⟨x.1, x.2, rfl, ?_, hsame.2.2.symm, by simp [SameErr, Err.erase, sameErr_getD hsame.2.1]⟩
        have := hsame.isSome
        simp only [k4] at this
        cases hxn : x.1.node with
        | none => rfl
        | some _ => rw [hxn] at this; cases this
    cases hrr : Spec.run env fuel r st.flag (l.drop pos) with
    | oof => rw [hrr] at hr; cases hr
    | risky => rw [hrr] at hr; cases hr
    | fail n1 st1 =>
      rw [hrr] at hkn
      obtain ⟨k1, res1, cs, k2, k3, k4, k5, k6⟩ := hkn
      exact failed k2 k4
    | ambiguous n1 =>
      rw [hrr] at hkn
      obtain ⟨k1, res1, cs, k2, k3, k4, k5, k6⟩ := hkn
      exact failed k2 k4
    | hit nd u n1 st1 =>
      rw [hrr] at hkn hr
      simp only at hr
      split at hr
      · cases hr
      rename_i hrisk
      obtain ⟨k0, k1, res1, cs, nd', k2, k3, k4, k5, k6, k7, k8⟩ := hkn
      rw [List.length_drop] at k1
      obtain ⟨un, e1, e2⟩ := L.account_ref (l := l) (n := n1) (u := u) (pos := pos) (look := look) (r := res1)
        h1 h2 (by omega) k0 k6 k7
      rw [← h.read, ← h.unused] at e1
      rw [k2, Exec.ok_bind] at he
      simp only at he
      rw [e1, Exec.ok_bind] at he
      simp only [k4] at he
      have hun := e2 (fun hc => hrisk ⟨hc.1, .inr hc.2⟩)
      subst hun
      have hfl : nextFlag st.flag nd' res1.sticky = flagAfter st.flag nd st1 := by
        rw [← L.flagAfter_eq, ← nextFlag_erase, k5, k8]
      obtain ⟨⟨out, cs'⟩, hq, he⟩ := Exec.of_bind he
      simp only [Exec.ok.injEq, Prod.mk.injEq] at he
      obtain ⟨rfl, _⟩ := he
      have hmt := matches_of_run (hv.drop pos) hrr
      by_cases hlt : pos + n1 < look
      · have hrs : rs = [] := Classical.byContradiction (fun hc => hrisk ⟨hlt, .inl hc⟩)
        subst hrs
        cases hr
      · have hm : max look (pos + n1) = pos + n1 := by omega
        rw [hm] at hr hq
        obtain ⟨r', f, p, g1, g2⟩ := ih (pos + u) (pos + n1) _ ⟨by omega, by omega, rfl, rfl⟩ cs k3.wf.2
          (by rw [k3.rem, hremp, List.drop_drop]) (by rw [k3.cursor, hcurp]; omega) (by rw [hfl, k8]; exact hr) hq
        simp only [hfl] at g1
        exact ⟨r', f, p, .later hmt g1, g2⟩

/-- A concatenation that does not match reports the error (apart from positions), and its place, of the first part that does
not match, tried where the parts before it end. -/
theorem C51_concat_partial {fuel : Nat} {b : RuleBase} {rs : List Rule} {flag : Int} {s s' : Stream} {res : Res}
    (h : Ready s) (hr : Regular env (.concat b rs) flag s.rem) (he : eval env fuel (.concat b rs) flag s = .ok (res, s'))
    (hn : res.node = none) :
    ∃ r f p, StuckAt env s.rem rs flag 0 r f p ∧ ∀ t, Ready t → t.rem = s.rem.drop p → t.cursor = s.cursor + p →
      ∃ F x t', eval env F r f t = .ok (x, t') ∧ x.node = none ∧ res.errIdx = x.errIdx ∧
        SameErr res.error (some (.inConcat (.concat b rs) (x.error.getD .nil))) := by
  obtain ⟨F, k, h1, h2, h3, h4, h5⟩ := regular_eval h hr he
  cases F with
  | zero => cases h3
  | succ F =>
    simp only [Spec.run] at h1 h2 h5
    simp only [eval] at h3
    cases hc : seqAt (Spec.run env F) b s.rem rs 0 0 true flag [] with
    | oof => exact absurd hc h1
    | risky => exact absurd hc h2
    | ambiguous n => exact absurd hc seqAt_not_ambiguous
    | hit nd u n st =>
      rw [hc] at h5
      have := (ref_hit h5).1
      rw [hn] at this
      cases this
    | fail n st =>
      obtain ⟨r, f, p, g1, g2⟩ := concatLoop_blame (c := s.cursor) (.concat b rs) b h.valid rs 0 0 { flag := flag }
        ⟨Nat.le_refl _, Nat.zero_le _, rfl, by simp [L.sl]⟩ s h.wf (by rw [List.drop_zero]) (by omega) hc h3
      exact ⟨r, f, p, g1, fun t t1 t2 t3 => ⟨F, g2 t t1.wf t2 t3⟩⟩

/-! ### Where the error is -/

/-- The stream was read forward, and the index of the error is not beyond it. -/
def Behind (s : Stream) (x : Res × Stream) : Prop := (∃ k, Adv k s x.2) ∧ x.1.errIdx ≤ max 0 x.2.cursor

def EvBehind (ev : Evaluator) : Prop := ∀ r flag s, s.WF → (ev r flag s).OnOk (Behind s)

theorem cursor_popBack {s t : Stream} {p : List Rune} {k : Nat} (h : Adv k (s.pushBack p) t) : t.cursor ≤ (t.popBack p).cursor := by
  rw [h.popBack.cursor, h.cursor, cursor_pushBack]
  omega

theorem adv_of_twin {s : Stream} {x : Exec (Res × Stream)} {y : Res × Stream} (h : SimG (RT s s) x x) (hx : x = .ok y) :
    ∃ k, Adv k s y.2 := by
  subst hx
  obtain ⟨_, k, h, _⟩ := h
  exact ⟨k, h⟩

theorem leaf_behind {s : Stream} {x : Res × Stream} {z : Res × Nat} {e e' : Err} (hx : RS s x z) (h : LeafErr s x e e') : Behind s x := by
  refine ⟨⟨_, hx.2⟩, ?_⟩
  unfold LeafErr at h
  split at h
  · rw [h.2]; omega
  · rw [h.1]; omega

theorem concatLoop_behind {ev : Evaluator} (hev : EvBehind ev) (b : Rule) : ∀ (rs : List Rule) (st : SeqState) (s : Stream), s.WF →
    (concatLoop ev b rs st s).OnOk (Behind s)
  | [], st, s, hs => by
    unfold concatLoop
    exact ⟨⟨0, Adv.refl hs⟩, by simp only; omega⟩
  | r :: rs, st, s, hs => by
    unfold concatLoop
    refine Exec.OnOk.bind (hev r st.flag _ (Stream.wf_pushBack hs _)) ?_
    rintro ⟨res, cs⟩ ⟨⟨k, h1⟩, h2⟩
    refine Exec.OnOk.bind (all_trivial _) ?_
    rintro ⟨read, unused⟩ _
    simp only at h1 h2 ⊢
    have := cursor_popBack h1
    cases hn : res.node with
    | none => exact ⟨⟨_, h1.popBack⟩, by simp only; omega⟩
    | some n =>
      simp only
      refine Exec.OnOk.bind (concatLoop_behind hev b rs _ _ h1.wf.2) ?_
      rintro ⟨out, cs1⟩ ⟨⟨k1, h3⟩, h4⟩
      simp only at h3 h4
      have h5 := h1.trans h3
      have := cursor_popBack h5
      exact ⟨⟨_, h5.popBack⟩, by simp only; omega⟩

theorem choiceGroup_behind {ev : Evaluator} (hev : EvBehind ev) (flag : Int) : ∀ (rs : List Rule) (st : ChoiceState) (s : Stream), s.WF →
    st.maxErrCursor ≤ max 0 s.cursor →
    (choiceGroup ev flag rs st s).OnOk (fun x => (∃ k, Adv k s x.2.2) ∧ x.2.1.maxErrCursor ≤ max 0 x.2.2.cursor)
  | [], st, s, hs, h => by
    unfold choiceGroup
    exact ⟨⟨0, Adv.refl hs⟩, h⟩
  | r :: rs, st, s, hs, h => by
    unfold choiceGroup
    refine Exec.OnOk.bind (hev r flag _ (Stream.wf_pushBack hs _)) ?_
    rintro ⟨res, cs⟩ ⟨⟨k, h1⟩, h2⟩
    simp only at h1 h2 ⊢
    have hc := cursor_popBack h1
    have h3 := h1.popBack
    have hc' := h3.cursor
    have next : ∀ st' : ChoiceState, st'.maxErrCursor ≤ max 0 (cs.popBack st.read).cursor →
        (choiceGroup ev flag rs st' (cs.popBack st.read)).OnOk
          (fun x => (∃ k, Adv k s x.2.2) ∧ x.2.1.maxErrCursor ≤ max 0 x.2.2.cursor) := fun st' hst' =>
      (choiceGroup_behind hev flag rs st' _ h3.wf.2 hst').mono (fun x ⟨⟨k1, g1⟩, g2⟩ => ⟨⟨_, h3.trans g1⟩, g2⟩)
    cases hn : res.node with
    | some n =>
      simp only
      refine Exec.OnOk.bind (next _ (by simp only; omega)) ?_
      rintro ⟨ms, st', s'⟩ g
      exact g
    | none =>
      simp only
      split
      · exact next _ (by simp only; omega)
      · exact next _ (by simp only; omega)

theorem choiceLoop_behind {ev : Evaluator} (hev : EvBehind ev) (b : Rule) (flag : Int) : ∀ (gs : List (List Rule)) (st : ChoiceState) (s : Stream),
    s.WF → st.maxErrCursor ≤ max 0 s.cursor → (choiceLoop ev b flag gs st s).OnOk (Behind s)
  | [], st, s, hs, h => by
    unfold choiceLoop
    exact ⟨⟨0, Adv.refl hs⟩, h⟩
  | g :: gs, st, s, hs, h => by
    unfold choiceLoop
    refine Exec.OnOk.bind (choiceGroup_behind hev flag g st s hs h) ?_
    rintro ⟨ms, st', s'⟩ ⟨⟨k, h1⟩, h2⟩
    simp only at h1 h2 ⊢
    cases hp : pick ms with
    | none => exact (choiceLoop_behind hev b flag gs _ _ h1.wf.2 h2).mono (fun x ⟨⟨k1, g1⟩, g2⟩ => ⟨⟨_, h1.trans g1⟩, g2⟩)
    | ambiguous => exact ⟨⟨k, h1⟩, by simp only; omega⟩
    | found r =>
      simp only
      refine Exec.OnOk.bind (all_trivial _) ?_
      intro unused _
      exact ⟨⟨k, h1⟩, by simp only; omega⟩

theorem repFinish_behind (b : Rule) (mn : Nat) (st : SeqState) (why : Option Res) (s : Stream) :
    (repFinish b mn st why s).errIdx ≤ max 0 s.cursor := by
  unfold repFinish
  simp only
  repeat' split
  all_goals (simp only; try split) <;> omega

theorem evalBlock_behind {ev : Evaluator} (fuel : Nat) (b : RuleBase) (opn : Rule) (v : Bool) (close : Rule)
    (escape : Option Rule) (excludes : List Rule) (flag : Int) (s : Stream) :
    (evalBlock ev fuel b opn v close escape excludes flag s).OnOk (fun x => x.1.errIdx ≤ max 0 x.2.cursor) := by
  unfold evalBlock
  refine Exec.OnOk.bind (all_trivial _) ?_
  rintro ⟨ro, s⟩ _
  simp only
  cases hn : ro.node with
  | none => show _ ≤ _; simp only; omega
  | some n =>
    simp only
    refine Exec.OnOk.bind (all_trivial _) ?_
    intro used _
    refine Exec.OnOk.bind (all_trivial _) ?_
    rintro ⟨e, cs⟩ _
    cases e <;> (show _ ≤ _; simp only; omega)

theorem groupRes_errIdx (b : RuleBase) (r : Res) : (groupRes b r).errIdx = r.errIdx := by
  unfold groupRes; split <;> rfl
theorem optionRes_errIdx (b : RuleBase) (r : Res) : (optionRes b r).errIdx = r.errIdx := by
  unfold optionRes; split <;> rfl
theorem refRes_errIdx (b : RuleBase) (r : Res) : (refRes b r).errIdx = r.errIdx := by
  unfold refRes; split <;> rfl

theorem eval_behind (env : Env) : ∀ fuel, EvBehind (eval env fuel)
  | 0, _, _, _, _ => trivial
  | fuel + 1, rule, flag, s, hs => by
    have ih := eval_behind env fuel
    have htw := eval_twin env (fuel + 1) rule flag s s ⟨hs, hs, rfl, rfl⟩
    have whole : ((eval env (fuel + 1) rule flag s).OnOk (fun x => x.1.errIdx ≤ max 0 x.2.cursor)) →
        (eval env (fuel + 1) rule flag s).OnOk (Behind s) := by
      intro h
      cases hx : eval env (fuel + 1) rule flag s with
      | ok x =>
        rw [hx] at h
        exact ⟨adv_of_twin htw hx, h⟩
      | panic => trivial
      | oof => trivial
    cases rule with
    | eof b => exact leaf_behind (evalEOF_sim b flag hs) (evalEOF_err b flag s)
    | char b t u => exact leaf_behind (evalChar_sim b t flag hs) (evalChar_err b t flag s)
    | range b x xu y yu => exact leaf_behind (evalRange_sim b x y flag hs) (evalRange_err b x y flag s)
    | chars b t => exact leaf_behind (evalChars_sim b t flag hs) (evalChars_err b t flag s)
    | str b t => exact leaf_behind (evalString_sim b t flag hs) (evalString_err b t flag s)
    | group b r =>
      refine Exec.OnOk.bind (ih r flag s hs) ?_
      rintro ⟨res, s'⟩ ⟨h1, h2⟩
      exact ⟨h1, by simp only [groupRes_errIdx]; exact h2⟩
    | option b r =>
      refine Exec.OnOk.bind (ih r flag s hs) ?_
      rintro ⟨res, s'⟩ ⟨h1, h2⟩
      exact ⟨h1, by simp only [optionRes_errIdx]; exact h2⟩
    | rep b r mn mx =>
      refine whole ?_
      show Exec.OnOk _ (evalRep _ _ _ _ _ _ _ _)
      unfold evalRep
      refine Exec.OnOk.bind (all_trivial _) ?_
      rintro ⟨st, why, s'⟩ _
      exact repFinish_behind _ mn st why s'
    | choice b gs => exact choiceLoop_behind ih _ flag gs {} s hs (by simp only; omega)
    | concat b rs => exact concatLoop_behind ih _ rs _ s hs
    | block b o v c e x => exact whole (evalBlock_behind fuel b o v c e x flag s)
    | ref b name =>
      show Exec.OnOk _ (match env name with
        | none => Exec.ok ({ error := some (.undefined b name) }, s)
        | some r => do
          let (res, s) ← eval env fuel r flag s
          .ok (refRes b res, s))
      cases hr : env name with
      | none => exact ⟨⟨0, Adv.refl hs⟩, by simp only; omega⟩
      | some r =>
        refine Exec.OnOk.bind (ih r flag s hs) ?_
        rintro ⟨res, s'⟩ ⟨h1, h2⟩
        exact ⟨h1, by simp only [refRes_errIdx]; exact h2⟩

/-- The index reported with an error is not beyond what was read of the text, and so not beyond its
end. -/
theorem C51_index {env : Env} {fuel : Nat} {r : Rule} {flag : Int} {text : List Rune} {res : Res} {s' : Stream}
    (he : eval env fuel r flag (Stream.ofChars text) = .ok (res, s')) : res.errIdx ≤ s'.cursor ∧ res.errIdx ≤ text.length := by
  have hw : (Stream.ofChars text).WF := Nat.zero_le _
  have := eval_behind env fuel r flag _ hw
  rw [he] at this
  obtain ⟨⟨k, h1⟩, h2⟩ := this
  have hc := h1.cursor
  have hl := h1.le
  have e1 : (Stream.ofChars text).rem = text := rfl
  have e2 : (Stream.ofChars text).cursor = 0 := rfl
  rw [e1] at hl
  simp only [e2] at hc h2
  omega

/-! ### Concrete cases -/

/-- The error of an evaluation, without positions, and its index. -/
def blamed : Exec (Res × Stream) → Option (Option Err × Int)
  | .ok (res, _) => some (res.error.map Err.erase, res.errIdx)
  | _ => none

/-- The full claim is false: if all alternatives fail at the beginning of the text, the error of the
choice has no cause. -/
theorem C51_no_cause :
    blamed (eval noRules 9 (.choice {} [[.char {} 'a'.toNat false, .char {} 'b'.toNat false]]) SUGGEST_SKIP (Stream.ofChars (runes "x"))) =
      some (some (.inChoice (.choice {} [[.char {} 'a'.toNat false, .char {} 'b'.toNat false]]) .nil), 0) ∧
    blamed (eval noRules 9 (.char {} 'a'.toNat false) SUGGEST_SKIP (Stream.ofChars (runes "x"))) =
      some (some (.missing (.char {} 'a'.toNat false) none), 0) := by
  decide +kernel

/-- Non-vacuity: the second alternative of the first group gets furthest. -/
example : Regular noRules (.choice {} [[lit "ax", lit "abx"], [lit "x"]]) SUGGEST_SKIP (runes "abcd") :=
  regular_of (fuel := 9) (by decide +kernel)
example : blamed (eval noRules 9 (.choice {} [[lit "ax", lit "abx"], [lit "x"]]) SUGGEST_SKIP (Stream.ofChars (runes "abcd"))) =
    some (some (.inChoice (.choice {} [[lit "ax", lit "abx"], [lit "x"]]) (.missing (lit "abx") none)), 3) := by decide +kernel
/-- Non-vacuity: the second part does not match. -/
example : Regular noRules (.concat {} [lit "a", lit "x", lit "b"]) SUGGEST_SKIP (runes "abcd") :=
  regular_of (fuel := 9) (by decide +kernel)
example : blamed (eval noRules 9 (.concat {} [lit "a", lit "x", lit "b"]) SUGGEST_SKIP (Stream.ofChars (runes "abcd"))) =
    some (some (.inConcat (.concat {} [lit "a", lit "x", lit "b"]) (.missing (lit "x") none)), 2) := by decide +kernel

end Xbnf.Props
