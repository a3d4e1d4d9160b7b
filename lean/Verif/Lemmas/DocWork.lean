import Verif.Lemmas.Work
import Verif.Lemmas.WorkFuel
import Verif.Lemmas.Document
import Verif.Props.Embed
/-
The calls of `Eval` for documents and embedded rules are those of the reference.
-/
namespace Xbnf.Props
open Spec Grammar

variable {env : Env}

theorem workRoots_eq {fuel : Nat} {flag : Int} {l : List Rune} (hv : Valid l) (rs : List Record) :
    ∀ (look : Nat) (cs : Stream), cs.WF → look ≤ l.length → cs.rem = l.drop look →
    (∀ r ∈ rs, definiteA (Spec.run env fuel r.rule flag l)) →
    Steady (fun r => looked (Spec.run env fuel r flag l)) look (rs.map (·.rule)) →
    workRoots env fuel flag rs (l.take look) cs = allTries (tries env fuel) flag l (rs.map (·.rule)) := by
  induction rs with
  | nil => intros; rfl
  | cons r rs ih =>
    intro look cs hw hl hrem hd hst
    have hwp := Stream.wf_pushBack hw (l.take look)
    have hlp : (cs.pushBack (l.take look)).rem = l := by
      rw [Stream.rem_pushBack, hrem, List.take_append_drop]
    have hdr := hd r List.mem_cons_self
    have hn1 : Spec.run env fuel r.rule flag (cs.pushBack (l.take look)).rem ≠ .oof := by
      rw [hlp]; intro h; rw [h] at hdr; exact absurd hdr.1 (by decide)
    have hn2 : Spec.run env fuel r.rule flag (cs.pushBack (l.take look)).rem ≠ .risky := by
      rw [hlp]; intro h; rw [h] at hdr; exact absurd hdr.2 (by decide)
    obtain ⟨res, s', k, e1, e2, e3⟩ := run_eval' (env := env) (fuel := fuel) (r := r.rule) (flag := flag) hwp
      (by rw [hlp]; exact hv) hn1 hn2
    have hcnt := work_eq env fuel r.rule flag _ hwp (by rw [hlp]; exact hv) hn1 hn2
    rw [hlp] at e3 hcnt
    have hk : k = looked (Spec.run env fuel r.rule flag l) ∧ res.read = l.take k ∧ k ≤ l.length := by
      cases ha : Spec.run env fuel r.rule flag l with
      | oof => rw [ha] at hdr; exact absurd hdr.1 (by decide)
      | risky => rw [ha] at hdr; exact absurd hdr.2 (by decide)
      | fail n st =>
        rw [ha] at e3
        obtain ⟨_, g2, _, g4, g5⟩ := ref_fail e3
        subst g5
        exact ⟨rfl, g2, g4⟩
      | ambiguous n =>
        rw [ha] at e3
        obtain ⟨_, g2, _, g4, g5⟩ := ref_ambiguous e3
        subst g5
        exact ⟨rfl, g2, g4⟩
      | hit nd u n st =>
        rw [ha] at e3
        obtain ⟨_, _, g3, _, _, g6, g7⟩ := ref_hit e3
        subst g7
        exact ⟨rfl, g3, g6⟩
    obtain ⟨hk1, hk2, hk3⟩ := hk
    have hmax : (if (l.take look).length < res.read.length then res.read else l.take look) = l.take (max look k) := by
      rw [hk2, List.length_take, List.length_take]
      split
      · congr 1; omega
      · congr 1; omega
    simp only [workRoots, e1, hmax, hcnt, allTries, List.map_cons, List.sum_cons]
    congr 1
    cases rs with
    | nil => rfl
    | cons r' rs =>
      simp only [List.map_cons, Steady] at hst
      rw [← hk1] at hst
      have hmx : max look k = k := by omega
      rw [hmx]
      have := ih k s' e2.wf.2 hk3 (by rw [e2.rem, hlp]) (fun x hx => hd x (List.mem_cons_of_mem _ hx))
        (by simpa only [List.map_cons] using hst.2)
      rw [this]
      rfl

theorem allTries_perm {cnt : Tries} {flag : Int} {l : List Rune} {rs rs' : List Rule} (h : rs.Perm rs') :
    allTries cnt flag l rs = allTries cnt flag l rs' := by
  unfold allTries
  induction h with
  | nil => rfl
  | cons x _ ih => simp only [List.map_cons, List.sum_cons, ih]
  | swap x y l => simp only [List.map_cons, List.sum_cons]; omega
  | trans _ _ ih1 ih2 => rw [ih1, ih2]

theorem workRawLoop_eq {fuel : Nat} {roots : List Record} {sch : Sched} (hfair : sch.Fair) (n : Nat) :
    ∀ (i : Nat) (nodes : List Node) (flag : Int) (unused : List Rune) (s : Stream) (x : Except RawErr (List Node)),
    s.WF → Valid (unused ++ s.rem) →
    Doc.outcome (docAt (Spec.run env fuel) (roots.map (·.rule)) n flag unused.length (unused ++ s.rem) nodes) = some x →
    workRawLoop env fuel roots sch n i flag unused s =
      docTries (Spec.run env fuel) (tries env fuel) (roots.map (·.rule)) n flag unused.length (unused ++ s.rem) := by
  induction n with
  | zero => intro i nodes flag unused s x _ _ h; cases h
  | succ n ih =>
    intro i nodes flag unused s x hw hv h
    have hwp := Stream.wf_pushBack hw unused
    have hrem := Stream.rem_pushBack s unused
    have hpeek : (s.pushBack unused).peek = EOFChar ↔ unused ++ s.rem = [] := by
      rw [L.peek_eq hwp, hrem]; exact L.peek_eof hv
    generalize hl : unused ++ s.rem = l at *
    simp only [docAt] at h
    simp only [workRawLoop, docTries]
    by_cases hnil : l = []
    · rw [if_pos (hpeek.2 hnil), if_pos hnil]
    · rw [if_neg hnil] at h
      rw [if_neg (fun hc => hnil (hpeek.1 hc)), if_neg hnil]
      have hnot : roundAt (Spec.run env fuel) (roots.map (·.rule)) flag unused.length l ≠ .oof ∧
          roundAt (Spec.run env fuel) (roots.map (·.rule)) flag unused.length l ≠ .risky := by
        constructor <;> (intro hc; rw [hc] at h; cases h)
      obtain ⟨hd, hsteady⟩ := rootsAny hnot.1 hnot.2
      have hperm := hfair.1 i roots
      obtain ⟨ms, cs', look, e1, e2, e3, e4, e5, e6⟩ := rootsLoop_ref (env := env) (fuel := fuel) (flag := flag) hv
        (sch.roots i roots) 0 (s.pushBack unused) hwp (Nat.zero_le _) (by rw [hrem, List.drop_zero])
        (fun r hr => hd r (hperm.mem_iff.1 hr)) (hsteady _ hperm)
      have hwork := workRoots_eq (env := env) (fuel := fuel) (flag := flag) hv
        (sch.roots i roots) 0 (s.pushBack unused) hwp (Nat.zero_le _) (by rw [hrem, List.drop_zero])
        (fun r hr => hd r (hperm.mem_iff.1 hr)) (hsteady _ hperm)
      rw [List.take_zero] at e2 hwork
      rw [e2, hwork, allTries_perm (hperm.map _)]
      congr 1
      have elook : look = (roots.map (fun r => looked (Spec.run env fuel r.rule flag l))).foldr max 0 := by
        rw [e1]; exact foldr_max_perm (hperm.map _) 0
      have hhits := (hperm.map (fun r => Spec.run env fuel r.rule flag l)).filterMap hitOf
      obtain ⟨hits', p1, p2⟩ := hitsRef_perm (hfair.2 i ms).symm e5
      obtain ⟨q1, q2, q3⟩ := pick_any (hhits.symm.trans p1) p2
      -- the stream for the next round
      have hadv := e4.popBack
      rw [Nat.sub_zero] at hadv
      have hround : roundAt (Spec.run env fuel) (roots.map (·.rule)) flag unused.length l =
          match ((roots.map (fun r => Spec.run env fuel r.rule flag l)).filterMap hitOf).filter
            (fun h => h.2.1 == longest ((roots.map (fun r => Spec.run env fuel r.rule flag l)).filterMap hitOf)) with
          | [] => .noMatch
          | [h] => if look < unused.length then .risky
              else if (((roots.map (fun r => Spec.run env fuel r.rule flag l)).filterMap hitOf).map (fun h => h.2.1)).Nodup
              then .step h.1 h.2.1 (look - h.2.1) h.2.2 else .risky
          | _ => .tie := by
        have hn1 := hnot.1
        have hn2 := hnot.2
        unfold roundAt at hn1 hn2 ⊢
        simp only [List.map_map] at hn1 hn2 ⊢
        split at hn1
        · exact absurd rfl hn1
        rename_i ho
        rw [if_neg ho] at hn2 ⊢
        split at hn2
        · exact absurd rfl hn2
        rename_i hr
        rw [if_neg hr]
        split at hn2
        · exact absurd rfl hn2
        rename_i hs
        rw [if_neg hs, elook]
        rfl
      rw [hround] at h ⊢
      generalize hF : ((roots.map (fun r => Spec.run env fuel r.rule flag l)).filterMap hitOf) = hits at *
      cases hfil : hits.filter (fun h => h.2.1 == longest hits) with
      | nil => simp only [q1 hfil]
      | cons y ys =>
        cases ys with
        | cons z ys =>
          obtain ⟨_, _, q2⟩ := q2 _ _ _ hfil
          simp only [q2]
        | nil =>
          rw [hfil] at h
          simp only at h
          by_cases hpend : look < unused.length
          · rw [if_pos hpend] at h; cases h
          rw [if_neg hpend] at h
          by_cases hnd : (hits.map (fun h => h.2.1)).Nodup
          · rw [if_pos hnd] at h
            simp only at h
            obtain ⟨r, r1, r2, r3, r4⟩ := q3 y hfil hnd
            simp only [r1, if_neg hpend, if_pos hnd]
            have hyl : y.2.1 ≤ look := by
              have hy : y ∈ hits := (List.mem_filter.1 (show y ∈ hits.filter (fun h => h.2.1 == longest hits) by rw [hfil]; exact List.mem_singleton_self _)).1
              exact e6 y (hhits.mem_iff.2 hy)
            have hslice : sliceFrom (l.take look) r.countUsed = .ok ((l.take look).drop y.2.1) := by
              rw [r3, sliceFrom_all _ _ (by rw [List.length_take]; omega)]
            rw [hslice]
            have hrest : (l.take look).drop y.2.1 ++ (cs'.popBack unused).rem = l.drop y.2.1 := by
              rw [hadv.rem]
              have : s.rem.drop (look - unused.length) = l.drop look := by
                rw [← hl, List.drop_append, List.drop_eq_nil_of_le (as := unused) (Nat.le_of_not_lt (elook ▸ hpend)), List.nil_append]
              rw [this, ← List.drop_append_of_le_length (by rw [List.length_take]; omega), List.take_append_drop]
            have hlen : ((l.take look).drop y.2.1).length = look - y.2.1 := by
              rw [List.length_drop, List.length_take]; omega
            have := ih (i + 1) (nodes ++ [y.1]) (flagNext y.2.2) ((l.take look).drop y.2.1) (cs'.popBack unused) x hadv.wf.2
              (by rw [hrest]; exact hv.drop _) (by rw [hrest, hlen]; exact h)
            rw [hrest, hlen] at this
            rw [r4]
            exact this
          · rw [if_neg hnd] at h
            cases h

theorem workRaw_eq {g : Grammar} {fuel : Nat} {sch : Sched} (hfair : sch.Fair) {s : Stream} (hw : s.WF)
    (hv : Valid s.rem) (hne : s.rem ≠ []) {x : Except RawErr (List Node)}
    (h : Doc.outcome (docAt (Spec.run g.env fuel) (g.roots.map (·.rule)) fuel SUGGEST_SKIP 0 s.rem []) = some x) :
    g.workRaw fuel sch s =
      docTries (Spec.run g.env fuel) (tries g.env fuel) (g.roots.map (·.rule)) fuel SUGGEST_SKIP 0 s.rem := by
  unfold Grammar.workRaw
  rw [if_neg (by rw [L.peek_eq hw, L.peek_eof hv]; exact hne)]
  exact workRawLoop_eq hfair fuel 0 [] SUGGEST_SKIP [] s x hw hv h

/-! ### More fuel -/

theorem workRoots_steady {fuel fuel' : Nat} (hf : fuel ≤ fuel') (flag : Int) (rs : List Record) :
    ∀ {read : List Rune} {cs : Stream}, rootsLoop env fuel flag rs read cs ≠ .oof →
      rootsLoop env fuel' flag rs read cs = rootsLoop env fuel flag rs read cs ∧
      workRoots env fuel' flag rs read cs = workRoots env fuel flag rs read cs := by
  induction rs with
  | nil => intros; exact ⟨rfl, rfl⟩
  | cons r rs ih =>
    intro read cs h
    rw [rootsLoop] at h
    obtain ⟨e1, e2⟩ := work_fuel env fuel hf r.rule flag (cs.pushBack read) (bind_oof h)
    rw [rootsLoop, rootsLoop]
    simp only [workRoots, e1, e2]
    cases he : eval env fuel r.rule flag (cs.pushBack read) with
    | panic => exact ⟨rfl, rfl⟩
    | oof => exact ⟨rfl, rfl⟩
    | ok x =>
      obtain ⟨res, cs'⟩ := x
      rw [he, Exec.ok_bind] at h
      simp only [Exec.ok_bind]
      obtain ⟨h1, h2⟩ := ih (bind_oof h)
      exact ⟨by rw [h1], by rw [h2]⟩

theorem workRawLoop_steady {fuel fuel' : Nat} (hf : fuel ≤ fuel') (roots : List Record) (sch : Sched) (n : Nat) :
    ∀ {n' i nodes flag unused} {s : Stream}, n ≤ n' → rawLoop env fuel roots sch n i nodes flag unused s ≠ .oof →
      workRawLoop env fuel' roots sch n' i flag unused s = workRawLoop env fuel roots sch n i flag unused s := by
  induction n with
  | zero => intro _ _ _ _ _ _ _ h; exact absurd rfl h
  | succ n ih =>
    intro n' i nodes flag unused s hn h
    cases n' with
    | zero => omega
    | succ n' =>
    simp only [rawLoop] at h
    simp only [workRawLoop]
    split
    · rfl
    · rename_i hp
      rw [if_neg hp] at h
      obtain ⟨h1, h2⟩ := workRoots_steady hf flag (sch.roots i roots) (bind_oof h)
      rw [h1, h2]
      congr 1
      cases he : rootsLoop env fuel flag (sch.roots i roots) [] (s.pushBack unused) with
      | panic => rfl
      | oof => rfl
      | ok x =>
        obtain ⟨ms, maxRead, cs⟩ := x
        rw [he, Exec.ok_bind] at h
        simp only at h ⊢
        cases hp : pick (sch.matched i ms) with
        | none => rfl
        | ambiguous a b => rfl
        | found r =>
          rw [hp] at h
          simp only at h ⊢
          cases hsl : sliceFrom maxRead r.countUsed with
          | panic => rfl
          | oof => rfl
          | ok u =>
            rw [hsl, Exec.ok_bind] at h
            exact ih (by omega) h

theorem workEmbedLoop_steady {fuel fuel' : Nat} (hf : fuel ≤ fuel') (r : Rule) (n : Nat) :
    ∀ {n' kids text} {s : Stream}, n ≤ n' → embedLoop env fuel r n kids text s ≠ .oof →
      workEmbedLoop env fuel' r n' s = workEmbedLoop env fuel r n s := by
  induction n with
  | zero => intro _ _ _ _ _ h; exact absurd rfl h
  | succ n ih =>
    intro n' kids text s hn h
    cases n' with
    | zero => omega
    | succ n' =>
    simp only [embedLoop] at h
    obtain ⟨e1, e2⟩ := work_fuel env fuel hf r NOT_SKIP s (bind_oof h)
    simp only [workEmbedLoop, e1, e2]
    congr 1
    cases he : eval env fuel r NOT_SKIP s with
    | panic => rfl
    | oof => rfl
    | ok x =>
      obtain ⟨res, cs⟩ := x
      rw [he, Exec.ok_bind] at h
      simp only at h ⊢
      cases hn : res.node with
      | none =>
        rw [hn] at h
        simp only at h ⊢
        split
        · rfl
        · rename_i hc
          rw [if_neg hc] at h
          exact ih (by omega) h
      | some nd =>
        rw [hn] at h
        exact ih (by omega) h

/-! ### Embedded rules -/

/-- A search that ends tries the rule at each place at most once. -/
theorem workEmbedLoop_le {r : Rule} {fuel C : Nat} (n : Nat) : ∀ {kids text out} {s : Stream}, s.WF → Valid s.rem →
    (∀ i ≤ s.rem.length, plain (Spec.run env fuel r NOT_SKIP (s.rem.drop i)) = true) →
    (∀ i ≤ s.rem.length, tries env fuel r NOT_SKIP (s.rem.drop i) ≤ C) →
    embedLoop env fuel r n kids text s = .ok out → workEmbedLoop env fuel r n s ≤ C * (s.rem.length + 1) := by
  induction n with
  | zero => intros; exact Nat.zero_le _
  | succ n ih =>
    intro kids text out s hw hv hp hC h
    have hp0 := hp 0 (Nat.zero_le _)
    have hC0 := hC 0 (Nat.zero_le _)
    rw [List.drop_zero] at hp0 hC0
    have hc0 : Clean env r NOT_SKIP s.rem := ⟨fuel, hp0⟩
    have hn1 : Spec.run env fuel r NOT_SKIP s.rem ≠ .oof := by intro h; rw [h] at hp0; cases hp0
    have hn2 : Spec.run env fuel r NOT_SKIP s.rem ≠ .risky := by intro h; rw [h] at hp0; cases hp0
    obtain ⟨res, s', k, e1, e2, e3⟩ := run_eval' (env := env) hw hv hn1 hn2
    have hstuck := embedLoop_stuck (env := env) (r := r) (fuel := fuel) (n + 1) kids text s hw hv hc0
    rw [h] at hstuck
    obtain ⟨hw', hcase⟩ := clean_eval hw hv hc0 e1
    have hwp := Stream.wf_pushBack hw' res.unused
    simp only [embedLoop] at h
    rw [e1, Exec.ok_bind] at h
    simp only [workEmbedLoop, work_eq env fuel r NOT_SKIP s hw hv hn1 hn2, e1]
    rcases hcase with ⟨h1, h2, h3⟩ | ⟨x, m, l, st, h1, h2, h3, h4⟩
    · simp only [h1] at h ⊢
      cases hrem : s.rem with
      | nil =>
        rw [if_pos (Stream.next_nil hwp (h3.trans hrem)).1]
        rw [hrem] at hC0
        simpa using hC0
      | cons c l =>
        obtain ⟨n1, n2⟩ := Stream.next_spec hwp
        have hcv : Valid (c :: l) := by rw [← hrem]; exact hv
        have q1 : (s'.pushBack res.unused).next.1 = c := by rw [n1, h3, hrem]; rfl
        have q2 : (s'.pushBack res.unused).next.2.rem = l := by rw [n2.rem, h3, hrem]; rfl
        have hne : ¬ (s'.pushBack res.unused).next.1 = EOFChar := by
          rw [q1]; intro e; rw [e] at hcv; exact absurd (hcv EOFChar List.mem_cons_self) (by decide)
        rw [if_neg hne] at h ⊢
        have hdrop : ∀ i ≤ l.length, l.drop i = s.rem.drop (i + 1) ∧ i + 1 ≤ s.rem.length := by
          intro i hi
          rw [hrem, List.drop_succ_cons]
          exact ⟨rfl, by simp only [List.length_cons]; omega⟩
        have := ih n2.wf.2 (by rw [q2]; exact fun x hx => hcv x (List.mem_cons_of_mem _ hx))
          (by rw [q2]; intro i hi; rw [(hdrop i hi).1]; exact hp _ (hdrop i hi).2)
          (by rw [q2]; intro i hi; rw [(hdrop i hi).1]; exact hC _ (hdrop i hi).2) h
        rw [q2] at this
        rw [hrem] at hC0
        rw [List.length_cons, Nat.mul_succ]
        omega
    · simp only [h1] at h ⊢
      have hm : m ≠ [] := by
        intro e
        subst e
        have := hstuck ⟨_, _, h3⟩
        cases this
      have hml : 0 < m.length := List.length_pos_iff.2 hm
      have hlen : s.rem.length = m.length + l.length := by rw [h2, List.length_append]
      have hdrop : ∀ i ≤ l.length, l.drop i = s.rem.drop (m.length + i) ∧ m.length + i ≤ s.rem.length := by
        intro i hi
        rw [h2, List.drop_length_add_append]
        exact ⟨rfl, by rw [← h2]; omega⟩
      have := ih hwp (by rw [h4]; intro c hc; exact hv c (by rw [h2]; exact List.mem_append_right _ hc))
        (by rw [h4]; intro i hi; rw [(hdrop i hi).1]; exact hp _ (hdrop i hi).2)
        (by rw [h4]; intro i hi; rw [(hdrop i hi).1]; exact hC _ (hdrop i hi).2) h
      rw [h4] at this
      have h5 : C * (l.length + 1 + 1) ≤ C * (s.rem.length + 1) := Nat.mul_le_mul_left C (by omega)
      rw [Nat.mul_succ] at h5
      omega

/-- The calls are those of the reference. -/
theorem workEmbedLoop_eq {r : Rule} {fuel : Nat} (n : Nat) : ∀ {s : Stream}, s.WF → Valid s.rem →
    (∀ i ≤ s.rem.length, plain (Spec.run env fuel r NOT_SKIP (s.rem.drop i)) = true) →
    workEmbedLoop env fuel r n s = embedTries (Spec.run env fuel) (tries env fuel) r n s.rem := by
  induction n with
  | zero => intros; rfl
  | succ n ih =>
    intro s hw hv hp
    have hp0 := hp 0 (Nat.zero_le _)
    rw [List.drop_zero] at hp0
    have hn1 : Spec.run env fuel r NOT_SKIP s.rem ≠ .oof := by intro h; rw [h] at hp0; cases hp0
    have hn2 : Spec.run env fuel r NOT_SKIP s.rem ≠ .risky := by intro h; rw [h] at hp0; cases hp0
    obtain ⟨res, s', k, e1, e2, e3⟩ := run_eval' (env := env) hw hv hn1 hn2
    have hwp := Stream.wf_pushBack e2.wf.2 res.unused
    simp only [workEmbedLoop, embedTries, work_eq env fuel r NOT_SKIP s hw hv hn1 hn2, e1]
    congr 1
    have hdrop : ∀ j i, i ≤ (s.rem.drop j).length → j ≤ s.rem.length →
        plain (Spec.run env fuel r NOT_SKIP ((s.rem.drop j).drop i)) = true := by
      intro j i hi hj
      rw [List.length_drop] at hi
      rw [List.drop_drop]
      exact hp _ (by omega)
    cases ha : Spec.run env fuel r NOT_SKIP s.rem with
    | oof => exact absurd ha hn1
    | risky => exact absurd ha hn2
    | ambiguous => rw [ha] at hp0; cases hp0
    | fail n st =>
      rw [ha] at e3
      obtain ⟨g1, _, g3, _, g5⟩ := ref_fail e3
      have h3 : (s'.pushBack res.unused).rem = s.rem := by
        rw [Stream.rem_pushBack, g3, e2.rem, g5, List.take_append_drop]
      simp only [g1]
      obtain ⟨n1, n2⟩ := Stream.next_spec hwp
      by_cases hnil : s.rem = []
      · rw [if_pos (Stream.next_nil hwp (h3.trans hnil)).1, if_pos hnil]
      · have hlt := List.length_pos_iff.2 hnil
        have hne : ¬ (s'.pushBack res.unused).next.1 = EOFChar := by
          rw [n1, h3]
          cases hc : s.rem with
          | nil => exact absurd hc hnil
          | cons c l =>
            rw [hc] at hv
            intro e
            have e : c = EOFChar := e
            exact absurd (hv EOFChar (by rw [e]; exact List.mem_cons_self)) (by decide)
        have q2 : (s'.pushBack res.unused).next.2.rem = s.rem.drop 1 := by rw [n2.rem, h3, if_neg hnil]
        rw [if_neg hne, if_neg hnil]
        rw [ih n2.wf.2 (by rw [q2]; exact hv.drop 1) (by rw [q2]; exact fun i hi => hdrop 1 i hi hlt), q2]
    | hit nd u n st =>
      rw [ha] at e3
      obtain ⟨g1, _, _, g4, g5, g6, g7⟩ := ref_hit e3
      have h4 : (s'.pushBack res.unused).rem = s.rem.drop u := by
        rw [Stream.rem_pushBack, g4, e2.rem, g7, ← List.drop_append_of_le_length (by rw [List.length_take]; omega), List.take_append_drop]
      cases hn : res.node with
      | none => rw [hn] at g1; cases g1
      | some x =>
        simp only
        rw [ih hwp (by rw [h4]; exact hv.drop u) (by rw [h4]; exact fun i hi => hdrop u i hi (by omega)), h4]

end Xbnf.Props
