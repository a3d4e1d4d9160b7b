import Verif.Spec.Document
import Verif.Lemmas.Outcome
import Verif.Props.Rules
/-
The loop over root rules does what `Spec.docAt` says, in every order of visiting the maps.
-/
namespace Xbnf.Props
open Spec Grammar

variable {env : Env}

def definiteA (a : Ans) : Prop := isOof a = false ∧ isRisky a = false

/-- Nowhere but at the end does a rule look less far than the one before. -/
def Steady (lk : Rule → Nat) : Nat → List Rule → Prop
  | _, [] => True
  | _, [_] => True
  | m, r :: r' :: rs => m ≤ lk r ∧ Steady lk (lk r) (r' :: rs)

theorem foldr_max_ge (ls : List Nat) (m : Nat) : m ≤ ls.foldr max m := by
  induction ls with
  | nil => exact Nat.le_refl _
  | cons x xs ih => rw [List.foldr_cons]; omega

theorem foldr_max (ls : List Nat) (m : Nat) : ls.foldr max m = max m (ls.foldr max 0) := by
  induction ls with
  | nil => simp
  | cons x xs ih => rw [List.foldr_cons, List.foldr_cons, ih]; omega

theorem foldr_max_perm {a b : List Nat} (h : a.Perm b) (m : Nat) : a.foldr max m = b.foldr max m := by
  induction h with
  | nil => rfl
  | cons x _ ih => rw [List.foldr_cons, List.foldr_cons, ih]
  | swap x y l => simp only [List.foldr_cons]; omega
  | trans _ _ ih1 ih2 => rw [ih1, ih2]

theorem rootsLoop_ref {fuel : Nat} {flag : Int} {l : List Rune} (hv : Valid l) (rs : List Record) :
    ∀ (look : Nat) (cs : Stream), cs.WF → look ≤ l.length → cs.rem = l.drop look →
    (∀ r ∈ rs, definiteA (Spec.run env fuel r.rule flag l)) →
    Steady (fun r => looked (Spec.run env fuel r flag l)) look (rs.map (·.rule)) →
    ∃ ms cs' look', look' = ((rs.map (fun r => looked (Spec.run env fuel r.rule flag l))).foldr max look) ∧
      rootsLoop env fuel flag rs (l.take look) cs = .ok (ms, l.take look', cs') ∧
      look' ≤ l.length ∧ Adv (look' - look) cs cs' ∧
      L.HitsRef ((rs.map (fun r => Spec.run env fuel r.rule flag l)).filterMap hitOf) (ms.map Res.core) ∧
      ∀ h ∈ (rs.map (fun r => Spec.run env fuel r.rule flag l)).filterMap hitOf, h.2.1 ≤ look' := by
  induction rs with
  | nil =>
    intro look cs hw hl hrem _ _
    exact ⟨[], cs, look, rfl, rfl, hl, by rw [Nat.sub_self]; exact Adv.refl hw, trivial, fun _ h => (by cases h)⟩
  | cons r rs ih =>
    intro look cs hw hl hrem hd hst
    have hwp := Stream.wf_pushBack hw (l.take look)
    have hlp : (cs.pushBack (l.take look)).rem = l := by
      rw [Stream.rem_pushBack, hrem, List.take_append_drop]
    have hdr := hd r List.mem_cons_self
    obtain ⟨res, s', k, e1, e2, e3⟩ := run_eval' (env := env) (fuel := fuel) (r := r.rule) (flag := flag) hwp
      (by rw [hlp]; exact hv) (by rw [hlp]; intro h; rw [h] at hdr; exact absurd hdr.1 (by decide))
      (by rw [hlp]; intro h; rw [h] at hdr; exact absurd hdr.2 (by decide))
    rw [hlp] at e3
    -- what is read
    have hk : k = looked (Spec.run env fuel r.rule flag l) ∧ res.read = l.take k ∧ k ≤ l.length ∧
        ((res.node = none ∧ hitOf (Spec.run env fuel r.rule flag l) = none) ∨
          ∃ h, hitOf (Spec.run env fuel r.rule flag l) = some h ∧ res.node.isSome ∧ h.2.1 ≤ k ∧
            res.core.node = some h.1 ∧ res.core.countUsed = h.2.1 ∧ res.core.sticky = h.2.2) := by
      cases ha : Spec.run env fuel r.rule flag l with
      | oof => rw [ha] at hdr; exact absurd hdr.1 (by decide)
      | risky => rw [ha] at hdr; exact absurd hdr.2 (by decide)
      | fail n st =>
        rw [ha] at e3
        obtain ⟨g1, g2, g3, g4, g5⟩ := ref_fail e3
        subst g5
        exact ⟨rfl, g2, g4, .inl ⟨g1, rfl⟩⟩
      | ambiguous n =>
        rw [ha] at e3
        obtain ⟨g1, g2, g3, g4, g5⟩ := ref_ambiguous e3
        subst g5
        exact ⟨rfl, g2, g4, .inl ⟨g1, rfl⟩⟩
      | hit nd u n st =>
        rw [ha] at e3
        have hst : res.sticky = st := by
          have := e3.2.2
          simp only [Exec.ok.injEq, Prod.mk.injEq] at this
          exact congrArg Res.sticky this.1
        obtain ⟨g1, g2, g3, g4, g5, g6, g7⟩ := ref_hit e3
        subst g7
        refine ⟨rfl, g3, g6, .inr ⟨(nd, u, st), rfl, ?_, g5, ?_, ?_, ?_⟩⟩
        · cases hn : res.node with
          | none => rw [hn] at g1; cases g1
          | some x => rfl
        · rw [Res.core_node, g1]
        · rw [Res.core_count, g2]
        · rw [Res.core_sticky, hst]
    obtain ⟨hk1, hk2, hk3, hk4⟩ := hk
    have hmax : (if (l.take look).length < res.read.length then res.read else l.take look) = l.take (max look k) := by
      rw [hk2, List.length_take, List.length_take]
      split
      · congr 1; omega
      · congr 1; omega
    simp only [rootsLoop]
    rw [e1, Exec.ok_bind]
    simp only [hmax]
    have hpl : (l.take look).length = look := by rw [List.length_take]; omega
    have hrec : ∃ ms cs' look', look' = ((rs.map (fun r => looked (Spec.run env fuel r.rule flag l))).foldr max (max look k)) ∧
        rootsLoop env fuel flag rs (l.take (max look k)) s' = .ok (ms, l.take look', cs') ∧
        look' ≤ l.length ∧ max look k ≤ look' ∧ Adv (look' - look) cs (cs'.popBack (l.take look)) ∧
        L.HitsRef ((rs.map (fun r => Spec.run env fuel r.rule flag l)).filterMap hitOf) (ms.map Res.core) ∧
        ∀ h ∈ (rs.map (fun r => Spec.run env fuel r.rule flag l)).filterMap hitOf, h.2.1 ≤ look' := by
      cases rs with
      | nil =>
        refine ⟨[], s', max look k, rfl, rfl, by omega, Nat.le_refl _, ?_, trivial, fun _ h => (by cases h)⟩
        have := e2.popBack
        rw [hpl] at this
        have he : max look k - look = k - look := by omega
        rw [he]; exact this
      | cons r' rs =>
        simp only [List.map_cons, Steady] at hst
        rw [← hk1] at hst
        have hmx : max look k = k := by omega
        rw [hmx]
        obtain ⟨ms, cs', look', h1, h2, h3, h4, h5, h6⟩ := ih k s' e2.wf.2 hk3 (by rw [e2.rem, hlp])
          (fun x hx => hd x (List.mem_cons_of_mem _ hx)) (by simpa only [List.map_cons] using hst.2)
        have hge : k ≤ look' := by rw [h1]; exact foldr_max_ge _ _
        refine ⟨ms, cs', look', h1, h2, h3, hge, ?_, h5, h6⟩
        have := (e2.trans h4).popBack
        rw [hpl] at this
        have he : k + (look' - k) - look = look' - look := by omega
        rw [he] at this; exact this
    obtain ⟨ms, cs', look', h1, h2, h3, h3', h4, h5, h6⟩ := hrec
    rw [h2, Exec.ok_bind]
    refine ⟨_, _, look', ?_, rfl, h3, h4, ?_, ?_⟩
    · rw [h1, List.map_cons, List.foldr_cons, ← hk1, foldr_max _ (max look k), foldr_max _ look]
      omega
    · rcases hk4 with ⟨n1, n2⟩ | ⟨h, n1, n2, n3, n4⟩
      · rw [List.map_cons, List.filterMap_cons_none n2, n1]
        exact h5
      · rw [List.map_cons, List.filterMap_cons_some n1, if_pos n2]
        exact ⟨n4, h5⟩
    · intro x hx
      rcases hk4 with ⟨n1, n2⟩ | ⟨h, n1, n2, n3, n4⟩
      · rw [List.map_cons, List.filterMap_cons_none n2] at hx
        exact h6 x hx
      · rw [List.map_cons, List.filterMap_cons_some n1] at hx
        rcases List.mem_cons.1 hx with rfl | hx
        · omega
        · exact h6 x hx

theorem hitsRef_perm {ms ms' : List Res} (h : ms.Perm ms') :
    ∀ {hits}, L.HitsRef hits (ms.map Res.core) → ∃ hits', hits.Perm hits' ∧ L.HitsRef hits' (ms'.map Res.core) := by
  induction h with
  | nil => intro hits hh; exact ⟨hits, .refl _, hh⟩
  | cons x _ ih =>
    intro hits hh
    match hits, hh with
    | y :: ys, hh =>
      obtain ⟨hs, h1, h2⟩ := ih hh.2
      exact ⟨y :: hs, .cons _ h1, hh.1, h2⟩
  | swap x y l =>
    intro hits hh
    match hits, hh with
    | a :: b :: hs, hh => exact ⟨b :: a :: hs, .swap _ _ _, hh.2.1, hh.1, hh.2.2⟩
  | trans _ _ ih1 ih2 =>
    intro hits hh
    obtain ⟨h1, p1, q1⟩ := ih1 hh
    obtain ⟨h2, p2, q2⟩ := ih2 q1
    exact ⟨h2, p1.trans p2, q2⟩

theorem longest_perm {a b : List (Node × Nat × Bool)} (h : a.Perm b) : longest a = longest b := by
  induction h with
  | nil => rfl
  | cons x _ ih => simp only [longest, List.foldr_cons] at ih ⊢; rw [ih]
  | swap x y l => simp only [longest, List.foldr_cons]; omega
  | trans _ _ ih1 ih2 => rw [ih1, ih2]

theorem runningTie_nodup (hits : List (Node × Nat × Bool)) : ∀ (m : Nat), (∃ x, m = x ∧ x ∉ hits.map (fun h => h.2.1)) →
    (hits.map (fun h => h.2.1)).Nodup → runningTie (some m) hits = false := by
  induction hits with
  | nil => intro _ _ _; rfl
  | cons x xs ih =>
    rintro m ⟨_, rfl, hm⟩ hn
    simp only [List.map_cons, List.mem_cons, not_or] at hm
    simp only [List.map_cons, List.nodup_cons] at hn
    simp only [runningTie, Bool.or_eq_false_iff, beq_eq_false_iff_ne, ne_eq]
    refine ⟨fun h => hm.1 h.symm, ih _ ⟨_, rfl, ?_⟩ hn.2⟩
    by_cases hc : m ≤ x.2.1
    · rw [Nat.max_eq_right hc]; exact hn.1
    · rw [Nat.max_eq_left (by omega)]; exact hm.2

theorem best_nodup {hits : List (Node × Nat × Bool)} {h} (hf : hits.filter (fun z => z.2.1 == longest hits) = [h])
    (hn : (hits.map (fun h => h.2.1)).Nodup) : best hits = .one h.1 h.2.1 h.2.2 := by
  unfold best
  rw [hf]
  have : runningTie none hits = false := by
    cases hits with
    | nil => cases hf
    | cons x xs =>
      simp only [List.map_cons, List.nodup_cons] at hn
      exact runningTie_nodup xs _ ⟨_, rfl, hn.1⟩ hn.2
  simp [this]

/-- Choosing among hits, in any order. -/
theorem pick_any {hits hits' : List (Node × Nat × Bool)} {ms : List Res} (hp : hits.Perm hits')
    (h : L.HitsRef hits' (ms.map Res.core)) :
    (hits.filter (fun z => z.2.1 == longest hits) = [] → pick ms = .none) ∧
    (∀ y z ys, hits.filter (fun z => z.2.1 == longest hits) = y :: z :: ys → ∃ x x', pick ms = .ambiguous x x') ∧
    (∀ y, hits.filter (fun z => z.2.1 == longest hits) = [y] → (hits.map (fun h => h.2.1)).Nodup →
      ∃ r, pick ms = .found r ∧ r.node.map Node.erase = some y.1 ∧ r.countUsed = y.2.1 ∧ r.sticky = y.2.2) := by
  have hl := longest_perm hp
  have hf : (hits.filter (fun z => z.2.1 == longest hits)).Perm (hits'.filter (fun z => z.2.1 == longest hits')) := by
    rw [hl]; exact hp.filter _
  have hb := L.pick_best h
  rw [pick_core] at hb
  refine ⟨?_, ?_, ?_⟩
  · intro he
    rw [he] at hf
    have hf := hf.symm.eq_nil
    have : best hits' = .none := by unfold best; rw [hf]
    rw [this] at hb
    cases hq : pick ms with
    | none => rfl
    | ambiguous => rw [hq] at hb; cases hb.1
    | found r => rw [hq] at hb; cases hb.1
  · intro y z ys he
    rw [he] at hf
    have : best hits' = .tie := by
      have hlen := hf.length_eq
      unfold best
      generalize hits'.filter (fun z => z.2.1 == longest hits') = q at hlen
      match q, hlen with
      | _ :: _ :: _, _ => rfl
    rw [this] at hb
    cases hq : pick ms with
    | none => rw [hq] at hb; obtain ⟨_, _, hb⟩ := hb; cases hb
    | ambiguous x x' => exact ⟨x, x', rfl⟩
    | found r => rw [hq] at hb; obtain ⟨_, _, hb⟩ := hb; cases hb
  · intro y he hn
    rw [he] at hf
    have hf := hf.symm.eq_singleton
    have := best_nodup hf ((hp.map _).nodup_iff.1 hn)
    rw [this] at hb
    obtain ⟨_, r, h1, h2, h3, h4⟩ := hb
    cases hq : pick ms with
    | none => rw [hq] at h1; cases h1
    | ambiguous => rw [hq] at h1; cases h1
    | found r' =>
      rw [hq] at h1
      simp only [Pick.core, Pick.found.injEq] at h1
      subst h1
      exact ⟨r', rfl, h2, h3, h4⟩

theorem steady_equal {lk : Rule → Nat} {m : Nat} (rs : List Rule) : ∀ {k}, k ≤ m → (∀ r ∈ rs, lk r = m) → Steady lk k rs := by
  induction rs with
  | nil => intro _ _ _; trivial
  | cons r rs ih =>
    intro k hk h
    cases rs with
    | nil => trivial
    | cons r' rs =>
      have := h r List.mem_cons_self
      exact ⟨by omega, ih (by omega) (fun x hx => h x (List.mem_cons_of_mem _ hx))⟩

/-- A document's answer, as the outcome of `EvalRaw`. -/
def Doc.outcome : Doc → Option (Except RawErr (List Node))
  | .oof | .risky => none
  | .noMatch => some (.error .noMatch)
  | .ambiguity => some (.error .ambiguity)
  | .nodes ns => some (.ok ns)

theorem rootsAny {fuel : Nat} {roots : List Record} {flag : Int} {pending : Nat} {l : List Rune}
    (h1 : roundAt (Spec.run env fuel) (roots.map (·.rule)) flag pending l ≠ .oof)
    (h2 : roundAt (Spec.run env fuel) (roots.map (·.rule)) flag pending l ≠ .risky) :
    (∀ r ∈ roots, definiteA (Spec.run env fuel r.rule flag l)) ∧
    ∀ rs : List Record, rs.Perm roots → Steady (fun r => looked (Spec.run env fuel r flag l)) 0 (rs.map (·.rule)) := by
  unfold roundAt at h1 h2
  simp only [List.map_map] at h1 h2
  split at h1
  · exact absurd rfl h1
  rename_i ho
  rw [if_neg ho] at h2
  split at h2
  · exact absurd rfl h2
  rename_i hr
  split at h2
  · exact absurd rfl h2
  rename_i hs
  refine ⟨?_, ?_⟩
  · intro r hm
    simp only [List.any_map, List.any_eq_true, Function.comp_apply, not_exists, not_and, Bool.not_eq_true] at ho hr
    exact ⟨ho r hm, hr r hm⟩
  · intro rs hperm
    have hlen := hperm.length_eq
    by_cases h2l : 2 < roots.length
    · have : ∀ r ∈ roots, looked (Spec.run env fuel r.rule flag l) =
          (roots.map (fun r => looked (Spec.run env fuel r.rule flag l))).foldr max 0 := by
        intro r hm
        apply Classical.byContradiction
        intro hc
        refine hs ⟨by simpa using h2l, ?_⟩
        simp only [List.any_map, List.any_eq_true, Function.comp_apply, bne_iff_ne]
        exact ⟨r, hm, hc⟩
      refine steady_equal (m := (roots.map (fun r => looked (Spec.run env fuel r.rule flag l))).foldr max 0) _ (Nat.zero_le _) ?_
      intro r hm
      obtain ⟨x, hx, rfl⟩ := List.mem_map.1 hm
      exact this x (hperm.mem_iff.1 hx)
    · match rs, hlen with
      | [], _ => trivial
      | [_], _ => trivial
      | [a, b], _ => exact ⟨Nat.zero_le _, trivial⟩
      | _ :: _ :: _ :: _, hlen => simp only [List.length_cons] at hlen; omega

theorem rawLoop_ref {fuel : Nat} {roots : List Record} {sch : Sched} (hfair : sch.Fair) (n : Nat) :
    ∀ (i : Nat) (nodes : List Node) (flag : Int) (unused : List Rune) (s : Stream) (x : Except RawErr (List Node)),
    s.WF → Valid (unused ++ s.rem) → (nodes ≠ [] ∨ unused ++ s.rem ≠ []) →
    Doc.outcome (docAt (Spec.run env fuel) (roots.map (·.rule)) n flag unused.length (unused ++ s.rem)
      (nodes.map Node.erase)) = some x →
    ∃ y s', rawLoop env fuel roots sch n i nodes flag unused s = .ok (y, s') ∧
      y.map (List.map Node.erase) = x := by
  induction n with
  | zero => intro i nodes flag unused s x _ _ _ h; cases h
  | succ n ih =>
    intro i nodes flag unused s x hw hv hne h
    have hwp := Stream.wf_pushBack hw unused
    have hrem := Stream.rem_pushBack s unused
    have hpeek : (s.pushBack unused).peek = EOFChar ↔ unused ++ s.rem = [] := by
      rw [L.peek_eq hwp, hrem]; exact L.peek_eof hv
    generalize hl : unused ++ s.rem = l at *
    simp only [docAt] at h
    simp only [rawLoop]
    by_cases hnil : l = []
    · rw [if_pos hnil] at h
      simp only [Doc.outcome, Option.some.injEq] at h
      subst h
      rw [if_pos (hpeek.2 hnil)]
      have : ¬ nodes.length = 0 := by
        intro hc
        rcases hne with hne | hne
        · exact hne (List.length_eq_zero_iff.1 hc)
        · exact hne hnil
      rw [if_neg this]
      exact ⟨_, _, rfl, rfl⟩
    · rw [if_neg hnil] at h
      rw [if_neg (fun hc => hnil (hpeek.1 hc))]
      have hnot : roundAt (Spec.run env fuel) (roots.map (·.rule)) flag unused.length l ≠ .oof ∧
          roundAt (Spec.run env fuel) (roots.map (·.rule)) flag unused.length l ≠ .risky := by
        constructor <;> (intro hc; rw [hc] at h; cases h)
      obtain ⟨hd, hsteady⟩ := rootsAny hnot.1 hnot.2
      have hperm := hfair.1 i roots
      obtain ⟨ms, cs', look, e1, e2, e3, e4, e5, e6⟩ := rootsLoop_ref (env := env) (fuel := fuel) (flag := flag) hv
        (sch.roots i roots) 0 (s.pushBack unused) hwp (Nat.zero_le _) (by rw [hrem, List.drop_zero])
        (fun r hr => hd r (hperm.mem_iff.1 hr)) (hsteady _ hperm)
      rw [List.take_zero] at e2
      rw [e2, Exec.ok_bind]
      have elook : look = (roots.map (fun r => looked (Spec.run env fuel r.rule flag l))).foldr max 0 := by
        rw [e1]; exact foldr_max_perm (hperm.map _) 0
      have hhits := (hperm.map (fun r => Spec.run env fuel r.rule flag l)).filterMap hitOf
      obtain ⟨hits', p1, p2⟩ := hitsRef_perm (hfair.2 i ms).symm e5
      obtain ⟨q1, q2, q3⟩ := pick_any (hhits.symm.trans p1) p2
      -- the stream for the next round
      have hadv := e4.popBack
      rw [Nat.sub_zero] at hadv
      have hround : roundAt (Spec.run env fuel) (roots.map (·.rule)) flag unused.length l =
          match ((roots.map (fun r => Spec.run env fuel r.rule flag l)).filterMap hitOf).filter
            (fun h => h.2.1 == longest ((roots.map (fun r => Spec.run env fuel r.rule flag l)).filterMap hitOf)) with
          | [] => .noMatch
          | [h] => if look < unused.length then .risky
              else if (((roots.map (fun r => Spec.run env fuel r.rule flag l)).filterMap hitOf).map (fun h => h.2.1)).Nodup
              then .step h.1 h.2.1 (look - h.2.1) h.2.2 else .risky
          | _ => .tie := by
        have hn1 := hnot.1
        have hn2 := hnot.2
        unfold roundAt at hn1 hn2 ⊢
        simp only [List.map_map] at hn1 hn2 ⊢
        split at hn1
        · exact absurd rfl hn1
        rename_i ho
        rw [if_neg ho] at hn2 ⊢
        split at hn2
        · exact absurd rfl hn2
        rename_i hr
        rw [if_neg hr]
        split at hn2
        · exact absurd rfl hn2
        rename_i hs
        rw [if_neg hs, elook]
        rfl
      rw [hround] at h
      generalize hF : ((roots.map (fun r => Spec.run env fuel r.rule flag l)).filterMap hitOf) = hits at *
      cases hfil : hits.filter (fun h => h.2.1 == longest hits) with
      | nil =>
        rw [hfil] at h
        simp only [Doc.outcome, Option.some.injEq] at h
        simp only [q1 hfil]
        exact ⟨_, _, rfl, by rw [← h]; rfl⟩
      | cons y ys =>
        cases ys with
        | cons z ys =>
          rw [hfil] at h
          simp only [Doc.outcome, Option.some.injEq] at h
          obtain ⟨_, _, q2⟩ := q2 _ _ _ hfil
          simp only [q2]
          exact ⟨_, _, rfl, by rw [← h]; rfl⟩
        | nil =>
          rw [hfil] at h
          simp only at h
          by_cases hpend : look < unused.length
          · rw [if_pos hpend] at h; cases h
          rw [if_neg hpend] at h
          by_cases hnd : (hits.map (fun h => h.2.1)).Nodup
          · rw [if_pos hnd] at h
            simp only at h
            obtain ⟨r, r1, r2, r3, r4⟩ := q3 y hfil hnd
            simp only [r1]
            have hyl : y.2.1 ≤ look := by
              have hy : y ∈ hits := (List.mem_filter.1 (show y ∈ hits.filter (fun h => h.2.1 == longest hits) by rw [hfil]; exact List.mem_singleton_self _)).1
              exact e6 y (hhits.mem_iff.2 hy)
            have hslice : sliceFrom (l.take look) r.countUsed = .ok ((l.take look).drop y.2.1) := by
              rw [r3, sliceFrom_all _ _ (by rw [List.length_take]; omega)]
            rw [hslice, Exec.ok_bind]
            have hrest : (l.take look).drop y.2.1 ++ (cs'.popBack unused).rem = l.drop y.2.1 := by
              rw [hadv.rem]
              have : s.rem.drop (look - unused.length) = l.drop look := by
                rw [← hl, List.drop_append, List.drop_eq_nil_of_le (as := unused) (Nat.le_of_not_lt (elook ▸ hpend)), List.nil_append]
              rw [this, ← List.drop_append_of_le_length (by rw [List.length_take]; omega), List.take_append_drop]
            obtain ⟨nd, hn, hnE⟩ : ∃ nd, r.node = some nd ∧ nd.erase = y.1 := by
              cases hn : r.node with
              | none => rw [hn] at r2; cases r2
              | some nd => rw [hn] at r2; exact ⟨nd, rfl, Option.some.inj r2⟩
            refine ih (i + 1) _ _ _ _ x hadv.wf.2 ?_ ?_ ?_
            · rw [hrest]; exact hv.drop _
            · left; rw [hn]; simp
            · rw [hrest, hn, r4]
              have hlen : ((l.take look).drop y.2.1).length = look - y.2.1 := by
                rw [List.length_drop, List.length_take]; omega
              rw [hlen]
              simp only [Option.toList_some, List.map_append, List.map_cons, List.map_nil, hnE]
              exact h
          · rw [if_neg hnd] at h
            cases h

/-- `EvalRaw` in any fair order does what the document semantics says. -/
theorem evalRaw_ref {g : Grammar} {fuel : Nat} {sch : Sched} (hfair : sch.Fair) {s : Stream} (hw : s.WF)
    (hv : Valid s.rem) (hne : s.rem ≠ []) {x : Except RawErr (List Node)}
    (h : Doc.outcome (docAt (Spec.run g.env fuel) (g.roots.map (·.rule)) fuel SUGGEST_SKIP 0 s.rem []) = some x) :
    ∃ y s', g.evalRaw fuel sch s = .ok (y, s') ∧ y.map (List.map Node.erase) = x := by
  unfold evalRaw
  rw [if_neg (by rw [L.peek_eq hw, L.peek_eof hv]; exact hne)]
  exact rawLoop_ref hfair fuel 0 [] SUGGEST_SKIP [] s x hw hv (.inr hne) h

theorem raw_det {g : Grammar} {fuel fuel' : Nat} {sch : Sched} {s : Stream} {x y}
    (h : g.evalRaw fuel sch s = .ok x) (h' : g.evalRaw fuel' sch s = .ok y) : x = y := by
  have h1 := (evalRaw_le g (Nat.le_max_left fuel fuel') sch s).of_ok h
  have h2 := (evalRaw_le g (Nat.le_max_right fuel fuel') sch s).of_ok h'
  rw [h1] at h2
  exact Exec.ok.inj h2

theorem orderly_outcome {env : Env} {roots : List Rule} {l : List Rune} (h : Orderly env roots l) :
    ∃ fuel x, Doc.outcome (docAt (Spec.run env fuel) roots fuel SUGGEST_SKIP 0 l []) = some x := by
  obtain ⟨fuel, h1, h2⟩ := h
  refine ⟨fuel, ?_⟩
  cases hd : docAt (Spec.run env fuel) roots fuel SUGGEST_SKIP 0 l [] with
  | oof => exact absurd hd h1
  | risky => exact absurd hd h2
  | noMatch => exact ⟨_, rfl⟩
  | ambiguity => exact ⟨_, rfl⟩
  | nodes ns => exact ⟨_, rfl⟩

theorem hitList_filterMap {fuel : Nat} {flag : Int} {l : List Rune} (hv : Valid l) (roots : List Rule)
    (h1 : (roots.map (fun r => Spec.run env fuel r flag l)).any isOof = false)
    (h2 : (roots.map (fun r => Spec.run env fuel r flag l)).any isRisky = false) :
    HitList env flag l roots ((roots.map (fun r => Spec.run env fuel r flag l)).filterMap hitOf) := by
  induction roots with
  | nil => exact .nil
  | cons r rs ih =>
    simp only [List.map_cons, List.any_cons, Bool.or_eq_false_iff] at h1 h2
    have := ih h1.2 h2.2
    rw [List.map_cons]
    cases hr : Spec.run env fuel r flag l with
    | oof => rw [hr] at h1; exact absurd h1.1 (by decide)
    | risky => rw [hr] at h2; exact absurd h2.1 (by decide)
    | fail n st =>
      rw [List.filterMap_cons_none rfl]
      exact .miss (fails_of_run hv (.inl ⟨_, _, hr⟩)) this
    | ambiguous n =>
      rw [List.filterMap_cons_none rfl]
      exact .miss (fails_of_run hv (.inr ⟨_, hr⟩)) this
    | hit nd u n st =>
      show HitList env flag l (r :: rs) ((nd, u, st) :: _)
      exact .hit (matches_of_run hv hr) this

theorem hits_le {fuel : Nat} {flag : Int} {l : List Rune} (hv : Valid l) (roots : List Rule) :
    ∀ h ∈ (roots.map (fun r => Spec.run env fuel r flag l)).filterMap hitOf, h.2.1 ≤ l.length := by
  intro h hm
  obtain ⟨a, ha, he⟩ := List.mem_filterMap.1 hm
  obtain ⟨r, hr, rfl⟩ := List.mem_map.1 ha
  have := L.eval_ref env fuel r flag l hv
  cases hrun : Spec.run env fuel r flag l with
  | hit nd u n st =>
    rw [hrun] at this he
    cases he
    have h1 := this.1
    have h2 := this.2.1
    simp only
    omega
  | _ => rw [hrun] at he; cases he

/-- What a round says about the roots. -/
theorem round_spec {fuel : Nat} {roots : List Rule} {flag : Int} {pending : Nat} {l : List Rune} (hv : Valid l) :
    match roundAt (Spec.run env fuel) roots flag pending l with
    | .oof | .risky => True
    | .noMatch => ∀ r ∈ roots, Fails env r flag l
    | .tie => Tied env flag l roots
    | .step nd u _ st => u ≤ l.length ∧ RootWins env roots flag l nd u st := by
  unfold roundAt
  simp only
  by_cases ho : (roots.map (fun r => Spec.run env fuel r flag l)).any isOof = true
  · rw [if_pos ho]; trivial
  rw [if_neg ho]
  by_cases hr : (roots.map (fun r => Spec.run env fuel r flag l)).any isRisky = true
  · rw [if_pos hr]; trivial
  rw [if_neg hr]
  have hh := hitList_filterMap (env := env) hv roots (by simpa using ho) (by simpa using hr)
  have hle := hits_le (env := env) (fuel := fuel) (flag := flag) hv roots
  by_cases h4 : 2 < roots.length ∧ (roots.map (fun r => Spec.run env fuel r flag l)).any (fun a => looked a !=
      ((roots.map (fun r => Spec.run env fuel r flag l)).map looked).foldr max 0) = true
  · rw [if_pos h4]; trivial
  rw [if_neg h4]
  generalize (roots.map (fun r => Spec.run env fuel r flag l)).filterMap hitOf = hits at hh hle
  cases hf : hits.filter (fun h => h.2.1 == longest hits) with
  | nil =>
    have hn : hits = [] := by
      cases hits with
      | nil => rfl
      | cons x xs =>
        obtain ⟨y, hy, hyl⟩ := L.longest_mem (x :: xs) (by simp)
        rw [List.filter_eq_nil_iff] at hf
        exact absurd (by simpa using hyl) (hf y hy)
    subst hn
    exact hh.none
  | cons y ys =>
    cases ys with
    | nil =>
      simp only
      by_cases h3 : ((roots.map (fun r => Spec.run env fuel r flag l)).map looked).foldr max 0 < pending
      · rw [if_pos h3]; trivial
      rw [if_neg h3]
      by_cases hnd : (hits.map (fun h => h.2.1)).Nodup
      · rw [if_pos hnd]
        have hy : y ∈ hits.filter (fun h => h.2.1 == longest hits) := by rw [hf]; exact List.mem_singleton_self _
        obtain ⟨hy1, hy2⟩ := List.mem_filter.1 hy
        have hy2 : y.2.1 = longest hits := by simpa using hy2
        obtain ⟨rs1, r, rs2, e1, e2, e3⟩ := hh.filter_one hf
        refine ⟨hle y hy1, rs1, r, rs2, e1, e2, ?_⟩
        intro r' hr' nd u st hm
        have h5 := e3 r' hr' nd u st hm
        have h6 := L.le_longest (hh.all (r := r') (by rw [e1]; simp only [List.mem_append, List.mem_cons] at hr' ⊢; rcases hr' with h | h <;> simp [h]) hm)
        simp only at h6
        omega
      · rw [if_neg hnd]; trivial
    | cons z ys =>
      obtain ⟨rs1, r, rs2, r', rs3, e1, e2, e3⟩ := hh.filter_two hf
      exact ⟨longest hits, rs1, r, rs2, r', rs3, e1, e2, e3, fun r hr nd u st hm => L.le_longest (hh.all hr hm)⟩

theorem docAt_spec {fuel : Nat} {roots : List Rule} (n : Nat) : ∀ {flag : Int} {pending : Nat} {l : List Rune}
    {nodes : List Node}, Valid l →
    match docAt (Spec.run env fuel) roots n flag pending l nodes with
    | .oof | .risky => True
    | .noMatch => Halts env roots (fun flag l => ∀ r ∈ roots, Fails env r flag l) flag l
    | .ambiguity => Halts env roots (fun flag l => Tied env flag l roots) flag l
    | .nodes ns => ∃ more, ns = nodes ++ more ∧ Document env roots flag l more := by
  induction n with
  | zero => intro _ _ _ _ _; trivial
  | succ n ih =>
    intro flag pending l nodes hv
    simp only [docAt]
    by_cases hl : l = []
    · rw [if_pos hl]
      subst hl
      exact ⟨[], by simp, .done⟩
    · rw [if_neg hl]
      have hr := round_spec (env := env) (fuel := fuel) (roots := roots) (flag := flag) (pending := pending) hv
      cases hround : roundAt (Spec.run env fuel) roots flag pending l with
      | oof => trivial
      | risky => trivial
      | noMatch => rw [hround] at hr; exact .here hl hr
      | tie => rw [hround] at hr; exact .here hl hr
      | step nd u left st =>
        rw [hround] at hr
        simp only at hr ⊢
        have hi := ih (flag := flagNext st) (pending := left) (l := l.drop u) (nodes := nodes ++ [nd]) (hv.drop u)
        have hu : (l.take u).length = u := by rw [List.length_take]; omega
        have hw : RootWins env roots flag (l.take u ++ l.drop u) nd (l.take u).length st := by
          rw [List.take_append_drop, hu]; exact hr.2
        have hne : l.take u ++ l.drop u ≠ [] := by rw [List.take_append_drop]; exact hl
        have hsplit := List.take_append_drop u l
        cases hd : docAt (Spec.run env fuel) roots n (flagNext st) left (l.drop u) (nodes ++ [nd]) with
        | oof => trivial
        | risky => trivial
        | noMatch =>
          rw [hd] at hi
          have := Halts.next hne hw hi
          rwa [hsplit] at this
        | ambiguity =>
          rw [hd] at hi
          have := Halts.next hne hw hi
          rwa [hsplit] at this
        | nodes ns =>
          rw [hd] at hi
          obtain ⟨more, e, hm⟩ := hi
          have := Document.next hne hw hm
          rw [hsplit] at this
          exact ⟨nd :: more, by rw [e]; simp, this⟩

end Xbnf.Props
