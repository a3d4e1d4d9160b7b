import Verif.Lemmas.Factor
import Verif.Props.Rename
import Verif.Props.Parens
/-
C68: a part of a rule can be given a name of its own, and a reference can be replaced by what it refers to.
-/
namespace Xbnf.Props
open Xbnf Xbnf.Spec Grammar

variable {S : Name → Bool}

/-! ## The other way round -/

mutual
theorem refactored_swap {env env' : Env} {r r' : Rule} : Refactored S env env' r r' → Refactored S env' env r' r
  | .eof hb => .eof hb.symm
  | .char hb => .char hb.symm
  | .range hb => .range hb.symm
  | .chars hb => .chars hb.symm
  | .str hb => .str hb.symm
  | .group hb h => .group hb.symm (factored_swap h)
  | .option hb h => .option hb.symm (factored_swap h)
  | .rep hb h => .rep hb.symm (factored_swap h)
  | .choice hb h => .choice hb.symm (factoredLL_swap h)
  | .concat hb h => .concat hb.symm (factoredL_swap h)
  | .block hb ho hc he hx => .block hb.symm (factored_swap ho) (factored_swap hc) (factoredO_swap he) (factoredL_swap hx)
  | .ref hb hn => .ref hb.symm hn
theorem factored_swap {env env' : Env} {r r' : Rule} : Factored S env env' r r' → Factored S env' env r' r
  | .same h => .same (refactored_swap h)
  | .left hb hn h => .right hb hn (refactored_swap h)
  | .right hb hn h => .left hb hn (refactored_swap h)
theorem factoredL_swap {env env' : Env} {r r' : List Rule} : FactoredL S env env' r r' → FactoredL S env' env r' r
  | .nil => .nil
  | .cons h hs => .cons (factored_swap h) (factoredL_swap hs)
theorem factoredLL_swap {env env' : Env} {r r' : List (List Rule)} : FactoredLL S env env' r r' → FactoredLL S env' env r' r
  | .nil => .nil
  | .cons h hs => .cons (factoredL_swap h) (factoredLL_swap hs)
theorem factoredO_swap {env env' : Env} {r r' : Option Rule} : FactoredO S env env' r r' → FactoredO S env' env r' r
  | .none => .none
  | .some h => .some (factored_swap h)
end

theorem sameRules_swap {env env' : Env} (h : SameRules S env env') : SameRules S env' env := by
  intro n hn
  rcases h n hn with ⟨h1, h2⟩ | ⟨r, r', h1, h2, h3⟩
  · exact .inl ⟨h2, h1⟩
  · exact .inr ⟨r', r, h2, h1, factored_swap h3⟩

theorem alike_swap {x y : Res} (h : Alike S x y) : Alike S y x :=
  ⟨h.node.symm, h.error.symm, h.errIdx.symm, h.read.symm, h.unused.symm, h.sticky.symm⟩

/-! ## Rules -/

theorem evalRule_follow {g g' : Grammar} (he : SameRules S g.env g'.env) {name : Name} (hn : S name = false) (sample : List Rune) {fuel : Nat} {res : Res}
    (h : g.evalRule fuel name sample = .ok res) : ∃ fuel' res', g'.evalRule fuel' name sample = .ok res' ∧ Alike S res res' := by
  rcases he name hn with ⟨h1, h2⟩ | ⟨r, r', h1, h2, h3⟩
  · have n1 : g.getRecord name = none := by simpa [Grammar.env] using h1
    have n2 : g'.getRecord name = none := by simpa [Grammar.env] using h2
    simp only [evalRule, n1] at h
    cases h
    exact ⟨0, { error := some (.undefined {} name) }, by simp only [evalRule, n2], rfl, rfl, rfl, rfl, rfl, rfl⟩
  · obtain ⟨q, n1, rfl⟩ : ∃ q, g.getRecord name = some q ∧ q.rule = r := by simpa [Grammar.env] using h1
    obtain ⟨q', n2, rfl⟩ : ∃ q, g'.getRecord name = some q ∧ q.rule = r' := by simpa [Grammar.env] using h2
    have key := Follow.bind (Q := Alike S) (f := fun x => .ok x.1) (g := fun x => .ok x.1)
      (factored_follow he fuel (2 * fuel) (Nat.le_refl _) _ _ SUGGEST_SKIP (Stream.ofChars sample) h3) (fun a b hab => .ok hab.1)
    simp only [evalRule, n1] at h
    obtain ⟨res', h4, h5⟩ := key res h
    exact ⟨2 * fuel, res', by simp only [evalRule, n2]; exact h4, h5⟩

/-- **C68**: let two grammars differ only in that, at any depth of any rules, a part of a rule of the one is in the other a reference, without a
mark, to a rule that is this part.  The rules in `S` are those that only one of the two may have.  Then `EvalRule` for every name that is not in `S`
and on every sample gives with the second what it gives with the first: the same tree, but for the names from `S`, an error in the
same cases and at the same character, and the same characters used, read and left. -/
theorem C68_rule {g g' : Grammar} (he : SameRules S g.env g'.env) {name : Name} (hn : S name = false) (sample : List Rune) :
    (∀ fuel res, g.evalRule fuel name sample = .ok res → ∃ fuel' res', g'.evalRule fuel' name sample = .ok res' ∧ Alike S res res') ∧
    (∀ fuel' res', g'.evalRule fuel' name sample = .ok res' → ∃ fuel res, g.evalRule fuel name sample = .ok res ∧ Alike S res res') := by
  refine ⟨fun fuel res h => evalRule_follow he hn sample h, fun fuel' res' h => ?_⟩
  obtain ⟨fuel, res, h1, h2⟩ := evalRule_follow (sameRules_swap he) hn sample h
  exact ⟨fuel, res, h1, alike_swap h2⟩

/-- Such results have the same text. -/
theorem C68_text {x y : Res} (h : Alike S x y) : x.node.map Node.text = y.node.map Node.text := by
  rcases h.cases with ⟨h1, h2⟩ | ⟨n, n', h1, h2, h3⟩
  · rw [h1, h2]
  · rw [h1, h2, Option.map_some, Option.map_some, ← text_ren (f := veil S) n, ← text_ren (f := veil S) n', h3]

theorem embedLoop_follow {env env' : Env} {ev ev' : Nat} (hev : EvFollow S env env' (eval env ev) (eval env' ev')) {r r' : Rule} (hr : Factored S env env' r r') :
    ∀ (n n' : Nat) (_ : n ≤ n') (kids kids' : List Node) (_ : NodesAlike S kids kids') (text : List Rune) (cs : Stream),
      Follow (NodesAlike S) (embedLoop env ev r n kids text cs) (embedLoop env' ev' r' n' kids' text cs)
  | 0, _, _, _, _, _, _, _ => by intro a ha; cases ha
  | n + 1, 0, hn, _, _, _, _, _ => by omega
  | n + 1, n' + 1, hn, kids, kids', hk, text, cs => by
    simp only [embedLoop]
    refine (hev _ _ NOT_SKIP cs hr).bind ?_
    rintro ⟨res, c⟩ ⟨res', c'⟩ ⟨ha, hcs⟩
    simp only at ha hcs
    subst hcs
    simp only [← ha.unused]
    have hkt : NodesAlike S (kids ++ textNodes text) (kids' ++ textNodes text) := by
      unfold NodesAlike at *
      rw [List.map_append, List.map_append, hk]
    rcases ha.cases with ⟨h1, h2⟩ | ⟨m, m', h1, h2, h3⟩
    · simp only [h1, h2]
      split
      · exact .ok hkt
      · exact embedLoop_follow hev hr n n' (by omega) kids kids' hk _ _
    · simp only [h1, h2]
      exact embedLoop_follow hev hr n n' (by omega) _ _ (hkt.snoc h3) [] _

theorem evalEmbed_follow {g g' : Grammar} (he : SameRules S g.env g'.env) {name : Name} (hn : S name = false) (sample : List Rune) {fuel : Nat} {res : Res}
    (h : g.evalEmbed fuel name sample = .ok res) : ∃ fuel' res', g'.evalEmbed fuel' name sample = .ok res' ∧ Alike S res res' := by
  rcases he name hn with ⟨h1, h2⟩ | ⟨r, r', h1, h2, h3⟩
  · have n1 : g.getRecord name = none := by simpa [Grammar.env] using h1
    have n2 : g'.getRecord name = none := by simpa [Grammar.env] using h2
    simp only [evalEmbed, n1] at h
    cases h
    exact ⟨0, { error := some (.undefined {} name) }, by simp only [evalEmbed, n2], rfl, rfl, rfl, rfl, rfl, rfl⟩
  · obtain ⟨q, n1, rfl⟩ : ∃ q, g.getRecord name = some q ∧ q.rule = r := by simpa [Grammar.env] using h1
    obtain ⟨q', n2, rfl⟩ : ∃ q, g'.getRecord name = some q ∧ q.rule = r' := by simpa [Grammar.env] using h2
    have key := Follow.bind (Q := Alike S) (f := fun kids => .ok { node := some { ruleType := .embed, name := name, children := kids } })
      (g := fun kids => .ok { node := some { ruleType := .embed, name := name, children := kids } })
      (embedLoop_follow (factored_follow he fuel (2 * fuel) (Nat.le_refl _)) h3 fuel (2 * fuel) (by omega) [] [] rfl [] (Stream.ofChars sample)) (fun a b hab => .ok (by
        refine ⟨?_, rfl, rfl, rfl, rfl, rfl⟩
        simp only [Option.map_some, Node.rename, renameNodes_eq]
        rw [hab]))
    simp only [evalEmbed, n1] at h
    obtain ⟨res', h4, h5⟩ := key res h
    exact ⟨2 * fuel, res', by simp only [evalEmbed, n2]; exact h4, h5⟩

/-- **C68** for `EvalEmbed`: the same places are found. -/
theorem C68_embed {g g' : Grammar} (he : SameRules S g.env g'.env) {name : Name} (hn : S name = false) (sample : List Rune) :
    (∀ fuel res, g.evalEmbed fuel name sample = .ok res → ∃ fuel' res', g'.evalEmbed fuel' name sample = .ok res' ∧ Alike S res res') ∧
    (∀ fuel' res', g'.evalEmbed fuel' name sample = .ok res' → ∃ fuel res, g.evalEmbed fuel name sample = .ok res ∧ Alike S res res') := by
  refine ⟨fun fuel res h => evalEmbed_follow he hn sample h, fun fuel' res' h => ?_⟩
  obtain ⟨fuel, res, h1, h2⟩ := evalEmbed_follow (sameRules_swap he) hn sample h
  exact ⟨fuel, res, h1, alike_swap h2⟩

/-! ## Documents -/

theorem allAlike_perm {l p : List Res} (hp : p.Perm l) : ∀ {l' : List Res}, AllAlike S l l' → ∃ p' : List Res, p'.Perm l' ∧ AllAlike S p p' := by
  induction hp with
  | nil => intro l' h; exact ⟨l', .refl _, h⟩
  | cons x _ ih =>
    intro l' h
    cases h with
    | cons h hs =>
      obtain ⟨p', h1, h2⟩ := ih hs
      exact ⟨_ :: p', h1.cons _, .cons h h2⟩
  | swap x y l =>
    intro l' h
    cases h with
    | cons h hs =>
      cases hs with
      | cons h' hs => exact ⟨_, .swap _ _ _, .cons h' (.cons h hs)⟩
  | trans _ _ ih1 ih2 =>
    intro l' h
    obtain ⟨p', h1, h2⟩ := ih2 h
    obtain ⟨p'', h3, h4⟩ := ih1 h2
    exact ⟨p'', h3.trans h1, h4⟩

theorem rootsLoop_follow {env env' : Env} {ev ev' : Nat} (hev : EvFollow S env env' (eval env ev) (eval env' ev')) (flag : Int) :
    ∀ (a b : List Record) (_ : FactoredL S env env' (a.map Record.rule) (b.map Record.rule)) (m : List Rune) (cs : Stream),
      Follow (fun x y => AllAlike S x.1 y.1 ∧ x.2 = y.2) (rootsLoop env ev flag a m cs) (rootsLoop env' ev' flag b m cs)
  | [], [], _, _, _ => .ok ⟨.nil, rfl⟩
  | [], _ :: _, h, _, _ => by cases h
  | _ :: _, [], h, _, _ => by cases h
  | x :: a, y :: b, h, m, cs => by
    simp only [List.map_cons] at h
    cases h with
    | cons h hs =>
      simp only [rootsLoop]
      refine (hev _ _ flag _ h).bind ?_
      rintro ⟨res, c⟩ ⟨res', c'⟩ ⟨ha, hcs⟩
      simp only at ha hcs
      subst hcs
      simp only [← ha.read]
      refine (rootsLoop_follow hev flag a b hs _ _).bind ?_
      rintro ⟨ms, mx, c⟩ ⟨ms', mx', c'⟩ ⟨hm, hcs⟩
      simp only [Prod.mk.injEq] at hm hcs
      obtain ⟨rfl, rfl⟩ := hcs
      refine .ok ⟨?_, rfl⟩
      rcases ha.cases with ⟨h1, h2⟩ | ⟨k, k', h1, h2, h3⟩
      · simp only [h1, h2]
        exact hm
      · simp only [h1, h2]
        exact .cons ha hm

/-- Two outcomes of `EvalRaw` that differ only in names from `S`. -/
def AlikeRaw (S : Name → Bool) (x y : Except RawErr (List Node) × Stream) : Prop :=
  x.2 = y.2 ∧ match x.1, y.1 with
    | .ok ns, .ok ns' => NodesAlike S ns ns'
    | .error e, .error e' => e = e'
    | _, _ => False

/-- The schedule matters only for the rounds to come. -/
theorem rawLoop_later (env : Env) (fuel : Nat) (roots : List Record) {sch sch' : Sched} : ∀ (n i : Nat)
    (_ : ∀ j, i ≤ j → sch.roots j = sch'.roots j ∧ sch.matched j = sch'.matched j) (nodes : List Node) (flag : Int) (un : List Rune) (s : Stream),
    rawLoop env fuel roots sch n i nodes flag un s = rawLoop env fuel roots sch' n i nodes flag un s
  | 0, _, _, _, _, _, _ => rfl
  | n + 1, i, h, nodes, flag, un, s => by
    unfold rawLoop
    rw [(h i (Nat.le_refl _)).1, (h i (Nat.le_refl _)).2]
    have ih := fun nodes flag un s => rawLoop_later env fuel roots (sch := sch) (sch' := sch') n (i + 1) (fun j hj => h j (by omega)) nodes flag un s
    simp only [ih]

theorem rawLoop_follow {env env' : Env} {ev ev' : Nat} (hev : EvFollow S env env' (eval env ev) (eval env' ev')) (ra rb : List Record) (sch : Sched)
    (hs : sch.Fair) (hr : ∀ i, ∃ l : List Record, l.Perm rb ∧ FactoredL S env env' ((sch.roots i ra).map Record.rule) (l.map Record.rule)) :
    ∀ (n n' : Nat) (_ : n ≤ n') (i : Nat) (nodes nodes' : List Node) (_ : NodesAlike S nodes nodes') (flag : Int) (un : List Rune) (s : Stream)
      (x : Except RawErr (List Node) × Stream), rawLoop env ev ra sch n i nodes flag un s = .ok x →
      ∃ sch' : Sched, sch'.Fair ∧ ∃ y, rawLoop env' ev' rb sch' n' i nodes' flag un s = .ok y ∧ AlikeRaw S x y
  | 0, _, _, _, _, _, _, _, _, _, _, h => by cases h
  | n + 1, 0, hn, _, _, _, _, _, _, _, _, _ => by omega
  | n + 1, n' + 1, hn, i, nodes, nodes', hk, flag, un, s, x, h => by
    classical
    have idFair : (⟨fun _ l => l, fun _ l => l⟩ : Sched).Fair := ⟨fun _ _ => .refl _, fun _ _ => .refl _⟩
    unfold rawLoop at h
    unfold rawLoop
    simp only [hk.length] at h
    by_cases hp : (s.pushBack un).peek = EOFChar
    · simp only [if_pos hp] at h ⊢
      cases h
      refine ⟨_, idFair, _, rfl, rfl, ?_⟩
      simp only
      by_cases h0 : nodes'.length = 0
      · simp only [if_pos h0]
      · simp only [if_neg h0]
        exact hk
    · simp only [if_neg hp] at h ⊢
      obtain ⟨l, hl, hf⟩ := hr i
      have hroots := rootsLoop_follow hev flag _ l hf [] (s.pushBack un)
      cases h1 : rootsLoop env ev flag (sch.roots i ra) [] (s.pushBack un) with
      | panic => rw [h1] at h; cases h
      | oof => rw [h1] at h; cases h
      | ok z =>
        obtain ⟨ms, mx, cs⟩ := z
        obtain ⟨⟨ms', mx', cs'⟩, h2, h3, h4⟩ := hroots _ h1
        simp only [Prod.mk.injEq] at h3 h4
        obtain ⟨rfl, rfl⟩ := h4
        rw [h1] at h
        obtain ⟨p', hp1, hp2⟩ := allAlike_perm (hs.2 i ms) h3
        have hpick := pick_alike hp2
        -- this round as it must be, the others as in `sch0`
        let over (sch0 : Sched) : Sched :=
          ⟨fun j q => if j = i then (if q = rb then l else q) else sch0.roots j q, fun j q => if j = i then (if q = ms' then p' else q) else sch0.matched j q⟩
        have hover : ∀ sch0 : Sched, sch0.Fair → (over sch0).Fair := by
          intro sch0 hf0
          constructor
          · intro j q
            simp only [over]
            split
            · split
              · rename_i h; rw [h]; exact hl
              · exact .refl _
            · exact hf0.1 j q
          · intro j q
            simp only [over]
            split
            · split
              · rename_i h; rw [h]; exact hp1
              · exact .refl _
            · exact hf0.2 j q
        have hnow : ∀ sch0 : Sched, (over sch0).roots i rb = l ∧ (over sch0).matched i ms' = p' := by
          intro sch0
          simp [over]
        replace h : (match pick (sch.matched i ms) with
          | .none => Exec.ok (Except.error RawErr.noMatch, cs.popBack un)
          | .ambiguous _ _ => .ok (.error .ambiguity, cs.popBack un)
          | .found r => do
            let u ← sliceFrom mx r.countUsed
            rawLoop env ev ra sch n (i + 1) (nodes ++ r.node.toList) (if r.sticky then SUGGEST_NOT_SKIP else SUGGEST_SKIP) u (cs.popBack un)) = .ok x := h
        have goal : ∀ sch0 : Sched, (do
            let (ms, maxRead, cs) ← rootsLoop env' ev' flag ((over sch0).roots i rb) [] (s.pushBack un)
            let s := cs.popBack un
            match pick ((over sch0).matched i ms) with
            | .none => .ok (.error .noMatch, s)
            | .ambiguous _ _ => .ok (.error .ambiguity, s)
            | .found r => do
              let unused ← sliceFrom maxRead r.countUsed
              rawLoop env' ev' rb (over sch0) n' (i + 1) (nodes' ++ r.node.toList)
                (if r.sticky then SUGGEST_NOT_SKIP else SUGGEST_SKIP) unused s) =
            (match pick p' with
            | .none => Exec.ok (Except.error RawErr.noMatch, cs.popBack un)
            | .ambiguous _ _ => .ok (.error .ambiguity, cs.popBack un)
            | .found r => do
              let u ← sliceFrom mx r.countUsed
              rawLoop env' ev' rb (over sch0) n' (i + 1) (nodes' ++ r.node.toList) (if r.sticky then SUGGEST_NOT_SKIP else SUGGEST_SKIP) u (cs.popBack un)) := by
          intro sch0
          rw [(hnow sch0).1, h2]
          simp only [Exec.ok_bind]
          rw [(hnow sch0).2]
        match hx : pick (sch.matched i ms), hy : pick p', hpick with
        | .none, .none, _ =>
          rw [hx] at h
          cases h
          refine ⟨_, hover _ idFair, _, (goal _).trans (by rw [hy]), rfl, rfl⟩
        | .ambiguous _ _, .ambiguous _ _, _ =>
          rw [hx] at h
          cases h
          refine ⟨_, hover _ idFair, _, (goal _).trans (by rw [hy]), rfl, rfl⟩
        | .found r, .found r', (ha : Alike S r r') =>
          rw [hx] at h
          simp only at h
          cases hu : sliceFrom mx r.countUsed with
          | panic => rw [hu] at h; cases h
          | oof => rw [hu] at h; cases h
          | ok u =>
            rw [hu] at h
            have hnodes : NodesAlike S (nodes ++ r.node.toList) (nodes' ++ r'.node.toList) := by
              rcases ha.cases with ⟨k1, k2⟩ | ⟨k, k', k1, k2, k3⟩
              · rw [k1, k2]; simpa using hk
              · rw [k1, k2]; exact hk.snoc k3
            obtain ⟨sch0, hf0, y, h5, h6⟩ := rawLoop_follow hev ra rb sch hs hr n n' (by omega) (i + 1) _ _ hnodes _ u (cs.popBack un) x h
            refine ⟨over sch0, hover _ hf0, y, (goal _).trans ?_, h6⟩
            rw [hy]
            simp only [← ha.count, ← ha.sticky, hu, Exec.ok_bind]
            rw [← h5]
            refine rawLoop_later env' ev' rb n' (i + 1) (fun j hj => ?_) _ _ _ _
            have : ¬ j = i := by omega
            constructor <;> funext q <;> simp only [over, if_neg this]

/-- Both grammars have the same roots, and none of these is in `S`. -/
structure SameRoots (S : Name → Bool) (g g' : Grammar) : Prop where
  names : (g.roots.map Record.name).Perm (g'.roots.map Record.name)
  out : ∀ r ∈ g.roots, S r.name = false

theorem evalRaw_follow {text text' : List Rune} {g g' : Grammar} (hg : Accepted text g) (hg' : Accepted text' g') (he : SameRules S g.env g'.env)
    (hr : SameRoots S g g') {sch : Sched} (hs : sch.Fair) {fuel : Nat} {s : Stream} {x : Except RawErr (List Node) × Stream}
    (h : g.evalRaw fuel sch s = .ok x) : ∃ fuel' sch', sch'.Fair ∧ ∃ y, g'.evalRaw fuel' sch' s = .ok y ∧ AlikeRaw S x y := by
  have facts : ∀ {text : List Rune} {g : Grammar} (_ : Accepted text g), ∀ r ∈ g.roots, g.env r.name = some r.rule := by
    intro text g hg r hr
    have h1 := accepted_facts hg (splitLines_lines _)
    exact (env_content h1.2.1 _ _).2 ((mem_content_roots hg _ _).1 (List.mem_map.2 ⟨r, hr, rfl⟩)).1
  unfold evalRaw at h
  unfold evalRaw
  by_cases hp : s.peek = EOFChar
  · rw [if_pos hp] at h
    cases h
    refine ⟨0, ⟨fun _ l => l, fun _ l => l⟩, ⟨fun _ _ => .refl _, fun _ _ => .refl _⟩, _, if_pos hp, rfl, rfl⟩
  · rw [if_neg hp] at h
    obtain ⟨sch', h1, y, h2, h3⟩ := rawLoop_follow (factored_follow he fuel (2 * fuel) (Nat.le_refl _)) g.roots g'.roots sch hs (by
      intro i
      obtain ⟨l, hl, hm⟩ := perm_lift Record.name (((hs.1 i g.roots).map Record.name).trans hr.names) rfl
      refine ⟨l, hl, ?_⟩
      have hin : ∀ r ∈ sch.roots i g.roots, r ∈ g.roots := fun r h => (hs.1 i g.roots).mem_iff.1 h
      have hin' : ∀ r ∈ l, r ∈ g'.roots := fun r h => hl.mem_iff.1 h
      revert hm hin hin'
      clear hl h
      generalize sch.roots i g.roots = a
      induction a generalizing l with
      | nil =>
        intro hm _ _
        cases l with
        | nil => exact .nil
        | cons => cases hm
      | cons r a ih =>
        intro hm hin hin'
        cases l with
        | nil => cases hm
        | cons r' l =>
          simp only [List.map_cons, List.cons.injEq] at hm
          refine .cons ?_ (ih l hm.2 (fun q hq => hin q (List.mem_cons_of_mem _ hq)) (fun q hq => hin' q (List.mem_cons_of_mem _ hq)))
          have hr1 := hin r List.mem_cons_self
          rcases he r.name (hr.out r hr1) with ⟨k1, _⟩ | ⟨q, q', k1, k2, k3⟩
          · rw [facts hg r hr1] at k1; cases k1
          · rw [facts hg r hr1] at k1
            rw [← hm.1, facts hg' r' (hin' r' List.mem_cons_self)] at k2
            cases k1; cases k2
            exact k3) fuel (2 * fuel) (by omega) 0 [] [] rfl SUGGEST_SKIP [] s x h
    exact ⟨2 * fuel, sch', h1, y, by rw [if_neg hp]; exact h2, h3⟩

/-- **C68** for `EvalRaw`: if the two have the same roots, the second can make of every document, in some order of visiting its maps, what the
first can in some order, and conversely. -/
theorem C68_raw {text text' : List Rune} {g g' : Grammar} (hg : Accepted text g) (hg' : Accepted text' g') (he : SameRules S g.env g'.env)
    (hr : SameRoots S g g') (s : Stream) :
    (∀ sch : Sched, sch.Fair → ∀ fuel x, g.evalRaw fuel sch s = .ok x →
      ∃ fuel' sch', Sched.Fair sch' ∧ ∃ y, g'.evalRaw fuel' sch' s = .ok y ∧ AlikeRaw S x y) ∧
    (∀ sch' : Sched, sch'.Fair → ∀ fuel' y, g'.evalRaw fuel' sch' s = .ok y →
      ∃ fuel sch, Sched.Fair sch ∧ ∃ x, g.evalRaw fuel sch s = .ok x ∧ AlikeRaw S x y) := by
  refine ⟨fun sch hs fuel x h => evalRaw_follow hg hg' he hr hs h, fun sch' hs fuel' y h => ?_⟩
  have hr' : SameRoots S g' g := ⟨hr.names.symm, fun r h => by
    obtain ⟨q, hq, hn⟩ := List.mem_map.1 (hr.names.mem_iff.2 (List.mem_map_of_mem h))
    rw [← hn]
    exact hr.out q hq⟩
  obtain ⟨fuel, sch, h1, ⟨x, s1⟩, h2, h3, h4⟩ := evalRaw_follow hg' hg (sameRules_swap he) hr' hs h
  refine ⟨fuel, sch, h1, (x, s1), h2, h3.symm, ?_⟩
  obtain ⟨y, s2⟩ := y
  match x, y, h4 with
  | .ok _, .ok _, h => exact h.symm
  | .error _, .error _, h => exact h.symm

/-- Grammars whose rules but for those in `S` have the same names and differ as in `Factored`. -/
theorem factored_env {g g' : Grammar} (hn : (g.records.map Record.name).Nodup) (hn' : (g'.records.map Record.name).Nodup)
    (h : ∀ p ∈ content g.records, S p.1 = false → ∃ r', (p.1, r') ∈ content g'.records ∧ Factored S g.env g'.env p.2 r')
    (h' : ∀ p ∈ content g'.records, S p.1 = false → ∃ r, (p.1, r) ∈ content g.records) : SameRules S g.env g'.env := by
  intro n hS
  cases h1 : g.env n with
  | some r =>
    obtain ⟨r', h2, h3⟩ := h _ ((env_content hn n r).1 h1) hS
    exact .inr ⟨r, r', rfl, (env_content hn' n r').2 h2, h3⟩
  | none =>
    cases h2 : g'.env n with
    | none => exact .inl ⟨rfl, rfl⟩
    | some r' =>
      obtain ⟨r, h3⟩ := h' _ ((env_content hn' n r').1 h2) hS
      rw [(env_content hn n r).2 h3] at h1
      cases h1

/-! ## Cases -/

def wholeText : List Rune := runes "r = 'a' (\"x\" | 'y') {'z'}"
def splitText : List Rune := runes "r = 'a' p {q}\np = (\"x\" | 'y')\nq = 'z'"
def wholeGrammar : Grammar := (madeOf wholeText).getD {}
def splitGrammar : Grammar := (madeOf splitText).getD {}
/-- The names that are introduced. -/
def newNames (n : Name) : Bool := n = runes "p" ∨ n = runes "q"

theorem whole_content : content wholeGrammar.records =
    [(runes "r", .concat { name := runes "r" } [.char {} 97 false, .group {} (.choice {} [[.str {} (runes "x"), .char {} 121 false]]), .rep {} (.char {} 122 false) 0 0])] := by
  decide +kernel

theorem split_content : content splitGrammar.records =
    [(runes "r", .concat { name := runes "r" } [.char {} 97 false, .ref {} (runes "p"), .rep {} (.ref {} (runes "q")) 0 0]),
     (runes "p", .group { name := runes "p" } (.choice {} [[.str {} (runes "x"), .char {} 121 false]])),
     (runes "q", .char { name := runes "q" } 122 false)] := by decide +kernel

theorem whole_names : (wholeGrammar.records.map Record.name).Nodup ∧ (splitGrammar.records.map Record.name).Nodup := by decide +kernel

/-- The hypotheses of `C68_rule` and `C68_embed` hold of these grammars. -/
theorem whole_split : SameRules newNames wholeGrammar.env splitGrammar.env := by
  have hp : splitGrammar.env (runes "p") = some (.group { name := runes "p" } (.choice {} [[.str {} (runes "x"), .char {} 121 false]])) :=
    (env_content whole_names.2 _ _).2 (by rw [split_content]; simp)
  have hq : splitGrammar.env (runes "q") = some (.char { name := runes "q" } 122 false) :=
    (env_content whole_names.2 _ _).2 (by rw [split_content]; simp)
  refine factored_env whole_names.1 whole_names.2 ?_ ?_
  · rw [whole_content, split_content]
    intro p h _
    simp only [List.mem_cons, List.not_mem_nil, or_false] at h
    subst h
    refine ⟨_, List.mem_cons_self, .same (.concat rfl (.cons (.same (.char rfl)) (.cons ?_ (.cons (.same (.rep rfl ?_)) .nil))))⟩
    · exact .right ⟨rfl, rfl, rfl⟩ hp (.group (by unfold SameBase; decide +kernel) (.same (.choice rfl (.cons (.cons (.same (.str rfl)) (.cons (.same (.char rfl)) .nil)) .nil))))
    · exact .right ⟨rfl, rfl, rfl⟩ hq (.char (by unfold SameBase; decide +kernel))
  · rw [whole_content, split_content]
    intro p h hS
    simp only [List.mem_cons, List.not_mem_nil, or_false] at h
    rcases h with rfl | rfl | rfl
    · exact ⟨_, List.mem_cons_self⟩
    · simp [newNames] at hS
    · simp [newNames] at hS

/-- And that of `C68_raw`. -/
theorem whole_roots : SameRoots newNames wholeGrammar splitGrammar := by
  have h1 : wholeGrammar.roots.map Record.name = [runes "r"] := by decide +kernel
  have h2 : splitGrammar.roots.map Record.name = [runes "r"] := by decide +kernel
  refine ⟨by rw [h1, h2], fun r hr => ?_⟩
  have := List.mem_map_of_mem (f := Record.name) hr
  rw [h1] at this
  simp only [List.mem_cons, List.not_mem_nil, or_false] at this
  rw [this]
  decide

example (sample : List Rune) {fuel : Nat} {res : Res} (h : wholeGrammar.evalRule fuel (runes "r") sample = .ok res) :
    ∃ fuel' res', splitGrammar.evalRule fuel' (runes "r") sample = .ok res' ∧ res.node.map Node.text = res'.node.map Node.text := by
  obtain ⟨f, r, h1, h2⟩ := (C68_rule whole_split (by decide) sample).1 fuel res h
  exact ⟨f, r, h1, C68_text h2⟩

example : readOf wholeText (runes "r") (runes "axzz") = some (true, 4) ∧ readOf splitText (runes "r") (runes "axzz") = some (true, 4) := by decide +kernel

/-- **C68**, what must be as said: in the place of a reference in a choice a concatenation has to be put in parentheses. -/
theorem C68_parentheses_needed :
    readOf (runes "r = p | 'c'\np = 'a' 'b'") (runes "r") (runes "c") = some (true, 1) ∧
    readOf (runes "r = ('a' 'b') | 'c'") (runes "r") (runes "c") = some (true, 1) ∧
    readOf (runes "r = 'a' 'b' | 'c'") (runes "r") (runes "c") = some (false, 0) := by decide +kernel

end Xbnf.Props
