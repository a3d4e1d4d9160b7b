import Verif.Lemmas.Grown
import Verif.Props.Shuffle
/-
C86: an alternative that does not match does not matter.
-/
namespace Xbnf.Props
open Xbnf Xbnf.Spec Grammar

variable {env : Env}

theorem idle_of_notHere {flag : Int} {l : List Rune} (hv : Valid l) {r : Rule} (h : NotHere env flag l r) :
    ∃ n, IdleAlt False (Spec.run env n) flag l r := by
  obtain ⟨⟨F, h1, h2⟩, h3⟩ := h
  refine ⟨F, ?_⟩
  cases hx : Spec.run env F r flag l with
  | oof => exact absurd hx h1
  | risky => exact absurd hx h2
  | fail n st => exact .inl ⟨n, st, hx, fun h => h.elim⟩
  | ambiguous n => exact .inr ⟨id, n, hx⟩
  | hit nd u n st => exact (matches_not_fails (matches_of_run hv hx) h3).elim

theorem idle_of_quiet {flag : Int} {l : List Rune} (hv : Valid l) {r : Rule} (h : NotHereQuiet env flag l r) :
    ∃ n, IdleAlt True (Spec.run env n) flag l r := by
  obtain ⟨⟨F, h1, h2⟩, h3⟩ := h
  refine ⟨F, ?_⟩
  cases hx : Spec.run env F r flag l with
  | oof => exact absurd hx h1
  | risky => exact absurd hx h2
  | fail n st => exact .inl ⟨n, st, hx, fun _ => misses_det (misses_of_run hv hx) h3⟩
  | ambiguous n => exact absurd (misses_det (misses_of_ambiguous hv hx) h3) (by decide)
  | hit nd u n st => exact (matches_not_fails (matches_of_run hv hx) (misses_fails h3)).elim

/-- What two results of a choice have in common: whether there is a tree, what is below it, how much it uses. -/
def SameBelow (res res' : Res) : Prop :=
  res'.node.map (fun n => n.children.map Node.erase) = res.node.map (fun n => n.children.map Node.erase) ∧
  (res.node.isSome = true → res'.countUsed = res.countUsed)

/-- And the tree itself with what is reported of the white space after it. -/
def SameTree (res res' : Res) : Prop :=
  res'.node.map Node.erase = res.node.map Node.erase ∧ (res.node.isSome = true → res'.countUsed = res.countUsed) ∧ res'.sticky = res.sticky

theorem erase_children (n : Node) : n.erase.children = n.children.map Node.erase := by
  cases n; simp [Node.erase, eraseL_eq_map]

theorem added_eval {sure : Prop} {b : RuleBase} {gs gs' : List (List Rule)} {flag : Int} {s : Stream} (h : Ready s)
    (hr : Regular env (.choice b gs) flag s.rem) (ha : AddedG (fun r => ∃ n, IdleAlt sure (Spec.run env n) flag s.rem r) gs gs') :
    ∃ fuel res res' s1 s2, eval env fuel (.choice b gs) flag s = .ok (res, s1) ∧ eval env fuel (.choice b gs') flag s = .ok (res', s2) ∧
      SameBelow res res' ∧ (sure → SameTree res res') := by
  obtain ⟨F, a1, a2⟩ := hr
  obtain ⟨F', ha⟩ := ha.enough (fun n m r => idle_mono n m r)
  have hF : 0 < F := by
    rcases Nat.eq_zero_or_pos F with rfl | h
    · exact absurd rfl a1
    · exact h
  have e : Spec.run env (max F F' + 1) (.choice b gs) flag s.rem = Spec.run env F (.choice b gs) flag s.rem :=
    (run_le env F _ (Nat.le_succ_of_le (Nat.le_max_left F F')) _ flag s.rem).resolve_left a1
  rw [← e] at a1 a2
  have hc := choiceAt_added (b := b) (ha.imp fun r hr => idle_mono F' (max F F') r (Nat.le_max_right F F') hr) 0 0 true true (fun _ => rfl)
  have e1 : Spec.run env (max F F' + 1) (.choice b gs) flag s.rem = choiceAt (Spec.run env (max F F')) b flag s.rem gs 0 true := by
    simp only [Spec.run]
  have e2 : Spec.run env (max F F' + 1) (.choice b gs') flag s.rem = choiceAt (Spec.run env (max F F')) b flag s.rem gs' 0 true := by
    simp only [Spec.run]
  rw [← e1, ← e2] at hc
  have b12 : Spec.run env (max F F' + 1) (.choice b gs') flag s.rem ≠ .oof ∧ Spec.run env (max F F' + 1) (.choice b gs') flag s.rem ≠ .risky := by
    rcases hc with hb | ⟨_, _, _, _, _, e, _⟩ | ⟨_, _, _, e⟩ | ⟨_, _, _, _, _, _, _, e, _⟩
    · rcases hb with hb | hb
      · exact absurd hb a1
      · exact absurd hb a2
    all_goals rw [e]; exact ⟨(by intro hc; cases hc), (by intro hc; cases hc)⟩
  obtain ⟨res, s1, k, r1, _, r2⟩ := run_eval h a1 a2
  obtain ⟨res', s2, k', r1', _, r2'⟩ := run_eval h b12.1 b12.2
  refine ⟨_, res, res', s1, s2, r1, r1', ?_⟩
  rcases hc with hb | ⟨n, st, n', st', e, e', hs⟩ | ⟨n, n', e, e'⟩ | ⟨nd, u, n, st, n', st', e, e', hs⟩
  · rcases hb with hb | hb
    · exact absurd hb a1
    · exact absurd hb a2
  · rw [e] at r2
    rw [e'] at r2'
    have c := r2.2; have c' := r2'.2
    simp only [Exec.ok.injEq, Prod.mk.injEq] at c c'
    have n1 : res.node = none := by have := congrArg Res.node c.1; simpa [Res.core] using this
    have n2 : res'.node = none := by have := congrArg Res.node c'.1; simpa [Res.core] using this
    have t1 := congrArg Res.sticky c.1
    have t2 := congrArg Res.sticky c'.1
    simp only [Res.core] at t1 t2
    refine ⟨⟨(by rw [n1, n2]), (by rw [n1]; intro hc; cases hc)⟩, fun hsure => ⟨(by rw [n1, n2]), (by rw [n1]; intro hc; cases hc), ?_⟩⟩
    rw [t1, t2, hs hsure]
  · rw [e] at r2
    rw [e'] at r2'
    have c := r2.2; have c' := r2'.2
    simp only [Exec.ok.injEq, Prod.mk.injEq] at c c'
    have n1 : res.node = none := by have := congrArg Res.node c.1; simpa [Res.core] using this
    have n2 : res'.node = none := by have := congrArg Res.node c'.1; simpa [Res.core] using this
    have t1 := congrArg Res.sticky c.1
    have t2 := congrArg Res.sticky c'.1
    simp only [Res.core] at t1 t2
    refine ⟨⟨(by rw [n1, n2]), (by rw [n1]; intro hc; cases hc)⟩, fun hsure => ⟨(by rw [n1, n2]), (by rw [n1]; intro hc; cases hc), ?_⟩⟩
    rw [t1, t2]
  · rw [e] at r2
    rw [e'] at r2'
    obtain ⟨u1, u2, c⟩ := r2
    obtain ⟨u1', u2', c'⟩ := r2'
    simp only [Exec.ok.injEq, Prod.mk.injEq] at c c'
    have n1 := congrArg Res.node c.1
    have n2 := congrArg Res.node c'.1
    have t1 := congrArg Res.sticky c.1
    have t2 := congrArg Res.sticky c'.1
    have p1 := congrArg Res.read c.1
    have p2 := congrArg Res.read c'.1
    have q1 := congrArg Res.unused c.1
    have q2 := congrArg Res.unused c'.1
    simp only [Res.core] at n1 n2 t1 t2 p1 p2 q1 q2
    have hu : res'.countUsed = res.countUsed := by
      simp only [Res.countUsed, p1, p2, q1, q2, List.length_drop, List.length_take]
      omega
    refine ⟨⟨?_, fun _ => hu⟩, fun hsure => ⟨?_, fun _ => hu, by rw [t1, t2, hs hsure]⟩⟩
    · obtain ⟨m, hm, hm'⟩ := Option.map_eq_some_iff.1 n1
      obtain ⟨m', hn, hn'⟩ := Option.map_eq_some_iff.1 n2
      rw [hm, hn, Option.map_some, Option.map_some, ← erase_children, ← erase_children, hm', hn']
      rfl
    · rw [n1, n2, hs hsure]

/-- **C86**, the part that holds for one choice: add alternatives to it that match nothing here, in its groups or in groups of their
own, and it finds a match where it did before, with the same tree below it and the same number of characters, and none
where it found none.  No assumption is made about the new choice.

What is missing is that the rule around it takes what is reported of the white space after it: `C86_counterexample`. -/
theorem C86_choice_partial {b : RuleBase} {gs gs' : List (List Rule)} {flag : Int} {s : Stream} (h : Ready s)
    (hr : Regular env (.choice b gs) flag s.rem) (ha : AddedG (NotHere env flag s.rem) gs gs') {fuel : Nat} {res : Res} {s1 : Stream}
    (he : eval env fuel (.choice b gs) flag s = .ok (res, s1)) :
    (∃ fuel' res' s2, eval env fuel' (.choice b gs') flag s = .ok (res', s2)) ∧
    ∀ fuel' res' s2, eval env fuel' (.choice b gs') flag s = .ok (res', s2) → SameBelow res res' := by
  obtain ⟨f, r1, r2, t1, t2, e1, e2, e3, _⟩ := added_eval h hr (ha.imp fun r hr => idle_of_notHere h.valid hr)
  have := eval_det he e1
  simp only [Prod.mk.injEq] at this
  refine ⟨⟨f, r2, t2, e2⟩, fun fuel' res' s2 he' => ?_⟩
  have h2 := eval_det he' e2
  simp only [Prod.mk.injEq] at h2
  rw [this.1, h2.1]; exact e3

/-- If moreover none of the alternatives added reports that white space may follow, the tree and what is reported are the same, and so
the rules around the choice see no difference but in the number of characters looked at. -/
theorem C86_quiet_partial {b : RuleBase} {gs gs' : List (List Rule)} {flag : Int} {s : Stream} (h : Ready s)
    (hr : Regular env (.choice b gs) flag s.rem) (ha : AddedG (NotHereQuiet env flag s.rem) gs gs') {fuel : Nat} {res : Res} {s1 : Stream}
    (he : eval env fuel (.choice b gs) flag s = .ok (res, s1)) :
    (∃ fuel' res' s2, eval env fuel' (.choice b gs') flag s = .ok (res', s2)) ∧
    ∀ fuel' res' s2, eval env fuel' (.choice b gs') flag s = .ok (res', s2) → SameTree res res' := by
  obtain ⟨f, r1, r2, t1, t2, e1, e2, _, e3⟩ := added_eval h hr (ha.imp fun r hr => idle_of_quiet h.valid hr)
  have := eval_det he e1
  simp only [Prod.mk.injEq] at this
  refine ⟨⟨f, r2, t2, e2⟩, fun fuel' res' s2 he' => ?_⟩
  have h2 := eval_det he' e2
  simp only [Prod.mk.injEq] at h2
  rw [this.1, h2.1]; exact e3 trivial

/-! ### Grammars -/

theorem mute_of {text : List Rune} (hv : Valid text) (fuel : Nat) :
    Mute (NowhereQuiet env text) text (Spec.run env fuel) := by
  intro r flag l hr hl
  have hv' : Valid l := fun c hc => hv c (hl.subset hc)
  obtain ⟨F, hi⟩ := idle_of_quiet hv' (hr flag l hl)
  rcases run_le env fuel (max fuel F) (Nat.le_max_left _ _) r flag l with ho | he
  · exact .inl (.inl ho)
  · rcases idle_mono F (max fuel F) r (Nat.le_max_right _ _) hi with ⟨n, st, e, h⟩ | ⟨h, _⟩
    · rw [h trivial] at e
      exact .inr ⟨n, by rw [← he]; exact e⟩
    · exact absurd trivial h

theorem muteX_of {text : List Rune} (hv : Valid text) (fuel : Nat) : MuteX (Nowhere env text) text (Spec.run env fuel) := by
  intro r flag l hr hl
  have hv' : Valid l := fun c hc => hv c (hl.subset hc)
  obtain ⟨F, hi⟩ := idle_of_notHere hv' (hr flag l hl)
  rcases run_le env fuel (max fuel F) (Nat.le_max_left _ _) r flag l with ho | he
  · exact .inl (.inl ho)
  · rcases idle_mono F (max fuel F) r (Nat.le_max_right _ _) hi with ⟨n, st, e, _⟩ | ⟨_, n, e⟩
    · exact .inr (.inl ⟨n, st, by rw [← he]; exact e⟩)
    · exact .inr (.inr ⟨n, by rw [← he]; exact e⟩)

/-- Two evaluations whose reference answers differ only in how far was looked. -/
theorem sameTree_of_blind {l : List Rune} {a a' : Ans} (h1 : ¬a.Bad) (hb : a.blind = a'.blind) {res res' : Res} {k k' : Nat}
    (h : Ref l a (.ok (res.core, k))) (h' : Ref l a' (.ok (res'.core, k'))) : SameTree res res' := by
  refine Alike86.elim (.inr (.inr hb)) (fun hb => absurd hb h1) (fun hb' => ?_) ?_ ?_ ?_
  · rcases hb' with rfl | rfl <;> cases a <;> simp only [Ans.blind] at hb <;> cases hb
    · exact absurd (.inl rfl) h1
    · exact absurd (.inr rfl) h1
  · rintro n n' st rfl rfl
    have c := h.2; have c' := h'.2
    simp only [Exec.ok.injEq, Prod.mk.injEq] at c c'
    have n1 : res.node = none := by have := congrArg Res.node c.1; simpa [Res.core] using this
    have n2 : res'.node = none := by have := congrArg Res.node c'.1; simpa [Res.core] using this
    have t1 := congrArg Res.sticky c.1
    have t2 := congrArg Res.sticky c'.1
    simp only [Res.core] at t1 t2
    exact ⟨(by rw [n1, n2]), (by rw [n1]; intro hc; cases hc), (by rw [t1, t2])⟩
  · rintro n n' rfl rfl
    have c := h.2; have c' := h'.2
    simp only [Exec.ok.injEq, Prod.mk.injEq] at c c'
    have n1 : res.node = none := by have := congrArg Res.node c.1; simpa [Res.core] using this
    have n2 : res'.node = none := by have := congrArg Res.node c'.1; simpa [Res.core] using this
    have t1 := congrArg Res.sticky c.1
    have t2 := congrArg Res.sticky c'.1
    simp only [Res.core] at t1 t2
    exact ⟨(by rw [n1, n2]), (by rw [n1]; intro hc; cases hc), (by rw [t1, t2])⟩
  · rintro nd u n n' st rfl rfl
    obtain ⟨u1, u2, c⟩ := h
    obtain ⟨u1', u2', c'⟩ := h'
    simp only [Exec.ok.injEq, Prod.mk.injEq] at c c'
    have n1 := congrArg Res.node c.1
    have n2 := congrArg Res.node c'.1
    have t1 := congrArg Res.sticky c.1
    have t2 := congrArg Res.sticky c'.1
    have p1 := congrArg Res.read c.1
    have p2 := congrArg Res.read c'.1
    have q1 := congrArg Res.unused c.1
    have q2 := congrArg Res.unused c'.1
    simp only [Res.core] at n1 n2 t1 t2 p1 p2 q1 q2
    refine ⟨by rw [n1, n2], fun _ => ?_, by rw [t1, t2]⟩
    simp only [Res.countUsed, p1, p2, q1, q2, List.length_drop, List.length_take]
    omega

/-- A rule and the rule with further alternatives at a place of the text, both evaluations regular. -/
theorem grown_eval {env env' : Env} {Q : Name → Prop} {text : List Rune} (hv : Valid text) (he : Extended env env' text Q) {r r' : Rule}
    (hr : Grown (NowhereQuiet env' text) (Nowhere env' text) Q r r') {flag : Int} {l : List Rune} (hl : l <:+ text)
    (h1 : Regular env r flag l) (h2 : Regular env' r' flag l) :
    ∃ fuel res res' s1 s1', eval env fuel r flag (Stream.ofChars l) = .ok (res, s1) ∧ eval env' fuel r' flag (Stream.ofChars l) = .ok (res', s1') ∧
      SameTree res res' := by
  obtain ⟨F, a1, a2⟩ := h1
  obtain ⟨F', b1, b2⟩ := h2
  have hv' : Valid l := fun c hc => hv c (hl.subset hc)
  have ha := (run_le env F _ (Nat.le_max_left F F') r flag l).resolve_left a1
  have hb := (run_le env' F' _ (Nat.le_max_right F F') r' flag l).resolve_left b1
  rw [← ha] at a1 a2
  rw [← hb] at b1 b2
  have hab : (Spec.run env (max F F') r flag l).blind = (Spec.run env' (max F F') r' flag l).blind := by
    rcases run_grown (text := text) he (mute_of hv) (muteX_of hv) (max F F') r r' flag l hl hr with hx | hx | hx
    · rcases hx with hx | hx
      · exact absurd hx a1
      · exact absurd hx a2
    · rcases hx with hx | hx
      · exact absurd hx b1
      · exact absurd hx b2
    · exact hx
  rw [← rem_ofChars l] at a1 a2 b1 b2 hab
  obtain ⟨res, s1, k, r1, _, r2⟩ := run_eval (ready_ofChars hv') a1 a2
  obtain ⟨res', s1', k', r1', _, r2'⟩ := run_eval (ready_ofChars hv') b1 b2
  exact ⟨max F F', res, res', s1, s1', r1, r1', sameTree_of_blind (fun hx => hx.elim a1 a2) hab r2 r2'⟩

/-- **C86**, the part that holds for `EvalRule`: extend a grammar by alternatives of choices and excluded texts of blocks, at any depth,
and by further rules.  On a sample where none of them matches at any place and no new alternative reports that white space may follow, and where both
evaluations are regular, both return, with the same tree or both without one, and with the same number of characters used. -/
theorem C86_rule_partial {g g' : Grammar} {Q : Name → Prop} {sample : List Rune} (hv : Valid sample) (he : Extended g.env g'.env sample Q)
    {name : Name} (hq : Q name) {rc : Record} (hrc : g.getRecord name = some rc) (h1 : Regular g.env rc.rule SUGGEST_SKIP sample)
    (h2 : ∀ rule, g'.env name = some rule → Regular g'.env rule SUGGEST_SKIP sample) :
    ∃ fuel res res', g.evalRule fuel name sample = .ok res ∧ g'.evalRule fuel name sample = .ok res' ∧ SameTree res res' := by
  have h0 := he name hq
  have e1 : g.env name = some rc.rule := by simp [Grammar.env, hrc]
  rw [e1] at h0
  cases e2 : g'.env name with
  | none => rw [e2] at h0; cases h0
  | some r' =>
    rw [e2] at h0
    cases h0 with
    | some h0 =>
      obtain ⟨q', n2, rfl⟩ : ∃ q, g'.getRecord name = some q ∧ q.rule = r' := by simpa [Grammar.env] using e2
      obtain ⟨F, res, res', s1, s1', r1, r1', r2⟩ := grown_eval hv he h0 List.suffix_rfl h1 (h2 q'.rule e2)
      exact ⟨F, res, res', by simp only [evalRule, hrc, r1]; rfl, by simp only [evalRule, n2, r1']; rfl, r2⟩

/-- If both grammars are predictive (C58) this is so on every sample in which none of the new alternatives matches. -/
theorem C86_predictive_partial {g g' : Grammar} (hg : Predictive g) (hg' : Predictive g') {Q : Name → Prop} {sample : List Rune} (hv : Valid sample)
    (ht : Tidy sample) (he : Extended g.env g'.env sample Q) {name : Name} (hq : Q name) {rc : Record} (hrc : g.getRecord name = some rc) :
    ∃ fuel res res', g.evalRule fuel name sample = .ok res ∧ g'.evalRule fuel name sample = .ok res' ∧ SameTree res res' := by
  have key : ∀ {g : Grammar}, Predictive g → ∀ rule, g.env name = some rule → Regular g.env rule SUGGEST_SKIP sample := by
    intro g hg rule hr
    obtain ⟨c, hc⟩ := hg
    obtain ⟨q, n1, rfl⟩ : ∃ q, g.getRecord name = some q ∧ q.rule = rule := by simpa [Grammar.env] using hr
    have := (C58_clean hc ((certified hc).covers n1 (flag := SUGGEST_SKIP) (by decide)) (ready_ofChars hv) (by rw [rem_ofChars]; exact ht)).2.1
    rwa [rem_ofChars] at this
  exact C86_rule_partial hv he hq hrc (key hg _ (by simp [Grammar.env, hrc])) (key hg')

/-- **C86**, the part that holds for documents: if the document is orderly in both grammars, `EvalRaw` gives the same trees, positions
aside, or the same error, in whatever order the roots are visited.  Roots may have been added too. -/
theorem C86_document_partial {g g' : Grammar} {Q : Name → Prop} {s : Stream} (hs : Ready s) (he : Extended g.env g'.env s.rem Q)
    (hr : ExtendedRoots g'.env s.rem Q (g.roots.map (·.rule)) (g'.roots.map (·.rule))) {fuel fuel' : Nat} {sch sch' : Sched} (hfair : sch.Fair)
    (hfair' : sch'.Fair) {s1 s2 : Stream} (ho : Orderly g.env (g.roots.map (·.rule)) s.rem) (ho' : Orderly g'.env (g'.roots.map (·.rule)) s.rem)
    {y y'} (h : g.evalRaw fuel sch s = .ok (y, s1)) (h' : g'.evalRaw fuel' sch' s = .ok (y', s2)) :
    y.map (List.map Node.erase) = y'.map (List.map Node.erase) := by
  by_cases hne : s.rem = []
  · rw [(C24_empty hfair hs h).2 hne, (C24_empty hfair' hs h').2 hne]
  · obtain ⟨F, a1, a2⟩ := ho
    obtain ⟨F', b1, b2⟩ := ho'
    obtain ⟨ys, hr, hp⟩ := hr
    have ha := (docAt_le (run_le g.env F _ (Nat.le_max_left F F')) (g.roots.map (·.rule)) F _ (Nat.le_max_left F F') SUGGEST_SKIP 0 s.rem []).resolve_left a1
    have hb := (docAt_le (run_le g'.env F' _ (Nat.le_max_right F F')) (g'.roots.map (·.rule)) F' _ (Nat.le_max_right F F') SUGGEST_SKIP 0 s.rem []).resolve_left b1
    rw [← ha] at a1 a2
    rw [← hb] at b1 b2
    have hab : docAt (Spec.run g.env (max F F')) (g.roots.map (·.rule)) (max F F') SUGGEST_SKIP 0 s.rem [] =
        docAt (Spec.run g'.env (max F F')) (g'.roots.map (·.rule)) (max F F') SUGGEST_SKIP 0 s.rem [] := by
      rcases docAt_grown (run_grown he (mute_of hs.valid) (muteX_of hs.valid) (max F F')) (muteX_of hs.valid _) hr hp (max F F') SUGGEST_SKIP 0 0 s.rem []
        List.suffix_rfl with hx | hx | hx
      · rcases hx with hx | hx
        · exact absurd hx a1
        · exact absurd hx a2
      · rcases hx with hx | hx
        · exact absurd hx b1
        · exact absurd hx b2
      · exact hx
    obtain ⟨x, hx⟩ : ∃ x, Doc.outcome (docAt (Spec.run g.env (max F F')) (g.roots.map (·.rule)) (max F F') SUGGEST_SKIP 0 s.rem []) = some x := by
      revert a1 a2
      cases docAt (Spec.run g.env (max F F')) (g.roots.map (·.rule)) (max F F') SUGGEST_SKIP 0 s.rem [] with
      | oof => intro h1 h2; exact absurd rfl (by first | exact h1 | exact h2)
      | risky => intro h1 h2; exact absurd rfl (by first | exact h1 | exact h2)
      | _ => intro _ _; exact ⟨_, rfl⟩
    obtain ⟨z, t, e1, e2⟩ := evalRaw_ref hfair hs.wf hs.valid hne hx
    rw [hab] at hx
    obtain ⟨z', t', e1', e2'⟩ := evalRaw_ref hfair' hs.wf hs.valid hne hx
    have h3 := raw_det h e1
    have h4 := raw_det h' e1'
    simp only [Prod.mk.injEq] at h3 h4
    rw [h3.1, h4.1, e2, e2']

/-- What is found at the places of a text is found by another rule that does the same at each of them. -/
theorem embedded_transfer {env env' : Env} {r r' : Rule} {l : List Rune} {kids : List Node} (h : Embedded env r l kids)
    (hk : ∀ i ≤ l.length, (Fails env r NOT_SKIP (l.drop i) → Fails env' r' NOT_SKIP (l.drop i)) ∧
      ∀ nd u st, Matches env r NOT_SKIP (l.drop i) nd u st → Matches env' r' NOT_SKIP (l.drop i) nd u st) : Embedded env' r' l kids := by
  induction h with
  | @last t h => exact .last fun i hi => (hk i hi).1 (h i hi)
  | @hit t m l nd st ks h hm hpos hs ih =>
    have hl : (t ++ m ++ l).length = t.length + m.length + l.length := by simp; omega
    have d1 : (t ++ m ++ l).drop t.length = m ++ l := by rw [List.append_assoc, List.drop_left]
    have d2 : ∀ i, (t ++ m ++ l).drop (t.length + m.length + i) = l.drop i := by
      intro i
      rw [← List.length_append, ← List.drop_drop, List.drop_left]
    refine .hit (st := st) (fun i hi => (hk i (by omega)).1 (h i hi)) ?_ hpos (ih ?_)
    · have := hk t.length (by omega)
      rw [d1] at this
      exact this.2 _ _ _ hm
    · intro i hi
      have := hk (t.length + m.length + i) (by omega)
      rwa [d2] at this

/-- **C86**, the part that holds for `EvalEmbed`: where the rule is unambiguous at every place of the sample with both grammars, both find
the same matches, with the same text between them. -/
theorem C86_embed_partial {g g' : Grammar} {Q : Name → Prop} {sample : List Rune} (hv : Valid sample) (he : Extended g.env g'.env sample Q)
    {name : Name} (hq : Q name) {rc rc' : Record} (hrc : g.getRecord name = some rc) (hrc' : g'.getRecord name = some rc')
    (h1 : ∀ i ≤ sample.length, Clean g.env rc.rule NOT_SKIP (sample.drop i)) (h2 : ∀ i ≤ sample.length, Clean g'.env rc'.rule NOT_SKIP (sample.drop i))
    {fuel fuel' : Nat} {res res' : Res} (h : g.evalEmbed fuel name sample = .ok res) (h' : g'.evalEmbed fuel' name sample = .ok res') :
    ∃ n n', res.node = some n ∧ res'.node = some n' ∧ n'.children.map Node.erase = n.children.map Node.erase := by
  obtain ⟨n, e1, _, _, _, e2⟩ := C23_embed_partial hrc hv h1 h
  obtain ⟨n', e1', _, _, _, e2'⟩ := C23_embed_partial hrc' hv h2 h'
  have hs : Grown (NowhereQuiet g'.env sample) (Nowhere g'.env sample) Q rc.rule rc'.rule := by
    have := he name hq
    simp only [Grammar.env, hrc, hrc', Option.map_some] at this
    cases this with
    | some h => exact h
  refine ⟨n, n', e1, e1', embedded_det (embedded_transfer e2 fun i hi => ?_) e2' rfl⟩
  obtain ⟨F, q, q', s1, s1', r1, r1', r2, r3, r4⟩ := grown_eval hv he hs (List.drop_suffix i sample) (Clean.regular (h1 i hi)) (Clean.regular (h2 i hi))
  constructor
  · rintro ⟨f, p, s, a1, a2⟩
    have := eval_det a1 r1
    simp only [Prod.mk.injEq] at this
    obtain ⟨rfl, rfl⟩ := this
    rw [a2] at r2
    exact ⟨F, q', s1', r1', by simpa using r2⟩
  · rintro nd u st ⟨f, p, s, a1, a2, a3, a4⟩
    have := eval_det a1 r1
    simp only [Prod.mk.injEq] at this
    obtain ⟨rfl, rfl⟩ := this
    obtain ⟨m, hm, _⟩ := Option.map_eq_some_iff.1 a2
    exact ⟨F, q', s1', r1', r2.trans a2, by rw [← a3]; exact r3 (by rw [hm]; rfl), r4.trans a4⟩

/-- An alternative that begins with a literal in single quotes whose first character does not occur in the text matches nowhere in
it and does not report that white space may follow. -/
theorem C86_absent {c : Rune} (hc : c ≠ EOFChar) (hw : isWhiteSpace c = false) {text : List Rune} (hv : Valid text) (hn : c ∉ text) {r : Rule} (h : Opens env c r)
    (flag : Int) (l : List Rune) (hl : l <:+ text) : NotHereQuiet env flag l r := by
  have hv' : Valid l := fun c hc => hv c (hl.subset hc)
  have hn' : c ∉ l := fun hm => hn (hl.subset hm)
  have key : ∃ fuel n, Spec.run env fuel r flag l = .fail n true := by
    induction h with
    | @char b u =>
      refine ⟨1, (blank (decide (flag = SUGGEST_SKIP)) l).length, ?_⟩
      simp only [Spec.run, if_neg hc, oneAt]
      have hsub : ∀ x ∈ blank (decide (flag = SUGGEST_SKIP)) l, x ∈ l := by
        intro x hx
        unfold blank at hx
        split at hx
        · exact (List.takeWhile_prefix _).subset hx
        · cases hx
      have e : (blank (decide (flag = SUGGEST_SKIP)) l).findIdx? (fun x => x == c) = none := by
        rw [List.findIdx?_eq_none_iff]
        intro x hx
        have : x ≠ c := fun e => hn' (e ▸ hsub x hx)
        simpa using this
      rw [e]
      cases hd : l.drop (blank (decide (flag = SUGGEST_SKIP)) l).length with
      | nil => rfl
      | cons x xs =>
        have hx : x ∈ l := List.mem_of_mem_drop (by rw [hd]; exact List.mem_cons_self)
        have : (x == c) = false := by
          have : x ≠ c := fun e => hn' (e ▸ hx)
          simpa using this
        simp only [this]; rfl
    | @chars b t =>
      by_cases hl0 : l = []
      · exact ⟨1, 0, by simp only [Spec.run, textAt, if_pos hl0]⟩
      · have hp : ∀ m, (c :: t).isPrefixOf (l.drop m) = false := by
          intro m
          cases hd : l.drop m with
          | nil => rfl
          | cons x xs =>
            have hx : x ∈ l := List.mem_of_mem_drop (by rw [hd]; exact List.mem_cons_self)
            have : (c == x) = false := by
              have : c ≠ x := fun e => hn' (e ▸ hx)
              simpa using this
            simp [List.isPrefixOf, this]
        have hlead : ∀ skip : Bool, (if skip = true then (c :: t).takeWhile isWhiteSpace else []) = [] := by
          intro skip
          cases skip <;> simp [List.takeWhile, hw]
        suffices hs : ∃ n, Spec.run env 1 (.chars b (c :: t)) flag l = .fail n true by
          obtain ⟨n, hs⟩ := hs; exact ⟨1, n, hs⟩
        simp only [Spec.run, textAt, if_neg hl0, hlead, List.length_nil, List.drop_zero, hp]
        simp only [List.isSuffixOf, List.reverse_nil, List.isPrefixOf, if_true]
        exact ⟨_, rfl⟩
    | @group b r _ ih =>
      obtain ⟨f, n, e⟩ := ih
      exact ⟨f + 1, n, by simp only [Spec.run, e]⟩
    | @concat b r rs _ ih =>
      obtain ⟨f, n, e⟩ := ih
      exact ⟨f + 1, max 0 (0 + n), by simp only [Spec.run, seqAt, List.drop_zero, e, Bool.and_true]⟩
    | @ref b n r hr _ ih =>
      obtain ⟨f, n, e⟩ := ih
      exact ⟨f + 1, n, by simp only [Spec.run, hr, e]⟩
  obtain ⟨f, n, e⟩ := key
  exact ⟨⟨f, (by rw [e]; intro hc; cases hc), (by rw [e]; intro hc; cases hc)⟩, misses_of_run hv' e⟩

/-- A string in double quotes whose first character does not occur in the text matches nowhere in it (but reports that white space may
follow). -/
theorem C86_absent_string {c : Rune} (hw : isWhiteSpace c = false) {text : List Rune} (hv : Valid text) (hn : c ∉ text) (b : RuleBase) (t : List Rune) :
    Nowhere env text (.str b (c :: t)) := by
  intro flag l hl
  have hv' : Valid l := fun c hc => hv c (hl.subset hc)
  have hn' : c ∉ l := fun hm => hn (hl.subset hm)
  suffices hs : ∃ n st, Spec.run env 1 (.str b (c :: t)) flag l = .fail n st by
    obtain ⟨n, st, e⟩ := hs
    obtain ⟨f, res, s, h1, h2, _⟩ := misses_of_run hv' e
    exact ⟨⟨1, (by rw [e]; intro hc; cases hc), (by rw [e]; intro hc; cases hc)⟩, f, res, s, h1, h2⟩
  by_cases hl0 : l = []
  · exact ⟨0, false, by simp only [Spec.run, textAt, if_pos hl0]⟩
  · have hp : ∀ m, (c :: t).isPrefixOf (l.drop m) = false := by
      intro m
      cases hd : l.drop m with
      | nil => rfl
      | cons x xs =>
        have hx : x ∈ l := List.mem_of_mem_drop (by rw [hd]; exact List.mem_cons_self)
        have : (c == x) = false := by
          have : c ≠ x := fun e => hn' (e ▸ hx)
          simpa using this
        simp [List.isPrefixOf, this]
    have hlead : ∀ skip : Bool, (if skip = true then (c :: t).takeWhile isWhiteSpace else []) = [] := by
      intro skip
      cases skip <;> simp [List.takeWhile, hw]
    simp only [Spec.run, textAt, if_neg hl0, hlead, List.length_nil, List.drop_zero, hp]
    simp only [List.isSuffixOf, List.reverse_nil, List.isPrefixOf, if_true]
    exact ⟨_, _, rfl⟩

/-! ### Groups of lower priority -/

theorem choiceLoop_lower {ev : Evaluator} {b : RuleBase} {g0 g1 : List (List Rule)} {flag : Int} (more : List (List Rule)) :
    ∀ (gs : List (List Rule)) (st : ChoiceState) (s s1 : Stream) (res : Res), choiceLoop ev (.choice b g0) flag gs st s = .ok (res, s1) →
      (res.node.isSome = true ∨ ∃ x y, res.error = some (.ambiguity b.name x y)) →
      choiceLoop ev (.choice b g1) flag (gs ++ more) st s = .ok (res, s1)
  | [], st, s, s1, res, h, hn => by
    simp only [choiceLoop, Exec.ok.injEq, Prod.mk.injEq] at h
    rw [← h.1] at hn
    rcases hn with hn | ⟨x, y, hn⟩ <;> cases hn
  | g :: gs, st, s, s1, res, h, hn => by
    simp only [choiceLoop, List.cons_append] at h ⊢
    obtain ⟨⟨ms, st', s'⟩, e1, h⟩ := Exec.of_bind h
    rw [e1]
    dsimp only [Bind.bind, Exec.bind] at h ⊢
    cases hp : pick ms with
    | none => rw [hp] at h; exact choiceLoop_lower more gs st' s' s1 res h hn
    | ambiguous x y => rw [hp] at h; exact h
    | found r => rw [hp] at h; exact h

/-- Groups of lower priority do not matter where a group before them decides: the result is the same in every respect, on every
stream, whatever they are. -/
theorem C86_lower {b : RuleBase} {gs : List (List Rule)} (more : List (List Rule)) {flag : Int} {s s1 : Stream} {fuel : Nat} {res : Res}
    (he : eval env fuel (.choice b gs) flag s = .ok (res, s1))
    (hn : res.node.isSome = true ∨ ∃ x y, res.error = some (.ambiguity b.name x y)) :
    eval env fuel (.choice b (gs ++ more)) flag s = .ok (res, s1) := by
  cases fuel with
  | zero => cases he
  | succ fuel =>
    simp only [eval] at he ⊢
    exact choiceLoop_lower more gs {} s s1 res he hn

/-- `"w"` occurs in neither text.  With it as a further alternative of `a`, `r` takes a text it did not take, and no longer takes one it
did: where a string does not match, the choice still reports that white space may follow, and white space is skipped. -/
theorem C86_counterexample :
    readOf (runes "r = a 'z'\na = 'x' | 'y'") (runes "r") (runes "x z") = some (false, 0) ∧
    readOf (runes "r = a 'z'\na = 'x' | 'y' | \"w\"") (runes "r") (runes "x z") = some (true, 3) ∧
    readOf (runes "r = a ' '-'~' 'z'\na = 'x' | 'y'") (runes "r") (runes "x z") = some (true, 3) ∧
    readOf (runes "r = a ' '-'~' 'z'\na = 'x' | 'y' | \"w\"") (runes "r") (runes "x z") = some (false, 0) := by decide +kernel

/-! ## Cases -/

theorem fails_of {fuel : Nat} {r : Rule} {flag : Int} {l : List Rune}
    (h : (match eval env fuel r flag (Stream.ofChars l) with | .ok (res, _) => res.node.isNone | _ => false) = true) : Fails env r flag l := by
  cases e : eval env fuel r flag (Stream.ofChars l) with
  | ok x => rw [e] at h; exact ⟨fuel, x.1, x.2, e, by simpa using h⟩
  | _ => rw [e] at h; cases h

/-- `'a' | 'ab'` on "abc", and with `"w"` and `'ax'` added, and a group `'q'` before: the hypotheses hold. -/
example : Regular noRules (.choice {} [[lit "a", lit "ab"]]) SUGGEST_SKIP (runes "abc") := regular_of (fuel := 9) (by decide +kernel)
example : AddedG (NotHere noRules SUGGEST_SKIP (runes "abc")) [[lit "a", lit "ab"]]
    [[lit "q"], [.str {} (runes "w"), lit "a", lit "ab", lit "ax"]] :=
  .new (.add ⟨regular_of (fuel := 9) (by decide +kernel), fails_of (fuel := 9) (by decide +kernel)⟩ .nil)
    (.group (.add ⟨regular_of (fuel := 9) (by decide +kernel), fails_of (fuel := 9) (by decide +kernel)⟩
      (.keep (.keep (.add ⟨regular_of (fuel := 9) (by decide +kernel), fails_of (fuel := 9) (by decide +kernel)⟩ .nil)))) .nil)
example : seen (eval noRules 9 (.choice {} [[lit "a", lit "ab"]]) SUGGEST_SKIP (Stream.ofChars (runes "abc"))) =
    some (some (runes "ab", 1), runes "ab", [], runes "c") := by decide +kernel

/-- The grammar of C85 with a further alternative and a further rule. -/
def grownText : List Rune := runes "r = \"a\" {b} 'c'\nb = 'x' | 'y' | w | 'z'\nw = 'w' {'v'}"
def grownGrammar : Grammar := (madeOf grownText).getD {}

theorem grown_content : content grownGrammar.records =
    [(runes "r", .concat { name := runes "r" } [.str {} (runes "a"), .rep {} (.ref {} (runes "b")) 0 0, .char {} 99 false]),
     (runes "b", .choice { name := runes "b" } [[.char {} 120 false, .char {} 121 false, .ref {} (runes "w"), .char {} 122 false]]),
     (runes "w", .concat { name := runes "w" } [.char {} 119 false, .rep {} (.char {} 118 false) 0 0])] := by decide +kernel

theorem grown_names : (grownGrammar.records.map Record.name).Nodup := by decide +kernel

theorem written_env {n r} (h : (n, r) ∈ content writtenGrammar.records) : writtenGrammar.env n = some r := (env_content written_names.1 n r).2 h
theorem grown_env {n r} (h : (n, r) ∈ content grownGrammar.records) : grownGrammar.env n = some r := (env_content grown_names n r).2 h

/-- On every text without a `w` the hypotheses of `C86_rule_partial` about the grammars hold. -/
theorem written_grown {sample : List Rune} (hv : Valid sample) (hn : 119 ∉ sample) :
    Extended writtenGrammar.env grownGrammar.env sample (fun n => n = runes "r" ∨ n = runes "b") := by
  rintro n (rfl | rfl)
  · rw [written_env (by rw [written_content]; exact List.mem_cons_self), grown_env (by rw [grown_content]; exact List.mem_cons_self)]
    exact .some (.concat (.cons (.same rfl (by intro b n hc; cases hc)) (.cons (.rep (.ref (.inr rfl)))
      (.cons (.same rfl (by intro b n hc; cases hc)) .nil))))
  · rw [written_env (by rw [written_content]; exact List.mem_cons_of_mem _ List.mem_cons_self),
      grown_env (by rw [grown_content]; exact List.mem_cons_of_mem _ List.mem_cons_self)]
    refine .some (.choice (.group (.keep (.same rfl (by intro b n hc; cases hc)) (.keep (.same rfl (by intro b n hc; cases hc)) (.add ?_
      (.keep (.same rfl (by intro b n hc; cases hc)) .nil)))) .nil))
    exact C86_absent (by decide) (by decide) hv hn
      (.ref (grown_env (by rw [grown_content]; exact List.mem_cons_of_mem _ (List.mem_cons_of_mem _ List.mem_cons_self))) (.concat .char))

theorem grown_predictive : (certify grownGrammar 6).ok grownGrammar = true := by decide +kernel

/-- So on every text without a `w`, whatever its length, the two grammars give the same tree for `r`. -/
example {sample : List Rune} (hv : Valid sample) (ht : Tidy sample) (hn : 119 ∉ sample) :
    ∃ fuel res res', writtenGrammar.evalRule fuel (runes "r") sample = .ok res ∧ grownGrammar.evalRule fuel (runes "r") sample = .ok res' ∧
      SameTree res res' := by
  have e := written_env (n := runes "r") (by rw [written_content]; exact List.mem_cons_self)
  obtain ⟨rc, h, _⟩ : ∃ q, writtenGrammar.getRecord (runes "r") = some q ∧ q.rule = _ := by simpa [Grammar.env] using e
  exact C86_predictive_partial ⟨_, written_predictive.1⟩ ⟨_, grown_predictive⟩ hv ht (written_grown hv hn) (.inl rfl) h

theorem grown_roots : content grownGrammar.roots =
    [(runes "r", .concat { name := runes "r" } [.str {} (runes "a"), .rep {} (.ref {} (runes "b")) 0 0, .char {} 99 false])] ∧
    (certify grownGrammar 6).rootsOk (grownGrammar.roots.map (·.rule)) = true := by decide +kernel

/-- And every document without a `w` is the same in both. -/
example {s : Stream} (hs : Ready s) (ht : Tidy s.rem) (hn : 119 ∉ s.rem) {fuel fuel' : Nat} {sch sch' : Sched} (hfair : sch.Fair) (hfair' : sch'.Fair)
    {s1 s2 : Stream} {y y'} (h : writtenGrammar.evalRaw fuel sch s = .ok (y, s1)) (h' : grownGrammar.evalRaw fuel' sch' s = .ok (y', s2)) :
    y.map (List.map Node.erase) = y'.map (List.map Node.erase) := by
  have e : ∀ rs : List Record, rs.map (·.rule) = (content rs).map Prod.snd := by
    intro rs; induction rs with
    | nil => rfl
    | cons x xs ih => simp only [content, List.map_cons, List.map_map] at ih ⊢; rw [ih]
  refine C86_document_partial hs (written_grown hs.valid hn) ?_ hfair hfair' (C58_orderly written_predictive.1 written_predictive.2.2.1 hs.valid ht)
    (C58_orderly grown_predictive grown_roots.2 hs.valid ht) h h'
  rw [e, e, written_roots.1, grown_roots.1]
  exact ⟨_, .keep (.concat (.cons (.same rfl (by intro b n hc; cases hc)) (.cons (.rep (.ref (.inr rfl)))
      (.cons (.same rfl (by intro b n hc; cases hc)) .nil)))) .nil, .refl _⟩

/-- So is every rule embedded in a text without a `w`. -/
example {rc rc' : Record} (hrc : writtenGrammar.getRecord (runes "r") = some rc) (hrc' : grownGrammar.getRecord (runes "r") = some rc')
    {sample : List Rune} (hv : Valid sample) (ht : Tidy sample) (hn : 119 ∉ sample) {fuel fuel' : Nat} {res res' : Res}
    (h : writtenGrammar.evalEmbed fuel (runes "r") sample = .ok res) (h' : grownGrammar.evalEmbed fuel' (runes "r") sample = .ok res') :
    ∃ n n', res.node = some n ∧ res'.node = some n' ∧ n'.children.map Node.erase = n.children.map Node.erase :=
  C86_embed_partial hv (written_grown hv hn) (.inl rfl) hrc hrc'
    (fun i _ => (certified written_predictive.1).clean ((certified written_predictive.1).covers hrc (flag := NOT_SKIP) (by decide)) (hv.drop i) (ht.drop i))
    (fun i _ => (certified grown_predictive).clean ((certified grown_predictive).covers hrc' (flag := NOT_SKIP) (by decide)) (hv.drop i) (ht.drop i)) h h'

/-- The trees on "axzc"; with a `w` in the text only the second grammar has one. -/
example : readOf writtenText (runes "r") (runes "axzc") = some (true, 4) ∧ readOf grownText (runes "r") (runes "axzc") = some (true, 4) ∧
    readOf writtenText (runes "r") (runes "awvc") = some (false, 0) ∧ readOf grownText (runes "r") (runes "awvc") = some (true, 4) := by
  decide +kernel

/-- A block with a further excluded text, and a further root: on every text without a `w` both are covered. -/
example {sample : List Rune} (hv : Valid sample) (hn : 119 ∉ sample) :
    Grown (NowhereQuiet noRules sample) (Nowhere noRules sample) (fun _ => True)
      (.block {} (lit "(") false (lit ")") none []) (.block {} (lit "(") false (lit ")") none [.str {} (runes "while")]) ∧
    ExtendedRoots noRules sample (fun _ => True) [lit "a"] [.str {} (runes "word"), lit "a"] :=
  ⟨.block (.same rfl (by intro b n hc; cases hc)) (.same rfl (by intro b n hc; cases hc)) .none (.add (C86_absent_string (by decide) hv hn _ _) .nil),
    _, .add (C86_absent_string (by decide) hv hn _ _) (.keep (.same rfl (by intro b n hc; cases hc)) .nil), .refl _⟩

/-- Literals in single quotes are quiet. -/
example : NotHereQuiet noRules SUGGEST_SKIP (runes "abc") (lit "ax") :=
  ⟨regular_of (fuel := 9) (by decide +kernel), misses_of_run (fuel := 9) (n := 2) (by unfold Valid; decide +kernel) rfl⟩

/-- A group of lower priority: `'a' > 'ab'`. -/
example : seen (eval noRules 9 (.choice {} [[lit "a"], [lit "ab"]]) SUGGEST_SKIP (Stream.ofChars (runes "abc"))) =
    some (some (runes "a", 1), runes "a", [], runes "bc") := by decide +kernel

end Xbnf.Props
