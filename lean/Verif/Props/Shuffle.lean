import Verif.Lemmas.Shuffle
import Verif.Props.Parens
import Verif.Props.Embed
/-
C85: the order of the alternatives of a group does not matter.
-/
namespace Xbnf.Props
open Xbnf Xbnf.Spec Grammar

theorem ref_core {l : List Rune} {a : Ans} (h1 : a ≠ .oof) (h2 : a ≠ .risky) {res res' : Res} {k k' : Nat} (h : Ref l a (.ok (res.core, k)))
    (h' : Ref l a (.ok (res'.core, k'))) : res.core = res'.core := by
  cases a with
  | oof => exact absurd rfl h1
  | risky => exact absurd rfl h2
  | fail n st =>
    have e1 := h.2; have e2 := h'.2
    simp only [Exec.ok.injEq, Prod.mk.injEq] at e1 e2
    rw [e1.1, e2.1]
  | ambiguous n =>
    have e1 := h.2; have e2 := h'.2
    simp only [Exec.ok.injEq, Prod.mk.injEq] at e1 e2
    rw [e1.1, e2.1]
  | hit nd u n st =>
    have e1 := h.2.2; have e2 := h'.2.2
    simp only [Exec.ok.injEq, Prod.mk.injEq] at e1 e2
    rw [e1.1, e2.1]

/-- Results that differ at most in the positions in the tree and in the error. -/
def SameButPlaces (res res' : Res) : Prop :=
  res'.node.map Node.erase = res.node.map Node.erase ∧ res'.read = res.read ∧ res'.unused = res.unused ∧ res'.sticky = res.sticky

theorem core_same {res res' : Res} (h : res.core = res'.core) : SameButPlaces res res' := by
  have h1 := congrArg Res.node h
  have h2 := congrArg Res.read h
  have h3 := congrArg Res.unused h
  have h4 := congrArg Res.sticky h
  exact ⟨h1.symm, h2.symm, h3.symm, h4.symm⟩

/-- A rule and the rule in another order on the same input, both evaluations regular. -/
theorem shuffled_eval {env env' : Env} (he : Reordered env env') {r r' : Rule} (hr : Shuffled r r') {flag : Int} {s : Stream} (h : Ready s)
    (h1 : Regular env r flag s.rem) (h2 : Regular env' r' flag s.rem) :
    ∃ fuel res res' s1 s1', eval env fuel r flag s = .ok (res, s1) ∧ eval env' fuel r' flag s = .ok (res', s1') ∧ SameButPlaces res res' := by
  obtain ⟨F, a1, a2⟩ := h1
  obtain ⟨F', b1, b2⟩ := h2
  have ha : Spec.run env (max F F') r flag s.rem = Spec.run env F r flag s.rem := (run_le env F _ (Nat.le_max_left F F') r flag s.rem).resolve_left a1
  have hb : Spec.run env' (max F F') r' flag s.rem = Spec.run env' F' r' flag s.rem := (run_le env' F' _ (Nat.le_max_right F F') r' flag s.rem).resolve_left b1
  rw [← ha] at a1 a2
  rw [← hb] at b1 b2
  have hab : Spec.run env (max F F') r flag s.rem = Spec.run env' (max F F') r' flag s.rem := by
    rcases run_shuffled he (max F F') r r' flag s.rem hr with hx | hx | hx
    · rcases hx with hx | hx
      · exact absurd hx a1
      · exact absurd hx a2
    · rcases hx with hx | hx
      · exact absurd hx b1
      · exact absurd hx b2
    · exact hx
  obtain ⟨res, s1, k, e1, _, r1⟩ := run_eval h a1 a2
  obtain ⟨res', s1', k', e2, _, r2⟩ := run_eval h b1 b2
  rw [hab] at r1
  exact ⟨_, res, res', s1, s1', e1, e2, core_same (ref_core b1 b2 r1 r2)⟩

/-- **C85**, the part that holds for `EvalRule`: if one grammar is the other with the alternatives of groups and the excluded texts of blocks in
another order, at any depth, then on every sample for which both evaluations are regular both return, with the same tree or both
without one, and the same characters used and only looked at.

What is missing is stated by `C85_counterexample`. -/
theorem C85_rule_partial {g g' : Grammar} (he : Reordered g.env g'.env) {name : Name} {sample : List Rune} (hv : Valid sample)
    (h1 : ∀ rule, g.env name = some rule → Regular g.env rule SUGGEST_SKIP sample)
    (h2 : ∀ rule, g'.env name = some rule → Regular g'.env rule SUGGEST_SKIP sample) :
    ∃ fuel res res', g.evalRule fuel name sample = .ok res ∧ g'.evalRule fuel name sample = .ok res' ∧ SameButPlaces res res' := by
  have h0 := he name
  cases e1 : g.env name with
  | none =>
    rw [e1] at h0
    cases e2 : g'.env name with
    | some r' => rw [e2] at h0; cases h0
    | none =>
      have n1 : g.getRecord name = none := by simpa [Grammar.env] using e1
      have n2 : g'.getRecord name = none := by simpa [Grammar.env] using e2
      exact ⟨0, { error := some (.undefined {} name) }, { error := some (.undefined {} name) }, by simp only [evalRule, n1], by simp only [evalRule, n2],
        rfl, rfl, rfl, rfl⟩
  | some r =>
    rw [e1] at h0
    cases e2 : g'.env name with
    | none => rw [e2] at h0; cases h0
    | some r' =>
      rw [e2] at h0
      cases h0 with
      | some h0 =>
        have h1 := h1 r e1
        have h2 := h2 r' e2
        obtain ⟨q, n1, rfl⟩ : ∃ q, g.getRecord name = some q ∧ q.rule = r := by simpa [Grammar.env] using e1
        obtain ⟨q', n2, rfl⟩ : ∃ q, g'.getRecord name = some q ∧ q.rule = r' := by simpa [Grammar.env] using e2
        rw [← rem_ofChars sample] at h1 h2
        obtain ⟨f, res, res', s1, s1', e1, e2, e3⟩ := shuffled_eval he h0 (ready_ofChars hv) h1 h2
        exact ⟨f, res, res', by simp only [evalRule, n1, e1]; rfl, by simp only [evalRule, n2, e2]; rfl, e3⟩

/-- For predictive grammars (C58) this is so on every sample. -/
theorem C85_predictive {g g' : Grammar} (hg : Predictive g) (hg' : Predictive g') (he : Reordered g.env g'.env) {name : Name} {sample : List Rune}
    (hv : Valid sample) (ht : Tidy sample) :
    ∃ fuel res res', g.evalRule fuel name sample = .ok res ∧ g'.evalRule fuel name sample = .ok res' ∧ SameButPlaces res res' := by
  have key : ∀ {g : Grammar}, Predictive g → ∀ rule, g.env name = some rule → Regular g.env rule SUGGEST_SKIP sample := by
    intro g hg rule hr
    obtain ⟨c, hc⟩ := hg
    obtain ⟨q, n1, rfl⟩ : ∃ q, g.getRecord name = some q ∧ q.rule = rule := by simpa [Grammar.env] using hr
    have := (C58_clean hc ((certified hc).covers n1 (flag := SUGGEST_SKIP) (by decide)) (ready_ofChars hv) (by rw [rem_ofChars]; exact ht)).2.1
    rwa [rem_ofChars] at this
  exact C85_rule_partial he hv (key hg) (key hg')

/-- **C85**, the part that holds for documents: if the document is orderly in both grammars, and they have the same roots, `EvalRaw` gives the same
trees, positions aside, or the same error, in whatever order the roots are visited. -/
theorem C85_document_partial {g g' : Grammar} (he : Reordered g.env g'.env) (hr : SameRoots (g.roots.map (·.rule)) (g'.roots.map (·.rule)))
    {fuel fuel' : Nat} {sch sch' : Sched} (hfair : sch.Fair) (hfair' : sch'.Fair) {s s1 s2 : Stream} (hs : Ready s)
    (ho : Orderly g.env (g.roots.map (·.rule)) s.rem) (ho' : Orderly g'.env (g'.roots.map (·.rule)) s.rem)
    {y y'} (h : g.evalRaw fuel sch s = .ok (y, s1)) (h' : g'.evalRaw fuel' sch' s = .ok (y', s2)) :
    y.map (List.map Node.erase) = y'.map (List.map Node.erase) := by
  by_cases hne : s.rem = []
  · rw [(C24_empty hfair hs h).2 hne, (C24_empty hfair' hs h').2 hne]
  · obtain ⟨F, a1, a2⟩ := ho
    obtain ⟨F', b1, b2⟩ := ho'
    have ha := (docAt_le (run_le g.env F _ (Nat.le_max_left F F')) (g.roots.map (·.rule)) F _ (Nat.le_max_left F F') SUGGEST_SKIP 0 s.rem []).resolve_left a1
    have hb := (docAt_le (run_le g'.env F' _ (Nat.le_max_right F F')) (g'.roots.map (·.rule)) F' _ (Nat.le_max_right F F') SUGGEST_SKIP 0 s.rem []).resolve_left b1
    rw [← ha] at a1 a2
    rw [← hb] at b1 b2
    have hab : docAt (Spec.run g.env (max F F')) (g.roots.map (·.rule)) (max F F') SUGGEST_SKIP 0 s.rem [] =
        docAt (Spec.run g'.env (max F F')) (g'.roots.map (·.rule)) (max F F') SUGGEST_SKIP 0 s.rem [] := by
      rcases docAt_shuffled (run_shuffled he (max F F')) hr (max F F') SUGGEST_SKIP 0 s.rem [] with hx | hx | hx
      · rcases hx with hx | hx
        · exact absurd hx a1
        · exact absurd hx a2
      · rcases hx with hx | hx
        · exact absurd hx b1
        · exact absurd hx b2
      · exact hx
    obtain ⟨x, hx⟩ : ∃ x, Doc.outcome (docAt (Spec.run g.env (max F F')) (g.roots.map (·.rule)) (max F F') SUGGEST_SKIP 0 s.rem []) = some x := by
      revert a1 a2
      cases docAt (Spec.run g.env (max F F')) (g.roots.map (·.rule)) (max F F') SUGGEST_SKIP 0 s.rem [] with
      | oof => intro h1 h2; exact absurd rfl (by first | exact h1 | exact h2)
      | risky => intro h1 h2; exact absurd rfl (by first | exact h1 | exact h2)
      | _ => intro _ _; exact ⟨_, rfl⟩
    obtain ⟨z, t, e1, e2⟩ := evalRaw_ref hfair hs.wf hs.valid hne hx
    rw [hab] at hx
    obtain ⟨z', t', e1', e2'⟩ := evalRaw_ref hfair' hs.wf hs.valid hne hx
    have h3 := raw_det h e1
    have h4 := raw_det h' e1'
    simp only [Prod.mk.injEq] at h3 h4
    rw [h3.1, h4.1, e2, e2']

/-- The children of an embedding are determined. -/
theorem embedded_det {env : Env} {r : Rule} {l : List Rune} {kids : List Node} (h : Embedded env r l kids) :
    ∀ {l' kids'}, Embedded env r l' kids' → l' = l → kids' = kids := by
  induction h with
  | @last t h =>
    intro l' kids' h' e
    cases h' with
    | last _ => rw [e]
    | @hit t' m l nd st ks h1 hm hpos hs =>
      subst e
      have := h t'.length (by simp)
      rw [List.append_assoc, List.drop_left] at this
      exact absurd this (matches_not_fails hm)
  | @hit t m l nd st ks h1 hm hpos hs ih =>
    intro l' kids' h' e
    cases h' with
    | last h =>
      subst e
      have := h t.length (by simp)
      rw [List.append_assoc, List.drop_left] at this
      exact absurd this (matches_not_fails hm)
    | @hit t' m' l2 nd' st' ks' h1' hm' hpos' hs' =>
      have hlen : t'.length = t.length := by
        rcases Nat.lt_trichotomy t'.length t.length with hlt | heq | hgt
        · have := h1 t'.length hlt
          rw [← e, List.append_assoc, List.drop_left] at this
          exact absurd this (matches_not_fails hm')
        · exact heq
        · have := h1' t.length hgt
          rw [e, List.append_assoc, List.drop_left] at this
          exact absurd this (matches_not_fails hm)
      rw [List.append_assoc, List.append_assoc] at e
      obtain ⟨rfl, e2⟩ := List.append_inj e hlen
      rw [e2] at hm'
      obtain ⟨rfl, e3, rfl⟩ := matches_det hm' hm
      obtain ⟨rfl, rfl⟩ := List.append_inj e2 e3
      rw [ih hs' rfl]

/-- What is found at the places of a text is found with the other grammar. -/
theorem embedded_shuffled {env env' : Env} (he : Reordered env env') {r r' : Rule} (hr : Shuffled r r') {l : List Rune} {kids : List Node}
    (h : Embedded env r l kids) (hv : Valid l) (h1 : ∀ i ≤ l.length, Regular env r NOT_SKIP (l.drop i))
    (h2 : ∀ i ≤ l.length, Regular env' r' NOT_SKIP (l.drop i)) : Embedded env' r' l kids := by
  have key : ∀ {l : List Rune}, Valid l → Regular env r NOT_SKIP l → Regular env' r' NOT_SKIP l → (Fails env r NOT_SKIP l → Fails env' r' NOT_SKIP l) ∧
      ∀ {nd u st}, Matches env r NOT_SKIP l nd u st → Matches env' r' NOT_SKIP l nd u st := by
    intro l hv g1 g2
    rw [← rem_ofChars l] at g1 g2
    obtain ⟨F, res, res', s1, s1', e1, e2, e3, e4, e5, e6⟩ := shuffled_eval he hr (ready_ofChars hv) g1 g2
    constructor
    · rintro ⟨f, q, s, a1, a2⟩
      have := eval_det a1 e1
      simp only [Prod.mk.injEq] at this
      obtain ⟨rfl, rfl⟩ := this
      rw [a2] at e3
      exact ⟨F, res', s1', e2, by simpa using e3⟩
    · rintro nd u st ⟨f, q, s, a1, a2, a3, a4⟩
      have := eval_det a1 e1
      simp only [Prod.mk.injEq] at this
      obtain ⟨rfl, rfl⟩ := this
      exact ⟨F, res', s1', e2, e3.trans a2, by rw [← a3]; simp only [Res.countUsed, e4, e5], e6.trans a4⟩
  induction h with
  | @last t h => exact .last fun i hi => (key (hv.drop i) (h1 i hi) (h2 i hi)).1 (h i hi)
  | @hit t m l nd st ks h hm hpos hs ih =>
    have hl : (t ++ m ++ l).length = t.length + m.length + l.length := by simp; omega
    have d1 : (t ++ m ++ l).drop t.length = m ++ l := by rw [List.append_assoc, List.drop_left]
    have d2 : ∀ i, (t ++ m ++ l).drop (t.length + m.length + i) = l.drop i := by
      intro i
      rw [← List.length_append, ← List.drop_drop, List.drop_left]
    refine .hit (st := st) (fun i hi => (key (hv.drop i) (h1 i (by omega)) (h2 i (by omega))).1 (h i hi)) ?_ hpos (ih ?_ ?_ ?_)
    · have := key (hv.drop t.length) (h1 t.length (by omega)) (h2 t.length (by omega))
      rw [d1] at this
      exact this.2 hm
    · have := hv.drop (t.length + m.length + 0)
      rwa [d2] at this
    · intro i hi
      have := h1 (t.length + m.length + i) (by omega)
      rwa [d2] at this
    · intro i hi
      have := h2 (t.length + m.length + i) (by omega)
      rwa [d2] at this

/-- **C85**, the part that holds for `EvalEmbed`: where the rule is unambiguous at every place of the sample with both grammars, both find the same
matches, with the same text between them. -/
theorem C85_embed_partial {g g' : Grammar} (he : Reordered g.env g'.env) {name : Name} {rc rc' : Record} (hrc : g.getRecord name = some rc)
    (hrc' : g'.getRecord name = some rc') {sample : List Rune} (hv : Valid sample)
    (h1 : ∀ i ≤ sample.length, Clean g.env rc.rule NOT_SKIP (sample.drop i)) (h2 : ∀ i ≤ sample.length, Clean g'.env rc'.rule NOT_SKIP (sample.drop i))
    {fuel fuel' : Nat} {res res' : Res} (h : g.evalEmbed fuel name sample = .ok res) (h' : g'.evalEmbed fuel' name sample = .ok res') :
    ∃ n n', res.node = some n ∧ res'.node = some n' ∧ n'.children.map Node.erase = n.children.map Node.erase := by
  obtain ⟨n, e1, _, _, _, e2⟩ := C23_embed_partial hrc hv h1 h
  obtain ⟨n', e1', _, _, _, e2'⟩ := C23_embed_partial hrc' hv h2 h'
  have hs : Shuffled rc.rule rc'.rule := by
    have := he name
    simp only [Grammar.env, hrc, hrc', Option.map_some] at this
    cases this with
    | some h => exact h
  exact ⟨n, n', e1, e1', embedded_det (embedded_shuffled he hs e2 hv (fun i hi => Clean.regular (h1 i hi)) (fun i hi => Clean.regular (h2 i hi))) e2' rfl⟩

/-- Grammars whose rules have the same names and differ by the order of alternatives. -/
theorem reordered_env {g g' : Grammar} (hn : (g.records.map Record.name).Nodup) (hn' : (g'.records.map Record.name).Nodup)
    (h : ∀ p ∈ content g.records, ∃ r', (p.1, r') ∈ content g'.records ∧ Shuffled p.2 r')
    (h' : ∀ p ∈ content g'.records, ∃ r, (p.1, r) ∈ content g.records) : Reordered g.env g'.env := by
  intro n
  cases h1 : g.env n with
  | some r =>
    obtain ⟨r', h2, h3⟩ := h _ ((env_content hn n r).1 h1)
    rw [(env_content hn' n r').2 h2]
    exact .some h3
  | none =>
    cases h2 : g'.env n with
    | none => exact .none
    | some r' =>
      obtain ⟨r, h3⟩ := h' _ ((env_content hn' n r').1 h2)
      rw [(env_content hn n r).2 h3] at h1
      cases h1

/-- **C85**, counterexample: with two equally long alternatives and a longer one, it matters whether the longer one is written last or first. -/
theorem C85_counterexample :
    readOf (runes "r = 'a' | 'a' | 'ab'") (runes "r") (runes "ab") = some (false, 2) ∧
    readOf (runes "r = 'ab' | 'a' | 'a'") (runes "r") (runes "ab") = some (true, 2) := by decide +kernel

/-- The groups of a choice are another matter: the first that matches is taken. -/
theorem C85_groups_counterexample :
    readOf (runes "r = 'a' > 'ab'") (runes "r") (runes "ab") = some (true, 1) ∧
    readOf (runes "r = 'ab' > 'a'") (runes "r") (runes "ab") = some (true, 2) := by decide +kernel

/-! ## Cases -/

def writtenText : List Rune := runes "r = \"a\" {b} 'c'\nb = 'x' | 'y' | 'z'"
def shuffledText : List Rune := runes "r = \"a\" {b} 'c'\nb = 'z' | 'x' | 'y'"
def writtenGrammar : Grammar := (madeOf writtenText).getD {}
def shuffledGrammar : Grammar := (madeOf shuffledText).getD {}

theorem written_content : content writtenGrammar.records =
    [(runes "r", .concat { name := runes "r" } [.str {} (runes "a"), .rep {} (.ref {} (runes "b")) 0 0, .char {} 99 false]),
     (runes "b", .choice { name := runes "b" } [[.char {} 120 false, .char {} 121 false, .char {} 122 false]])] := by decide +kernel

theorem shuffled_content : content shuffledGrammar.records =
    [(runes "r", .concat { name := runes "r" } [.str {} (runes "a"), .rep {} (.ref {} (runes "b")) 0 0, .char {} 99 false]),
     (runes "b", .choice { name := runes "b" } [[.char {} 122 false, .char {} 120 false, .char {} 121 false]])] := by decide +kernel

theorem written_names : (writtenGrammar.records.map Record.name).Nodup ∧ (shuffledGrammar.records.map Record.name).Nodup := by decide +kernel

/-- The rule `r`, the same in both. -/
theorem shuffled_r : Shuffled (.concat { name := runes "r" } [.str {} (runes "a"), .rep {} (.ref {} (runes "b")) 0 0, .char {} 99 false])
    (.concat { name := runes "r" } [.str {} (runes "a"), .rep {} (.ref {} (runes "b")) 0 0, .char {} 99 false]) :=
  .concat (.cons (.same rfl) (.cons (.rep (.same rfl)) (.cons (.same rfl) .nil)))

/-- The hypotheses of the theorems hold of these grammars. -/
theorem written_shuffled : Reordered writtenGrammar.env shuffledGrammar.env := by
  refine reordered_env written_names.1 written_names.2 ?_ ?_
  · rw [written_content, shuffled_content]
    intro p hp
    simp only [List.mem_cons, List.not_mem_nil, or_false] at hp
    rcases hp with rfl | rfl
    · exact ⟨_, List.mem_cons_self, shuffled_r⟩
    · exact ⟨_, List.mem_cons_of_mem _ List.mem_cons_self, .choice (.cons (.cons (.same rfl) (.cons (.same rfl) (.cons (.same rfl) .nil)))
        (((List.Perm.swap _ _ _).cons _).trans (.swap _ _ _)) .nil)⟩
  · rw [written_content, shuffled_content]
    intro p hp
    simp only [List.mem_cons, List.not_mem_nil, or_false] at hp
    rcases hp with rfl | rfl
    · exact ⟨_, List.mem_cons_self⟩
    · exact ⟨_, List.mem_cons_of_mem _ List.mem_cons_self⟩

theorem written_predictive : (certify writtenGrammar 6).ok writtenGrammar = true ∧ (certify shuffledGrammar 6).ok shuffledGrammar = true ∧
    (certify writtenGrammar 6).rootsOk (writtenGrammar.roots.map (·.rule)) = true ∧
    (certify shuffledGrammar 6).rootsOk (shuffledGrammar.roots.map (·.rule)) = true := by decide +kernel

theorem written_roots : content writtenGrammar.roots = [(runes "r", .concat { name := runes "r" } [.str {} (runes "a"), .rep {} (.ref {} (runes "b")) 0 0, .char {} 99 false])] ∧
    content shuffledGrammar.roots = [(runes "r", .concat { name := runes "r" } [.str {} (runes "a"), .rep {} (.ref {} (runes "b")) 0 0, .char {} 99 false])] := by
  decide +kernel

theorem shuffled_roots : SameRoots (writtenGrammar.roots.map (·.rule)) (shuffledGrammar.roots.map (·.rule)) := by
  have e : ∀ rs : List Record, rs.map (·.rule) = (content rs).map Prod.snd := by
    intro rs; induction rs with
    | nil => rfl
    | cons r rs ih => simp only [content, List.map_cons] at ih ⊢; rw [ih]
  rw [e, e, written_roots.1, written_roots.2]
  exact ⟨_, .cons shuffled_r .nil, .refl _⟩

example {sample : List Rune} (hv : Valid sample) (ht : Tidy sample) : ∃ fuel res res', writtenGrammar.evalRule fuel (runes "r") sample = .ok res ∧
    shuffledGrammar.evalRule fuel (runes "r") sample = .ok res' ∧ SameButPlaces res res' :=
  C85_predictive ⟨_, written_predictive.1⟩ ⟨_, written_predictive.2.1⟩ written_shuffled hv ht

/-- Every document is read the same with both. -/
example {text : List Rune} (hv : Valid text) (ht : Tidy text) {fuel fuel' : Nat} {sch sch' : Sched} (hfair : sch.Fair) (hfair' : sch'.Fair) {y y' s1 s2}
    (h : writtenGrammar.evalRaw fuel sch (Stream.ofChars text) = .ok (y, s1)) (h' : shuffledGrammar.evalRaw fuel' sch' (Stream.ofChars text) = .ok (y', s2)) :
    y.map (List.map Node.erase) = y'.map (List.map Node.erase) :=
  C85_document_partial written_shuffled shuffled_roots hfair hfair' (ready_ofChars hv)
    (by rw [rem_ofChars]; exact C58_orderly written_predictive.1 written_predictive.2.2.1 hv ht)
    (by rw [rem_ofChars]; exact C58_orderly written_predictive.2.1 written_predictive.2.2.2 hv ht) h h'

/-- So is every rule embedded in any text. -/
example {name : Name} {rc rc' : Record} (hrc : writtenGrammar.getRecord name = some rc) (hrc' : shuffledGrammar.getRecord name = some rc')
    {sample : List Rune} (hv : Valid sample) (ht : Tidy sample) {fuel fuel' : Nat} {res res' : Res}
    (h : writtenGrammar.evalEmbed fuel name sample = .ok res) (h' : shuffledGrammar.evalEmbed fuel' name sample = .ok res') :
    ∃ n n', res.node = some n ∧ res'.node = some n' ∧ n'.children.map Node.erase = n.children.map Node.erase :=
  C85_embed_partial written_shuffled hrc hrc' hv
    (fun i _ => (certified written_predictive.1).clean ((certified written_predictive.1).covers hrc (flag := NOT_SKIP) (by decide)) (hv.drop i) (ht.drop i))
    (fun i _ => (certified written_predictive.2.1).clean ((certified written_predictive.2.1).covers hrc' (flag := NOT_SKIP) (by decide)) (hv.drop i) (ht.drop i)) h h'

/-- The excluded texts of a block, and the alternatives of a choice inside another rule. -/
example : Shuffled (.option {} (.block {} (.str {} (runes "(")) false (.str {} (runes ")")) none [.str {} (runes "x"), .str {} (runes "y")]))
    (.option {} (.block {} (.str {} (runes "(")) false (.str {} (runes ")")) none [.str {} (runes "y"), .str {} (runes "x")])) :=
  .option (.block (.same rfl) (.same rfl) .none (.cons (.same rfl) (.cons (.same rfl) .nil)) (.swap _ _ _))

/-- A sample with a tree, and one without. -/
example : readOf writtenText (runes "r") (runes "a xyzc") = some (true, 6) ∧ readOf shuffledText (runes "r") (runes "a xyzc") = some (true, 6) ∧
    readOf writtenText (runes "r") (runes "a xyd") = some (false, 0) ∧ readOf shuffledText (runes "r") (runes "a xyd") = some (false, 0) := by decide +kernel

end Xbnf.Props
