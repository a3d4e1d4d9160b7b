import Verif.Lemmas.Certificate
import Verif.Props.Places
import Verif.Props.Embed
import Verif.Props.Truth
import Verif.Props.Local
/-
C58: predictive grammars.  For a grammar that passes the check of Spec/Predictive.lean every evaluation
of every rule on every text ends, and none of the situations comes up in which the library is known to
go astray; so what the partial theorems say of regular evaluations, clean samples and orderly documents
holds there without condition on the text, apart from white space outside ASCII.
-/
namespace Xbnf.Props
open Spec Grammar

/-! ### Rules -/

/-- Every evaluation of a rule that passes the check returns, and is plain: a match or no match, no
ambiguity, and none of the situations in which the library is known to go astray. -/
theorem C58_clean {c : Certificate} {g : Grammar} (hc : c.ok g = true) {r : Rule} {flag : Int} (hr : c.covers r flag = true)
    {s : Stream} (h : Ready s) (ht : Tidy s.rem) :
    Clean g.env r flag s.rem ∧ Regular g.env r flag s.rem ∧ ∃ fuel res s', eval g.env fuel r flag s = .ok (res, s') := by
  have hcl := (certified hc).clean hr h.valid ht
  obtain ⟨F, h1, h2⟩ := (Clean.regular hcl)
  obtain ⟨res, s', _, e, _⟩ := run_eval h h1 h2
  exact ⟨hcl, ⟨F, h1, h2⟩, F, res, s', e⟩

/-- `EvalRule` returns for every rule of a predictive grammar on every text. -/
theorem C58_evalRule_returns {g : Grammar} (hg : Predictive g) {name : Name} {rc : Record} (hrc : g.getRecord name = some rc)
    {sample : List Rune} (hv : Valid sample) (ht : Tidy sample) : ∃ fuel res, g.evalRule fuel name sample = .ok res := by
  obtain ⟨c, hc⟩ := hg
  obtain ⟨_, _, F, res, s', e⟩ := C58_clean hc ((certified hc).covers hrc (flag := SUGGEST_SKIP) (by decide))
    (ready_ofChars hv) (by rw [rem_ofChars]; exact ht)
  refine ⟨F, res, ?_⟩
  simp only [Grammar.evalRule, hrc, e]
  rfl

/-- The result of `EvalRule`: what was read is the beginning of the sample, and what was used the
beginning of that; if there is a tree, it contains the characters used and each leaf is where its
position says; if there is none, nothing was used, and what the error says is so. -/
theorem C58_evalRule {g : Grammar} (hg : Predictive g) {name : Name} {rc : Record} (hrc : g.getRecord name = some rc)
    {sample : List Rune} (hv : Valid sample) (ht : Tidy sample) {fuel : Nat} {res : Res}
    (h : g.evalRule fuel name sample = .ok res) :
    (∃ used, res.read = used ++ res.unused ∧ res.read <+: sample ∧ res.countUsed = used.length) ∧
    (∀ n, res.node = some n → ∃ u : Nat, res.countUsed = u ∧ u ≤ sample.length ∧ solid n.text = solid (sample.take u) ∧
      Laid sample 0 [n] u) ∧
    (res.node = none → res.countUsed = 0) ∧
    ∀ e, res.error = some e → Holds sample res.errIdx e := by
  obtain ⟨c, hc⟩ := hg
  have hcov := (certified hc).covers hrc (flag := SUGGEST_SKIP) (by decide)
  have hcl := (certified hc).clean hcov hv ht
  have hreg := (Clean.regular hcl)
  have h' := h
  simp only [Grammar.evalRule, hrc] at h'
  obtain ⟨⟨res', s'⟩, he, h'⟩ := Exec.of_bind h'
  cases h'
  have hs := ready_ofChars hv
  have hl := rem_ofChars sample
  obtain ⟨g1, used, g2, g3⟩ := C21_read_is_consumed_partial hs (by rw [hl]; exact hreg) he
  refine ⟨⟨used, g2, ?_, g3⟩, fun n hn => ?_, fun hn => ?_, fun e he => C57_true_evalRule_partial hrc hv hreg h he⟩
  · rw [hl] at g1; exact ⟨_, g1.symm⟩
  · obtain ⟨u, e1, e2, e3⟩ := C46_text_is_used_partial hs (by rw [hl]; exact hreg) he hn
    obtain ⟨u', f1, f2, f3⟩ := C50_evalRule_partial hv hrc hreg h hn
    have : u = u' := by rw [e1] at f1; exact Int.ofNat.inj f1
    subst this
    rw [hl] at e2 e3
    exact ⟨u, e1, e2, e3, f3⟩
  · obtain ⟨F, hF⟩ := hcl
    obtain ⟨res2, s2, k, q1, q2, q3⟩ := run_eval (env := g.env) (fuel := F) (r := rc.rule) (flag := SUGGEST_SKIP) hs
      (by rw [hl]; intro hx; rw [hx] at hF; cases hF) (by rw [hl]; intro hx; rw [hx] at hF; cases hF)
    have := eval_det he q1
    simp only [Prod.mk.injEq] at this
    obtain ⟨rfl, rfl⟩ := this
    rw [hl] at q3
    generalize Spec.run g.env F rc.rule SUGGEST_SKIP sample = x at hF q3
    cases x with
    | oof => cases hF
    | risky => cases hF
    | ambiguous => cases hF
    | hit nd u m st =>
      obtain ⟨z1, _⟩ := ref_hit q3
      rw [hn] at z1; cases z1
    | fail m st =>
      obtain ⟨_, z2, z3, _, _⟩ := ref_fail q3
      simp [Res.countUsed, z2, z3]

/-- A rule that passes the check and does not match gives back all characters it read. -/
theorem C58_gives_back {c : Certificate} {g : Grammar} (hc : c.ok g = true) {r : Rule} {flag : Int} (hr : c.covers r flag = true)
    {s s' : Stream} (h : Ready s) (ht : Tidy s.rem) {fuel : Nat} {res : Res}
    (he : eval g.env fuel r flag s = .ok (res, s')) (hn : res.node = none) :
    res.unused = res.read ∧ (s'.pushBack res.unused).rem = s.rem := by
  refine C20_failure_gives_back_partial h (C58_clean hc hr h ht).2.1 (fun F n hx => ?_) he hn
  simp only [Certificate.covers, Bool.and_eq_true, Option.isSome_iff_exists] at hr
  obtain ⟨⟨sh, hs⟩, _⟩ := hr
  have := Shape.run_fits (certified hc).shapes F r flag sh hs s.rem ht
  rw [hx] at this
  exact this

/-- The result of `EvalRule` depends only on what was read and one character more. -/
theorem C58_local {g : Grammar} (hg : Predictive g) {name : Name} {rc : Record} (hrc : g.getRecord name = some rc)
    {l l' : List Rune} (hv : Valid l) (ht : Tidy l) {fuel : Nat} {res : Res} (h : g.evalRule fuel name l = .ok res)
    (hl : l'.take (res.read.length + 1) = l.take (res.read.length + 1)) : g.evalRule fuel name l' = .ok res := by
  obtain ⟨c, hc⟩ := hg
  exact C55_evalRule_partial hv hrc
    (Clean.regular ((certified hc).clean ((certified hc).covers hrc (flag := SUGGEST_SKIP) (by decide)) hv ht)) h hl

/-! ### Alternatives -/

theorem Certified.matches_fit {c : Certificate} {g : Grammar} (h : Certified c g) {r : Rule} (hr : repsOk c.nullable r = true)
    {flag : Int} {s : Shape} (hs : shapeOf c.get r flag = some s) {l : List Rune} (hv : Valid l) (ht : Tidy l) {nd u st}
    (hm : Matches g.env r flag l nd u st) : ∃ n, s.Fits l (.hit nd u n st) := by
  obtain ⟨F, hF⟩ := h.ends hr l.length
  obtain ⟨h1, h2⟩ := hF F (Nat.le_refl _) flag s hs l hv ht (Nat.le_refl _)
  cases hx : Spec.run g.env F r flag l with
  | oof => rw [hx] at h2; cases h2
  | risky => rw [hx] at h2; cases h2
  | ambiguous => rw [hx] at h2; cases h2
  | hit nd' u' n st' =>
    rw [hx] at h1
    have := matches_det hm (matches_of_run hv hx)
    obtain ⟨rfl, rfl, rfl⟩ := this
    exact ⟨n, h1⟩
  | fail n st' =>
    obtain ⟨f, res, s', e, hnone⟩ := fails_of_run hv (.inl ⟨n, st', hx⟩)
    obtain ⟨f2, res2, s2, e2, hsome, _⟩ := hm
    have := eval_det e e2
    simp only [Prod.mk.injEq] at this
    rw [← this.1, hnone] at hsome
    cases hsome

theorem shapesL_append {T : Shapes} {flag : Int} (xs ys : List Rule) :
    shapesL T (xs ++ ys) flag = (shapesL T xs flag).bind fun as => (shapesL T ys flag).map fun bs => as ++ bs := by
  induction xs with
  | nil => simp [shapesL]
  | cons x xs ih =>
    simp only [List.cons_append, shapesL, ih]
    cases shapeOf T x flag <;> cases shapesL T xs flag <;> cases shapesL T ys flag <;> simp

theorem shapesLL_flatten {T : Shapes} {flag : Int} (gs : List (List Rule)) : shapesLL T gs flag = shapesL T gs.flatten flag := by
  induction gs with
  | nil => simp [shapesL, shapesLL]
  | cons x xs ih =>
    simp only [shapesLL, List.flatten_cons, shapesL_append, ih]
    cases shapesL T x flag <;> cases shapesL T xs.flatten flag <;> simp

theorem repsOkL_mem {N : List Name} {rs : List Rule} (h : repsOkL N rs = true) : ∀ r ∈ rs, repsOk N r = true := by
  induction rs with
  | nil => intro r hr; cases hr
  | cons r rs ih =>
    simp only [repsOkL, Bool.and_eq_true] at h
    intro r' hr'
    rcases List.mem_cons.1 hr' with rfl | hr'
    · exact h.1
    · exact ih h.2 r' hr'

theorem repsOkLL_mem {N : List Name} {gs : List (List Rule)} (h : repsOkLL N gs = true) : ∀ r ∈ gs.flatten, repsOk N r = true := by
  induction gs with
  | nil => intro r hr; cases hr
  | cons g gs ih =>
    simp only [repsOkLL, Bool.and_eq_true] at h
    intro r hr
    rw [List.flatten_cons, List.mem_append] at hr
    rcases hr with hr | hr
    · exact repsOkL_mem h.1 r hr
    · exact ih h.2 r hr

theorem one_of_exclusive {c : Certificate} {g : Grammar} (hc : Certified c g) {flag : Int} {l : List Rune} (hv : Valid l)
    (ht : Tidy l) (rs1 : List Rule) : ∀ {r rs2 r' rs3 as}, shapesL c.get (rs1 ++ r :: rs2 ++ r' :: rs3) flag = some as →
      exclusive as = true → (∀ x ∈ rs1 ++ r :: rs2 ++ r' :: rs3, repsOk c.nullable x = true) →
      ∀ {nd u st nd' u' st'}, Matches g.env r flag l nd u st → Matches g.env r' flag l nd' u' st' → False := by
  have hcan : ∀ {r s}, shapeOf c.get r flag = some s → s.null = false → repsOk c.nullable r = true →
      ∀ {nd u st}, Matches g.env r flag l nd u st → Shape.Can s l := by
    intro r s hs hn hr nd u st hm
    obtain ⟨n, hf⟩ := hc.matches_fit hr hs hv ht hm
    rcases hf with ⟨h, _⟩ | ⟨h, _⟩
    · rw [hn] at h; cases h
    · exact Shape.Hit.can h
  induction rs1 with
  | nil =>
    intro r rs2 r' rs3 as hs he hreps nd u st nd' u' st' h1 h2
    simp only [List.nil_append, List.cons_append, shapesL] at hs
    cases ha : shapeOf c.get r flag with
    | none => rw [ha] at hs; cases hs
    | some a =>
      rw [ha, shapesL_append] at hs
      cases hb : shapesL c.get rs2 flag with
      | none => rw [hb] at hs; cases hs
      | some bs =>
        rw [hb] at hs
        simp only [shapesL] at hs
        cases hd : shapeOf c.get r' flag with
        | none => rw [hd] at hs; cases hs
        | some d =>
          rw [hd] at hs
          cases he3 : shapesL c.get rs3 flag with
          | none => rw [he3] at hs; cases hs
          | some es =>
            rw [he3] at hs
            simp only [Option.bind_some, Option.map_some, Option.some.injEq] at hs
            subst hs
            have hca := hcan ha (Shape.exclusive_cons he).1 (hreps r (by simp)) h1
            have hdnull : d.null = false := by
              have := (Shape.exclusive_cons he).2.1
              clear he hb
              induction bs with
              | nil => exact (Shape.exclusive_cons this).1
              | cons b bs ih => exact ih (Shape.exclusive_cons this).2.1
            have hcd := hcan hd hdnull (hreps r' (by simp)) h2
            exact (Shape.excluded he hca d (by simp)).1 hcd
  | cons x rs1 ih =>
    intro r rs2 r' rs3 as hs he hreps nd u st nd' u' st' h1 h2
    simp only [List.cons_append, shapesL] at hs
    cases ha : shapeOf c.get x flag with
    | none => rw [ha] at hs; cases hs
    | some a =>
      cases hb : shapesL c.get (rs1 ++ r :: rs2 ++ r' :: rs3) flag with
      | none => rw [ha, hb] at hs; cases hs
      | some bs =>
        rw [ha, hb] at hs
        simp only [Option.some.injEq] at hs
        subst hs
        exact ih hb (Shape.exclusive_cons he).2.1 (fun x hx => hreps x (List.mem_cons_of_mem _ hx)) h1 h2

/-- In a choice that passes the check at most one alternative matches, whatever the text. -/
theorem C58_one_alternative {c : Certificate} {g : Grammar} (hc : c.ok g = true) {b : RuleBase} {gs : List (List Rule)} {flag : Int}
    (hr : c.covers (.choice b gs) flag = true) {l : List Rune} (hv : Valid l) (ht : Tidy l) {rs1 r rs2 r' rs3}
    (hgs : gs.flatten = rs1 ++ r :: rs2 ++ r' :: rs3) {nd u st nd' u' st'} (h1 : Matches g.env r flag l nd u st)
    (h2 : Matches g.env r' flag l nd' u' st') : False := by
  simp only [Certificate.covers, Bool.and_eq_true, shapeOf, repsOk] at hr
  obtain ⟨hs, hreps⟩ := hr
  rw [shapesLL_flatten, hgs] at hs
  cases ha : shapesL c.get (rs1 ++ r :: rs2 ++ r' :: rs3) flag with
  | none => rw [ha] at hs; cases hs
  | some as =>
    rw [ha] at hs
    have he : exclusive as = true := by
      cases he : exclusive as with
      | true => rfl
      | false => simp [he] at hs
    exact one_of_exclusive (certified hc) hv ht rs1 ha he (by rw [← hgs]; exact repsOkLL_mem hreps) h1 h2

/-- A choice that passes the check: it reports no ambiguity; if it gives a tree, the child is the tree of
the one alternative that matches, and all others fail; if it gives none, they all fail. -/
theorem C58_choice {c : Certificate} {g : Grammar} (hc : c.ok g = true) {b : RuleBase} {gs : List (List Rule)} {flag : Int}
    (hr : c.covers (.choice b gs) flag = true) {s s' : Stream} (h : Ready s) (ht : Tidy s.rem) {fuel : Nat} {res : Res}
    (he : eval g.env fuel (.choice b gs) flag s = .ok (res, s')) :
    (∀ n, res.node = some n → ∃ rs1 r rs2 ch u st, gs.flatten = rs1 ++ r :: rs2 ∧ Matches g.env r flag s.rem ch u st ∧
      n.children.map Node.erase = [ch] ∧ res.countUsed = (u : Int) ∧ ∀ r' ∈ rs1 ++ rs2, Fails g.env r' flag s.rem) ∧
    (res.node = none → (∀ name x y, res.error ≠ some (.ambiguity name x y)) ∧ ∀ r ∈ gs.flatten, Fails g.env r flag s.rem) := by
  obtain ⟨hcl, hreg, _⟩ := C58_clean hc hr h ht
  have hclean : ∀ r ∈ gs.flatten, Clean g.env r flag s.rem := by
    intro r hr'
    have hr := hr
    simp only [Certificate.covers, Bool.and_eq_true, shapeOf, repsOk] at hr
    refine (certified hc).clean ?_ h.valid ht
    simp only [Certificate.covers, Bool.and_eq_true]
    refine ⟨?_, repsOkLL_mem hr.2 r hr'⟩
    rw [shapesLL_flatten] at hr
    cases hx : shapesL c.get gs.flatten flag with
    | none => rw [hx] at hr; cases hr.1
    | some as =>
      generalize gs.flatten = rs at hr' hx
      clear hr hreg hcl he
      induction rs generalizing as with
      | nil => cases hr'
      | cons x xs ih =>
        rw [shapesL] at hx
        cases h1 : shapeOf c.get x flag with
        | none => rw [h1] at hx; cases hx
        | some a =>
          cases h2 : shapesL c.get xs flag with
          | none => rw [h1, h2] at hx; cases hx
          | some ys =>
            rcases List.mem_cons.1 hr' with rfl | hr'
            · rw [h1]; rfl
            · exact ih ys hr' h2
  have hor : ∀ r ∈ gs.flatten, Fails g.env r flag s.rem ∨ ∃ nd u st, Matches g.env r flag s.rem nd u st := by
    intro r hr
    obtain ⟨F, hF⟩ := hclean r hr
    cases hx : Spec.run g.env F r flag s.rem with
    | oof => rw [hx] at hF; cases hF
    | risky => rw [hx] at hF; cases hF
    | ambiguous => rw [hx] at hF; cases hF
    | hit nd u n st => exact .inr ⟨nd, u, st, matches_of_run h.valid hx⟩
    | fail n st => exact .inl (fails_of_run h.valid (.inl ⟨n, st, hx⟩))
  refine ⟨fun n hn => ?_, fun hn => ?_⟩
  · obtain ⟨gr, ch, u, ⟨gs1, gs2, hgs, hf⟩, ⟨rs1, r, rs2, st, hg, hm, _⟩, h1, h2⟩ := C13_choice_longest_partial h hreg he hn
    refine ⟨gs1.flatten ++ rs1, r, rs2 ++ gs2.flatten, ch, u, st, by rw [hgs, hg]; simp, hm, h1, h2, fun r' hr' => ?_⟩
    have hmem : r' ∈ gs.flatten := by
      rw [hgs, hg]
      simp only [List.flatten_append, List.flatten_cons, List.mem_append, List.mem_cons] at hr' ⊢
      rcases hr' with (h | h) | (h | h) <;> simp [h]
    rcases hor r' hmem with h' | ⟨nd', u', st', hm'⟩
    · exact h'
    · rcases List.mem_append.1 hr' with h' | h'
      · obtain ⟨x, y, hxy⟩ := List.append_of_mem h'
        exact (C58_one_alternative hc hr h.valid ht (rs1 := x) (r := r') (rs2 := y) (r' := r) (rs3 := rs2 ++ gs2.flatten)
          (by rw [hgs, hg, ← hxy]; simp) hm' hm).elim
      · obtain ⟨x, y, hxy⟩ := List.append_of_mem h'
        exact (C58_one_alternative hc hr h.valid ht (rs1 := gs1.flatten ++ rs1) (r := r) (rs2 := x) (r' := r') (rs3 := y)
          (by
            have : gs.flatten = gs1.flatten ++ rs1 ++ r :: (rs2 ++ gs2.flatten) := by rw [hgs, hg]; simp
            rw [this, hxy]; simp) hm hm').elim
  · rcases C13_choice_fails_partial h hreg he hn with ⟨_, gr, ⟨gs1, gs2, hgs, _⟩, m, rs1, r, rs2, r', rs3, hg, ⟨nd, st, h1⟩, ⟨nd', st', h2⟩, _⟩ | ⟨h0, h⟩
    · exact (C58_one_alternative hc hr h.valid ht (rs1 := gs1.flatten ++ rs1) (rs2 := rs2) (rs3 := rs3 ++ gs2.flatten)
        (by rw [hgs, hg]; simp) h1 h2).elim
    · refine ⟨h0, fun r hr => ?_⟩
      obtain ⟨gr, hgr, hr⟩ := List.mem_flatten.1 hr
      exact h gr hgr r hr

/-! ### Embedded rules -/

/-- `EvalEmbed` for a rule of a predictive grammar that cannot match nothing: it returns on every text,
and the tree is the matches from left to right with the text between them. -/
theorem C58_embed {c : Certificate} {g : Grammar} (hc : c.ok g = true) {name : Name} {rc : Record} (hrc : g.getRecord name = some rc)
    (hu : c.uses rc.rule NOT_SKIP = true) {sample : List Rune} (hv : Valid sample) (ht : Tidy sample) :
    ∃ fuel res n, g.evalEmbed fuel name sample = .ok res ∧ res.node = some n ∧ n.ruleType = .embed ∧ n.name = name ∧
      Embedded g.env rc.rule sample (n.children.map Node.erase) := by
  have hcert := certified hc
  have hcov := hcert.covers hrc (flag := NOT_SKIP) (by decide)
  have hcl : ∀ i ≤ sample.length, Clean g.env rc.rule NOT_SKIP (sample.drop i) :=
    fun i _ => hcert.clean hcov (hv.drop i) (ht.drop i)
  have henv : g.env name = some rc.rule := by simp [Grammar.env, hrc]
  obtain ⟨fuel, res, h⟩ := C23_returns_partial hrc hv hcl fun i _ nd st hm => by
    simp only [Certificate.uses] at hu
    cases hs : shapeOf c.get rc.rule NOT_SKIP with
    | none => rw [hs] at hu; cases hu
    | some s =>
      simp only [hs, Bool.and_eq_true, Bool.not_eq_true'] at hu
      obtain ⟨n, hf⟩ := hcert.matches_fit (hcert.reps name rc.rule henv) hs (hv.drop i) (ht.drop i) hm
      rcases hf with ⟨h, _⟩ | ⟨⟨⟨_, h, _⟩ | ⟨h, _⟩, _⟩, _⟩
      · rw [hu.1] at h; cases h
      · omega
      · rw [hu.2] at h; cases h
  obtain ⟨n, h1, h2, h3, _, h4⟩ := C23_embed_partial hrc hv hcl h
  exact ⟨fuel, res, n, h, h1, h2, h3, h4⟩

/-! ### Documents -/

theorem each_mem {T : Shapes} {P : Rule → Shape → Prop} {rs : List Rule} {flag : Int} {as : List Shape}
    (h : shapesL T rs flag = some as) (hP : ∀ r ∈ rs, ∀ a, shapeOf T r flag = some a → P r a) : Shape.Each P rs as := by
  induction rs generalizing as with
  | nil => simp only [shapesL, Option.some.injEq] at h; subst h; exact .nil
  | cons r rs ih =>
    rw [shapesL] at h
    cases h1 : shapeOf T r flag with
    | none => rw [h1] at h; cases h
    | some a =>
      cases h2 : shapesL T rs flag with
      | none => rw [h1, h2] at h; cases h
      | some ys =>
        rw [h1, h2] at h
        simp only [Option.some.injEq] at h
        subst h
        exact .cons (hP r (List.mem_cons_self ..) a h1) (ih h2 fun r hr => hP r (List.mem_cons_of_mem _ hr))

theorem altsAt_eq {run : Runner} {flag : Int} {l : List Rune} {rs : List Rule}
    (h : ∀ r ∈ rs, plain (run r flag l) = true) (look : Nat) (sticky : Bool) :
    ∃ sticky', altsAt run flag l rs look sticky =
      .ok ((rs.map (fun r => run r flag l)).filterMap hitOf)
        (max look (((rs.map (fun r => run r flag l)).map looked).foldr max 0)) sticky' := by
  induction rs generalizing look sticky with
  | nil => exact ⟨sticky, by simp [altsAt]⟩
  | cons r rs ih =>
    have hr := h r (List.mem_cons_self ..)
    have ih := ih (fun r hr => h r (List.mem_cons_of_mem _ hr))
    simp only [altsAt, List.map_cons, List.foldr_cons, List.filterMap_cons]
    generalize run r flag l = x at hr
    cases x with
    | oof => cases hr
    | risky => cases hr
    | ambiguous => cases hr
    | hit nd u n st =>
      obtain ⟨b, hb⟩ := ih (max look n) (sticky && st)
      exact ⟨b, by simp only [hb, hitOf, looked, Nat.max_assoc]⟩
    | fail n st =>
      obtain ⟨b, hb⟩ := ih (max look n) (sticky && st)
      exact ⟨b, by simp only [hb, hitOf, looked, Nat.max_assoc]⟩

/-- What was looked at beyond the last match does not matter for the next. -/
def NotFar (ss : List Shape) (l : List Rune) (pending : Nat) : Prop :=
  pending = 0 ∨ ∃ a ∈ ss, pending ≤ a.lag.at_ l ∨ begins a.deep l = true

theorem roundAt_fits {run : Runner} {roots : List Rule} {flag : Int} {l : List Rune} {pending : Nat} {as ss : List Shape}
    (hn : roots.length ≤ 2) (hp : ∀ r ∈ roots, plain (run r flag l) = true)
    (h : Shape.Each (fun r a => Shape.Fits a l (run r flag l)) roots as) (he : exclusive as = true)
    (hsub : ∀ a ∈ as, a ∈ ss) (hap : ∀ a ∈ ss, ∀ b ∈ ss, b.first.apart a.deep = true) (hb : NotFar ss l pending) (hl : l ≠ []) :
    roundAt run roots flag pending l = .noMatch ∨
      ∃ nd u left st, roundAt run roots flag pending l = .step nd u left st ∧ 1 ≤ u ∧ u ≤ l.length ∧
        NotFar ss (l.drop u) left := by
  obtain ⟨b, hal⟩ := altsAt_eq hp 0 true
  have hfit := Shape.altsAt_fits h he 0 true
  rw [hal] at hfit
  have no : (roots.map (fun r => run r flag l)).any isOof = false := by
    rw [List.any_eq_false]; intro x hx
    obtain ⟨r, hr, rfl⟩ := List.mem_map.1 hx
    have := hp r hr
    generalize run r flag l = y at this
    cases y <;> simp_all [plain, isOof]
  have nr : (roots.map (fun r => run r flag l)).any isRisky = false := by
    rw [List.any_eq_false]; intro x hx
    obtain ⟨r, hr, rfl⟩ := List.mem_map.1 hx
    have := hp r hr
    generalize run r flag l = y at this
    cases y <;> simp_all [plain, isRisky]
  have n2 : ¬ (2 < roots.length ∧ (roots.map (fun r => run r flag l)).any
      (fun a => looked a != ((roots.map (fun r => run r flag l)).map looked).foldr max 0)) := by
    rintro ⟨h, _⟩; omega
  unfold roundAt
  simp only [no, nr, Bool.false_eq_true, if_false]
  rw [if_neg n2]
  rcases hfit with ⟨h0, _⟩ | ⟨nd, u, st, h0, hone⟩
  · left; rw [h0]; rfl
  · right
    rw [h0]
    obtain ⟨s, hs, hcan, hfar⟩ := Shape.OneHit.canDo hone
    obtain ⟨⟨s1, hs1, h1⟩, h2, h3, _⟩ := hone
    simp only [Nat.zero_max] at h2 h3
    have hpend : ¬ ((roots.map (fun r => run r flag l)).map looked).foldr max 0 < pending := by
      rcases hb with hb | ⟨a, ha, hb | hb⟩
      · omega
      · have := hfar a.lag; omega
      · have := Shape.begins_apart (hap a ha s1 (hsub _ hs1)) (l := l)
        rcases h1 with ⟨h1, _⟩ | ⟨_, h1, h4, _⟩
        · rw [this h1] at hb; cases hb
        · rw [Shape.begins_all_blank h1] at hb; cases hb
    refine ⟨nd, u, ((roots.map (fun r => run r flag l)).map looked).foldr max 0 - u, st, ?_, ?_, ?_, ?_⟩
    · simp only [longest, List.foldr_cons, List.foldr_nil, Nat.max_zero, List.filter_cons, beq_self_eq_true, if_true,
        List.filter_nil, List.map_cons, List.map_nil]
      rw [if_neg hpend, if_pos (by simp)]
    · rcases h1 with ⟨_, h1, _⟩ | ⟨_, _, h1, _⟩
      · omega
      · cases l with
        | nil => exact absurd rfl hl
        | cons => simp at h1; omega
    · rcases h1 with ⟨_, _, h1⟩ | ⟨_, _, h1, _⟩ <;> omega
    · rcases h3 with h3 | ⟨a, ha, h3⟩
      · left; omega
      · right; exact ⟨a, hsub _ ha, h3.imp (fun h => by omega) id⟩

theorem docAt_fits {run : Runner} {roots : List Rule} {as bs : List Shape} {m : Nat}
    (hn : roots.length ≤ 2)
    (hp : ∀ r ∈ roots, ∀ flag ∈ [SUGGEST_SKIP, SUGGEST_NOT_SKIP], ∀ l, Valid l → Tidy l → l.length ≤ m → plain (run r flag l) = true)
    (ha : ∀ l, Valid l → Tidy l → l.length ≤ m →
      Shape.Each (fun r a => Shape.Fits a l (run r SUGGEST_SKIP l)) roots as)
    (hb : ∀ l, Valid l → Tidy l → l.length ≤ m →
      Shape.Each (fun r a => Shape.Fits a l (run r SUGGEST_NOT_SKIP l)) roots bs)
    (hea : exclusive as = true) (heb : exclusive bs = true)
    (hap : ∀ a ∈ as ++ bs, ∀ b ∈ as ++ bs, b.first.apart a.deep = true) :
    ∀ (n : Nat) (flag : Int) (pending : Nat) (l : List Rune) (nodes : List Node),
      flag ∈ [SUGGEST_SKIP, SUGGEST_NOT_SKIP] → Valid l → Tidy l → l.length ≤ m → l.length < n → NotFar (as ++ bs) l pending →
      docAt run roots n flag pending l nodes ≠ .oof ∧ docAt run roots n flag pending l nodes ≠ .risky ∧
        docAt run roots n flag pending l nodes ≠ .ambiguity := by
  intro n
  induction n with
  | zero => intro _ _ _ _ _ _ _ _ h; omega
  | succ n ih =>
    intro flag pending l nodes hf hv ht hm hl hfar
    rw [docAt]
    by_cases h0 : l = []
    · rw [if_pos h0]; exact ⟨by simp, by simp, by simp⟩
    rw [if_neg h0]
    have hround : roundAt run roots flag pending l = .noMatch ∨
        ∃ nd u left st, roundAt run roots flag pending l = .step nd u left st ∧ 1 ≤ u ∧ u ≤ l.length ∧
          NotFar (as ++ bs) (l.drop u) left := by
      rcases List.mem_cons.1 hf with rfl | hf
      · exact roundAt_fits hn (fun r hr => hp r hr _ (by simp) l hv ht hm) (ha l hv ht hm) hea
          (fun a ha => List.mem_append_left _ ha) hap hfar h0
      · rw [List.mem_singleton] at hf
        subst hf
        exact roundAt_fits hn (fun r hr => hp r hr _ (by simp) l hv ht hm) (hb l hv ht hm) heb
          (fun a ha => List.mem_append_right _ ha) hap hfar h0
    rcases hround with h | ⟨nd, u, left, st, h, h1, h2, h3⟩
    · rw [h]; exact ⟨by simp, by simp, by simp⟩
    · rw [h]
      refine ih (flagNext st) left (l.drop u) _ ?_ (hv.drop u) (ht.drop u) ?_ ?_ h3
      · cases st <;> simp [flagNext]
      · rw [List.length_drop]; omega
      · rw [List.length_drop]; omega

/-- Every document of a predictive grammar, one character telling which root comes next, is parsed in
an orderly way. -/
theorem C58_orderly {c : Certificate} {g : Grammar} (hc : c.ok g = true) (hr : c.rootsOk (g.roots.map (·.rule)) = true)
    {l : List Rune} (hv : Valid l) (ht : Tidy l) : Orderly g.env (g.roots.map (·.rule)) l := by
  have hcert := certified hc
  generalize g.roots.map (·.rule) = roots at hr
  simp only [Certificate.rootsOk, Bool.and_eq_true, decide_eq_true_eq, List.all_eq_true] at hr
  obtain ⟨⟨hn, hreps⟩, hr⟩ := hr
  cases ha : shapesL c.get roots SUGGEST_SKIP with
  | none => rw [ha] at hr; cases hr
  | some as =>
    cases hb : shapesL c.get roots SUGGEST_NOT_SKIP with
    | none => rw [ha, hb] at hr; cases hr
    | some bs =>
      rw [ha, hb] at hr
      simp only [Bool.and_eq_true, List.all_eq_true] at hr
      obtain ⟨⟨hea, heb⟩, hap⟩ := hr
      have hF : ∀ rs : List Rule, (∀ r ∈ rs, repsOk c.nullable r = true) → ∃ F, ∀ fuel, F ≤ fuel → ∀ r ∈ rs, ∀ flag s,
          shapeOf c.get r flag = some s → ∀ t, Valid t → Tidy t → t.length ≤ l.length →
            s.Fits t (Spec.run g.env fuel r flag t) ∧ plain (Spec.run g.env fuel r flag t) = true := by
        intro rs
        induction rs with
        | nil => intro _; exact ⟨0, fun _ _ r hr => by cases hr⟩
        | cons r rs ih =>
          intro h
          obtain ⟨F1, h1⟩ := ih (fun r hr => h r (List.mem_cons_of_mem _ hr))
          obtain ⟨F2, h2⟩ := hcert.ends (h r (List.mem_cons_self ..)) l.length
          refine ⟨max F1 F2, fun fuel hf r' hr' => ?_⟩
          rcases List.mem_cons.1 hr' with rfl | hr'
          · exact fun flag s hs t hv ht hl => h2 fuel (by omega) flag s hs t hv ht hl
          · exact fun flag s hs t hv ht hl => h1 fuel (by omega) r' hr' flag s hs t hv ht hl
      obtain ⟨F, hF⟩ := hF roots hreps
      have hsome : ∀ (flag : Int) (xs : List Shape), shapesL c.get roots flag = some xs →
          ∀ r ∈ roots, ∃ s, shapeOf c.get r flag = some s := by
        intro flag xs
        clear hF ha hb hreps hn
        induction roots generalizing xs with
        | nil => intro _ r hr; cases hr
        | cons r rs ih =>
          intro hx r' hr'
          rw [shapesL] at hx
          cases h1 : shapeOf c.get r flag with
          | none => rw [h1] at hx; cases hx
          | some a =>
            cases h2 : shapesL c.get rs flag with
            | none => rw [h1, h2] at hx; cases hx
            | some ys =>
              rcases List.mem_cons.1 hr' with rfl | hr'
              · exact ⟨a, h1⟩
              · exact ih ys h2 r' hr'
      have hle : F ≤ max F (l.length + 1) := Nat.le_max_left ..
      refine ⟨max F (l.length + 1), ?_⟩
      have := docAt_fits (run := Spec.run g.env (max F (l.length + 1))) (roots := roots) (as := as) (bs := bs) (m := l.length) hn
        (fun r hr flag hf t hv ht hl => by
          have : ∃ s, shapeOf c.get r flag = some s := by
            rcases List.mem_cons.1 hf with rfl | hf
            · exact hsome _ _ ha r hr
            · rw [List.mem_singleton] at hf; subst hf; exact hsome _ _ hb r hr
          obtain ⟨s, hs⟩ := this
          exact (hF _ hle r hr flag s hs t hv ht hl).2)
        (fun t hv ht hl => each_mem ha fun r hr a ha => (hF _ hle r hr _ a ha t hv ht hl).1)
        (fun t hv ht hl => each_mem hb fun r hr a ha => (hF _ hle r hr _ a ha t hv ht hl).1)
        hea heb hap (max F (l.length + 1)) SUGGEST_SKIP 0 l [] (by simp) hv ht (Nat.le_refl _) (by omega) (.inl rfl)
      exact ⟨this.1, this.2.1⟩

theorem flagNext_mem (st : Bool) : flagNext st ∈ [SUGGEST_SKIP, SUGGEST_NOT_SKIP] := by
  cases st <;> simp [flagNext]

theorem never_tied {c : Certificate} {g : Grammar} (hc : c.ok g = true) {roots : List Rule} (hr : c.rootsOk roots = true)
    {flag : Int} {l : List Rune} (h : Halts g.env roots (fun flag l => Tied g.env flag l roots) flag l)
    (hf : flag ∈ [SUGGEST_SKIP, SUGGEST_NOT_SKIP]) (hv : Valid l) (ht : Tidy l) : False := by
  induction h with
  | @here flag l hne h =>
    obtain ⟨m, rs1, r, rs2, r', rs3, hg, ⟨nd, st, h1⟩, ⟨nd', st', h2⟩, _⟩ := h
    simp only [Certificate.rootsOk, Bool.and_eq_true, decide_eq_true_eq, List.all_eq_true] at hr
    obtain ⟨⟨_, hreps⟩, hr⟩ := hr
    cases ha : shapesL c.get roots SUGGEST_SKIP with
    | none => rw [ha] at hr; cases hr
    | some as =>
      cases hb : shapesL c.get roots SUGGEST_NOT_SKIP with
      | none => rw [ha, hb] at hr; cases hr
      | some bs =>
        rw [ha, hb] at hr
        simp only [Bool.and_eq_true] at hr
        rw [hg] at ha hb
        rcases List.mem_cons.1 hf with rfl | hf
        · exact one_of_exclusive (certified hc) hv ht rs1 ha hr.1.1 (by rw [← hg]; exact hreps) h1 h2
        · rw [List.mem_singleton] at hf
          subst hf
          exact one_of_exclusive (certified hc) hv ht rs1 hb hr.1.2 (by rw [← hg]; exact hreps) h1 h2
  | @next flag m l nd st hne h hs ih =>
    refine ih (flagNext_mem st) ?_ ?_
    · have := hv.drop m.length; simpa using this
    · have := ht.drop m.length; simpa using this

/-- A document of a predictive grammar, one character telling which root comes next: parsing it returns
in whatever order the roots are tried, with the same result; either the trees, which follow each other
without a gap up to the end of the text, or `noMatch`, some way into the text.  No ambiguity is reported. -/
theorem C58_document {c : Certificate} {g : Grammar} (hc : c.ok g = true) (hr : c.rootsOk (g.roots.map (·.rule)) = true)
    {text : List Rune} (hv : Valid text) (ht : Tidy text) (hne : text ≠ []) :
    ∃ fuel, ∀ sch : Sched, sch.Fair → ∃ y s', g.evalRaw fuel sch (Stream.ofChars text) = .ok (y, s') ∧
      (∀ fuel' sch', sch'.Fair → ∀ y' s'', g.evalRaw fuel' sch' (Stream.ofChars text) = .ok (y', s'') →
        y'.map (List.map Node.erase) = y.map (List.map Node.erase)) ∧
      match y with
      | .ok nodes => Document g.env (g.roots.map (·.rule)) SUGGEST_SKIP text (nodes.map Node.erase) ∧
          solid (astText nodes) = solid text ∧ Laid text 0 nodes text.length
      | .error .noMatch => Halts g.env (g.roots.map (·.rule))
          (fun flag l => ∀ r ∈ g.roots.map (·.rule), Fails g.env r flag l) SUGGEST_SKIP text
      | .error _ => False := by
  have ho := C58_orderly hc hr hv ht
  have hs := ready_ofChars hv
  have hl := rem_ofChars text
  obtain ⟨fuel, hfuel⟩ := C24_returns_partial (g := g) hs (by rw [hl]; exact hne) (by rw [hl]; exact ho)
  refine ⟨fuel, fun sch hfair => ?_⟩
  obtain ⟨y, s', h⟩ := hfuel sch hfair
  refine ⟨y, s', h, fun fuel' sch' hfair' y' s'' h' => C25_order_partial hfair' hfair hs (by rw [hl]; exact ho) h' h, ?_⟩
  have hd := C24_document_partial hfair hs (by rw [hl]; exact hne) (by rw [hl]; exact ho) h
  cases y with
  | ok nodes =>
    have hd : Document g.env (g.roots.map (·.rule)) SUGGEST_SKIP (Stream.ofChars text).rem (nodes.map Node.erase) := hd
    rw [hl] at hd
    refine ⟨hd, ?_, C50_document_partial hfair hv ho h⟩
    have := C24_text_partial hfair hs (by rw [hl]; exact ho) h
    rwa [hl] at this
  | error e =>
    cases e with
    | noMatch =>
      have hd : Halts g.env (g.roots.map (·.rule)) (fun flag l => ∀ r ∈ g.roots.map (·.rule), Fails g.env r flag l)
        SUGGEST_SKIP (Stream.ofChars text).rem := hd
      rwa [hl] at hd
    | ambiguity =>
      have hd : Halts g.env (g.roots.map (·.rule)) (fun flag l => Tied g.env flag l (g.roots.map (·.rule)))
        SUGGEST_SKIP (Stream.ofChars text).rem := hd
      rw [hl] at hd
      exact never_tied hc hr hd (by simp) hv ht
    | _ => exact hd

/-! ### Two grammars that pass -/

/-- The grammar of arithmetic expressions. -/
def arith : Grammar :=
  match Grammar.fromString 1000 (runes "calc = expr \";\"\nexpr = term { (\"+\" | \"-\") term }\nterm = factor { (\"*\"|\"/\") factor}\nfactor = number | variable | ( \"(\" expr \")\" )\nnumber = digit { digit }\ndigit = '0'-'9'\nvariable = letter { letter | digit | '_'}\nletter = 'a'-'z' | 'A'-'Z'") with
  | .ok g _ => g
  | _ => {}

/-- A grammar of values with strings, lists and objects. -/
def json : Grammar :=
  match Grammar.fromString 1000 (runes "digit = '0'-'9'\ninteger = digit { digit }\nfloat = ['.' integer]\nnumber = ['-'] integer float\nvalue = number | string | array | object | \"true\"\nstring = <'\"' ^\\u000A '\"'>\narray = \"[\" [value {\",\" value}] \"]\"\nkv = string \":\" value\nobject = \"{\" [kv {\",\" kv}] \"}\"\nstatement = value \";\"") with
  | .ok g _ => g
  | _ => {}

/-- Not predictive. -/
def ambiguous : Grammar :=
  match Grammar.fromString 1000 (runes "a = b | c\nb = 'x'\nc = 'x' 'y'") with
  | .ok g _ => g
  | _ => {}

/-- What the check says of `arith`. -/
theorem arith_checks : ((certify arith 6).ok arith = true ∧ (certify arith 6).rootsOk (arith.roots.map (·.rule)) = true) ∧
    (arith.records.length = 8 ∧ arith.roots.map (·.name) = [runes "calc"]) ∧
    (arith.getRecord (runes "expr")).isSome = true ∧ (certify arith 6).uses (.ref {} (runes "number")) NOT_SKIP = true := by
  decide +kernel

theorem json_checks : ((certify json 6).ok json = true ∧ (certify json 6).rootsOk (json.roots.map (·.rule)) = true) ∧
    (json.records.length = 10 ∧ json.roots.map (·.name) = [runes "statement"]) := by
  decide +kernel

/-- Every text is decided: any expression, with any spacing. -/
example {text : List Rune} (hv : Valid text) (ht : Tidy text) : ∃ fuel res, arith.evalRule fuel (runes "expr") text = .ok res := by
  obtain ⟨rc, hrc⟩ : ∃ rc, arith.getRecord (runes "expr") = some rc := Option.isSome_iff_exists.1 arith_checks.2.2.1
  exact C58_evalRule_returns ⟨_, arith_checks.1.1⟩ hrc hv ht

/-- It does find trees: a text with a tree that covers it, and one that does not start an expression. -/
example : (match arith.evalRule 60 (runes "expr") (runes "1 + (a2*3)") with | .ok r => (r.node.isSome, r.countUsed) | _ => (false, 0)) = (true, 10) ∧
    (match arith.evalRule 60 (runes "expr") (runes "+1") with | .ok r => r.node.isNone | _ => false) = true := by
  decide +kernel

/-- Every document of values is decided, in every order. -/
example {text : List Rune} (hv : Valid text) (ht : Tidy text) (hne : text ≠ []) : ∃ fuel, ∀ sch : Sched, sch.Fair →
    ∃ y s', json.evalRaw fuel sch (Stream.ofChars text) = .ok (y, s') := by
  obtain ⟨fuel, h⟩ := C58_document json_checks.1.1 json_checks.1.2 hv ht hne
  refine ⟨fuel, fun sch hf => ?_⟩
  obtain ⟨y, s', h, _⟩ := h sch hf
  exact ⟨y, s', h⟩

/-- A grammar that does not pass: both alternatives can begin with the same character; there the library
reports an ambiguity or takes an alternative according to the text. -/
example : (certify ambiguous 6).ok ambiguous = false := by decide +kernel

end Xbnf.Props
