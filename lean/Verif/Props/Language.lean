import Verif.Lemmas.Language
import Verif.Props.Predictive
/-
C59: which texts are accepted.  The language of a grammar (Spec/Language.lean) leaves alternatives,
options and the number of repetitions open.  Whatever the library reads is in the language.  For grammars
in which one character decides, the converse holds: a text that can be read in some way is accepted, with
that tree, and there is no other way to read it.
-/
namespace Xbnf.Props
open Spec Grammar

theorem decided {t : Sets} {g : Grammar} (h : t.ok g = true) : Decided t g.env := by
  intro name r hr
  simp only [Grammar.env, Option.map_eq_some_iff] at hr
  obtain ⟨rc, hrc, rfl⟩ := hr
  have hmem := List.mem_of_find?_eq_some hrc
  have hname : rc.name = name := by simpa using List.find?_some hrc
  have := List.all_eq_true.1 h rc hmem
  simp only [Bool.and_eq_true, Bool.or_eq_true, Bool.not_eq_true'] at this
  obtain ⟨⟨⟨h1, h2⟩, h3⟩, h4⟩ := this
  rw [hname] at h1 h2 h3
  exact ⟨fun hn => by rcases h1 with h1 | h1; · rw [hn] at h1; cases h1
                      · exact h1, h2, h3, h4⟩

theorem decides_of_record {t : Sets} {g : Grammar} (h : t.ok g = true) {name : Name} {rc : Record}
    (hrc : g.getRecord name = some rc) : t.decides rc.rule = true :=
  (decided h name rc.rule (by simp [Grammar.env, hrc])).2.2.2

/-- A match found without going astray is in the language. -/
theorem derives_of_matches {env : Env} {r : Rule} {flag : Int} {l : List Rune} (hv : Valid l) (hr : Regular env r flag l) {nd u st}
    (h : Matches env r flag l nd u st) : Derives env (.one r) flag l [nd] u st := by
  obtain ⟨F, h1, h2⟩ := hr
  have hf := found_of_matches (fuel := F) hv h
  cases hx : Spec.run env F r flag l with
  | oof => exact absurd hx h1
  | risky => exact absurd hx h2
  | fail n st => rw [hx] at hf; exact hf.elim
  | ambiguous n => rw [hx] at hf; exact hf.elim
  | hit nd' u' n st' =>
    rw [hx] at hf
    obtain ⟨rfl, rfl, rfl⟩ := hf
    exact run_derives hv hx

/-- What can be read and cannot go on is matched. -/
theorem matches_of_derives {c : Certificate} {t : Sets} {g : Grammar} (hc : c.ok g = true) (ht : t.ok g = true) {r : Rule} {flag : Int}
    (hr : c.covers r flag = true) (hd : t.decides r = true) {l : List Rune} (hv : Valid l) (hw : Tidy l) {nd u st}
    (h : Derives g.env (.one r) flag l [nd] u st) (he : begins (t.moreOf r) (l.drop u) = false) :
    Matches g.env r flag l nd u st := by
  obtain ⟨F, h1, h2⟩ := Clean.regular ((certified hc).clean hr hv hw)
  rcases reached_of_derives (decided ht) h hv hw hd with hf | hf
  · have hf := hf F nd (by simp)
    cases hx : Spec.run g.env F r flag l with
    | oof => exact absurd hx h1
    | risky => exact absurd hx h2
    | fail n st => rw [hx] at hf; exact hf.elim
    | ambiguous n => rw [hx] at hf; exact hf.elim
    | hit nd' u' n st' =>
      rw [hx] at hf
      obtain ⟨rfl, rfl, rfl⟩ := hf
      exact matches_of_run hv hx
  · rw [he] at hf; cases hf

/-! ### Rules -/

/-- Whatever `EvalRule` reads can be read that way, as long as it does not get into one of the situations
in which it goes astray. -/
theorem C59_sound_partial {g : Grammar} {name : Name} {rc : Record} (hrc : g.getRecord name = some rc) {sample : List Rune}
    (hv : Valid sample) (hr : Regular g.env rc.rule SUGGEST_SKIP sample) {fuel : Nat} {res : Res} {n : Node}
    (h : g.evalRule fuel name sample = .ok res) (hn : res.node = some n) :
    ∃ u : Nat, res.countUsed = u ∧ Derives g.env (.one rc.rule) SUGGEST_SKIP sample [n.erase] u res.sticky := by
  simp only [Grammar.evalRule, hrc] at h
  obtain ⟨⟨res', s'⟩, he, h⟩ := Exec.of_bind h
  cases h
  have hl := rem_ofChars sample
  obtain ⟨F, k, h1, h2, e1, e2, e3⟩ := regular_eval (ready_ofChars hv) (by rw [hl]; exact hr) he
  rw [hl] at h1 h2 e3
  cases hx : Spec.run g.env F rc.rule SUGGEST_SKIP sample with
  | oof => exact absurd hx h1
  | risky => exact absurd hx h2
  | fail m st =>
    have := misses_fails (misses_of_run hv hx)
    obtain ⟨f, r', s'', e4, e5⟩ := this
    have := eval_det e1 e4
    simp only [Prod.mk.injEq] at this
    rw [this.1, e5] at hn; cases hn
  | ambiguous m =>
    have := misses_fails (misses_of_ambiguous hv hx)
    obtain ⟨f, r', s'', e4, e5⟩ := this
    have := eval_det e1 e4
    simp only [Prod.mk.injEq] at this
    rw [this.1, e5] at hn; cases hn
  | hit nd u m st =>
    obtain ⟨f, r', s'', e4, e5, e6, e7⟩ := matches_of_run hv hx
    have := eval_det e1 e4
    simp only [Prod.mk.injEq] at this
    obtain ⟨rfl, rfl⟩ := this
    rw [hn] at e5
    simp only [Option.map_some, Option.some.injEq] at e5
    subst e5 e7
    exact ⟨u, e6, run_derives hv hx⟩

/-- Whatever `EvalRule` reads can be read that way, for predictive grammars. -/
theorem C59_sound {g : Grammar} (hg : Predictive g) {name : Name} {rc : Record} (hrc : g.getRecord name = some rc)
    {sample : List Rune} (hv : Valid sample) (hw : Tidy sample) {fuel : Nat} {res : Res} {n : Node}
    (h : g.evalRule fuel name sample = .ok res) (hn : res.node = some n) :
    ∃ u : Nat, res.countUsed = u ∧ Derives g.env (.one rc.rule) SUGGEST_SKIP sample [n.erase] u res.sticky := by
  obtain ⟨c, hc⟩ := hg
  exact C59_sound_partial hrc hv
    (Clean.regular ((certified hc).clean ((certified hc).covers hrc (flag := SUGGEST_SKIP) (by decide)) hv hw)) h hn

/-- If the sample begins with something that can be read as the rule, and what comes after it is not a
character with which it could go on, that is what `EvalRule` reads. -/
theorem C59_complete {c : Certificate} {t : Sets} {g : Grammar} (hc : c.ok g = true) (ht : t.ok g = true) {name : Name} {rc : Record}
    (hrc : g.getRecord name = some rc) {sample : List Rune} (hv : Valid sample) (hw : Tidy sample) {nd u st}
    (h : Derives g.env (.one rc.rule) SUGGEST_SKIP sample [nd] u st) (he : begins (t.moreOf rc.rule) (sample.drop u) = false) :
    (∃ fuel res, g.evalRule fuel name sample = .ok res) ∧
    ∀ fuel res, g.evalRule fuel name sample = .ok res →
      res.node.map Node.erase = some nd ∧ res.countUsed = u ∧ res.sticky = st := by
  have hm := matches_of_derives hc ht ((certified hc).covers hrc (flag := SUGGEST_SKIP) (by decide)) (decides_of_record ht hrc)
    hv hw h he
  refine ⟨C58_evalRule_returns ⟨c, hc⟩ hrc hv hw, fun fuel res hres => ?_⟩
  simp only [Grammar.evalRule, hrc] at hres
  obtain ⟨⟨res', s'⟩, he, hres⟩ := Exec.of_bind hres
  cases hres
  obtain ⟨f, r', s'', e4, e5, e6, e7⟩ := hm
  have := eval_det he e4
  simp only [Prod.mk.injEq] at this
  obtain ⟨rfl, rfl⟩ := this
  exact ⟨e5, e6, e7⟩

/-- `EvalRule` uses the whole sample exactly if the whole sample can be read as the rule. -/
theorem C59_accepts {c : Certificate} {t : Sets} {g : Grammar} (hc : c.ok g = true) (ht : t.ok g = true) {name : Name} {rc : Record}
    (hrc : g.getRecord name = some rc) {sample : List Rune} (hv : Valid sample) (hw : Tidy sample) (nd : Node) (st : Bool) :
    Derives g.env (.one rc.rule) SUGGEST_SKIP sample [nd] sample.length st ↔
      ∃ fuel res, g.evalRule fuel name sample = .ok res ∧ res.node.map Node.erase = some nd ∧
        res.countUsed = sample.length ∧ res.sticky = st := by
  constructor
  · intro h
    obtain ⟨⟨fuel, res, h1⟩, h2⟩ := C59_complete hc ht hrc hv hw h (by rw [List.drop_length]; rfl)
    exact ⟨fuel, res, h1, h2 fuel res h1⟩
  · rintro ⟨fuel, res, h1, h2, h3, rfl⟩
    obtain ⟨n, hn, rfl⟩ := Option.map_eq_some_iff.1 h2
    obtain ⟨u, hu, hd⟩ := C59_sound ⟨c, hc⟩ hrc hv hw h1 hn
    have : u = sample.length := by rw [hu] at h3; exact_mod_cast h3
    rwa [this] at hd

/-- There is at most one way to read a whole sample as a rule. -/
theorem C59_unambiguous {c : Certificate} {t : Sets} {g : Grammar} (hc : c.ok g = true) (ht : t.ok g = true) {name : Name}
    {rc : Record} (hrc : g.getRecord name = some rc) {sample : List Rune} (hv : Valid sample) (hw : Tidy sample) {nd nd' st st'}
    (h : Derives g.env (.one rc.rule) SUGGEST_SKIP sample [nd] sample.length st)
    (h' : Derives g.env (.one rc.rule) SUGGEST_SKIP sample [nd'] sample.length st') : nd = nd' ∧ st = st' := by
  have e : begins (t.moreOf rc.rule) (sample.drop sample.length) = false := by rw [List.drop_length]; rfl
  obtain ⟨⟨fuel, res, h1⟩, h2⟩ := C59_complete hc ht hrc hv hw h e
  obtain ⟨e1, e2, e3⟩ := h2 fuel res h1
  obtain ⟨e4, e5, e6⟩ := (C59_complete hc ht hrc hv hw h' e).2 fuel res h1
  rw [e1] at e4
  exact ⟨by simpa using e4, by rw [← e3, ← e6]⟩

/-! ### Documents -/

theorem shapesL_mem {T : Shapes} {rs : List Rule} {flag : Int} {as : List Shape} (h : shapesL T rs flag = some as) {r : Rule}
    (hr : r ∈ rs) : (shapeOf T r flag).isSome = true := by
  induction rs generalizing as with
  | nil => cases hr
  | cons r' rs ih =>
    rw [shapesL] at h
    cases h1 : shapeOf T r' flag with
    | none => rw [h1] at h; cases h
    | some a =>
      cases h2 : shapesL T rs flag with
      | none => rw [h1, h2] at h; cases h
      | some as =>
        rcases List.mem_cons.1 hr with rfl | hr
        · simp [h1]
        · exact ih h2 hr

theorem roots_covered {c : Certificate} {roots : List Rule} (h : c.rootsOk roots = true) {r : Rule} (hr : r ∈ roots) {flag : Int}
    (hf : flag ∈ [SUGGEST_SKIP, SUGGEST_NOT_SKIP]) : c.covers r flag = true := by
  simp only [Certificate.rootsOk, Bool.and_eq_true, List.all_eq_true] at h
  obtain ⟨⟨_, hreps⟩, h⟩ := h
  rw [Certificate.covers, hreps r hr, Bool.and_true]
  cases ha : shapesL c.get roots SUGGEST_SKIP with
  | none => rw [ha] at h; cases h
  | some as =>
    cases hb : shapesL c.get roots SUGGEST_NOT_SKIP with
    | none => rw [ha, hb] at h; cases h
    | some bs =>
      simp only [List.mem_cons, List.not_mem_nil, or_false] at hf
      rcases hf with rfl | rfl
      · exact shapesL_mem ha hr
      · exact shapesL_mem hb hr

/-- A document is read as its grammar allows. -/
theorem reads_of_document {c : Certificate} {g : Grammar} (hc : c.ok g = true) {roots : List Rule} (hr : c.rootsOk roots = true)
    {flag : Int} {l : List Rune} {nodes : List Node} (h : Document g.env roots flag l nodes) :
    flag ∈ [SUGGEST_SKIP, SUGGEST_NOT_SKIP] → Valid l → Tidy l → Reads g.env roots flag l nodes := by
  induction h with
  | done => intro _ _ _; exact .done
  | @next flag m l nd st nodes hne h hs ih =>
    intro hf hv hw
    obtain ⟨rs1, r, rs2, rfl, hm, _⟩ := h
    have hmem : r ∈ rs1 ++ r :: rs2 := by simp
    have hd := derives_of_matches hv (Clean.regular ((certified hc).clean (roots_covered hr hmem hf) hv hw)) hm
    refine .next hne hmem hd ?_
    rw [List.drop_left]
    refine ih (flagNext_mem st) ?_ ?_
    · have := hv.drop m.length; rwa [List.drop_left] at this
    · have := hw.drop m.length; rwa [List.drop_left] at this

/-- What the grammar allows is how the document is read. -/
theorem document_of_reads {c : Certificate} {t : Sets} {g : Grammar} (hc : c.ok g = true) (ht : t.ok g = true) {roots : List Rule}
    (hr : c.rootsOk roots = true) (hr' : t.rootsOk roots = true) {flag : Int} {l : List Rune} {nodes : List Node}
    (h : Reads g.env roots flag l nodes) :
    flag ∈ [SUGGEST_SKIP, SUGGEST_NOT_SKIP] → Valid l → Tidy l →
      Document g.env roots flag l nodes ∧ (l = [] ∨ ∃ r ∈ roots, begins (t.firstOf r) l = true) := by
  simp only [Sets.rootsOk, Bool.and_eq_true, List.all_eq_true] at hr'
  obtain ⟨hdec, hdiff⟩ := hr'
  induction h with
  | done => intro _ _ _; exact ⟨.done, .inl rfl⟩
  | @next r flag l nd u st nodes hne hmem h hs ih =>
    intro hf hv hw
    obtain ⟨ih1, ih2⟩ := ih (flagNext_mem st) (hv.drop u) (hw.drop u)
    have hbeg : begins (t.firstOf r) l = true := by
      rcases begins_of_derives (decided ht) h hv hw (hdec r hmem).1 with h | h
      · exact h
      · rw [differ_mem hdiff hmem] at h; cases h.1
    refine ⟨?_, .inr ⟨r, hmem, hbeg⟩⟩
    have he : begins (t.moreOf r) (l.drop u) = false := by
      rcases ih2 with h | ⟨r', hr', h⟩
      · rw [h]; rfl
      · exact Shape.begins_apart ((hdec r hmem).2 r' hr') h
    have hm := matches_of_derives hc ht (roots_covered hr hmem hf) (hdec r hmem).1 hv hw h he
    obtain ⟨F, h1, h2⟩ := Clean.regular ((certified hc).clean (roots_covered hr hmem hf) hv hw)
    have hu : u ≤ l.length := by
      have hfnd := found_of_matches (fuel := F) hv hm
      cases hx : Spec.run g.env F r flag l with
      | oof => exact absurd hx h1
      | risky => exact absurd hx h2
      | fail n st => rw [hx] at hfnd; exact hfnd.elim
      | ambiguous n => rw [hx] at hfnd; exact hfnd.elim
      | hit nd' u' n st' =>
        rw [hx] at hfnd
        obtain ⟨rfl, rfl, rfl⟩ := hfnd
        exact run_used_le hv hx
    have hwin : RootWins g.env roots flag l nd u st := by
      obtain ⟨rs1, rs2, rfl⟩ := List.append_of_mem hmem
      refine ⟨rs1, r, rs2, rfl, hm, fun r' hr'' nd' u' st' hm' => ?_⟩
      have hmem' : r' ∈ rs1 ++ r :: rs2 := by
        simp only [List.mem_append, List.mem_cons] at hr'' ⊢
        rcases hr'' with h | h <;> simp [h]
      have hd' := derives_of_matches hv (Clean.regular ((certified hc).clean (roots_covered hr hmem' hf) hv hw)) hm'
      rcases begins_of_derives (decided ht) hd' hv hw (hdec r' hmem').1 with h | h
      · rw [Shape.begins_apart (differ_apart hdiff r' hr'') hbeg] at h; cases h
      · rw [differ_mem hdiff hmem'] at h; cases h.1
    have hl : l.take u ++ l.drop u = l := List.take_append_drop u l
    have hlen : (l.take u).length = u := by rw [List.length_take]; omega
    have := Document.next (m := l.take u) (l := l.drop u) (by rw [hl]; exact hne) (by rw [hl, hlen]; exact hwin) ih1
    rwa [hl] at this

theorem rootWins_det {env : Env} {roots : List Rule} {flag : Int} {l : List Rune} {nd u st nd' u' st'}
    (h : RootWins env roots flag l nd u st) (h' : RootWins env roots flag l nd' u' st') : nd = nd' ∧ u = u' ∧ st = st' := by
  obtain ⟨rs1, r, rs2, hr, hm, ho⟩ := h
  obtain ⟨rs1', r', rs2', hr', hm', ho'⟩ := h'
  by_cases he : r = r'
  · subst he; exact matches_det hm hm'
  · have h1 : r' ∈ rs1 ++ rs2 := by
      have : r' ∈ rs1 ++ r :: rs2 := by rw [← hr, hr']; simp
      simp only [List.mem_append, List.mem_cons] at this ⊢
      rcases this with h | h | h
      · exact .inl h
      · exact absurd h.symm he
      · exact .inr h
    have h2 : r ∈ rs1' ++ rs2' := by
      have : r ∈ rs1' ++ r' :: rs2' := by rw [← hr', hr]; simp
      simp only [List.mem_append, List.mem_cons] at this ⊢
      rcases this with h | h | h
      · exact .inl h
      · exact absurd h he
      · exact .inr h
    have := ho r' h1 _ _ _ hm'
    have := ho' r h2 _ _ _ hm
    omega

/-- A document is not also one that cannot be read on. -/
theorem document_not_halts {env : Env} {roots : List Rule} {flag : Int} {l : List Rune} {nodes : List Node}
    (h : Document env roots flag l nodes) :
    ¬ Halts env roots (fun flag l => ∀ r ∈ roots, Fails env r flag l) flag l := by
  induction h with
  | done =>
    intro h
    generalize hl : ([] : List Rune) = l at h
    cases h with
    | here hne _ => exact hne hl.symm
    | next hne _ _ => exact hne hl.symm
  | @next flag m l nd st nodes hne h hs ih =>
    intro hh
    generalize hl : m ++ l = l' at hh h
    cases hh with
    | here _ hf =>
      obtain ⟨rs1, r, rs2, hr, hm, _⟩ := h
      exact matches_not_fails hm (hf r (by rw [hr]; simp))
    | @next _ m' l'' nd' st' hne' h' hs' =>
      obtain ⟨rfl, h2, rfl⟩ := rootWins_det h h'
      obtain ⟨rfl, rfl⟩ := List.append_inj hl h2
      exact ih hs'

theorem document_det {env : Env} {roots : List Rule} {flag : Int} {l : List Rune} {nodes nodes' : List Node}
    (h : Document env roots flag l nodes) (h' : Document env roots flag l nodes') : nodes = nodes' := by
  induction h generalizing nodes' with
  | done =>
    generalize hl : ([] : List Rune) = l at h'
    cases h' with
    | done => rfl
    | next hne _ _ => exact absurd hl.symm hne
  | @next flag m l nd st nodes hne h hs ih =>
    generalize hl : m ++ l = l' at h' h
    cases h' with
    | done => exact absurd hl hne
    | @next _ m' l'' nd' st' nodes' hne' h' hs' =>
      obtain ⟨rfl, h2, rfl⟩ := rootWins_det h h'
      obtain ⟨rfl, rfl⟩ := List.append_inj hl h2
      rw [ih hs']

/-- `EvalRaw` accepts a text, in whatever order the maps are visited, exactly if the text can be read as
one root after the other; its nodes are that reading, and there is no other. -/
theorem C59_document {c : Certificate} {t : Sets} {g : Grammar} (hc : c.ok g = true) (ht : t.ok g = true)
    (hr : c.rootsOk (g.roots.map (·.rule)) = true) (hr' : t.rootsOk (g.roots.map (·.rule)) = true)
    {text : List Rune} (hv : Valid text) (hw : Tidy text) (hne : text ≠ []) :
    (∀ fuel sch, sch.Fair → ∀ nodes s', g.evalRaw fuel sch (Stream.ofChars text) = .ok (.ok nodes, s') →
      Reads g.env (g.roots.map (·.rule)) SUGGEST_SKIP text (nodes.map Node.erase)) ∧
    (∀ nds, Reads g.env (g.roots.map (·.rule)) SUGGEST_SKIP text nds →
      (∃ fuel, ∀ sch : Sched, sch.Fair → ∃ y s', g.evalRaw fuel sch (Stream.ofChars text) = .ok (y, s')) ∧
      (∀ fuel sch, sch.Fair → ∀ y s', g.evalRaw fuel sch (Stream.ofChars text) = .ok (y, s') →
        ∃ nodes, y = .ok nodes ∧ nodes.map Node.erase = nds) ∧
      ∀ nds', Reads g.env (g.roots.map (·.rule)) SUGGEST_SKIP text nds' → nds' = nds) := by
  have ho := C58_orderly hc hr hv hw
  have hs := ready_ofChars hv
  have hl := rem_ofChars text
  have hskip : SUGGEST_SKIP ∈ [SUGGEST_SKIP, SUGGEST_NOT_SKIP] := by simp
  refine ⟨fun fuel sch hf nodes s' h => ?_, fun nds h => ⟨?_, fun fuel sch hf y s' hy => ?_, fun nds' h' => ?_⟩⟩
  · have hd := C24_document_partial hf hs (by rw [hl]; exact hne) (by rw [hl]; exact ho) h
    simp only [hl] at hd
    exact reads_of_document hc hr hd hskip hv hw
  · obtain ⟨fuel, hfuel⟩ := C58_document hc hr hv hw hne
    refine ⟨fuel, fun sch hf => ?_⟩
    obtain ⟨y, s', h, _⟩ := hfuel sch hf
    exact ⟨y, s', h⟩
  · have hdoc := (document_of_reads hc ht hr hr' h hskip hv hw).1
    have hd := C24_document_partial hf hs (by rw [hl]; exact hne) (by rw [hl]; exact ho) hy
    cases y with
    | ok nodes =>
      simp only [hl] at hd
      exact ⟨nodes, rfl, document_det hd hdoc⟩
    | error e =>
      exfalso
      cases e with
      | noMatch =>
        simp only [hl] at hd
        exact document_not_halts hdoc hd
      | ambiguity =>
        simp only [hl] at hd
        exact never_tied hc hr hd hskip hv hw
      | _ => exact hd
  · exact document_det (document_of_reads hc ht hr hr' h' hskip hv hw).1 (document_of_reads hc ht hr hr' h hskip hv hw).1

/-! ### Cases -/

theorem arith_decides : (Sets.infer arith 6).ok arith = true ∧ (Sets.infer arith 6).rootsOk (arith.roots.map (·.rule)) = true := by
  decide +kernel

theorem json_decides : (Sets.infer json 5).ok json = true ∧ (Sets.infer json 5).rootsOk (json.roots.map (·.rule)) = true := by
  decide +kernel

/-- "1 + (a2*3)" can be read as an expression, in exactly one way. -/
example {rc : Record} (hrc : arith.getRecord (runes "expr") = some rc) : ∃ nd st,
    Derives arith.env (.one rc.rule) SUGGEST_SKIP (runes "1 + (a2*3)") [nd] 10 st ∧
    ∀ nd' st', Derives arith.env (.one rc.rule) SUGGEST_SKIP (runes "1 + (a2*3)") [nd'] 10 st' → nd' = nd := by
  have hv : Valid (runes "1 + (a2*3)") := by unfold Valid; decide +kernel
  have hw : Tidy (runes "1 + (a2*3)") := by unfold Tidy; decide +kernel
  have hlen : (runes "1 + (a2*3)").length = 10 := by decide +kernel
  have he : (match arith.evalRule 60 (runes "expr") (runes "1 + (a2*3)") with
    | .ok r => r.node.isSome && r.countUsed == 10 | _ => false) = true := by decide +kernel
  cases hx : arith.evalRule 60 (runes "expr") (runes "1 + (a2*3)") with
  | ok r =>
    rw [hx] at he
    simp only [Bool.and_eq_true, Option.isSome_iff_exists, beq_iff_eq] at he
    obtain ⟨⟨n, hn⟩, hu⟩ := he
    have := (C59_accepts arith_checks.1.1 arith_decides.1 hrc hv hw n.erase r.sticky).2
      ⟨60, r, hx, by rw [hn]; rfl, by rw [hu, hlen]; rfl, rfl⟩
    rw [hlen] at this
    refine ⟨_, _, this, fun nd' st' h => ?_⟩
    rw [← hlen] at this h
    exact (C59_unambiguous arith_checks.1.1 arith_decides.1 hrc hv hw h this).1
  | _ => rw [hx] at he; cases he

/-- "1 +" cannot be read as an expression, in whatever way. -/
example {rc : Record} (hrc : arith.getRecord (runes "expr") = some rc) (nd : Node) (st : Bool) :
    ¬ Derives arith.env (.one rc.rule) SUGGEST_SKIP (runes "1 +") [nd] 3 st := by
  intro h
  obtain ⟨fuel, res, h1, h2, h3, _⟩ := (C59_accepts (sample := runes "1 +") arith_checks.1.1 arith_decides.1 hrc (by unfold Valid; decide +kernel)
    (by unfold Tidy; decide +kernel) nd st).1 (by rw [show (runes "1 +").length = 3 from by decide +kernel]; exact h)
  have he : (match arith.evalRule 60 (runes "expr") (runes "1 +") with | .ok r => r.countUsed == 1 | _ => false) = true := by
    decide +kernel
  cases hx : arith.evalRule 60 (runes "expr") (runes "1 +") with
  | ok r =>
    rw [hx] at he
    simp only [Grammar.evalRule, hrc] at h1 hx
    obtain ⟨⟨_, _⟩, e1, h1⟩ := Exec.of_bind h1
    obtain ⟨⟨_, _⟩, e2, hx⟩ := Exec.of_bind hx
    cases h1; cases hx
    have := eval_det e1 e2
    simp only [Prod.mk.injEq] at this
    rw [this.1] at h3
    simp only [beq_iff_eq] at he
    rw [he] at h3
    exact absurd h3 (by decide +kernel)
  | _ => rw [hx] at he; cases he

/-- The two documents of values below are read. -/
example : (match json.evalRaw 60 forward (Stream.ofChars (runes "{\"a\": [1, -2.5]};true;")) with
    | .ok (.ok nodes, _) => nodes.length | _ => 0) = 2 := by decide +kernel

/-- Characters x, then one more. -/
def xsAndX : Rule := .concat {} [.rep {} (.char {} 120 false) 0 0, .char {} 120 false]

/-- Not every text in the language of every grammar is accepted: "x" can be read as `{ 'x' } 'x'`, the
repetition being empty, but the repetition takes the character and the rule is reported as not
matching. -/
theorem C59_counterexample :
    (∃ nds st, Derives (fun _ => none) (.one xsAndX) SUGGEST_SKIP [120] nds 1 st) ∧
    (match eval (fun _ => none) 10 xsAndX SUGGEST_SKIP (Stream.ofChars [120]) with
      | .ok (r, _) => r.node.isNone | _ => false) = true := by
  refine ⟨?_, by decide +kernel⟩
  have hv : Valid [120] := by unfold Valid; decide +kernel
  have h1 : Derives (fun _ => none) (.one (.rep {} (.char {} 120 false) 0 0)) SUGGEST_SKIP [120]
      [inner .repetition {} (true && true) []] 0 (true && true) := by
    refine .rep .stop (Nat.le_refl _) (.inl rfl) ?_
    rw [if_neg (by decide)]
    intro st' hm
    exact (matches_not_fails (matches_of_run (fuel := 3) (n := 1) (nd := leaf .char {} true [120]) (u := 1) (st := true) hv
      rfl) (misses_fails hm)).elim
  have h2 : Derives (fun _ => none) (.parts [.char {} 120 false])
      (flagAfter SUGGEST_SKIP (inner .repetition {} (true && true) []) (true && true)) [120] [leaf .char {} true [120]] (1 + 0)
      (true && true) :=
    .next (.terminal rfl (matches_of_run (fuel := 3) (n := 1) hv rfl)) .done
  exact ⟨_, _, .concat (.next h1 h2)⟩

end Xbnf.Props
