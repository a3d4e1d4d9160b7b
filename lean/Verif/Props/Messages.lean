import Verif.Props.Errors
import Verif.Props.Definitions
import Verif.Lemmas.RuleEq
import Verif.Spec.Message
import Verif.Model.Message
/-
C57: the errors of an evaluation and their texts.  An error is one the rule can give (`Explains`), and
in a grammar built by definitions its text can be made.
-/
namespace Xbnf.Props
open Spec

/-! ### Errors come from the rule or the rules it uses -/

/-- A result without a node has an error; the error has the property. -/
structure Fits (P : Err → Prop) (res : Res) : Prop where
  error : res.node = none → res.error ≠ none
  fits : ∀ e, res.error = some e → P e

theorem fits_one {P : Err → Prop} {res : Res} {e : Err} (he : res.error = some e) (h : P e) : Fits P res :=
  ⟨fun _ => by rw [he]; simp, fun e' h' => by rw [he] at h'; cases h'; exact h⟩

theorem fits_none {P : Err → Prop} {res : Res} (hn : res.node ≠ none) (he : res.error = none) : Fits P res :=
  ⟨fun h => absurd h hn, fun e h => by rw [he] at h; cases h⟩

theorem Fits.mono {P Q : Err → Prop} (h : ∀ e, P e → Q e) {res : Res} (hr : Fits P res) : Fits Q res :=
  ⟨hr.error, fun e he => h e (hr.fits e he)⟩

def EvFits (env : Env) (ev : Evaluator) : Prop :=
  ∀ r flag s, (ev r flag s).OnOk (fun x => Fits (Explains env r) x.1)

theorem evalEOF_fits (env : Env) (b : RuleBase) (flag : Int) (s : Stream) : Fits (Explains env (.eof b)) (evalEOF b flag s).1 := by
  unfold evalEOF
  simp only
  generalize (if flag = SUGGEST_SKIP then s.skipSpaces else ([], s)) = sk
  split
  · exact fits_none (by simp) rfl
  · exact fits_one rfl .eof

theorem evalChar_fits (env : Env) (b : RuleBase) (t : Rune) (u : Bool) (flag : Int) (s : Stream) :
    Fits (Explains env (.char b t u)) (evalChar b t flag s).1 := by
  unfold evalChar
  split
  · exact fits_one rfl (.atEOF (r := .char b t u) trivial)
  · simp only
    generalize (if flag = SUGGEST_SKIP then s.position.2.skipSpaces else ([], s.position.2)) = sk
    split
    · split
      · exact fits_none (by simp) rfl
      · exact fits_one rfl (.missing (r := .char b t u) trivial)
    · split
      · exact fits_one rfl (.missing (r := .char b t u) trivial)
      · exact fits_none (by simp) rfl

theorem evalRange_fits (env : Env) (b : RuleBase) (x y : Rune) (xu yu : Bool) (flag : Int) (s : Stream) :
    Fits (Explains env (.range b x xu y yu)) (evalRange b x y flag s).1 := by
  unfold evalRange
  split
  · exact fits_one rfl (.atEOF (r := .range b x xu y yu) trivial)
  · simp only
    generalize (if flag = SUGGEST_SKIP then s.skipSpaces else ([], s)) = sk
    split
    · exact fits_none (by simp) rfl
    · split
      · exact fits_none (by simp) rfl
      · exact fits_one rfl (.missing (r := .range b x xu y yu) trivial)

theorem evalChars_fits (env : Env) (b : RuleBase) (t : List Rune) (flag : Int) (s : Stream) :
    Fits (Explains env (.chars b t)) (evalChars b t flag s).1 := by
  unfold evalChars
  split
  · exact fits_one rfl (.atEOF (r := .chars b t) trivial)
  · simp only
    split
    · exact fits_none (by simp) rfl
    · exact fits_one rfl (.missing (r := .chars b t) trivial)

theorem evalString_fits (env : Env) (b : RuleBase) (t : List Rune) (flag : Int) (s : Stream) :
    Fits (Explains env (.str b t)) (evalString b t flag s).1 := by
  unfold evalString
  split
  · exact fits_one rfl (.atEOF (r := .str b t) trivial)
  · simp only
    split
    · exact fits_none (by simp) rfl
    · exact fits_one rfl (.missing (r := .str b t) trivial)

theorem concatLoop_fits {env : Env} {ev : Evaluator} (b : RuleBase) (all : List Rule) : ∀ (rs : List Rule) (_ : ∀ r ∈ rs, r ∈ all)
    (_ : ∀ r ∈ rs, ∀ flag s, (ev r flag s).OnOk (fun x => Fits (Explains env r) x.1)) (st : SeqState) (s : Stream),
    (concatLoop ev (.concat b all) rs st s).OnOk (fun x => Fits (Explains env (.concat b all)) x.1)
  | [], _, _, st, s => by
    unfold concatLoop
    exact fits_none (by simp) rfl
  | r :: rs, ha, h, st, s => by
    unfold concatLoop
    refine Exec.OnOk.bind (h r List.mem_cons_self st.flag _) ?_
    rintro ⟨res, cs⟩ hr
    refine Exec.OnOk.bind (all_trivial _) ?_
    rintro ⟨read, unused⟩ _
    simp only
    cases hn : res.node with
    | none =>
      cases he : res.error with
      | none => exact absurd he (hr.error hn)
      | some e => exact fits_one rfl (.concat (ha r List.mem_cons_self) (hr.fits e he))
    | some n =>
      simp only
      refine Exec.OnOk.bind (concatLoop_fits b all rs (fun r hr => ha r (List.mem_cons_of_mem _ hr))
        (fun r hr => h r (List.mem_cons_of_mem _ hr)) _ _) ?_
      rintro ⟨out, cs⟩ ho
      exact ho

theorem repLoop_fits {P : Err → Prop} {ev : Evaluator} {r : Rule} (h : ∀ flag s, (ev r flag s).OnOk (fun x => Fits P x.1)) (mx : Nat) :
    ∀ (fuel : Nat) (st : SeqState) (s : Stream), (repLoop ev r mx fuel st s).OnOk (fun x => ∀ w, x.2.1 = some w → Fits P w)
  | 0, _, _ => trivial
  | fuel + 1, st, s => by
    unfold repLoop
    simp only
    split
    · intro w hw; cases hw
    · refine Exec.OnOk.bind (h st.flag _) ?_
      rintro ⟨res, cs⟩ hr
      refine Exec.OnOk.bind (all_trivial _) ?_
      rintro ⟨read, unused⟩ _
      simp only
      cases hn : res.node with
      | none =>
        intro w hw
        simp only [Option.some.injEq] at hw
        exact hw ▸ hr
      | some n =>
        simp only
        split
        · intro w hw; cases hw
        · refine Exec.OnOk.bind (repLoop_fits h mx fuel _ _) ?_
          rintro ⟨out, why, cs⟩ ho
          exact ho

theorem repFinish_fits {env : Env} (b : RuleBase) (r : Rule) (mn mx : Nat) (st : SeqState) (why : Option Res) (s : Stream)
    (h : ∀ w, why = some w → Fits (Explains env r) w) : Fits (Explains env (.rep b r mn mx)) (repFinish (.rep b r mn mx) mn st why s) := by
  have hb : ∀ e, why.bind (·.error) = some e → Explains env (.rep b r mn mx) e := by
    intro e he
    cases why with
    | none => cases he
    | some w => exact .rep ((h w rfl).fits e he)
  unfold repFinish
  simp only
  split
  · rename_i hlt
    cases hw : why.bind (·.error) with
    | none => exact fits_one rfl (.tooFew hlt)
    | some e => exact fits_one rfl (hb e hw)
  · exact ⟨(fun h => by cases h), hb⟩

theorem choiceGroup_fits {P : Err → Prop} {ev : Evaluator} (flag : Int) : ∀ (rs : List Rule)
    (_ : ∀ r ∈ rs, ∀ flag s, (ev r flag s).OnOk (fun x => Fits P x.1)) (st : ChoiceState)
    (_ : ∀ e, st.maxErr = some e → P e) (s : Stream),
    (choiceGroup ev flag rs st s).OnOk (fun x => (∀ m ∈ x.1, m.node ≠ none) ∧ ∀ e, x.2.1.maxErr = some e → P e)
  | [], _, st, hst, s => by
    unfold choiceGroup
    exact ⟨(fun _ h => by cases h), hst⟩
  | r :: rs, h, st, hst, s => by
    unfold choiceGroup
    refine Exec.OnOk.bind (h r List.mem_cons_self flag _) ?_
    rintro ⟨res, cs⟩ hr
    simp only
    have hrs := fun r hr => h r (List.mem_cons_of_mem _ hr)
    cases hn : res.node with
    | some n =>
      simp only
      refine Exec.OnOk.bind (choiceGroup_fits flag rs hrs _ (by exact hst) _) ?_
      rintro ⟨ms, st', s'⟩ ⟨g1, g2⟩
      refine ⟨?_, g2⟩
      intro m hm
      rcases List.mem_cons.1 hm with rfl | hm
      · rw [hn]; simp
      · exact g1 m hm
    | none =>
      simp only
      split
      · exact choiceGroup_fits flag rs hrs _ (by exact hr.fits) _
      · exact choiceGroup_fits flag rs hrs _ (by exact hst) _

theorem choiceLoop_fits {env : Env} {ev : Evaluator} (b : RuleBase) (all : List (List Rule)) (flag : Int) : ∀ (gs : List (List Rule))
    (_ : ∀ g ∈ gs, g ∈ all) (_ : ∀ g ∈ gs, ∀ r ∈ g, ∀ flag s, (ev r flag s).OnOk (fun x => Fits (Explains env r) x.1)) (st : ChoiceState)
    (_ : ∀ e, st.maxErr = some e → ∃ g ∈ all, ∃ r ∈ g, Explains env r e) (s : Stream),
    (choiceLoop ev (.choice b all) flag gs st s).OnOk (fun x => Fits (Explains env (.choice b all)) x.1)
  | [], _, _, st, hst, s => by
    unfold choiceLoop
    cases he : st.maxErr with
    | none => exact fits_one rfl .choiceNil
    | some e =>
      obtain ⟨g, hg, r, hr, hx⟩ := hst e he
      exact fits_one rfl (.choice hg hr hx)
  | g :: gs, ha, h, st, hst, s => by
    unfold choiceLoop
    refine Exec.OnOk.bind (choiceGroup_fits (P := fun e => ∃ g ∈ all, ∃ r ∈ g, Explains env r e) flag g
      (fun r hr flag s => (h g List.mem_cons_self r hr flag s).mono
        (fun _ hx => hx.mono (fun e he => ⟨g, ha g List.mem_cons_self, r, hr, he⟩))) st hst s) ?_
    rintro ⟨ms, st', s'⟩ ⟨g1, g2⟩
    simp only
    cases hp : pick ms with
    | none =>
      exact choiceLoop_fits b all flag gs (fun g hg => ha g (List.mem_cons_of_mem _ hg)) (fun g hg => h g (List.mem_cons_of_mem _ hg)) _ g2 _
    | ambiguous => exact fits_one rfl .ambiguity
    | found r =>
      simp only
      refine Exec.OnOk.bind (all_trivial _) ?_
      intro unused _
      have := g1 r (pick_in hp)
      refine fits_none ?_ rfl
      simpa using this

theorem blockLoop_excluded {ev : Evaluator} {close : Rule} {escape : Option Rule} {excludes : List Rule} : ∀ (fuel : Nat)
    (st : BlockState) (s : Stream),
    (blockLoop ev close escape excludes fuel st s).OnOk (fun x => ∀ t rd, x.1 = .excluded t rd → excludes ≠ [])
  | 0, _, _ => trivial
  | fuel + 1, st, s => by
    unfold blockLoop
    refine Exec.OnOk.bind (all_trivial _) ?_
    rintro ⟨escaped, escapeChars, used, u1, s⟩ _
    refine Exec.OnOk.bind (P := fun x => x.1 ≠ none → excludes ≠ []) ?_ ?_
    · split
      · rename_i hx
        refine Exec.OnOk.bind (all_trivial _) ?_
        rintro ⟨res, cs⟩ _
        exact fun _ h => by rw [h] at hx; cases hx
      · exact fun h => absurd rfl h
    rintro ⟨rx, cs1⟩ hx
    simp only at hx ⊢
    split
    · rename_i rx' hb
      have hx : excludes ≠ [] := hx (by intro h; rw [h] at hb; cases hb)
      refine Exec.OnOk.bind (all_trivial _) ?_
      intro c _
      split
      · refine Exec.OnOk.bind (all_trivial _) ?_
        rintro ⟨out, cs⟩ _
        exact fun _ _ _ => hx
      · exact fun _ _ _ => hx
    · refine Exec.OnOk.bind (all_trivial _) ?_
      rintro ⟨rc, cs2⟩ _
      simp only
      split
      · refine Exec.OnOk.bind (all_trivial _) ?_
        intro c _
        split
        · refine Exec.OnOk.bind (blockLoop_excluded fuel _ _) ?_
          rintro ⟨out, cs⟩ h
          exact h
        · intro t rd h; cases h
      · split
        · intro t rd h; cases h
        · refine Exec.OnOk.bind (blockLoop_excluded fuel _ _) ?_
          rintro ⟨out, cs⟩ h
          exact h

theorem evalBlock_fits {env : Env} {ev : Evaluator} (fuel : Nat) (b : RuleBase) (opn : Rule) (v : Bool) (close : Rule)
    (escape : Option Rule) (excludes : List Rule) (flag : Int) (s : Stream)
    (h : ∀ flag s, (ev opn flag s).OnOk (fun x => Fits (Explains env opn) x.1)) :
    (evalBlock ev fuel b opn v close escape excludes flag s).OnOk (fun x => Fits (Explains env (.block b opn v close escape excludes)) x.1) := by
  unfold evalBlock
  refine Exec.OnOk.bind (h flag s) ?_
  rintro ⟨ro, s⟩ hr
  simp only
  cases hn : ro.node with
  | none => exact ⟨fun _ => hr.error hn, fun e he => .opening (hr.fits e he)⟩
  | some n =>
    simp only
    refine Exec.OnOk.bind (all_trivial _) ?_
    intro used _
    refine Exec.OnOk.bind (blockLoop_excluded _ _ _) ?_
    rintro ⟨e, cs⟩ hx
    cases e with
    | excluded text read => exact fits_one rfl (.excluded (hx _ _ rfl))
    | eof used unused => exact fits_one rfl .missingClose
    | closed used unused rc content => exact fits_none (by simp) rfl

theorem eval_fits (env : Env) : ∀ fuel, EvFits env (eval env fuel)
  | 0, _, _, _ => trivial
  | fuel + 1, rule, flag, s => by
    have ih := eval_fits env fuel
    cases rule with
    | eof b => exact evalEOF_fits _ b flag s
    | char b t u => exact evalChar_fits _ b t u flag s
    | range b x xu y yu => exact evalRange_fits _ b x y xu yu flag s
    | chars b t => exact evalChars_fits _ b t flag s
    | str b t => exact evalString_fits _ b t flag s
    | group b r =>
      refine Exec.OnOk.bind (ih r flag s) ?_
      rintro ⟨res, s'⟩ hr
      show Fits _ (groupRes b res)
      unfold groupRes
      cases hn : res.node with
      | none => exact ⟨fun _ => hr.error hn, fun e he => .group (hr.fits e he)⟩
      | some n => exact ⟨(fun h => by cases h), fun e he => .group (hr.fits e he)⟩
    | option b r =>
      refine Exec.OnOk.bind (ih r flag s) ?_
      rintro ⟨res, s'⟩ hr
      show Fits _ (optionRes b res)
      unfold optionRes
      cases hn : res.node with
      | none => exact ⟨(fun h => by cases h), fun e he => .option (hr.fits e he)⟩
      | some n => exact ⟨(fun h => by cases h), fun e he => .option (hr.fits e he)⟩
    | rep b r mn mx =>
      show Exec.OnOk _ (evalRep _ _ _ _ _ _ _ _)
      unfold evalRep
      refine Exec.OnOk.bind (repLoop_fits (ih r) mx fuel _ s) ?_
      rintro ⟨st, why, s'⟩ hw
      exact repFinish_fits b r mn mx st why s' hw
    | choice b gs => exact choiceLoop_fits b gs flag gs (fun _ h => h) (fun g _ r _ => ih r) {} (fun e he => by cases he) s
    | concat b rs => exact concatLoop_fits b rs rs (fun _ h => h) (fun r _ => ih r) _ s
    | block b o v c e x => exact evalBlock_fits fuel b o v c e x flag s (ih o)
    | ref b name =>
      show Exec.OnOk _ (match env name with
        | none => Exec.ok ({ error := some (.undefined b name) }, s)
        | some r => do
          let (res, s) ← eval env fuel r flag s
          .ok (refRes b res, s))
      cases hr : env name with
      | none => exact fits_one rfl (.undefined hr)
      | some r =>
        refine Exec.OnOk.bind (ih r flag s) ?_
        rintro ⟨res, s'⟩ ht
        have ht : Fits (Explains env (.ref b name)) res := ht.mono (fun e he => .ref hr he)
        show Fits _ (refRes b res)
        unfold refRes
        cases hn : res.node with
        | none => exact ht
        | some n => exact ⟨(fun h => by cases h), ht.fits⟩

/-- Whatever a rule is evaluated on, its error is one the rule can give: it is made by the rule, or by a
rule it contains or refers to, and names these on the way. -/
theorem C57_explained {env : Env} {fuel : Nat} {r : Rule} {flag : Int} {s s' : Stream} {res : Res} {e : Err}
    (h : eval env fuel r flag s = .ok (res, s')) (he : res.error = some e) : Explains env r e := by
  have := eval_fits env fuel r flag s
  rw [h] at this
  exact this.fits e he

/-- The same for `EvalRule`. -/
theorem C57_explained_evalRule {g : Grammar} {fuel : Nat} {name : Name} {sample : List Rune} {res : Res} {e : Err}
    (h : g.evalRule fuel name sample = .ok res) (he : res.error = some e) :
    (g.getRecord name = none ∧ e = .undefined {} name) ∨ ∃ r, g.getRecord name = some r ∧ Explains g.env r.rule e := by
  unfold Grammar.evalRule at h
  split at h
  · rename_i hr
    cases h
    cases he
    exact .inl ⟨hr, rfl⟩
  · rename_i r hr
    refine .inr ⟨r, hr, ?_⟩
    obtain ⟨⟨x, s'⟩, hx, h⟩ := Exec.of_bind h
    cases h
    exact C57_explained hx he

/-! ### Texts -/

theorem descs_ok : ∀ {rs : List Rule}, (∀ r ∈ rs, ∃ d, r.desc = .ok d) → ∃ ds, descs rs = .ok ds ∧ ds.length = rs.length
  | [], _ => ⟨[], by rw [descs], rfl⟩
  | r :: rs, h => by
    obtain ⟨d, hd⟩ := h r List.mem_cons_self
    obtain ⟨ds, hds, hl⟩ := descs_ok (fun r hr => h r (List.mem_cons_of_mem _ hr))
    exact ⟨d :: ds, by rw [descs, hd, Exec.ok_bind, hds, Exec.ok_bind], by simp [hl]⟩

theorem descGroups_ok : ∀ {gs : List (List Rule)}, (∀ g ∈ gs, ∀ r ∈ g, ∃ d, r.desc = .ok d) →
    ∃ ds, descGroups gs = .ok ds ∧ ds.length = gs.flatten.length
  | [], _ => ⟨[], by rw [descGroups], rfl⟩
  | g :: gs, h => by
    obtain ⟨d, hd, hl⟩ := descs_ok (h g List.mem_cons_self)
    obtain ⟨ds, hds, hl'⟩ := descGroups_ok (fun r hr => h r (List.mem_cons_of_mem _ hr))
    exact ⟨d ++ ds, by rw [descGroups, hd, Exec.ok_bind, hds, Exec.ok_bind], by
      rw [List.flatten_cons, List.length_append, List.length_append, hl, hl']⟩

theorem enumerate_ok {ds : List (List Rune)} (h : ds ≠ []) : ∃ d, enumerate ds = .ok d := by
  cases ds with
  | nil => exact absurd rfl h
  | cons d ds => exact ⟨_, rfl⟩

/-- What has a description gets one. -/
theorem desc_ok {r : Rule} (h : Describable r) : ∃ d, r.desc = .ok d := by
  induction h with
  | eof => rw [Rule.desc]; exact ⟨_, rfl⟩
  | char => rw [Rule.desc]; exact ⟨_, rfl⟩
  | range => rw [Rule.desc]; exact ⟨_, rfl⟩
  | chars => rw [Rule.desc]; exact ⟨_, rfl⟩
  | str => rw [Rule.desc]; exact ⟨_, rfl⟩
  | ref => rw [Rule.desc]; exact ⟨_, rfl⟩
  | @named r h =>
    cases r <;> rw [Rule.desc] <;> simp only [Rule.base] at h <;> first | exact ⟨_, rfl⟩ | (rw [if_neg h]; exact ⟨_, rfl⟩)
  | group _ ih => obtain ⟨d, hd⟩ := ih; rw [Rule.desc]; split <;> exact ⟨_, by first | exact hd | rfl⟩
  | option _ ih => obtain ⟨d, hd⟩ := ih; rw [Rule.desc, hd]; split <;> exact ⟨_, rfl⟩
  | rep _ ih => obtain ⟨d, hd⟩ := ih; rw [Rule.desc, hd]; split <;> exact ⟨_, rfl⟩
  | choice _ hn ih =>
    obtain ⟨ds, hds, hl⟩ := descGroups_ok ih
    rw [Rule.desc, hds]
    split
    · refine enumerate_ok ?_
      rintro rfl
      obtain ⟨g, hg, hne⟩ := hn
      obtain ⟨r, hr⟩ := List.exists_mem_of_ne_nil g hne
      have := List.mem_flatten.2 ⟨g, hg, hr⟩
      rw [List.eq_nil_of_length_eq_zero hl.symm] at this
      cases this
    · exact ⟨_, rfl⟩
  | concat _ hn ih =>
    obtain ⟨ds, hds, hl⟩ := descs_ok ih
    rw [Rule.desc, hds]
    split
    · refine enumerate_ok ?_
      rintro rfl
      exact hn (List.eq_nil_of_length_eq_zero hl.symm)
    · exact ⟨_, rfl⟩
  | block _ _ ih1 ih2 =>
    obtain ⟨d, hd⟩ := ih1
    obtain ⟨d', hd'⟩ := ih2
    rw [Rule.desc, hd, hd']
    split <;> exact ⟨_, rfl⟩

/-- A well-formed rule, or one that got a name, has a description. -/
theorem describable_of {r : Rule} (h : WellFormed r) : Describable r := by
  induction h with
  | eof _ => exact .eof
  | char _ => exact .char
  | range _ => exact .range
  | chars _ _ => exact .chars
  | str _ => exact .str
  | group _ _ ih => exact .group ih
  | option _ _ ih => exact .option ih
  | rep _ _ _ _ _ ih => exact .rep ih
  | @choice b gs _ hg _ h2 ih =>
    refine .choice ih ?_
    cases gs with
    | nil => simp at h2
    | cons g gs => exact ⟨g, List.mem_cons_self, hg g List.mem_cons_self⟩
  | concat _ _ h2 ih => exact .concat ih (by rintro rfl; simp at h2)
  | block _ _ _ _ _ iho ihc _ _ => exact .block iho ihc
  | ref _ _ => exact .ref

/-- A rule as grammars hold them: as the parser builds it, with a name or without. -/
def Held (r : Rule) : Prop := ∃ r0 n, WellFormed r0 ∧ r = r0.setName n

theorem held_of {r : Rule} (h : WellFormed r) : Held r :=
  ⟨r, r.base.name, h, by cases r <;> rfl⟩

theorem Held.describable {r : Rule} (h : Held r) : Describable r := by
  obtain ⟨r0, n, h, rfl⟩ := h
  cases h with
  | eof _ => exact .eof
  | char _ => exact .char
  | range _ => exact .range
  | chars _ _ => exact .chars
  | str _ => exact .str
  | group _ h => exact .group (describable_of h)
  | option _ h => exact .option (describable_of h)
  | rep _ h _ _ _ => exact .rep (describable_of h)
  | @choice b gs _ hg h h2 =>
    refine .choice (fun g hg r hr => describable_of (h g hg r hr)) ?_
    cases gs with
    | nil => simp at h2
    | cons g gs => exact ⟨g, List.mem_cons_self, hg g List.mem_cons_self⟩
  | concat _ h h2 => exact .concat (fun r hr => describable_of (h r hr)) (by rintro rfl; simp at h2)
  | block _ ho hc _ _ => exact .block (describable_of ho) (describable_of hc)
  | ref _ _ => exact .ref

theorem asNamed_describable {r : Rule} (h : OfText r) : Describable (asNamed r) := by
  cases r <;> first | exact h.elim | exact .char | exact .range | exact .chars | exact .str

theorem Held.parts {r : Rule} (h : Held r) {q : Rule} :
    (∀ {b}, r = .group b q → Held q) ∧ (∀ {b}, r = .option b q → Held q) ∧ (∀ {b mn mx}, r = .rep b q mn mx → Held q) ∧
    (∀ {b rs}, r = .concat b rs → q ∈ rs → Held q) ∧ (∀ {b gs}, r = .choice b gs → (∃ g ∈ gs, q ∈ g) → Held q) ∧
    (∀ {b v c x xs}, r = .block b q v c x xs → Held q) ∧ (∀ {b o v x xs}, r = .block b o v q x xs → Held q) := by
  obtain ⟨r0, n, h, rfl⟩ := h
  refine ⟨?_, ?_, ?_, ?_, ?_, ?_, ?_⟩
  case refine_5 =>
    rintro b gs hq ⟨g, hg, hqg⟩
    cases h <;> cases hq
    rename_i h _
    exact held_of (h g hg q hqg)
  all_goals intros; rename_i hq; cases h <;> simp_all [Rule.setName, Rule.setBase, held_of]

/-- The texts of errors can be made where the rules are as grammars hold them. -/
theorem message_ok {env : Env} (henv : ∀ n r, env n = some r → Held r) {r : Rule} {e : Err} (h : Explains env r e) (hr : Held r) :
    ∃ m, e.message = .ok m := by
  induction h with
  | eof => exact ⟨_, rfl⟩
  | atEOF h => obtain ⟨d, hd⟩ := desc_ok (asNamed_describable h); rw [Err.message, hd]; exact ⟨_, rfl⟩
  | missing h => obtain ⟨d, hd⟩ := desc_ok (asNamed_describable h); rw [Err.message, hd]; exact ⟨_, rfl⟩
  | group _ ih => exact ih (hr.parts.1 rfl)
  | option _ ih => exact ih (hr.parts.2.1 rfl)
  | ref hn _ ih => exact ih (henv _ _ hn)
  | undefined _ => exact ⟨_, rfl⟩
  | rep _ ih => exact ih (hr.parts.2.2.1 rfl)
  | tooFew _ => obtain ⟨d, hd⟩ := desc_ok hr.describable; rw [Err.message, hd]; exact ⟨_, rfl⟩
  | concat hm _ ih =>
    obtain ⟨d, hd⟩ := desc_ok hr.describable
    obtain ⟨m, hm⟩ := ih (hr.parts.2.2.2.1 rfl hm)
    rw [Err.message, hd, hm]; exact ⟨_, rfl⟩
  | choice hg hm _ ih =>
    obtain ⟨d, hd⟩ := desc_ok hr.describable
    obtain ⟨m, hm⟩ := ih (hr.parts.2.2.2.2.1 rfl ⟨_, hg, hm⟩)
    rw [Err.message, hd, hm]; exact ⟨_, rfl⟩
  | choiceNil =>
    obtain ⟨d, hd⟩ := desc_ok hr.describable
    rw [Err.message, hd]; exact ⟨_, rfl⟩
  | ambiguity => exact ⟨_, rfl⟩
  | opening _ ih => exact ih (hr.parts.2.2.2.2.2.1 rfl)
  | excluded _ => exact ⟨_, rfl⟩
  | missingClose => obtain ⟨d, hd⟩ := desc_ok (hr.parts.2.2.2.2.2.2 rfl).describable; rw [Err.message, hd]; exact ⟨_, rfl⟩

/-- In a grammar built by definitions, whatever calls failed on the way, making the text of an error of
`EvalRule` does not panic. -/
theorem C57_message {g : Grammar} (hg : DefCalls {} g) {fuel : Nat} {name : Name} {sample : List Rune} {res : Res} {e : Err}
    (h : g.evalRule fuel name sample = .ok res) (he : res.error = some e) : ∃ m, e.message = .ok m := by
  have held : ∀ n r, g.getRecord n = some r → Held r.rule := by
    intro n r hr
    obtain ⟨r0, h1, h2⟩ := C38_records hg r (List.mem_of_find?_eq_some hr)
    exact ⟨r0, r.name, h1, h2⟩
  rcases C57_explained_evalRule h he with ⟨_, rfl⟩ | ⟨r, hr, hx⟩
  · exact ⟨_, rfl⟩
  · refine message_ok ?_ hx (held _ _ hr)
    intro n q hq
    unfold Grammar.env at hq
    cases hr : g.getRecord n with
    | none => rw [hr] at hq; cases hq
    | some r' => rw [hr] at hq; cases hq; exact held _ _ hr

theorem message_told {env : Env} {r : Rule} {e : Err} (h : Explains env r e) {m : List Rune} (hm : e.message = .ok m) : ErrorText m := by
  induction h generalizing m with
  | eof => cases hm; exact .eof
  | atEOF _ =>
    obtain ⟨d, _, h⟩ := Exec.of_bind hm
    cases h; exact .atEOF
  | @missing r p _ =>
    obtain ⟨d, _, h⟩ := Exec.of_bind hm
    cases h
    cases p with
    | none =>
      have := @ErrorText.missing d 0 0
      simpa [showPos, show Spec.decimal 0 = [48] from by decide, runes] using this
    | some p =>
      have := @ErrorText.missing d p.line p.col
      simpa [showPos, percentD, Spec.decimal, runes] using this
  | group _ ih => exact ih hm
  | option _ ih => exact ih hm
  | ref _ _ ih => exact ih hm
  | undefined _ => cases hm; exact .undefined
  | rep _ ih => exact ih hm
  | tooFew hlt =>
    obtain ⟨d, _, h⟩ := Exec.of_bind hm
    cases h
    exact .tooFew hlt
  | concat _ _ ih =>
    obtain ⟨d, _, h⟩ := Exec.of_bind hm
    obtain ⟨m', h', h⟩ := Exec.of_bind h
    cases h
    exact .around (ih h')
  | choice _ _ _ ih =>
    obtain ⟨d, _, h⟩ := Exec.of_bind hm
    obtain ⟨m', h', h⟩ := Exec.of_bind h
    cases h
    exact .around (ih h')
  | choiceNil =>
    obtain ⟨d, _, h⟩ := Exec.of_bind hm
    obtain ⟨m', h', h⟩ := Exec.of_bind h
    cases h
    cases h'
    have := @ErrorText.nothing d
    simpa [runes] using this
  | @ambiguity b gs x y =>
    cases hm
    have := @ErrorText.ambiguity (if b.name = [] then runes "ambiguity found:" else runes "rule " ++ b.name ++ runes ": ambiguity found")
      (x.1 ++ runes ": " ++ x.2.map viaUTF8) (y.1 ++ runes ": " ++ y.2.map viaUTF8)
    simpa only [List.append_assoc] using this
  | opening _ ih => exact ih hm
  | excluded _ => cases hm; exact .excluded
  | missingClose =>
    obtain ⟨d, _, h⟩ := Exec.of_bind hm
    cases h; exact .atEOF

/-- The text of an error of `EvalRule` is of one of the forms of `ErrorText`; where it says that a number is
less than the minimum, it is. -/
theorem C57_text {g : Grammar} {fuel : Nat} {name : Name} {sample : List Rune} {res : Res} {e : Err} {m : List Rune}
    (h : g.evalRule fuel name sample = .ok res) (he : res.error = some e) (hm : e.message = .ok m) : ErrorText m := by
  rcases C57_explained_evalRule h he with ⟨_, rfl⟩ | ⟨r, _, hx⟩
  · cases hm; exact .undefined
  · exact message_told hx hm

/-- `A` is a text and at least three digits, `B` a letter and a comment, which is `z`. -/
def threeDigits : Grammar :=
  match Grammar.fromString 80 (runes "A=\"ab\" {'0'-'9'}<3,0>\nB=('x'|'y') z \nz=<'/*' '*/'>") with
  | .ok g _ => g
  | _ => {}

/-- The text of the error of `EvalRule`. -/
def told (g : Grammar) (name sample : String) : Option (List Rune) :=
  match g.evalRule 40 (runes name) (runes sample) with
  | .ok res =>
    match res.error.map Err.message with
    | some (.ok m) => some m
    | _ => none
  | _ => none

/-- The text does not always say what is missing: where no alternative comes further than the beginning
of the text, the error of a choice contains "%!s(<nil>)". -/
theorem C57_nil : told threeDigits "B" "w" = some (runes "B: 'x' and 'y': %!s(<nil>)") := by decide +kernel

/-- `C57_message` meets errors: a grammar made by two calls, and a sample its rule does not match. -/
example : DefCalls {} twoRules ∧ told twoRules "a" "z" = some (runes "a: missing b at L1:1") :=
  ⟨calls_trans (call_after 30 (runes "a = b 'x'") {}) (call_after 30 (runes "b = 'y'") firstRule), by decide +kernel⟩

/-- Without the grammar being built by definitions the claim is false: a choice of nothing has no
description, and making the text of its error panics. -/
example : (∃ x, eval (fun _ => none) 3 (.choice {} []) SUGGEST_SKIP (Stream.ofChars []) = .ok x ∧
      x.1.error = some (.inChoice (.choice {} []) .nil)) ∧
    (Err.inChoice (.choice {} []) .nil).message = .panic := ⟨⟨_, rfl, rfl⟩, by decide +kernel⟩

end Xbnf.Props
