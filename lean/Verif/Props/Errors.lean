import Verif.Spec.Error
import Verif.Lemmas.Safe
import Verif.Model.Grammar
/-
C32 and C47: errors.  A result without a node has an error, and an error that says a rule is not
defined says so of a rule that is not defined and that is referred to.
-/
namespace Xbnf.Props
open Spec

/-- If the computation returns, the result has the property. -/
def _root_.Xbnf.Exec.OnOk {α : Type} (P : α → Prop) : Exec α → Prop
  | .ok a => P a
  | _ => True

theorem _root_.Xbnf.Exec.OnOk.bind {α β : Type} {P : α → Prop} {Q : β → Prop} {x : Exec α} {f : α → Exec β}
    (h : x.OnOk P) (hf : ∀ a, P a → (f a).OnOk Q) : (x >>= f).OnOk Q := by
  cases x with
  | ok a => exact hf a h
  | panic => trivial
  | oof => trivial

theorem _root_.Xbnf.Exec.OnOk.mono {α : Type} {P Q : α → Prop} {x : Exec α} (h : x.OnOk P)
    (hpq : ∀ a, P a → Q a) : x.OnOk Q := by
  cases x with
  | ok a => exact hpq a h
  | panic => trivial
  | oof => trivial

/-- A result without a node has an error; an error mentions as undefined only names in `U`. -/
structure Told (U : Name → Prop) (res : Res) : Prop where
  error : res.node = none → res.error ≠ none
  names : ∀ e n, res.error = some e → Mentions e n → U n

theorem told_plain {U : Name → Prop} {res : Res} {e : Err} (he : res.error = some e) (hm : ∀ n, ¬ Mentions e n) : Told U res :=
  ⟨fun _ => by rw [he]; simp, fun e' n h1 h2 => by rw [he] at h1; cases h1; exact absurd h2 (hm n)⟩

theorem told_none {U : Name → Prop} {res : Res} (hn : res.node ≠ none) (he : res.error = none) : Told U res :=
  ⟨fun h => absurd h hn, fun e n h => by rw [he] at h; cases h⟩

def EvTold (env : Env) (ev : Evaluator) : Prop :=
  ∀ r flag s, (ev r flag s).OnOk (fun x => Told (fun n => env n = none ∧ RefersTo env r n) x.1)

theorem evalEOF_told (U : Name → Prop) (b : RuleBase) (flag : Int) (s : Stream) : Told U (evalEOF b flag s).1 := by
  unfold evalEOF
  simp only
  generalize (if flag = SUGGEST_SKIP then s.skipSpaces else ([], s)) = sk
  split
  · exact told_none (by simp) rfl
  · exact told_plain rfl (fun n h => by cases h)

theorem evalChar_told (U : Name → Prop) (b : RuleBase) (t : Rune) (flag : Int) (s : Stream) : Told U (evalChar b t flag s).1 := by
  unfold evalChar
  split
  · exact told_plain rfl (fun n h => by cases h)
  · simp only
    generalize (if flag = SUGGEST_SKIP then s.position.2.skipSpaces else ([], s.position.2)) = sk
    split
    · split
      · exact told_none (by simp) rfl
      · exact told_plain rfl (fun n h => by cases h)
    · split
      · exact told_plain rfl (fun n h => by cases h)
      · exact told_none (by simp) rfl

theorem evalRange_told (U : Name → Prop) (b : RuleBase) (x y : Rune) (flag : Int) (s : Stream) : Told U (evalRange b x y flag s).1 := by
  unfold evalRange
  split
  · exact told_plain rfl (fun n h => by cases h)
  · simp only
    generalize (if flag = SUGGEST_SKIP then s.skipSpaces else ([], s)) = sk
    split
    · exact told_none (by simp) rfl
    · split
      · exact told_none (by simp) rfl
      · exact told_plain rfl (fun n h => by cases h)

theorem evalChars_told (U : Name → Prop) (b : RuleBase) (t : List Rune) (flag : Int) (s : Stream) : Told U (evalChars b t flag s).1 := by
  unfold evalChars
  split
  · exact told_plain rfl (fun n h => by cases h)
  · simp only
    split
    · exact told_none (by simp) rfl
    · exact told_plain rfl (fun n h => by cases h)

theorem evalString_told (U : Name → Prop) (b : RuleBase) (t : List Rune) (flag : Int) (s : Stream) : Told U (evalString b t flag s).1 := by
  unfold evalString
  split
  · exact told_plain rfl (fun n h => by cases h)
  · simp only
    split
    · exact told_none (by simp) rfl
    · exact told_plain rfl (fun n h => by cases h)

theorem all_trivial {α : Type} (x : Exec α) : x.OnOk (fun _ => True) := by
  cases x <;> trivial

theorem mentions_getD {o : Option Err} {n : Name} (h : Mentions (o.getD .nil) n) : ∃ e, o = some e ∧ Mentions e n := by
  cases o with
  | none => cases h
  | some e => exact ⟨e, rfl, h⟩

theorem concatLoop_told {U : Name → Prop} {ev : Evaluator} (b : Rule) : ∀ (rs : List Rule)
    (_ : ∀ r ∈ rs, ∀ flag s, (ev r flag s).OnOk (fun x => Told U x.1)) (st : SeqState) (s : Stream),
    (concatLoop ev b rs st s).OnOk (fun x => Told U x.1)
  | [], _, st, s => by
    unfold concatLoop
    exact told_none (by simp) rfl
  | r :: rs, h, st, s => by
    unfold concatLoop
    refine Exec.OnOk.bind (h r List.mem_cons_self st.flag _) ?_
    rintro ⟨res, cs⟩ hr
    refine Exec.OnOk.bind (all_trivial _) ?_
    rintro ⟨read, unused⟩ _
    simp only
    cases hn : res.node with
    | none =>
      refine ⟨fun _ => by simp, ?_⟩
      intro e n he hm
      simp only [Option.some.injEq] at he
      subst he
      cases hm with
      | inConcat hm =>
        obtain ⟨e, he, hm⟩ := mentions_getD hm
        exact hr.names e n he hm
    | some n =>
      simp only
      refine Exec.OnOk.bind (concatLoop_told b rs (fun r hr => h r (List.mem_cons_of_mem _ hr)) _ _) ?_
      rintro ⟨out, cs⟩ ho
      exact ho

theorem repLoop_told {U : Name → Prop} {ev : Evaluator} {r : Rule} (h : ∀ flag s, (ev r flag s).OnOk (fun x => Told U x.1)) (mx : Nat) :
    ∀ (fuel : Nat) (st : SeqState) (s : Stream), (repLoop ev r mx fuel st s).OnOk (fun x => ∀ w, x.2.1 = some w → Told U w)
  | 0, _, _ => trivial
  | fuel + 1, st, s => by
    unfold repLoop
    simp only
    split
    · intro w hw; cases hw
    · refine Exec.OnOk.bind (h st.flag _) ?_
      rintro ⟨res, cs⟩ hr
      refine Exec.OnOk.bind (all_trivial _) ?_
      rintro ⟨read, unused⟩ _
      simp only
      cases hn : res.node with
      | none =>
        intro w hw
        simp only [Option.some.injEq] at hw
        exact hw ▸ hr
      | some n =>
        simp only
        split
        · intro w hw; cases hw
        · refine Exec.OnOk.bind (repLoop_told h mx fuel _ _) ?_
          rintro ⟨out, why, cs⟩ ho
          exact ho

theorem repFinish_told {U : Name → Prop} (b : Rule) (mn : Nat) (st : SeqState) (why : Option Res) (s : Stream)
    (h : ∀ w, why = some w → Told U w) : Told U (repFinish b mn st why s) := by
  have hb : ∀ e n, why.bind (·.error) = some e → Mentions e n → U n := by
    intro e n he hm
    cases why with
    | none => cases he
    | some w => exact (h w rfl).names e n he hm
  unfold repFinish
  simp only
  split
  · refine ⟨fun _ => by simp, ?_⟩
    intro e n he hm
    simp only [Option.some.injEq] at he
    cases hw : why.bind (·.error) with
    | none =>
      rw [hw] at he
      rw [← he] at hm
      cases hm
    | some e' =>
      rw [hw] at he
      simp only [Option.getD_some] at he
      subst he
      exact hb _ n hw hm
  · exact ⟨(fun h => by cases h), hb⟩

theorem choiceGroup_told {U : Name → Prop} {ev : Evaluator} (flag : Int) : ∀ (rs : List Rule)
    (_ : ∀ r ∈ rs, ∀ flag s, (ev r flag s).OnOk (fun x => Told U x.1)) (st : ChoiceState)
    (_ : ∀ e n, st.maxErr = some e → Mentions e n → U n) (s : Stream),
    (choiceGroup ev flag rs st s).OnOk (fun x => (∀ m ∈ x.1, m.node ≠ none) ∧ ∀ e n, x.2.1.maxErr = some e → Mentions e n → U n)
  | [], _, st, hst, s => by
    unfold choiceGroup
    exact ⟨(fun _ h => by cases h), hst⟩
  | r :: rs, h, st, hst, s => by
    unfold choiceGroup
    refine Exec.OnOk.bind (h r List.mem_cons_self flag _) ?_
    rintro ⟨res, cs⟩ hr
    simp only
    have hrs := fun r hr => h r (List.mem_cons_of_mem _ hr)
    cases hn : res.node with
    | some n =>
      simp only
      refine Exec.OnOk.bind (choiceGroup_told flag rs hrs _ (by exact hst) _) ?_
      rintro ⟨ms, st', s'⟩ ⟨g1, g2⟩
      refine ⟨?_, g2⟩
      intro m hm
      rcases List.mem_cons.1 hm with rfl | hm
      · rw [hn]; simp
      · exact g1 m hm
    | none =>
      simp only
      split
      · exact choiceGroup_told flag rs hrs _ (by exact hr.names) _
      · exact choiceGroup_told flag rs hrs _ (by exact hst) _

theorem pickLoop_in : ∀ (rs : List Res) (m : Int) (best : Option Res) (r : Res), pickLoop m best rs = .found r → r ∈ rs ∨ best = some r
  | [], m, none, r, h => by cases h
  | [], m, some b, r, h => by cases h; exact .inr rfl
  | x :: rs, m, best, r, h => by
    rw [pickLoop] at h
    split at h
    · rcases pickLoop_in rs _ _ _ h with h | h
      · exact .inl (List.mem_cons_of_mem _ h)
      · exact .inr h
    · split at h
      · cases h
      · rcases pickLoop_in rs _ _ _ h with h | h
        · exact .inl (List.mem_cons_of_mem _ h)
        · cases h; exact .inl List.mem_cons_self

theorem pick_in {rs : List Res} {r : Res} (h : pick rs = .found r) : r ∈ rs := by
  unfold pick at h
  split at h
  · cases h
  · cases h; exact List.mem_cons_self
  · rcases pickLoop_in _ _ _ _ h with h | h
    · exact h
    · cases h

theorem choiceLoop_told {U : Name → Prop} {ev : Evaluator} (b : Rule) (flag : Int) : ∀ (gs : List (List Rule))
    (_ : ∀ g ∈ gs, ∀ r ∈ g, ∀ flag s, (ev r flag s).OnOk (fun x => Told U x.1)) (st : ChoiceState)
    (_ : ∀ e n, st.maxErr = some e → Mentions e n → U n) (s : Stream),
    (choiceLoop ev b flag gs st s).OnOk (fun x => Told U x.1)
  | [], _, st, hst, s => by
    unfold choiceLoop
    refine ⟨fun _ => by simp, ?_⟩
    intro e n he hm
    simp only [Option.some.injEq] at he
    subst he
    cases hm with
    | inChoice hm =>
      obtain ⟨e, he, hm⟩ := mentions_getD hm
      exact hst e n he hm
  | g :: gs, h, st, hst, s => by
    unfold choiceLoop
    refine Exec.OnOk.bind (choiceGroup_told flag g (h g List.mem_cons_self) st hst s) ?_
    rintro ⟨ms, st', s'⟩ ⟨g1, g2⟩
    simp only
    cases hp : pick ms with
    | none => exact choiceLoop_told b flag gs (fun g hg => h g (List.mem_cons_of_mem _ hg)) _ g2 _
    | ambiguous => exact told_plain rfl (fun n h => by cases h)
    | found r =>
      simp only
      refine Exec.OnOk.bind (all_trivial _) ?_
      intro unused _
      have := g1 r (pick_in hp)
      refine told_none ?_ rfl
      simpa using this

theorem evalBlock_told {U : Name → Prop} {ev : Evaluator} (fuel : Nat) (b : RuleBase) (opn : Rule) (v : Bool) (close : Rule)
    (escape : Option Rule) (excludes : List Rule) (flag : Int) (s : Stream)
    (h : ∀ flag s, (ev opn flag s).OnOk (fun x => Told U x.1)) :
    (evalBlock ev fuel b opn v close escape excludes flag s).OnOk (fun x => Told U x.1) := by
  unfold evalBlock
  refine Exec.OnOk.bind (h flag s) ?_
  rintro ⟨ro, s⟩ hr
  simp only
  cases hn : ro.node with
  | none => exact ⟨fun _ => hr.error hn, hr.names⟩
  | some n =>
    simp only
    refine Exec.OnOk.bind (all_trivial _) ?_
    intro used _
    refine Exec.OnOk.bind (all_trivial _) ?_
    rintro ⟨e, cs⟩ _
    cases e with
    | excluded read => exact told_plain rfl (fun n h => by cases h)
    | eof used unused => exact told_plain rfl (fun n h => by cases h)
    | closed used unused rc content => exact told_none (by simp) rfl

theorem refersTo_sub {env : Env} {r q : Rule} (h : ∀ n ∈ refs q, n ∈ refs r) {n : Name} (hn : RefersTo env q n) : RefersTo env r n := by
  cases hn with
  | direct h1 => exact .direct (h _ h1)
  | via h1 h2 h3 => exact .via (h _ h1) h2 h3

theorem Told.mono {U V : Name → Prop} (hUV : ∀ n, U n → V n) {res : Res} (h : Told U res) : Told V res :=
  ⟨h.error, fun e n h1 h2 => hUV n (h.names e n h1 h2)⟩

theorem mem_refsL {r : Rule} {n : Name} : ∀ {rs : List Rule}, r ∈ rs → n ∈ refs r → n ∈ refsL rs
  | [], h, _ => by cases h
  | q :: rs, h, hn => by
    rw [refsL, List.mem_append]
    rcases List.mem_cons.1 h with rfl | h
    · exact .inl hn
    · exact .inr (mem_refsL h hn)

theorem mem_refsLL {g : List Rule} {r : Rule} {n : Name} : ∀ {gs : List (List Rule)}, g ∈ gs → r ∈ g → n ∈ refs r → n ∈ refsLL gs
  | [], h, _, _ => by cases h
  | q :: gs, h, hr, hn => by
    rw [refsLL, List.mem_append]
    rcases List.mem_cons.1 h with rfl | h
    · exact .inl (mem_refsL hr hn)
    · exact .inr (mem_refsLL h hr hn)

theorem eval_told (env : Env) : ∀ fuel, EvTold env (eval env fuel)
  | 0, _, _, _ => trivial
  | fuel + 1, rule, flag, s => by
    have ih := eval_told env fuel
    have sub : ∀ {q : Rule}, (∀ n ∈ refs q, n ∈ refs rule) → ∀ flag s,
        (eval env fuel q flag s).OnOk (fun x => Told (fun n => env n = none ∧ RefersTo env rule n) x.1) :=
      fun hq flag s => (ih _ flag s).mono (fun _ hx => hx.mono (fun n hn => ⟨hn.1, refersTo_sub hq hn.2⟩))
    cases rule with
    | eof b => exact evalEOF_told _ b flag s
    | char b t u => exact evalChar_told _ b t flag s
    | range b x xu y yu => exact evalRange_told _ b x y flag s
    | chars b t => exact evalChars_told _ b t flag s
    | str b t => exact evalString_told _ b t flag s
    | group b r =>
      refine Exec.OnOk.bind (sub (q := r) (fun n hn => by rw [refs]; exact hn) flag s) ?_
      rintro ⟨res, s'⟩ hr
      show Told _ (groupRes b res)
      unfold groupRes
      cases hn : res.node with
      | none => exact ⟨fun _ => hr.error hn, hr.names⟩
      | some n => exact ⟨(fun h => by cases h), hr.names⟩
    | option b r =>
      refine Exec.OnOk.bind (sub (q := r) (fun n hn => by rw [refs]; exact hn) flag s) ?_
      rintro ⟨res, s'⟩ hr
      show Told _ (optionRes b res)
      unfold optionRes
      cases hn : res.node with
      | none => exact ⟨(fun h => by cases h), hr.names⟩
      | some n => exact ⟨(fun h => by cases h), hr.names⟩
    | rep b r mn mx =>
      show Exec.OnOk _ (evalRep _ _ _ _ _ _ _ _)
      unfold evalRep
      refine Exec.OnOk.bind (repLoop_told (sub (q := r) (fun n hn => by rw [refs]; exact hn)) mx fuel _ s) ?_
      rintro ⟨st, why, s'⟩ hw
      exact repFinish_told _ mn st why s' hw
    | choice b gs =>
      exact choiceLoop_told _ flag gs (fun g hg r hr => sub (q := r) (fun n hn => by rw [refs]; exact mem_refsLL hg hr hn)) {}
        (fun e n he => by cases he) s
    | concat b rs =>
      exact concatLoop_told _ rs (fun r hr => sub (q := r) (fun n hn => by rw [refs]; exact mem_refsL hr hn)) _ s
    | block b o v c e x =>
      exact evalBlock_told fuel b o v c e x flag s (sub (q := o) (fun n hn => by
        rw [refs]; simp only [List.mem_append]; exact .inl (.inl (.inl hn))))
    | ref b name =>
      show Exec.OnOk _ (match env name with
        | none => Exec.ok ({ error := some (.undefined b name) }, s)
        | some r => do
          let (res, s) ← eval env fuel r flag s
          .ok (refRes b res, s))
      cases hr : env name with
      | none =>
        refine ⟨fun _ => by simp, ?_⟩
        intro e n he hm
        simp only [Option.some.injEq] at he
        subst he
        cases hm
        exact ⟨hr, .direct (by simp [refs])⟩
      | some r =>
        refine Exec.OnOk.bind (ih r flag s) ?_
        rintro ⟨res, s'⟩ ht
        have ht := ht.mono (V := fun n => env n = none ∧ RefersTo env (.ref b name) n) (fun n hn => ⟨hn.1, .via (by simp [refs]) hr hn.2⟩)
        show Told _ (refRes b res)
        unfold refRes
        cases hn : res.node with
        | none => exact ht
        | some n => exact ⟨(fun h => by cases h), ht.names⟩

/-- Whatever a rule is evaluated on, a result without a node comes with an error. -/
theorem C47_error_reported (g : Grammar) (fuel : Nat) (name : Name) (sample : List Rune) (res : Res)
    (h : g.evalRule fuel name sample = .ok res) (hn : res.node = none) : res.error ≠ none := by
  unfold Grammar.evalRule at h
  split at h
  · cases h; simp
  · rename_i r hr
    have := eval_told g.env fuel r.rule SUGGEST_SKIP (Stream.ofChars sample)
    cases he : eval g.env fuel r.rule SUGGEST_SKIP (Stream.ofChars sample) with
    | oof => rw [he] at h; cases h
    | panic => rw [he] at h; cases h
    | ok x =>
      rw [he] at h this
      have hh : Exec.ok x.1 = Exec.ok res := h
      cases hh
      exact this.error hn

/-- An error about an undefined rule is true: the rule named is not defined, and it is the rule asked
for or one that it refers to, directly or through other rules. -/
theorem C32_undefined_true (g : Grammar) (fuel : Nat) (name : Name) (sample : List Rune) (res : Res)
    (h : g.evalRule fuel name sample = .ok res) (e : Err) (n : Name) (he : res.error = some e) (hm : Mentions e n) :
    g.getRecord n = none ∧ (n = name ∨ ∃ r, g.getRecord name = some r ∧ RefersTo g.env r.rule n) := by
  unfold Grammar.evalRule at h
  split at h
  · rename_i hr
    cases h
    cases he
    cases hm
    exact ⟨hr, .inl rfl⟩
  · rename_i r hr
    have := eval_told g.env fuel r.rule SUGGEST_SKIP (Stream.ofChars sample)
    cases hx : eval g.env fuel r.rule SUGGEST_SKIP (Stream.ofChars sample) with
    | oof => rw [hx] at h; cases h
    | panic => rw [hx] at h; cases h
    | ok x =>
      rw [hx] at h this
      have hh : Exec.ok x.1 = Exec.ok res := h
      cases hh
      obtain ⟨h1, h2⟩ := this.names e n he hm
      refine ⟨?_, .inr ⟨r, hr, h2⟩⟩
      unfold Grammar.env at h1
      simpa using h1

end Xbnf.Props
