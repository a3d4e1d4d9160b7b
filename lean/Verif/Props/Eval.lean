import Verif.Props.Streams
import Verif.Lemmas.Conform
/-
Properties of evaluation that hold for every rule and every input: C10, C11, C15, C19, C41, C42.
-/
namespace Xbnf.Props
open Spec

/-- A stream that can be evaluated on: cursors within bounds, only code points left, a right line
table.  Every stream a program can build is one, and evaluation keeps it so (`C42`). -/
structure Ready (s : Stream) : Prop where
  wf : s.WF
  valid : Valid s.rem
  lines : s.LinesOK

theorem Built.ready {s : Stream} (h : Built s) : Ready s := ⟨h.ok.1, h.ok.2.1, h.ok.2.2⟩

theorem ready_ofChars {text : List Rune} (h : Valid text) : Ready (Stream.ofChars text) :=
  (Built.ofChars text h).ready

theorem rem_ofChars (text : List Rune) : (Stream.ofChars text).rem = text := by
  simp [Stream.ofChars, Stream.rem, Base.ofChars]

theorem eval_list {env : Env} {fuel : Nat} {r : Rule} {flag : Int} {s s' : Stream} {res : Res}
    (h : s.WF) (he : eval env fuel r flag s = .ok (res, s')) :
    ∃ k, L.eval env fuel r flag s.rem = .ok (res.core, k) ∧ Adv k s s' := by
  have := eval_sim env fuel r flag s h
  rw [he] at this
  cases hl : L.eval env fuel r flag s.rem with
  | ok y =>
    rw [hl] at this
    exact ⟨y.2, by rw [show res.core = y.1 from this.1], this.2⟩
  | panic => rw [hl] at this; exact this.elim
  | oof => rw [hl] at this; exact this.elim

theorem list_eval {env : Env} {fuel : Nat} {r : Rule} {flag : Int} {s : Stream} {x : Res × Nat}
    (h : s.WF) (he : L.eval env fuel r flag s.rem = .ok x) :
    ∃ res s', eval env fuel r flag s = .ok (res, s') ∧ res.core = x.1 ∧ Adv x.2 s s' := by
  have := eval_sim env fuel r flag s h
  rw [he] at this
  cases hl : eval env fuel r flag s with
  | ok y =>
    rw [hl] at this
    exact ⟨y.1, y.2, rfl, this.1, this.2⟩
  | panic => rw [hl] at this; exact this.elim
  | oof => rw [hl] at this; exact this.elim

/-! ## C19 -/

/-- No evaluation of any rule, in any grammar, on any stream, panics. -/
theorem C19_eval_never_panics (env : Env) (fuel : Nat) (r : Rule) (flag : Int) (s : Stream)
    (h : s.WF) : eval env fuel r flag s ≠ .panic := by
  intro he
  have h1 := eval_sim env fuel r flag s h
  have h2 := L.eval_safe (S := fun _ => True) trivial env fuel r flag s.rem (fun _ _ => trivial)
  rw [he] at h1
  cases hl : L.eval env fuel r flag s.rem with
  | ok y => rw [hl] at h1; exact h1
  | panic => rw [hl] at h2; exact h2
  | oof => rw [hl] at h1; exact h1

theorem embedLoop_no_panic (env : Env) (fuel : Nat) (rule : Rule) (n : Nat) (kids : List Node)
    (text : List Rune) (s : Stream) (h : s.WF) :
    Grammar.embedLoop env fuel rule n kids text s ≠ .panic := by
  induction n generalizing kids text s with
  | zero => simp [Grammar.embedLoop]
  | succ n ih =>
    simp only [Grammar.embedLoop]
    cases he : eval env fuel rule NOT_SKIP s with
    | panic => exact absurd he (C19_eval_never_panics env fuel rule NOT_SKIP s h)
    | oof => intro hc; cases hc
    | ok y =>
      obtain ⟨res, cs⟩ := y
      obtain ⟨k, _, ha⟩ := eval_list h he
      have hw := Stream.wf_pushBack ha.wf.2 res.unused
      rw [Exec.ok_bind]
      simp only
      split
      · split
        · intro hc; cases hc
        · exact ih _ _ _ (Stream.next_spec hw).2.wf.2
      · exact ih _ _ _ hw

/-- `EvalRule` and `EvalEmbed` never panic. -/
theorem C19_evalRule_never_panics (g : Grammar) (fuel : Nat) (name : Name) (sample : List Rune) :
    g.evalRule fuel name sample ≠ .panic := by
  unfold Grammar.evalRule
  split
  · intro hc; cases hc
  · rename_i r _
    cases he : eval g.env fuel r.rule SUGGEST_SKIP (Stream.ofChars sample) with
    | panic =>
      exact absurd he (C19_eval_never_panics _ _ _ _ _ (Nat.zero_le _))
    | oof => intro hc; cases hc
    | ok y => intro hc; cases hc

theorem C19_evalEmbed_never_panics (g : Grammar) (fuel : Nat) (name : Name) (sample : List Rune) :
    g.evalEmbed fuel name sample ≠ .panic := by
  unfold Grammar.evalEmbed
  split
  · intro hc; cases hc
  · rename_i r _
    have := embedLoop_no_panic g.env fuel r.rule fuel [] [] (Stream.ofChars sample) (Nat.zero_le _)
    cases he : Grammar.embedLoop g.env fuel r.rule fuel [] [] (Stream.ofChars sample) with
    | panic => exact absurd he this
    | oof => intro hc; cases hc
    | ok y => intro hc; cases hc

theorem eval_res_le {env : Env} {fuel : Nat} {r : Rule} {flag : Int} {s s' : Stream} {res : Res}
    (h : s.WF) (he : eval env fuel r flag s = .ok (res, s')) :
    res.unused.length ≤ res.read.length := by
  obtain ⟨k, hl, _⟩ := eval_list h he
  have := (L.eval_safe (S := fun _ => True) trivial env fuel r flag s.rem
    (fun _ _ => trivial)).of_ok hl
  exact this.1.le

theorem rootsLoop_all (env : Env) (fuel : Nat) (flag : Int) (rs : List Record)
    (maxRead : List Rune) (cs : Stream) (h : cs.WF) :
    (Grammar.rootsLoop env fuel flag rs maxRead cs).All (fun x =>
      (∀ r ∈ x.1, r.unused.length ≤ r.read.length ∧ r.read.length ≤ x.2.1.length) ∧
      maxRead.length ≤ x.2.1.length ∧ ∃ k, Adv k cs x.2.2) := by
  induction rs generalizing maxRead cs with
  | nil =>
    exact ⟨by intro r hr; simp at hr, Nat.le_refl _, 0, Adv.refl h⟩
  | cons r rs ih =>
    simp only [Grammar.rootsLoop]
    have hw := Stream.wf_pushBack h maxRead
    cases he : eval env fuel r.rule flag (cs.pushBack maxRead) with
    | panic => exact absurd he (C19_eval_never_panics _ _ _ _ _ hw)
    | oof => trivial
    | ok y =>
      obtain ⟨res, cs'⟩ := y
      obtain ⟨k, _, ha⟩ := eval_list hw he
      have hle := eval_res_le hw he
      rw [Exec.ok_bind]
      refine Exec.All.bind (ih _ cs' ha.wf.2) ?_
      rintro ⟨ms, m, cs''⟩ ⟨h1, h2, k2, h3⟩
      simp only at h1 h2 h3
      refine ⟨?_, ?_, _, (ha.trans h3).popBack⟩
      · intro x hx
        have hx : x = res ∨ x ∈ ms := by
          revert hx
          simp only
          split
          · intro hx; simpa using hx
          · intro hx; exact Or.inr hx
        rcases hx with rfl | hx
        · refine ⟨hle, ?_⟩
          simp only
          split at h2 <;> omega
        · exact h1 x hx
      · simp only
        split at h2 <;> omega

theorem rawLoop_no_panic (env : Env) (fuel : Nat) (roots : List Record) (sch : Grammar.Sched)
    (hs : sch.Fair) (n i : Nat) (nodes : List Node) (flag : Int) (unused : List Rune) (s : Stream)
    (h : s.WF) : Grammar.rawLoop env fuel roots sch n i nodes flag unused s ≠ .panic := by
  induction n generalizing i nodes flag unused s with
  | zero => intro hc; cases hc
  | succ n ih =>
    simp only [Grammar.rawLoop]
    split
    · intro hc; cases hc
    · have hw := Stream.wf_pushBack h unused
      have := rootsLoop_all env fuel flag (sch.roots i roots) [] (s.pushBack unused) hw
      cases he : Grammar.rootsLoop env fuel flag (sch.roots i roots) [] (s.pushBack unused) with
      | panic => rw [he] at this; exact this.elim
      | oof => intro hc; cases hc
      | ok y =>
        obtain ⟨ms, m, cs⟩ := y
        rw [he] at this
        obtain ⟨h1, _, k, h3⟩ := this
        rw [Exec.ok_bind]
        simp only at h1 h3 ⊢
        cases hp : pick (sch.matched i ms) with
        | none => intro hc; cases hc
        | ambiguous => intro hc; cases hc
        | found r =>
          have hm := (hs.2 i ms).mem_iff.1 (L.pick_mem hp)
          have hr := h1 r hm
          simp only
          rw [Res.countUsed_eq hr.1, sliceFrom_all _ _ (by simp only [Res.used]; omega),
            Exec.ok_bind]
          exact ih _ _ _ _ _ h3.popBack.wf.2

/-- `EvalRaw` and `Eval` never panic, whatever order Go visits its maps in. -/
theorem C19_evalRaw_never_panics (g : Grammar) (fuel : Nat) (sch : Grammar.Sched) (hs : sch.Fair)
    (s : Stream) (h : s.WF) (level : Int) :
    g.evalRaw fuel sch s ≠ .panic ∧ g.evalAST fuel sch s level ≠ .panic := by
  have h1 : g.evalRaw fuel sch s ≠ .panic := by
    unfold Grammar.evalRaw
    split
    · intro hc; cases hc
    · exact rawLoop_no_panic _ _ _ _ hs _ _ _ _ _ _ h
  refine ⟨h1, ?_⟩
  unfold Grammar.evalAST
  cases he : g.evalRaw fuel sch s with
  | panic => exact absurd he h1
  | oof => intro hc; cases hc
  | ok y => intro hc; cases hc

/-- What a caller sees of an evaluation, for the examples: text and number of children of the node,
characters read, unused, left. -/
def seen (x : Exec (Res × Stream)) :
    Option (Option (List Rune × Nat) × List Rune × List Rune × List Rune) :=
  match x with
  | .ok (r, s) => some (r.node.map (fun n => (n.text, n.children.length)), r.read, r.unused, s.rem)
  | _ => none

/-- No rules. -/
def noRules : Env := fun _ => none

/-- Non-vacuity: an evaluation that slices what it read. -/
example : seen (eval noRules 9 (.concat {} [.choice {} [[.chars {} (runes "a"), .chars {} (runes "abx")]],
      .chars {} (runes "b")]) SUGGEST_SKIP (Stream.ofChars (runes " abc"))) =
    some (some (runes "ab", 2), runes " abc", runes "c", []) := by decide +kernel

/-! ## C10

Full statement: every tree an evaluation returns conforms to its rule, with the characters of a
range lying between its ends.  It is false for ranges (`C10_counterexample`, the defect of C17): a
white space character above both ends is accepted where white space may be skipped. -/

theorem node_conforms {env : Env} {fuel : Nat} {r : Rule} {flag : Int} {s s' : Stream} {res : Res}
    {n : Node} {S : Rune → Prop} {inR : Rune → Rune → Rune → Prop} (h : s.WF)
    (hS : ∀ c ∈ s.rem, S c) (hE : S EOFChar) (h1 : ∀ x y c, x ≤ c → c ≤ y → inR x y c)
    (h2 : ∀ x y c, S c → isWhiteSpace c = true → x ≤ c → y ≤ c → inR x y c)
    (he : eval env fuel r flag s = .ok (res, s')) (hn : res.node = some n) :
    Conforms env inR r n := by
  obtain ⟨k, hl, _⟩ := eval_list h he
  have := (L.eval_good hE h1 h2 env fuel r flag s.rem hS).of_ok hl
  exact (this.2 n.erase (by simp [Res.core, hn])).shape n (Node.erase_erase n).symm

/-- The tree has the shape its rule asks for at every depth.  (What is missing from the full claim:
a range may also have matched a white space character of the input above both its ends.) -/
theorem C10_tree_follows_grammar_partial {env : Env} {fuel : Nat} {r : Rule} {flag : Int}
    {s s' : Stream} {res : Res} {n : Node} (h : Ready s)
    (he : eval env fuel r flag s = .ok (res, s')) (hn : res.node = some n) :
    Conforms env (fun first last c => (first ≤ c ∧ c ≤ last) ∨
      (c ∈ s.rem ∧ isWhiteSpace c = true ∧ first ≤ c ∧ last ≤ c)) r n := by
  refine node_conforms (S := fun c => c ∈ s.rem ∨ c = EOFChar) h.wf (fun c hc => .inl hc) (.inr rfl)
    (fun x y c h1 h2 => .inl ⟨h1, h2⟩) ?_ he hn
  intro x y c hc hw h1 h2
  rcases hc with hc | rfl
  · exact .inr ⟨hc, hw, h1, h2⟩
  · simp [eof_not_space] at hw

theorem ws_small {c : Rune} (hw : isWhiteSpace c = true) (h : c ≠ 0x85) (h' : c < 0xA0) :
    c ≤ 32 := by
  have := (C03_whitespace_table c).1 hw
  unfold Rune at *
  omega

/-- Without the exotic white space characters (U+0085 and U+00A0 or above) and with ranges that
begin above the blank, the full claim holds. -/
theorem C10_tree_follows_grammar_plain_partial {env : Env} {fuel : Nat} {r : Rule} {flag : Int}
    {s s' : Stream} {res : Res} {n : Node} (h : Ready s)
    (hplain : ∀ c ∈ s.rem, isWhiteSpace c = true → c ≤ 32)
    (he : eval env fuel r flag s = .ok (res, s')) (hn : res.node = some n) :
    Conforms env (fun first last c => (first ≤ c ∧ c ≤ last) ∨ first ≤ 32) r n := by
  refine node_conforms (S := fun c => c ∈ s.rem ∨ c = EOFChar) h.wf (fun c hc => .inl hc) (.inr rfl)
    (fun x y c h1 h2 => .inl ⟨h1, h2⟩) ?_ he hn
  intro x y c hc hw h1 h2
  rcases hc with hc | rfl
  · have := hplain c hc hw
    exact .inr (by unfold Rune at *; omega)
  · simp [eof_not_space] at hw

/-- The digit range `'0'-'9'`. -/
def digit : Rule := .range {} 48 false 57 false

/-- `'0'-'9'` on a no-break space returns a tree that does not follow the grammar. -/
theorem C10_counterexample :
    ∃ res s' n, eval noRules 1 digit SUGGEST_SKIP (Stream.ofChars [0xA0]) = .ok (res, s') ∧
      res.node = some n ∧
      ¬ Conforms noRules (fun first last c => first ≤ c ∧ c ≤ last) digit n := by
  refine ⟨_, _, _, rfl, rfl, ?_⟩
  intro h
  unfold digit at h
  cases h with
  | range hm hl hr =>
    have hc := hl.chars
    simp only [leafNode, List.cons.injEq, and_true] at hc
    subst hc
    exact absurd hr (by decide)

/-- Non-vacuity: a repetition of digits inside a named concatenation. -/
example : seen (eval noRules 9 (.concat {} [.rep {} digit 1 0, .option {} (.chars {} (runes "m"))])
      SUGGEST_SKIP (Stream.ofChars (runes " 427m"))) =
    some (some (runes "427m", 2), runes " 427m", [], []) := by decide +kernel

/-! ## C11 -/

/-- An option rule always returns a node: with the inner node as its only child if the inner rule
matched, else with no child; the characters read and unused are those of the inner rule. -/
theorem C11_option_never_fails {env : Env} {fuel : Nat} {b : RuleBase} {r : Rule} {flag : Int}
    {s s' : Stream} {res : Res} (he : eval env fuel (.option b r) flag s = .ok (res, s')) :
    ∃ fuel' inner n, eval env fuel' r flag s = .ok (inner, s') ∧ res.node = some n ∧
      n.children = inner.node.toList ∧ res.read = inner.read ∧ res.unused = inner.unused := by
  cases fuel with
  | zero => cases he
  | succ fuel =>
    simp only [eval] at he
    cases hi : eval env fuel r flag s with
    | panic => rw [hi] at he; cases he
    | oof => rw [hi] at he; cases he
    | ok y =>
      rw [hi, Exec.ok_bind] at he
      simp only [Exec.ok.injEq, Prod.mk.injEq] at he
      obtain ⟨h1, h2⟩ := he
      subst h1 h2
      refine ⟨fuel, y.1, ?_⟩
      unfold optionRes
      cases hn : y.1.node with
      | none => exact ⟨_, hi, rfl, rfl, rfl, rfl⟩
      | some m => exact ⟨_, hi, rfl, rfl, rfl, rfl⟩

theorem concatLoop_never (ev : L.Ev) (b : RuleBase) (rs : List Rule)
    (h : ∀ r ∈ rs, ∀ flag l x, ev r flag l = .ok x → x.1.node.isSome) (st : SeqState)
    (l : List Rune) (x) (he : L.concatLoop ev b rs st l = .ok x) : x.1.node.isSome := by
  induction rs generalizing st l x with
  | nil => simp only [L.concatLoop, Exec.ok.injEq] at he; subst he; rfl
  | cons r rs ih =>
    simp only [L.concatLoop] at he
    cases hr : ev r st.flag (st.unused ++ l) with
    | panic => rw [hr] at he; cases he
    | oof => rw [hr] at he; cases he
    | ok y =>
      have hy := h r (by simp) _ _ _ hr
      rw [hr, Exec.ok_bind] at he
      cases ha : account st.read st.unused y.1 with
      | panic => rw [ha] at he; cases he
      | oof => rw [ha] at he; cases he
      | ok a =>
        rw [ha, Exec.ok_bind] at he
        obtain ⟨n, hn⟩ := Option.isSome_iff_exists.1 hy
        simp only [hn] at he
        generalize hst : (SeqState.mk a.1 a.2 _ _ _ _) = st' at he
        cases hl : L.concatLoop ev b rs st' ((st.unused ++ l).drop y.2) with
        | panic => rw [hl] at he; cases he
        | oof => rw [hl] at he; cases he
        | ok z =>
          rw [hl, Exec.ok_bind] at he
          simp only [Exec.ok.injEq] at he
          subst he
          exact ih (fun r hr => h r (by simp [hr])) _ _ z hl

theorem never_list {env : Env} {r : Rule} (h : NeverFails env r) :
    ∀ fuel flag l x, L.eval env fuel r flag l = .ok x → x.1.node.isSome := by
  induction h with
  | option =>
    intro fuel flag l x he
    cases fuel with
    | zero => cases he
    | succ fuel =>
      simp only [L.eval] at he
      rename_i b r
      cases hi : L.eval env fuel r flag l with
      | panic => rw [hi] at he; cases he
      | oof => rw [hi] at he; cases he
      | ok y =>
        rw [hi, Exec.ok_bind] at he
        simp only [Exec.ok.injEq] at he
        subst he
        unfold optionRes
        split <;> rfl
  | rep =>
    intro fuel flag l x he
    cases fuel with
    | zero => cases he
    | succ fuel =>
      simp only [L.eval, L.evalRep] at he
      rename_i b r mx
      generalize hst : (SeqState.mk _ _ _ _ flag _) = st' at he
      cases hi : L.repLoop (L.eval env fuel) r mx fuel st' l with
      | panic => rw [hi] at he; cases he
      | oof => rw [hi] at he; cases he
      | ok y =>
        rw [hi, Exec.ok_bind] at he
        simp only [Exec.ok.injEq] at he
        subst he
        simp [L.repFinish]
  | group _ ih =>
    intro fuel flag l x he
    cases fuel with
    | zero => cases he
    | succ fuel =>
      simp only [L.eval] at he
      rename_i b r _
      cases hi : L.eval env fuel r flag l with
      | panic => rw [hi] at he; cases he
      | oof => rw [hi] at he; cases he
      | ok y =>
        have := ih _ _ _ _ hi
        rw [hi, Exec.ok_bind] at he
        simp only [Exec.ok.injEq] at he
        subst he
        unfold groupRes
        split
        · rename_i hn; rw [hn] at this; cases this
        · rfl
  | concat _ ih =>
    intro fuel flag l x he
    cases fuel with
    | zero => cases he
    | succ fuel =>
      simp only [L.eval] at he
      exact concatLoop_never _ _ _ (fun r hr => ih r hr fuel) _ _ _ he
  | choice _ ih =>
    intro fuel flag l x he
    cases fuel with
    | zero => cases he
    | succ fuel =>
      rename_i b r gs _
      simp only [L.eval, L.choiceLoop, L.choiceGroup, List.nil_append] at he
      cases hi : L.eval env fuel r flag l with
      | panic => rw [hi] at he; cases he
      | oof => rw [hi] at he; cases he
      | ok y =>
        have := ih _ _ _ _ hi
        rw [hi, Exec.ok_bind, Exec.ok_bind, Exec.ok_bind] at he
        simp only [this, if_true, pick] at he
        generalize hs : sliceFrom _ _ = z at he
        cases z with
        | panic => cases he
        | oof => cases he
        | ok a =>
          rw [Exec.ok_bind] at he
          simp only [Exec.ok.injEq] at he
          subst he
          simpa using this
  | ref hr _ ih =>
    intro fuel flag l x he
    cases fuel with
    | zero => cases he
    | succ fuel =>
      simp only [L.eval, hr] at he
      rename_i b name r _
      cases hi : L.eval env fuel r flag l with
      | panic => rw [hi] at he; cases he
      | oof => rw [hi] at he; cases he
      | ok y =>
        have := ih _ _ _ _ hi
        rw [hi, Exec.ok_bind] at he
        simp only [Exec.ok.injEq] at he
        subst he
        unfold refRes
        split
        · rename_i hn; rw [hn] at this; cases this
        · rfl

/-- Rules built only from optional parts match every input. -/
theorem C11_optional_rules_always_match {env : Env} {r : Rule} (hr : NeverFails env r) {fuel : Nat}
    {flag : Int} {s s' : Stream} {res : Res} (h : Ready s)
    (he : eval env fuel r flag s = .ok (res, s')) : ∃ n, res.node = some n := by
  obtain ⟨k, hl, _⟩ := eval_list h.wf he
  have := never_list hr _ _ _ _ hl
  simp only [Res.core, Option.isSome_map] at this
  exact Option.isSome_iff_exists.1 this

/-- A concatenation that fails has a part that can fail. -/
theorem C11_optional_part_is_never_to_blame {env : Env} {b : RuleBase} {rs : List Rule} {fuel : Nat}
    {flag : Int} {s s' : Stream} {res : Res} (h : Ready s)
    (he : eval env fuel (.concat b rs) flag s = .ok (res, s')) (hn : res.node = none) :
    ∃ r ∈ rs, ¬ NeverFails env r := by
  apply Classical.byContradiction
  intro hc
  obtain ⟨n, hn'⟩ := C11_optional_rules_always_match (r := .concat b rs)
    (.concat (fun r hr => Classical.byContradiction (fun hx => hc ⟨r, hr, hx⟩))) h he
  rw [hn] at hn'
  cases hn'

example : NeverFails noRules (.concat {} [.option {} digit, .group {} (.rep {} digit 0 3)]) :=
  .concat (by
    intro r hr
    simp only [List.mem_cons, List.not_mem_nil, or_false] at hr
    rcases hr with rfl | rfl
    · exact .option
    · exact .group .rep)

example : seen (eval noRules 9 (.concat {} [.option {} digit, .group {} (.rep {} digit 0 3)])
      SUGGEST_SKIP (Stream.ofChars (runes "x"))) = some (some ([], 2), [], [], runes "x") := by
  decide +kernel

/-! ## C12, the part that holds of every evaluation -/

/-- A repetition node has at least `min` and, unless `max` is 0, at most `max` children. -/
theorem C12_bounds {env : Env} {fuel : Nat} {b : RuleBase} {r : Rule} {mn mx : Nat} {flag : Int}
    {s s' : Stream} {res : Res} {n : Node} (h : Ready s)
    (he : eval env fuel (.rep b r mn mx) flag s = .ok (res, s')) (hn : res.node = some n) :
    mn ≤ n.children.length ∧ (mx = 0 ∨ n.children.length ≤ mx) := by
  have := C10_tree_follows_grammar_partial h he hn
  cases this with
  | rep hm hi hc h1 h2 => rw [hi.children]; exact ⟨h1, h2⟩

/-- With minimum 0 a repetition never fails. -/
theorem C12_min_zero_never_fails {env : Env} {fuel : Nat} {b : RuleBase} {r : Rule} {mx : Nat}
    {flag : Int} {s s' : Stream} {res : Res} (h : Ready s)
    (he : eval env fuel (.rep b r 0 mx) flag s = .ok (res, s')) : ∃ n, res.node = some n :=
  C11_optional_rules_always_match .rep h he

example : seen (eval noRules 9 (.rep {} digit 2 3) SUGGEST_SKIP (Stream.ofChars (runes "12345"))) =
    some (some (runes "123", 3), runes "123", [], runes "45") := by decide +kernel

example : seen (eval noRules 9 (.rep {} digit 2 3) SUGGEST_SKIP (Stream.ofChars (runes "1x"))) =
    some (none, runes "1", runes "1", runes "x") := by decide +kernel

/-! ## C15 -/

/-- A reference gives what the rule it names gives, with exactly the marks flipped that are written
on the reference. -/
theorem C15_reference {env : Env} {fuel : Nat} {b : RuleBase} {name : Name} {r : Rule} {flag : Int}
    {s s' : Stream} {res : Res} (hr : env name = some r)
    (he : eval env fuel (.ref b name) flag s = .ok (res, s')) :
    ∃ fuel' inner, eval env fuel' r flag s = .ok (inner, s') ∧ res.read = inner.read ∧
      res.unused = inner.unused ∧ res.sticky = inner.sticky ∧ res.error = inner.error ∧
      (inner.node = none → res.node = none) ∧
      ∀ m, inner.node = some m → ∃ n, res.node = some n ∧ Flipped b m n ∧ n.pos = m.pos := by
  cases fuel with
  | zero => cases he
  | succ fuel =>
    simp only [eval, hr] at he
    cases hi : eval env fuel r flag s with
    | panic => rw [hi] at he; cases he
    | oof => rw [hi] at he; cases he
    | ok y =>
      rw [hi, Exec.ok_bind] at he
      simp only [Exec.ok.injEq, Prod.mk.injEq] at he
      obtain ⟨h1, h2⟩ := he
      subst h1 h2
      refine ⟨fuel, y.1, hi, ?_⟩
      unfold refRes
      cases hn : y.1.node with
      | none => exact ⟨rfl, rfl, rfl, rfl, fun _ => hn, fun m hm => by cases hm⟩
      | some m =>
        refine ⟨rfl, rfl, rfl, rfl, fun h => by (cases h), ?_⟩
        intro m' hm'
        cases hm'
        refine ⟨_, rfl, ⟨rfl, rfl, rfl, rfl, rfl, ?_, ?_, ?_⟩, rfl⟩
        · cases b.virt <;> simp
        · cases b.nondata <;> simp
        · cases b.tokenized <;> simp

/-- Without marks on the reference the node is the node of the rule itself. -/
theorem C15_plain_reference {b : RuleBase} {m n : Node} (h : Flipped b m n) (hp : n.pos = m.pos)
    (hb : b.virt = false ∧ b.nondata = false ∧ b.tokenized = false) : n = m := by
  obtain ⟨h1, h2, h3, h4, h5, h6, h7, h8⟩ := h
  rw [hb.1, Bool.xor_false] at h6
  rw [hb.2.1, Bool.xor_false] at h7
  rw [hb.2.2, Bool.xor_false] at h8
  cases n; cases m; simp_all

/-- Referring to a reference with the same marks flips them back. -/
theorem C15_flip_twice {b : RuleBase} {m n k : Node} (h1 : Flipped b m n) (h2 : Flipped b n k) :
    k.virt = m.virt ∧ k.nonData = m.nonData ∧ k.tokenized = m.tokenized := by
  rw [h2.virt, h2.nonData, h2.tokenized, h1.virt, h1.nonData, h1.tokenized]
  simp

/-- A reference to a rule that is not defined fails with an error naming it and consumes nothing. -/
theorem C15_undefined {env : Env} {fuel : Nat} {b : RuleBase} {name : Name} {flag : Int}
    {s s' : Stream} {res : Res} (hr : env name = none)
    (he : eval env fuel (.ref b name) flag s = .ok (res, s')) :
    res.node = none ∧ res.error = some (.undefined b name) ∧ res.read = [] ∧ res.unused = [] ∧
      s' = s := by
  cases fuel with
  | zero => cases he
  | succ fuel =>
    simp only [eval, hr, Exec.ok.injEq, Prod.mk.injEq] at he
    obtain ⟨rfl, rfl⟩ := he
    exact ⟨rfl, rfl, rfl, rfl, rfl⟩

/-- A virtual digit, referred to with and without a mark. -/
def oneRule : Env := fun n => if n = runes "d" then some (.range { virt := true } 48 false 57 false) else none

example : (match eval oneRule 5 (.ref { virt := true, nondata := true } (runes "d")) SUGGEST_SKIP
      (Stream.ofChars (runes "7")) with
    | .ok (r, _) => r.node.map (fun n => (n.virt, n.nonData, n.tokenized, n.text))
    | _ => none) = some (false, true, false, runes "7") := by decide +kernel

/-! ## C41 -/

/-- Two streams with the same characters left give the same result, apart from positions and error
messages; and they consume the same number of characters. -/
theorem C41_only_what_is_left_matters (env : Env) (fuel : Nat) (r : Rule) (flag : Int)
    {s t : Stream} (hs : Ready s) (ht : Ready t) (h : s.rem = t.rem) {res : Res} {s' : Stream}
    (he : eval env fuel r flag s = .ok (res, s')) :
    ∃ res' t', eval env fuel r flag t = .ok (res', t') ∧ t'.rem = s'.rem ∧
      res'.read = res.read ∧ res'.unused = res.unused ∧ res'.sticky = res.sticky ∧
      res'.node.map Node.erase = res.node.map Node.erase := by
  obtain ⟨k, hl, ha⟩ := eval_list hs.wf he
  rw [h] at hl
  obtain ⟨res', t', h1, h2, h3⟩ := list_eval ht.wf hl
  refine ⟨res', t', h1, ?_, ?_, ?_, ?_, ?_⟩
  · rw [h3.rem, ha.rem, h]
  · exact (Res.core_read res').symm.trans ((congrArg Res.read h2).trans (Res.core_read res))
  · exact (Res.core_unused res').symm.trans ((congrArg Res.unused h2).trans (Res.core_unused res))
  · exact (Res.core_sticky res').symm.trans ((congrArg Res.sticky h2).trans (Res.core_sticky res))
  · exact congrArg Res.node h2

/-- It also returns on the one exactly when it returns on the other. -/
theorem C41_same_termination (env : Env) (fuel : Nat) (r : Rule) (flag : Int)
    {s t : Stream} (hs : Ready s) (ht : Ready t) (h : s.rem = t.rem) :
    eval env fuel r flag s = .oof ↔ eval env fuel r flag t = .oof := by
  have h1 := eval_sim env fuel r flag s hs.wf
  have h2 := eval_sim env fuel r flag t ht.wf
  rw [h] at h1
  cases hl : L.eval env fuel r flag t.rem <;> rw [hl] at h1 h2 <;>
    cases e1 : eval env fuel r flag s <;> rw [e1] at h1 <;>
    cases e2 : eval env fuel r flag t <;> rw [e2] at h2 <;>
    first | exact h1.elim | exact h2.elim | simp

theorem C41_text (n m : Node) (h : n.erase = m.erase) : n.ruleType = m.ruleType ∧ n.name = m.name ∧
    n.chars = m.chars ∧ n.children.map Node.erase = m.children.map Node.erase ∧
    n.sticky = m.sticky ∧ n.virt = m.virt ∧ n.nonData = m.nonData ∧ n.tokenized = m.tokenized :=
  Node.erase_eq h

/-- Non-vacuity: pushed-back characters against a fresh text. -/
example : Ready ((run [.next, .next] (Stream.ofChars (runes "12a"))).2.pushBack (runes "12")) ∧
    ((run [.next, .next] (Stream.ofChars (runes "12a"))).2.pushBack (runes "12")).rem =
      (Stream.ofChars (runes "12a")).rem :=
  ⟨(Built.pushBack _ _ (by intro c hc; simp [runes] at hc; rcases hc with rfl | rfl <;> decide)
    ((Built.ofChars _ (by intro c hc; simp [runes] at hc; rcases hc with rfl | rfl | rfl <;> decide)).run
      [.next, .next])).ready, by decide⟩

/-! ## C42 -/

/-- Evaluation moves the stream forward by some number of characters, and leaves it ready for the next
evaluation. -/
theorem C42_only_consumes {env : Env} {fuel : Nat} {r : Rule} {flag : Int} {s s' : Stream}
    {res : Res} (h : Ready s) (he : eval env fuel r flag s = .ok (res, s')) :
    Ready s' ∧ ∃ k, s'.rem = s.rem.drop k ∧ k ≤ s.rem.length ∧ s'.cursor = s.cursor + k := by
  obtain ⟨k, _, ha⟩ := eval_list h.wf he
  refine ⟨⟨ha.wf.2, ?_, ha.linesOK h.lines⟩, k, ha.rem, ha.le, Adv.cursor ha⟩
  rw [ha.rem]; exact h.valid.drop k

/-- After an evaluation on a text, however it went, `Position` is the true line and column of the
next character. -/
theorem C42_position_after {env : Env} {fuel : Nat} {r : Rule} {flag : Int} {text : List Rune}
    {s' : Stream} {res : Res} (hv : Valid text)
    (he : eval env fuel r flag (Stream.ofChars text) = .ok (res, s')) :
    ∃ n : Nat, s'.cursor = n ∧ s'.rem = text.drop n ∧
      s'.position.1 = if n < text.length then some (posOf text n) else none := by
  obtain ⟨k, _, ha⟩ := eval_list (ready_ofChars hv).wf he
  match s', ha with
  | .base b', ha =>
    have hl : b'.LinesOK := Adv.linesOK ha (ready_ofChars hv).lines
    obtain ⟨g1, g2, g3, g4⟩ := ha
    refine ⟨b'.cursor, rfl, ?_, ?_⟩
    · show b'.chars.drop _ = _
      rw [g1]; rfl
    · show b'.position.1 = _
      rw [base_position b' hl, g1]; rfl

example : (match eval noRules 9 (.rep {} (.chars {} (runes "a")) 0 0) SUGGEST_SKIP
      (Stream.ofChars (runes "a\na \n bc")) with
    | .ok (_, s) => (s.cursor, s.position.1)
    | _ => (0, none)) = (7, some ⟨3, 3⟩) := by decide +kernel

end Xbnf.Props
