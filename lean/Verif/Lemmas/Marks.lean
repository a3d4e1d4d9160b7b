import Verif.Spec.Marks
import Verif.Lemmas.Sim
import Verif.Lemmas.RuleEq
/-
Evaluation and simplification do not depend on annotations.
-/
namespace Xbnf
open Spec

/-- Result and stream of an evaluation, and those without the marks. -/
def Strip (k : Marks) (x y : Res × Stream) : Prop := y = (x.1.strip k, x.2)

def EvStrip (k : Marks) (ev ev' : Evaluator) : Prop := ∀ r flag s, SimG (Strip k) (ev r flag s) (ev' (r.strip k) flag s)

theorem stripNodes_eq (k : Marks) (ns : List Node) : stripNodes k ns = ns.map (Node.strip k) := by
  induction ns with
  | nil => rfl
  | cons n ns ih => simp only [stripNodes, ih, List.map_cons]

theorem stripL_eq (k : Marks) (rs : List Rule) : stripL k rs = rs.map (Rule.strip k) := by
  induction rs with
  | nil => rfl
  | cons n ns ih => simp only [stripL, ih, List.map_cons]

section
variable {k : Marks}

theorem strip_leaf (rt b st ch p) : (leafNode rt b st ch p).strip k = leafNode rt (b.strip k) st ch p := by
  simp [leafNode, Node.strip, RuleBase.strip, stripNodes]

theorem strip_branch (rt b st cs p) : (branchNode rt b st cs p).strip k = branchNode rt (b.strip k) st (cs.map (Node.strip k)) p := by
  simp [branchNode, Node.strip, RuleBase.strip, stripNodes_eq]

theorem strip_pos (n : Node) : (n.strip k).pos = n.pos := by cases n; rfl
theorem strip_ruleType (n : Node) : (n.strip k).ruleType = n.ruleType := by cases n; rfl
theorem strip_chars (n : Node) : (n.strip k).chars = n.chars := by cases n; rfl
theorem strip_children (n : Node) : (n.strip k).children = n.children.map (Node.strip k) := by
  cases n; simp [Node.strip, stripNodes_eq]
theorem strip_sticky (n : Node) : (n.strip k).sticky = n.sticky := by cases n; rfl
theorem strip_virt (n : Node) : (n.strip k).virt = (n.virt && !k.virt) := by cases n; rfl
theorem strip_nonData (n : Node) : (n.strip k).nonData = (n.nonData && !k.nondata) := by cases n; rfl
theorem strip_name (n : Node) : (n.strip k).name = n.name := by cases n; rfl

@[simp] theorem Res.strip_read (r : Res) : (r.strip k).read = r.read := rfl
@[simp] theorem Res.strip_unused (r : Res) : (r.strip k).unused = r.unused := rfl
@[simp] theorem Res.strip_sticky (r : Res) : (r.strip k).sticky = r.sticky := rfl
@[simp] theorem Res.strip_errIdx (r : Res) : (r.strip k).errIdx = r.errIdx := rfl
@[simp] theorem Res.strip_count (r : Res) : (r.strip k).countUsed = r.countUsed := rfl
@[simp] theorem Res.strip_charsUsed (r : Res) : (r.strip k).charsUsed = r.charsUsed := rfl
@[simp] theorem Res.strip_node (r : Res) : (r.strip k).node = r.node.map (Node.strip k) := rfl
@[simp] theorem Res.strip_error (r : Res) : (r.strip k).error = r.error.map (Err.strip k) := rfl

/-! ### Terminals -/

theorem evalEOF_strip (b flag s) : Strip k (evalEOF b flag s) (evalEOF (b.strip k) flag s) := by
  unfold evalEOF Strip
  simp only
  repeat' split
  all_goals simp_all [Res.strip, Err.strip, Node.strip, stripNodes, RuleBase.strip]

theorem evalChar_strip (b t flag s) : Strip k (evalChar b t flag s) (evalChar (b.strip k) t flag s) := by
  unfold evalChar Strip
  simp only
  repeat' split
  all_goals simp_all [Res.strip, Err.strip, Rule.strip, strip_leaf]

theorem evalRange_strip (b x y flag s) : Strip k (evalRange b x y flag s) (evalRange (b.strip k) x y flag s) := by
  unfold evalRange Strip
  simp only
  repeat' split
  all_goals simp_all [Res.strip, Err.strip, Rule.strip, strip_leaf]

theorem evalChars_strip (b t flag s) : Strip k (evalChars b t flag s) (evalChars (b.strip k) t flag s) := by
  unfold evalChars Strip
  simp only
  repeat' split
  all_goals simp_all [Res.strip, Err.strip, Rule.strip, strip_leaf]

theorem evalString_strip (b t flag s) : Strip k (evalString b t flag s) (evalString (b.strip k) t flag s) := by
  unfold evalString Strip
  simp only
  repeat' split
  all_goals simp_all [Res.strip, Err.strip, Rule.strip, strip_leaf]

/-! ### Groups, options, references -/

theorem groupRes_strip (b : RuleBase) (r : Res) : groupRes (b.strip k) (r.strip k) = (groupRes b r).strip k := by
  unfold groupRes
  cases h : r.node <;> simp [Res.strip, h, strip_branch]

theorem optionRes_strip (b : RuleBase) (r : Res) : optionRes (b.strip k) (r.strip k) = (optionRes b r).strip k := by
  unfold optionRes
  cases h : r.node <;> simp [Res.strip, h, strip_branch, strip_pos]

/-- A mark that is changed stays one that is dropped. -/
theorem flip_strip (x b k : Bool) : (if (b && !k) = true then !(x && !k) else x && !k) = ((if b = true then !x else x) && !k) := by
  cases x <;> cases b <;> cases k <;> rfl

theorem refRes_strip (b : RuleBase) (r : Res) : refRes (b.strip k) (r.strip k) = (refRes b r).strip k := by
  unfold refRes
  cases h : r.node with
  | none => simp [Res.strip, h]
  | some n =>
    cases n
    simp only [Res.strip, h, Option.map_some, Node.strip, RuleBase.strip]
    congr 3 <;> exact flip_strip _ _ _

/-! ### Sequences -/

theorem base_strip (r : Rule) : (r.strip k).base = r.base.strip k := by cases r <;> rfl

mutual
theorem text_strip : (n : Node) → (n.strip k).text = n.text
  | { ruleType := rt, chars := chars, children := cs, .. } => by
    unfold Node.strip Node.text
    simp only [textLoop_strip]
theorem textLoop_strip : (ns : List Node) → (inBlock : Bool) → (acc : List Rune) → (ps : Bool) →
    textLoop inBlock acc ps (stripNodes k ns) = textLoop inBlock acc ps ns
  | [], _, _, _ => rfl
  | n :: ns, inBlock, acc, ps => by
    simp only [stripNodes, textLoop, text_strip n, strip_sticky, textLoop_strip ns]
end

theorem named_strip (r : Res) : (r.strip k).named = r.named := by
  unfold Res.named
  cases h : r.node with
  | none => simp [Res.strip, h]
  | some n => simp [Res.strip, h, text_strip, strip_name]

theorem account_strip (read unused : List Rune) (r : Res) : account read unused (r.strip k) = account read unused r := rfl

/-- The variables of a loop without the marks. -/
def SeqState.strip (k : Marks) (st : SeqState) : SeqState := { st with nodes := st.nodes.map (Node.strip k) }

theorem nextFlag_strip (flag : Int) (n : Node) (st : Bool) : nextFlag flag (n.strip k) st = nextFlag flag n st := by
  unfold nextFlag
  rw [strip_ruleType, strip_children, strip_chars, List.length_map]

theorem concatLoop_strip {ev ev' : Evaluator} (hev : EvStrip k ev ev') (b : Rule) : ∀ (rs : List Rule) (st : SeqState) (s : Stream),
    SimG (Strip k) (concatLoop ev b rs st s) (concatLoop ev' (b.strip k) (stripL k rs) (st.strip k) s)
  | [], st, s => by
    refine Prod.ext ?_ rfl
    simp [Res.strip, strip_branch, SeqState.strip, base_strip]
  | r :: rs, st, s => by
    simp only [stripL, concatLoop]
    refine SimG.bind (hev r st.flag (s.pushBack st.unused)) ?_
    rintro ⟨res, cs⟩ _ rfl
    simp only [account_strip]
    refine SimG.same (x := account st.read st.unused res) ?_
    rintro ⟨rd, un⟩
    simp only [Res.strip_node]
    cases hn : res.node with
    | none =>
      simp only [Option.map_none]
      refine Prod.ext ?_ rfl
      simp only [Res.strip, Option.map_none, Option.map_some, Err.strip, SeqState.strip]
      cases res.error <;> rfl
    | some n =>
      simp only [Option.map_some]
      refine SimG.bind (P := Strip k) ?_ ?_
      · have := concatLoop_strip hev b rs
          { read := rd, unused := un, sticky := st.sticky && res.sticky, pos := firstPos st.pos n.pos,
            flag := nextFlag st.flag n res.sticky, nodes := st.nodes ++ [n] } cs
        simpa [SeqState.strip, nextFlag_strip, strip_pos] using this
      · rintro ⟨out, cs'⟩ _ rfl
        exact rfl

theorem repLoop_strip {ev ev' : Evaluator} (hev : EvStrip k ev ev') (r : Rule) (mx : Nat) : ∀ (fuel : Nat) (st : SeqState) (s : Stream),
    SimG (fun x y => y = (x.1.strip k, x.2.1.map (Res.strip k), x.2.2))
      (repLoop ev r mx fuel st s) (repLoop ev' (r.strip k) mx fuel (st.strip k) s)
  | 0, _, _ => trivial
  | fuel + 1, st, s => by
    simp only [repLoop]
    have hu : (st.strip k).unused = st.unused := rfl
    rw [hu]
    split
    · exact rfl
    refine SimG.bind (hev r st.flag (s.pushBack st.unused)) ?_
    rintro ⟨res, cs⟩ _ rfl
    simp only [account_strip]
    refine SimG.same (x := account st.read st.unused res) ?_
    rintro ⟨rd, un⟩
    simp only [Res.strip_node]
    cases hn : res.node with
    | none => exact rfl
    | some n =>
      simp only [Option.map_some]
      have hl : ((st.strip k).nodes ++ [n.strip k]).length = (st.nodes ++ [n]).length := by simp [SeqState.strip]
      rw [hl]
      split
      · refine Prod.ext ?_ rfl
        simp [SeqState.strip, strip_pos]
      · refine SimG.bind (P := fun x y => y = (x.1.strip k, x.2.1.map (Res.strip k), x.2.2)) ?_ ?_
        · have := repLoop_strip hev r mx fuel
            { st with read := rd, unused := un, sticky := st.sticky && res.sticky, pos := firstPos st.pos n.pos, nodes := st.nodes ++ [n] } cs
          simpa [SeqState.strip, strip_pos] using this
        · rintro ⟨out, why, cs'⟩ _ rfl
          exact rfl

theorem repFinish_strip (b : Rule) (mn : Nat) (st : SeqState) (why : Option Res) (s : Stream) :
    repFinish (b.strip k) mn (st.strip k) (why.map (Res.strip k)) s = (repFinish b mn st why s).strip k := by
  have hl : (st.strip k).nodes.length = st.nodes.length := by simp [SeqState.strip]
  unfold repFinish
  rw [hl]
  cases why with
  | none =>
    by_cases h : st.nodes.length < mn
    · simp only [if_pos h]; rfl
    · simp only [if_neg h]
      simp [Res.strip, strip_branch, SeqState.strip, base_strip]
  | some w =>
    by_cases h : st.nodes.length < mn
    · simp only [if_pos h]
      cases he : w.error <;> simp [Res.strip, he, SeqState.strip, Err.strip]
    · simp only [if_neg h]
      simp [Res.strip, strip_branch, SeqState.strip, base_strip]

theorem evalRep_strip {ev ev' : Evaluator} (hev : EvStrip k ev ev') (fuel : Nat) (b : RuleBase) (r : Rule) (mn mx : Nat) (flag : Int) (s : Stream) :
    SimG (Strip k) (evalRep ev fuel b r mn mx flag s) (evalRep ev' fuel (b.strip k) (r.strip k) mn mx flag s) := by
  unfold evalRep
  refine SimG.bind (repLoop_strip hev r mx fuel { flag := flag } s) ?_
  rintro ⟨st, why, s'⟩ _ rfl
  exact Prod.ext (repFinish_strip (.rep b r mn mx) mn st why s') rfl

/-! ### Choices -/

def Pick.strip (k : Marks) : Pick → Pick
  | .found r => .found (r.strip k)
  | .none => .none
  | .ambiguous x y => .ambiguous (x.strip k) (y.strip k)

theorem pickLoop_strip : ∀ (rs : List Res) (m : Int) (best : Option Res),
    pickLoop m (best.map (Res.strip k)) (rs.map (Res.strip k)) = (pickLoop m best rs).strip k
  | [], m, none => rfl
  | [], m, some r => rfl
  | r :: rs, m, best => by
    simp only [List.map_cons, pickLoop, Res.strip_count, Option.isSome_map]
    split
    · exact pickLoop_strip rs m best
    · split
      · cases best <;> rfl
      · exact pickLoop_strip rs _ (some r)

theorem pick_strip (rs : List Res) : pick (rs.map (Res.strip k)) = (pick rs).strip k := by
  match rs with
  | [] => rfl
  | [r] => rfl
  | r :: q :: rs => exact pickLoop_strip (r :: q :: rs) 0 none

def ChoiceState.strip (k : Marks) (st : ChoiceState) : ChoiceState := { st with maxErr := st.maxErr.map (Err.strip k) }

theorem choiceGroup_strip {ev ev' : Evaluator} (hev : EvStrip k ev ev') (flag : Int) : ∀ (rs : List Rule) (st : ChoiceState) (s : Stream),
    SimG (fun x y => y = (x.1.map (Res.strip k), x.2.1.strip k, x.2.2))
      (choiceGroup ev flag rs st s) (choiceGroup ev' flag (stripL k rs) (st.strip k) s)
  | [], st, s => rfl
  | r :: rs, st, s => by
    simp only [stripL, choiceGroup]
    refine SimG.bind (hev r flag (s.pushBack st.read)) ?_
    rintro ⟨res, cs⟩ _ rfl
    simp only [Res.strip_node, Res.strip_read, Res.strip_sticky]
    cases hn : res.node with
    | some n =>
      simp only [Option.map_some]
      refine SimG.bind (choiceGroup_strip hev flag rs _ _) ?_
      rintro ⟨ms, st', s'⟩ _ rfl
      exact rfl
    | none =>
      simp only [Option.map_none]
      by_cases h : res.errIdx > st.maxErrCursor
      · rw [if_pos h, if_pos (show (res.strip k).errIdx > (st.strip k).maxErrCursor from h)]
        exact choiceGroup_strip hev flag rs _ _
      · rw [if_neg h, if_neg (show ¬ (res.strip k).errIdx > (st.strip k).maxErrCursor from h)]
        exact choiceGroup_strip hev flag rs _ _

theorem choiceLoop_strip {ev ev' : Evaluator} (hev : EvStrip k ev ev') (b : Rule) (flag : Int) : ∀ (gs : List (List Rule)) (st : ChoiceState) (s : Stream),
    SimG (Strip k) (choiceLoop ev b flag gs st s) (choiceLoop ev' (b.strip k) flag (stripLL k gs) (st.strip k) s)
  | [], st, s => by
    refine Prod.ext ?_ rfl
    simp only [Res.strip, ChoiceState.strip, Option.map_some, Err.strip, Option.map_none]
    cases st.maxErr <;> rfl
  | g :: gs, st, s => by
    simp only [stripLL, choiceLoop]
    refine SimG.bind (choiceGroup_strip hev flag g st s) ?_
    rintro ⟨ms, st', s'⟩ _ rfl
    simp only [pick_strip]
    cases pick ms with
    | none => exact choiceLoop_strip hev b flag gs st' s'
    | ambiguous x y =>
      refine Prod.ext ?_ rfl
      simp only [named_strip, base_strip]
      rfl
    | found r =>
      simp only [Pick.strip, Res.strip_count]
      refine SimG.same (x := sliceFrom st'.read r.countUsed) ?_
      intro un
      refine Prod.ext ?_ rfl
      simp only [Res.strip, ChoiceState.strip, Option.map_none, Option.map_map]
      congr 1
      cases r.node with
      | none => rfl
      | some n => simp [strip_branch, strip_pos, base_strip]

/-! ### Blocks -/

theorem greedyLoop_strip {ev ev' : Evaluator} (hev : EvStrip k ev ev') (flag : Int) : ∀ (rs : List Rule) (m : List Rune) (s : Stream),
    SimG (fun x y => y = (x.1.map (Res.strip k), x.2)) (greedyLoop ev flag rs m s) (greedyLoop ev' flag (stripL k rs) m s)
  | [], m, s => rfl
  | r :: rs, m, s => by
    simp only [stripL, greedyLoop]
    refine SimG.bind (hev r flag (s.pushBack m)) ?_
    rintro ⟨res, cs⟩ _ rfl
    simp only [Res.strip_read, Res.strip_node, Option.isSome_map]
    refine SimG.bind (greedyLoop_strip hev flag rs _ _) ?_
    rintro ⟨ms, m', s'⟩ _ rfl
    simp only
    split
    · exact rfl
    · exact rfl

theorem mostGreedy_strip {ev ev' : Evaluator} (hev : EvStrip k ev ev') (flag : Int) (rs : List Rule) (s : Stream) :
    SimG (Strip k) (mostGreedy ev flag rs s) (mostGreedy ev' flag (stripL k rs) s) := by
  unfold mostGreedy
  refine SimG.bind (greedyLoop_strip hev flag rs [] s) ?_
  rintro ⟨ms, m, s'⟩ _ rfl
  simp only [pick_strip]
  cases pick ms with
  | none => exact rfl
  | ambiguous x y =>
    refine Prod.ext ?_ rfl
    simp only [named_strip]
    rfl
  | found r =>
    simp only [Pick.strip, Res.strip_count]
    refine SimG.same (x := sliceFrom m r.countUsed) ?_
    intro un
    exact rfl

def BlockEnd.strip (k : Marks) : BlockEnd → BlockEnd
  | .excluded t r => .excluded t r
  | .closed a b c d => .closed a b (c.strip k) d
  | .eof a b => .eof a b

theorem stripL_length (rs : List Rule) : (stripL k rs).length = rs.length := by rw [stripL_eq, List.length_map]

theorem blockLoop_strip {ev ev' : Evaluator} (hev : EvStrip k ev ev') (close : Rule) (escape : Option Rule) (excludes : List Rule) :
    ∀ (fuel : Nat) (st : BlockState) (s : Stream),
    SimG (fun x y => y = (x.1.strip k, x.2)) (blockLoop ev close escape excludes fuel st s)
      (blockLoop ev' (close.strip k) (stripO k escape) (stripL k excludes) fuel st s)
  | 0, _, _ => trivial
  | fuel + 1, st, s => by
    unfold blockLoop
    refine SimG.bind (P := fun x y => y = x) ?_ ?_
    · cases escape with
      | none => exact rfl
      | some e =>
        simp only [stripO]
        refine SimG.bind (hev e NOT_SKIP s) ?_
        rintro ⟨res, cs⟩ _ rfl
        simp only [Res.strip_node, Option.isSome_map, Res.strip_charsUsed, Res.strip_unused, Res.strip_read]
        split
        · exact SimG.same (fun c => rfl)
        · exact rfl
    · rintro ⟨escaped, escapeChars, used, u1, s1⟩ _ rfl
      simp only [stripL_length]
      refine SimG.bind (P := fun x y => y = (x.1.map (Res.strip k), x.2)) ?_ ?_
      · split
        · refine SimG.bind (mostGreedy_strip hev NOT_SKIP excludes _) ?_
          rintro ⟨res, cs⟩ _ rfl
          exact rfl
        · exact rfl
      · rintro ⟨rx, cs1⟩ _ rfl
        simp only
        have hbind : (rx.map (Res.strip k)).bind (fun r => r.node.map (fun _ => r)) =
            (rx.bind (fun r => r.node.map (fun _ => r))).map (Res.strip k) := by
          cases rx with
          | none => rfl
          | some r => cases hn : r.node <;> simp [Res.strip, hn]
        rw [hbind]
        cases hrx : rx.bind (fun r => r.node.map (fun _ => r)) with
        | some r =>
          simp only [Option.map_some, Res.strip_charsUsed]
          refine SimG.same ?_
          intro c
          cases escaped with
          | true =>
            simp only [if_true]
            refine SimG.bind (blockLoop_strip hev close escape excludes fuel _ cs1) ?_
            rintro ⟨out, cs'⟩ _ rfl
            exact rfl
          | false => exact rfl
        | none =>
          simp only [Option.map_none]
          rcases rx with _ | r0
          all_goals
            simp only [Option.map_none, Option.map_some, Res.strip_read]
            refine SimG.bind (hev close NOT_SKIP _) ?_
            rintro ⟨rc, cs2⟩ _ rfl
            simp only [Res.strip_node]
            cases hn : rc.node with
            | some n =>
              simp only [Option.map_some, Res.strip_charsUsed]
              refine SimG.same ?_
              intro c
              cases escaped with
              | true =>
                simp only [if_true]
                refine SimG.bind (blockLoop_strip hev close escape excludes fuel _ cs2) ?_
                rintro ⟨out, cs'⟩ _ rfl
                exact rfl
              | false => exact rfl
            | none =>
              simp only [Option.map_none]
              by_cases hp : (cs2.pushBack rc.unused).peek = EOFChar
              · rw [if_pos hp, if_pos (show (cs2.pushBack (rc.strip k).unused).peek = EOFChar from hp)]
                exact rfl
              · rw [if_neg hp, if_neg (show ¬ (cs2.pushBack (rc.strip k).unused).peek = EOFChar from hp)]
                refine SimG.bind (blockLoop_strip hev close escape excludes fuel _ _) ?_
                rintro ⟨out, cs'⟩ _ rfl
                exact rfl

theorem evalBlock_strip {ev ev' : Evaluator} (hev : EvStrip k ev ev') (fuel : Nat) (b : RuleBase) (o : Rule) (v : Bool) (c : Rule)
    (e : Option Rule) (xs : List Rule) (flag : Int) (s : Stream) :
    SimG (Strip k) (evalBlock ev fuel b o v c e xs flag s)
      (evalBlock ev' fuel (b.strip k) (o.strip k) v (c.strip k) (stripO k e) (stripL k xs) flag s) := by
  unfold evalBlock
  refine SimG.bind (hev o flag s) ?_
  rintro ⟨ro, s1⟩ _ rfl
  simp only [Res.strip_node, Res.strip_read, Res.strip_unused, Res.strip_count]
  cases hn : ro.node with
  | none => exact rfl
  | some n =>
    simp only [Option.map_some]
    refine SimG.same ?_
    intro used
    refine SimG.bind (blockLoop_strip hev c e xs fuel _ _) ?_
    rintro ⟨be, cs⟩ _ rfl
    cases be with
    | excluded t r => exact rfl
    | eof a d => exact rfl
    | closed a d rc content =>
      refine Prod.ext ?_ rfl
      simp only [Res.strip, Option.map_some, Option.map_none, strip_branch, strip_pos]
      congr 3
      cases v with
      | true => simp [Node.strip, stripNodes]
      | false => cases hrc : rc.node <;> simp [Node.strip, stripNodes]

/-! ### All rules -/

theorem eval_strip {env env' : Env} (h : ∀ n, env' n = (env n).map (Rule.strip k)) : ∀ fuel,
    EvStrip k (eval env fuel) (eval env' fuel)
  | 0, _, _, _ => trivial
  | fuel + 1, r, flag, s => by
    have ih := eval_strip h fuel
    cases r with
    | eof b => exact evalEOF_strip b flag s
    | char b t u => exact evalChar_strip b t flag s
    | range b x xu y yu => exact evalRange_strip b x y flag s
    | chars b t => exact evalChars_strip b t flag s
    | str b t => exact evalString_strip b t flag s
    | group b q =>
      simp only [Rule.strip, eval]
      refine SimG.bind (ih q flag s) ?_
      rintro ⟨res, s'⟩ _ rfl
      exact Prod.ext (groupRes_strip b res) rfl
    | option b q =>
      simp only [Rule.strip, eval]
      refine SimG.bind (ih q flag s) ?_
      rintro ⟨res, s'⟩ _ rfl
      exact Prod.ext (optionRes_strip b res) rfl
    | rep b q mn mx => simp only [Rule.strip, eval]; exact evalRep_strip ih fuel b q mn mx flag s
    | choice b gs => simp only [Rule.strip, eval]; exact choiceLoop_strip ih (.choice b gs) flag gs {} s
    | concat b rs => simp only [Rule.strip, eval]; exact concatLoop_strip ih (.concat b rs) rs { flag := flag } s
    | block b o v c e xs => simp only [Rule.strip, eval]; exact evalBlock_strip ih fuel b o v c e xs flag s
    | ref b n =>
      simp only [Rule.strip, eval]
      rw [h n]
      cases env n with
      | none => exact rfl
      | some q =>
        simp only [Option.map_some]
        refine SimG.bind (ih q flag s) ?_
        rintro ⟨res, s'⟩ _ rfl
        exact Prod.ext (refRes_strip b res) rfl

end
end Xbnf
