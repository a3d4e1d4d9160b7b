import Verif.Spec.Rename
import Verif.Lemmas.Sim
import Verif.Lemmas.RuleEq
/-
Evaluation and simplification commute with renaming.
-/
namespace Xbnf
open Spec

/-- Result and stream of an evaluation, and those with other names. -/
def Ren (f : Name → Name) (x y : Res × Stream) : Prop := y = (x.1.rename f, x.2)

def EvRen (f : Name → Name) (ev ev' : Evaluator) : Prop := ∀ r flag s, SimG (Ren f) (ev r flag s) (ev' (r.rename f) flag s)

theorem renameNodes_eq (f : Name → Name) (ns : List Node) : renameNodes f ns = ns.map (Node.rename f) := by
  induction ns with
  | nil => rfl
  | cons n ns ih => simp only [renameNodes, ih, List.map_cons]

theorem renameL_eq (f : Name → Name) (rs : List Rule) : renameL f rs = rs.map (Rule.rename f) := by
  induction rs with
  | nil => rfl
  | cons n ns ih => simp only [renameL, ih, List.map_cons]

section
variable {f : Name → Name}

theorem rename_leaf (rt b st ch p) : (leafNode rt b st ch p).rename f = leafNode rt (b.rename f) st ch p := by
  simp [leafNode, Node.rename, RuleBase.rename, renameNodes]

theorem rename_branch (rt b st cs p) : (branchNode rt b st cs p).rename f = branchNode rt (b.rename f) st (cs.map (Node.rename f)) p := by
  simp [branchNode, Node.rename, RuleBase.rename, renameNodes_eq]

theorem rename_pos (n : Node) : (n.rename f).pos = n.pos := by cases n; rfl
theorem rename_ruleType (n : Node) : (n.rename f).ruleType = n.ruleType := by cases n; rfl
theorem rename_chars (n : Node) : (n.rename f).chars = n.chars := by cases n; rfl
theorem rename_children (n : Node) : (n.rename f).children = n.children.map (Node.rename f) := by
  cases n; simp [Node.rename, renameNodes_eq]
theorem rename_sticky (n : Node) : (n.rename f).sticky = n.sticky := by cases n; rfl
theorem rename_virt (n : Node) : (n.rename f).virt = n.virt := by cases n; rfl
theorem rename_nonData (n : Node) : (n.rename f).nonData = n.nonData := by cases n; rfl
theorem rename_name (n : Node) : (n.rename f).name = f n.name := by cases n; rfl

@[simp] theorem Res.rename_read (r : Res) : (r.rename f).read = r.read := rfl
@[simp] theorem Res.rename_unused (r : Res) : (r.rename f).unused = r.unused := rfl
@[simp] theorem Res.rename_sticky (r : Res) : (r.rename f).sticky = r.sticky := rfl
@[simp] theorem Res.rename_errIdx (r : Res) : (r.rename f).errIdx = r.errIdx := rfl
@[simp] theorem Res.rename_count (r : Res) : (r.rename f).countUsed = r.countUsed := rfl
@[simp] theorem Res.rename_charsUsed (r : Res) : (r.rename f).charsUsed = r.charsUsed := rfl
@[simp] theorem Res.rename_node (r : Res) : (r.rename f).node = r.node.map (Node.rename f) := rfl
@[simp] theorem Res.rename_error (r : Res) : (r.rename f).error = r.error.map (Err.rename f) := rfl

/-! ### Terminals -/

theorem evalEOF_ren (hf : Renaming f) (b flag s) : Ren f (evalEOF b flag s) (evalEOF (b.rename f) flag s) := by
  unfold evalEOF Ren
  simp only
  repeat' split
  all_goals simp_all [Res.rename, Err.rename, Node.rename, renameNodes, RuleBase.rename, hf.eof]

theorem evalChar_ren (b t flag s) : Ren f (evalChar b t flag s) (evalChar (b.rename f) t flag s) := by
  unfold evalChar Ren
  simp only
  repeat' split
  all_goals simp_all [Res.rename, Err.rename, Rule.rename, rename_leaf]

theorem evalRange_ren (b x y flag s) : Ren f (evalRange b x y flag s) (evalRange (b.rename f) x y flag s) := by
  unfold evalRange Ren
  simp only
  repeat' split
  all_goals simp_all [Res.rename, Err.rename, Rule.rename, rename_leaf]

theorem evalChars_ren (b t flag s) : Ren f (evalChars b t flag s) (evalChars (b.rename f) t flag s) := by
  unfold evalChars Ren
  simp only
  repeat' split
  all_goals simp_all [Res.rename, Err.rename, Rule.rename, rename_leaf]

theorem evalString_ren (b t flag s) : Ren f (evalString b t flag s) (evalString (b.rename f) t flag s) := by
  unfold evalString Ren
  simp only
  repeat' split
  all_goals simp_all [Res.rename, Err.rename, Rule.rename, rename_leaf]

/-! ### Groups, options, references -/

theorem groupRes_ren (b : RuleBase) (r : Res) : groupRes (b.rename f) (r.rename f) = (groupRes b r).rename f := by
  unfold groupRes
  cases h : r.node <;> simp [Res.rename, h, rename_branch]

theorem optionRes_ren (b : RuleBase) (r : Res) : optionRes (b.rename f) (r.rename f) = (optionRes b r).rename f := by
  unfold optionRes
  cases h : r.node <;> simp [Res.rename, h, rename_branch, rename_pos]

theorem refRes_ren (b : RuleBase) (r : Res) : refRes (b.rename f) (r.rename f) = (refRes b r).rename f := by
  unfold refRes
  cases h : r.node with
  | none => simp [Res.rename, h]
  | some n =>
    cases n
    simp only [Res.rename, h, Option.map_some]
    rfl

/-! ### Sequences -/

theorem base_ren (r : Rule) : (r.rename f).base = r.base.rename f := by cases r <;> rfl

mutual
theorem text_ren : (n : Node) → (n.rename f).text = n.text
  | { ruleType := rt, chars := chars, children := cs, .. } => by
    unfold Node.rename Node.text
    simp only [textLoop_ren]
theorem textLoop_ren : (ns : List Node) → (inBlock : Bool) → (acc : List Rune) → (ps : Bool) →
    textLoop inBlock acc ps (renameNodes f ns) = textLoop inBlock acc ps ns
  | [], _, _, _ => rfl
  | n :: ns, inBlock, acc, ps => by
    simp only [renameNodes, textLoop, text_ren n, rename_sticky, textLoop_ren ns]
end

theorem named_ren (hf : Renaming f) (r : Res) : (r.rename f).named = (f r.named.1, r.named.2) := by
  unfold Res.named
  cases h : r.node with
  | none => simp [Res.rename, h, hf.empty]
  | some n => simp [Res.rename, h, text_ren, rename_name]

theorem account_ren (read unused : List Rune) (r : Res) : account read unused (r.rename f) = account read unused r := rfl

/-- The variables of a loop with other names. -/
def SeqState.rename (f : Name → Name) (st : SeqState) : SeqState := { st with nodes := st.nodes.map (Node.rename f) }

theorem nextFlag_ren (flag : Int) (n : Node) (st : Bool) : nextFlag flag (n.rename f) st = nextFlag flag n st := by
  unfold nextFlag
  rw [rename_ruleType, rename_children, rename_chars, List.length_map]

theorem concatLoop_ren {ev ev' : Evaluator} (hev : EvRen f ev ev') (b : Rule) : ∀ (rs : List Rule) (st : SeqState) (s : Stream),
    SimG (Ren f) (concatLoop ev b rs st s) (concatLoop ev' (b.rename f) (renameL f rs) (st.rename f) s)
  | [], st, s => by
    refine Prod.ext ?_ rfl
    simp [Res.rename, rename_branch, SeqState.rename, base_ren]
  | r :: rs, st, s => by
    simp only [renameL, concatLoop]
    refine SimG.bind (hev r st.flag (s.pushBack st.unused)) ?_
    rintro ⟨res, cs⟩ _ rfl
    simp only [account_ren]
    refine SimG.same (x := account st.read st.unused res) ?_
    rintro ⟨rd, un⟩
    simp only [Res.rename_node]
    cases hn : res.node with
    | none =>
      simp only [Option.map_none]
      refine Prod.ext ?_ rfl
      simp only [Res.rename, Option.map_none, Option.map_some, Err.rename, SeqState.rename]
      cases res.error <;> rfl
    | some n =>
      simp only [Option.map_some]
      refine SimG.bind (P := Ren f) ?_ ?_
      · have := concatLoop_ren hev b rs
          { read := rd, unused := un, sticky := st.sticky && res.sticky, pos := firstPos st.pos n.pos,
            flag := nextFlag st.flag n res.sticky, nodes := st.nodes ++ [n] } cs
        simpa [SeqState.rename, nextFlag_ren, rename_pos] using this
      · rintro ⟨out, cs'⟩ _ rfl
        exact rfl

theorem repLoop_ren {ev ev' : Evaluator} (hev : EvRen f ev ev') (r : Rule) (mx : Nat) : ∀ (fuel : Nat) (st : SeqState) (s : Stream),
    SimG (fun x y => y = (x.1.rename f, x.2.1.map (Res.rename f), x.2.2))
      (repLoop ev r mx fuel st s) (repLoop ev' (r.rename f) mx fuel (st.rename f) s)
  | 0, _, _ => trivial
  | fuel + 1, st, s => by
    simp only [repLoop]
    have hu : (st.rename f).unused = st.unused := rfl
    rw [hu]
    split
    · exact rfl
    refine SimG.bind (hev r st.flag (s.pushBack st.unused)) ?_
    rintro ⟨res, cs⟩ _ rfl
    simp only [account_ren]
    refine SimG.same (x := account st.read st.unused res) ?_
    rintro ⟨rd, un⟩
    simp only [Res.rename_node]
    cases hn : res.node with
    | none => exact rfl
    | some n =>
      simp only [Option.map_some]
      have hl : ((st.rename f).nodes ++ [n.rename f]).length = (st.nodes ++ [n]).length := by simp [SeqState.rename]
      rw [hl]
      split
      · refine Prod.ext ?_ rfl
        simp [SeqState.rename, rename_pos]
      · refine SimG.bind (P := fun x y => y = (x.1.rename f, x.2.1.map (Res.rename f), x.2.2)) ?_ ?_
        · have := repLoop_ren hev r mx fuel
            { st with read := rd, unused := un, sticky := st.sticky && res.sticky, pos := firstPos st.pos n.pos, nodes := st.nodes ++ [n] } cs
          simpa [SeqState.rename, rename_pos] using this
        · rintro ⟨out, why, cs'⟩ _ rfl
          exact rfl

theorem repFinish_ren (b : Rule) (mn : Nat) (st : SeqState) (why : Option Res) (s : Stream) :
    repFinish (b.rename f) mn (st.rename f) (why.map (Res.rename f)) s = (repFinish b mn st why s).rename f := by
  have hl : (st.rename f).nodes.length = st.nodes.length := by simp [SeqState.rename]
  unfold repFinish
  rw [hl]
  cases why with
  | none =>
    by_cases h : st.nodes.length < mn
    · simp only [if_pos h]; rfl
    · simp only [if_neg h]
      simp [Res.rename, rename_branch, SeqState.rename, base_ren]
  | some w =>
    by_cases h : st.nodes.length < mn
    · simp only [if_pos h]
      cases he : w.error <;> simp [Res.rename, he, SeqState.rename, Err.rename]
    · simp only [if_neg h]
      simp [Res.rename, rename_branch, SeqState.rename, base_ren]

theorem evalRep_ren {ev ev' : Evaluator} (hev : EvRen f ev ev') (fuel : Nat) (b : RuleBase) (r : Rule) (mn mx : Nat) (flag : Int) (s : Stream) :
    SimG (Ren f) (evalRep ev fuel b r mn mx flag s) (evalRep ev' fuel (b.rename f) (r.rename f) mn mx flag s) := by
  unfold evalRep
  refine SimG.bind (repLoop_ren hev r mx fuel { flag := flag } s) ?_
  rintro ⟨st, why, s'⟩ _ rfl
  exact Prod.ext (repFinish_ren (.rep b r mn mx) mn st why s') rfl

/-! ### Choices -/

def Pick.rename (f : Name → Name) : Pick → Pick
  | .found r => .found (r.rename f)
  | .none => .none
  | .ambiguous x y => .ambiguous (x.rename f) (y.rename f)

theorem pickLoop_ren : ∀ (rs : List Res) (m : Int) (best : Option Res),
    pickLoop m (best.map (Res.rename f)) (rs.map (Res.rename f)) = (pickLoop m best rs).rename f
  | [], m, none => rfl
  | [], m, some r => rfl
  | r :: rs, m, best => by
    simp only [List.map_cons, pickLoop, Res.rename_count, Option.isSome_map]
    split
    · exact pickLoop_ren rs m best
    · split
      · cases best <;> rfl
      · exact pickLoop_ren rs _ (some r)

theorem pick_ren (rs : List Res) : pick (rs.map (Res.rename f)) = (pick rs).rename f := by
  match rs with
  | [] => rfl
  | [r] => rfl
  | r :: q :: rs => exact pickLoop_ren (r :: q :: rs) 0 none

def ChoiceState.rename (f : Name → Name) (st : ChoiceState) : ChoiceState := { st with maxErr := st.maxErr.map (Err.rename f) }

theorem choiceGroup_ren {ev ev' : Evaluator} (hev : EvRen f ev ev') (flag : Int) : ∀ (rs : List Rule) (st : ChoiceState) (s : Stream),
    SimG (fun x y => y = (x.1.map (Res.rename f), x.2.1.rename f, x.2.2))
      (choiceGroup ev flag rs st s) (choiceGroup ev' flag (renameL f rs) (st.rename f) s)
  | [], st, s => rfl
  | r :: rs, st, s => by
    simp only [renameL, choiceGroup]
    refine SimG.bind (hev r flag (s.pushBack st.read)) ?_
    rintro ⟨res, cs⟩ _ rfl
    simp only [Res.rename_node, Res.rename_read, Res.rename_sticky]
    cases hn : res.node with
    | some n =>
      simp only [Option.map_some]
      refine SimG.bind (choiceGroup_ren hev flag rs _ _) ?_
      rintro ⟨ms, st', s'⟩ _ rfl
      exact rfl
    | none =>
      simp only [Option.map_none]
      by_cases h : res.errIdx > st.maxErrCursor
      · rw [if_pos h, if_pos (show (res.rename f).errIdx > (st.rename f).maxErrCursor from h)]
        exact choiceGroup_ren hev flag rs _ _
      · rw [if_neg h, if_neg (show ¬ (res.rename f).errIdx > (st.rename f).maxErrCursor from h)]
        exact choiceGroup_ren hev flag rs _ _

theorem choiceLoop_ren (hf : Renaming f) {ev ev' : Evaluator} (hev : EvRen f ev ev') (b : Rule) (flag : Int) : ∀ (gs : List (List Rule)) (st : ChoiceState) (s : Stream),
    SimG (Ren f) (choiceLoop ev b flag gs st s) (choiceLoop ev' (b.rename f) flag (renameLL f gs) (st.rename f) s)
  | [], st, s => by
    refine Prod.ext ?_ rfl
    simp only [Res.rename, ChoiceState.rename, Option.map_some, Err.rename, Option.map_none]
    cases st.maxErr <;> rfl
  | g :: gs, st, s => by
    simp only [renameLL, choiceLoop]
    refine SimG.bind (choiceGroup_ren hev flag g st s) ?_
    rintro ⟨ms, st', s'⟩ _ rfl
    simp only [pick_ren]
    cases pick ms with
    | none => exact choiceLoop_ren hf hev b flag gs st' s'
    | ambiguous x y =>
      refine Prod.ext ?_ rfl
      simp only [Pick.rename, named_ren hf, base_ren]
      rfl
    | found r =>
      simp only [Pick.rename, Res.rename_count]
      refine SimG.same (x := sliceFrom st'.read r.countUsed) ?_
      intro un
      refine Prod.ext ?_ rfl
      simp only [Res.rename, ChoiceState.rename, Option.map_none, Option.map_map]
      congr 1
      cases r.node with
      | none => rfl
      | some n => simp [rename_branch, rename_pos, base_ren]

/-! ### Blocks -/

theorem greedyLoop_ren {ev ev' : Evaluator} (hev : EvRen f ev ev') (flag : Int) : ∀ (rs : List Rule) (m : List Rune) (s : Stream),
    SimG (fun x y => y = (x.1.map (Res.rename f), x.2)) (greedyLoop ev flag rs m s) (greedyLoop ev' flag (renameL f rs) m s)
  | [], m, s => rfl
  | r :: rs, m, s => by
    simp only [renameL, greedyLoop]
    refine SimG.bind (hev r flag (s.pushBack m)) ?_
    rintro ⟨res, cs⟩ _ rfl
    simp only [Res.rename_read, Res.rename_node, Option.isSome_map]
    refine SimG.bind (greedyLoop_ren hev flag rs _ _) ?_
    rintro ⟨ms, m', s'⟩ _ rfl
    simp only
    split
    · exact rfl
    · exact rfl

theorem mostGreedy_ren (hf : Renaming f) {ev ev' : Evaluator} (hev : EvRen f ev ev') (flag : Int) (rs : List Rule) (s : Stream) :
    SimG (Ren f) (mostGreedy ev flag rs s) (mostGreedy ev' flag (renameL f rs) s) := by
  unfold mostGreedy
  refine SimG.bind (greedyLoop_ren hev flag rs [] s) ?_
  rintro ⟨ms, m, s'⟩ _ rfl
  simp only [pick_ren]
  cases pick ms with
  | none => exact rfl
  | ambiguous x y =>
    refine Prod.ext ?_ rfl
    simp only [named_ren hf]
    rfl
  | found r =>
    simp only [Pick.rename, Res.rename_count]
    refine SimG.same (x := sliceFrom m r.countUsed) ?_
    intro un
    exact rfl

def BlockEnd.rename (f : Name → Name) : BlockEnd → BlockEnd
  | .excluded t r => .excluded t r
  | .closed a b c d => .closed a b (c.rename f) d
  | .eof a b => .eof a b

theorem renameL_length (rs : List Rule) : (renameL f rs).length = rs.length := by rw [renameL_eq, List.length_map]

theorem blockLoop_ren (hf : Renaming f) {ev ev' : Evaluator} (hev : EvRen f ev ev') (close : Rule) (escape : Option Rule) (excludes : List Rule) :
    ∀ (fuel : Nat) (st : BlockState) (s : Stream),
    SimG (fun x y => y = (x.1.rename f, x.2)) (blockLoop ev close escape excludes fuel st s)
      (blockLoop ev' (close.rename f) (renameO f escape) (renameL f excludes) fuel st s)
  | 0, _, _ => trivial
  | fuel + 1, st, s => by
    unfold blockLoop
    refine SimG.bind (P := fun x y => y = x) ?_ ?_
    · cases escape with
      | none => exact rfl
      | some e =>
        simp only [renameO]
        refine SimG.bind (hev e NOT_SKIP s) ?_
        rintro ⟨res, cs⟩ _ rfl
        simp only [Res.rename_node, Option.isSome_map, Res.rename_charsUsed, Res.rename_unused, Res.rename_read]
        split
        · exact SimG.same (fun c => rfl)
        · exact rfl
    · rintro ⟨escaped, escapeChars, used, u1, s1⟩ _ rfl
      simp only [renameL_length]
      refine SimG.bind (P := fun x y => y = (x.1.map (Res.rename f), x.2)) ?_ ?_
      · split
        · refine SimG.bind (mostGreedy_ren hf hev NOT_SKIP excludes _) ?_
          rintro ⟨res, cs⟩ _ rfl
          exact rfl
        · exact rfl
      · rintro ⟨rx, cs1⟩ _ rfl
        simp only
        have hbind : (rx.map (Res.rename f)).bind (fun r => r.node.map (fun _ => r)) =
            (rx.bind (fun r => r.node.map (fun _ => r))).map (Res.rename f) := by
          cases rx with
          | none => rfl
          | some r => cases hn : r.node <;> simp [Res.rename, hn]
        rw [hbind]
        cases hrx : rx.bind (fun r => r.node.map (fun _ => r)) with
        | some r =>
          simp only [Option.map_some, Res.rename_charsUsed]
          refine SimG.same ?_
          intro c
          cases escaped with
          | true =>
            simp only [if_true]
            refine SimG.bind (blockLoop_ren hf hev close escape excludes fuel _ cs1) ?_
            rintro ⟨out, cs'⟩ _ rfl
            exact rfl
          | false => exact rfl
        | none =>
          simp only [Option.map_none]
          rcases rx with _ | r0
          all_goals
            simp only [Option.map_none, Option.map_some, Res.rename_read]
            refine SimG.bind (hev close NOT_SKIP _) ?_
            rintro ⟨rc, cs2⟩ _ rfl
            simp only [Res.rename_node]
            cases hn : rc.node with
            | some n =>
              simp only [Option.map_some, Res.rename_charsUsed]
              refine SimG.same ?_
              intro c
              cases escaped with
              | true =>
                simp only [if_true]
                refine SimG.bind (blockLoop_ren hf hev close escape excludes fuel _ cs2) ?_
                rintro ⟨out, cs'⟩ _ rfl
                exact rfl
              | false => exact rfl
            | none =>
              simp only [Option.map_none]
              by_cases hp : (cs2.pushBack rc.unused).peek = EOFChar
              · rw [if_pos hp, if_pos (show (cs2.pushBack (rc.rename f).unused).peek = EOFChar from hp)]
                exact rfl
              · rw [if_neg hp, if_neg (show ¬ (cs2.pushBack (rc.rename f).unused).peek = EOFChar from hp)]
                refine SimG.bind (blockLoop_ren hf hev close escape excludes fuel _ _) ?_
                rintro ⟨out, cs'⟩ _ rfl
                exact rfl

theorem evalBlock_ren (hf : Renaming f) {ev ev' : Evaluator} (hev : EvRen f ev ev') (fuel : Nat) (b : RuleBase) (o : Rule) (v : Bool) (c : Rule)
    (e : Option Rule) (xs : List Rule) (flag : Int) (s : Stream) :
    SimG (Ren f) (evalBlock ev fuel b o v c e xs flag s)
      (evalBlock ev' fuel (b.rename f) (o.rename f) v (c.rename f) (renameO f e) (renameL f xs) flag s) := by
  unfold evalBlock
  refine SimG.bind (hev o flag s) ?_
  rintro ⟨ro, s1⟩ _ rfl
  simp only [Res.rename_node, Res.rename_read, Res.rename_unused, Res.rename_count]
  cases hn : ro.node with
  | none => exact rfl
  | some n =>
    simp only [Option.map_some]
    refine SimG.same ?_
    intro used
    refine SimG.bind (blockLoop_ren hf hev c e xs fuel _ _) ?_
    rintro ⟨be, cs⟩ _ rfl
    cases be with
    | excluded t r => exact rfl
    | eof a d => exact rfl
    | closed a d rc content =>
      refine Prod.ext ?_ rfl
      simp only [Res.rename, Option.map_some, Option.map_none, rename_branch, rename_pos]
      congr 3
      cases v with
      | true => simp [Node.rename, renameNodes, hf.empty]
      | false => cases hrc : rc.node <;> simp [Node.rename, renameNodes, hf.empty]

/-! ### All rules -/

theorem eval_ren (hf : Renaming f) {env env' : Env} (h : ∀ n, env' (f n) = (env n).map (Rule.rename f)) : ∀ fuel,
    EvRen f (eval env fuel) (eval env' fuel)
  | 0, _, _, _ => trivial
  | fuel + 1, r, flag, s => by
    have ih := eval_ren hf h fuel
    cases r with
    | eof b => exact evalEOF_ren hf b flag s
    | char b t u => exact evalChar_ren b t flag s
    | range b x xu y yu => exact evalRange_ren b x y flag s
    | chars b t => exact evalChars_ren b t flag s
    | str b t => exact evalString_ren b t flag s
    | group b q =>
      simp only [Rule.rename, eval]
      refine SimG.bind (ih q flag s) ?_
      rintro ⟨res, s'⟩ _ rfl
      exact Prod.ext (groupRes_ren b res) rfl
    | option b q =>
      simp only [Rule.rename, eval]
      refine SimG.bind (ih q flag s) ?_
      rintro ⟨res, s'⟩ _ rfl
      exact Prod.ext (optionRes_ren b res) rfl
    | rep b q mn mx => simp only [Rule.rename, eval]; exact evalRep_ren ih fuel b q mn mx flag s
    | choice b gs => simp only [Rule.rename, eval]; exact choiceLoop_ren hf ih (.choice b gs) flag gs {} s
    | concat b rs => simp only [Rule.rename, eval]; exact concatLoop_ren ih (.concat b rs) rs { flag := flag } s
    | block b o v c e xs => simp only [Rule.rename, eval]; exact evalBlock_ren hf ih fuel b o v c e xs flag s
    | ref b n =>
      simp only [Rule.rename, eval]
      rw [h n]
      cases env n with
      | none => exact rfl
      | some q =>
        simp only [Option.map_some]
        refine SimG.bind (ih q flag s) ?_
        rintro ⟨res, s'⟩ _ rfl
        exact Prod.ext (refRes_ren b res) rfl

end
end Xbnf
