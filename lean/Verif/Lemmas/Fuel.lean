import Verif.Model.Grammar
/-
More fuel never changes an answer: fuel only bounds how long the model runs, it is not an input of
the program.
-/
namespace Xbnf

/-- `x` ran out of fuel, or `y` is the same. -/
def Exec.Le {α : Type} (x y : Exec α) : Prop := x = .oof ∨ x = y

namespace Exec.Le

theorem rfl' {α : Type} {x : Exec α} : Le x x := Or.inr rfl

theorem bind {α β : Type} {x y : Exec α} {f g : α → Exec β} (h : Le x y) (h' : ∀ a, Le (f a) (g a)) :
    Le (x >>= f) (y >>= g) := by
  rcases h with h | h
  · subst h; exact Or.inl rfl
  · subst h
    cases x with
    | ok a => exact h' a
    | panic => exact Or.inr rfl
    | oof => exact Or.inl rfl

theorem of_ok {α : Type} {x y : Exec α} (h : Le x y) {a : α} (hx : x = .ok a) : y = .ok a := by
  rcases h with h | h
  · rw [h] at hx; cases hx
  · rw [← h, hx]

end Exec.Le

/-- `ev'` answers at least where `ev` does. -/
def EvLe (ev ev' : Evaluator) : Prop := ∀ r flag s, (ev r flag s).Le (ev' r flag s)

variable {ev ev' : Evaluator}

theorem concatLoop_le (h : EvLe ev ev') (b : Rule) (rs : List Rule) (st : SeqState) (s : Stream) :
    (concatLoop ev b rs st s).Le (concatLoop ev' b rs st s) := by
  induction rs generalizing st s with
  | nil => exact .rfl'
  | cons r rs ih =>
    simp only [concatLoop]
    refine (h _ _ _).bind fun x => .bind .rfl' fun y => ?_
    cases x.1.node with
    | none => exact .rfl'
    | some n => exact (ih _ _).bind fun z => .rfl'

theorem repLoop_le (h : EvLe ev ev') (r : Rule) (mx : Nat) {fuel fuel' : Nat} (hf : fuel ≤ fuel')
    (st : SeqState) (s : Stream) : (repLoop ev r mx fuel st s).Le (repLoop ev' r mx fuel' st s) := by
  induction fuel generalizing st s fuel' with
  | zero => exact Or.inl rfl
  | succ fuel ih =>
    cases fuel' with
    | zero => omega
    | succ fuel' =>
      simp only [repLoop]
      split
      · exact .rfl'
      · refine (h _ _ _).bind fun x => .bind .rfl' fun y => ?_
        cases x.1.node with
        | none => exact .rfl'
        | some n =>
          simp only
          split
          · exact .rfl'
          · exact (ih (by omega) _ _).bind fun z => .rfl'

theorem choiceGroup_le (h : EvLe ev ev') (flag : Int) (rs : List Rule) (st : ChoiceState) (s : Stream) :
    (choiceGroup ev flag rs st s).Le (choiceGroup ev' flag rs st s) := by
  induction rs generalizing st s with
  | nil => exact .rfl'
  | cons r rs ih =>
    simp only [choiceGroup]
    refine (h _ _ _).bind fun x => ?_
    cases x.1.node with
    | some n => exact (ih _ _).bind fun z => .rfl'
    | none =>
      simp only
      split
      · exact ih _ _
      · exact ih _ _

theorem choiceLoop_le (h : EvLe ev ev') (b : Rule) (flag : Int) (gs : List (List Rule))
    (st : ChoiceState) (s : Stream) :
    (choiceLoop ev b flag gs st s).Le (choiceLoop ev' b flag gs st s) := by
  induction gs generalizing st s with
  | nil => exact .rfl'
  | cons g gs ih =>
    simp only [choiceLoop]
    refine (choiceGroup_le h _ _ _ _).bind fun x => ?_
    cases pick x.1 with
    | none => exact ih _ _
    | ambiguous => exact .rfl'
    | found r => exact .rfl'

theorem greedyLoop_le (h : EvLe ev ev') (flag : Int) (rs : List Rule) (m : List Rune) (s : Stream) :
    (greedyLoop ev flag rs m s).Le (greedyLoop ev' flag rs m s) := by
  induction rs generalizing m s with
  | nil => exact .rfl'
  | cons r rs ih =>
    simp only [greedyLoop]
    exact (h _ _ _).bind fun x => (ih _ _).bind fun z => .rfl'

theorem mostGreedy_le (h : EvLe ev ev') (flag : Int) (rs : List Rule) (s : Stream) :
    (mostGreedy ev flag rs s).Le (mostGreedy ev' flag rs s) := by
  simp only [mostGreedy]
  refine (greedyLoop_le h _ _ _ _).bind fun x => .rfl'

theorem blockLoop_le (h : EvLe ev ev') (close : Rule) (escape : Option Rule) (excludes : List Rule)
    {fuel fuel' : Nat} (hf : fuel ≤ fuel') (st : BlockState) (s : Stream) :
    (blockLoop ev close escape excludes fuel st s).Le (blockLoop ev' close escape excludes fuel' st s) := by
  induction fuel generalizing st s fuel' with
  | zero => exact Or.inl rfl
  | succ fuel ih =>
    cases fuel' with
    | zero => omega
    | succ fuel' =>
      simp only [blockLoop]
      refine .bind ?_ fun x => .bind ?_ fun y => ?_
      · cases escape with
        | none => exact .rfl'
        | some e =>
          refine (h _ _ _).bind fun x => ?_
          exact .rfl'
      · split
        · exact (mostGreedy_le h _ _ _).bind fun z => .rfl'
        · exact .rfl'
      · split
        · refine .bind .rfl' fun z => ?_
          split
          · exact (ih (by omega) _ _).bind fun w => .rfl'
          · exact .rfl'
        · refine (h _ _ _).bind fun z => ?_
          cases z.1.node with
          | some n =>
            refine .bind .rfl' fun w => ?_
            split
            · exact (ih (by omega) _ _).bind fun w => .rfl'
            · exact .rfl'
          | none =>
            simp only
            split
            · exact .rfl'
            · exact (ih (by omega) _ _).bind fun w => .rfl'

theorem evalBlock_le (h : EvLe ev ev') {fuel fuel' : Nat} (hf : fuel ≤ fuel') (b : RuleBase)
    (opn : Rule) (v : Bool) (close : Rule) (escape : Option Rule) (excludes : List Rule)
    (flag : Int) (s : Stream) :
    (evalBlock ev fuel b opn v close escape excludes flag s).Le
      (evalBlock ev' fuel' b opn v close escape excludes flag s) := by
  simp only [evalBlock]
  refine (h _ _ _).bind fun x => ?_
  cases x.1.node with
  | none => exact .rfl'
  | some n =>
    refine .bind .rfl' fun y => ?_
    exact (blockLoop_le h _ _ _ hf _ _).bind fun z => .rfl'

/-- More fuel, same answer. -/
theorem eval_le (env : Env) {fuel fuel' : Nat} (hf : fuel ≤ fuel') :
    EvLe (eval env fuel) (eval env fuel') := by
  induction fuel generalizing fuel' with
  | zero => intro r flag s; exact Or.inl rfl
  | succ fuel ih =>
    cases fuel' with
    | zero => omega
    | succ fuel' =>
      have hi := ih (show fuel ≤ fuel' by omega)
      intro r flag s
      cases r with
      | group b r => exact (hi _ _ _).bind fun x => .rfl'
      | option b r => exact (hi _ _ _).bind fun x => .rfl'
      | rep b r mn mx => exact (repLoop_le hi _ _ (by omega) _ _).bind fun x => .rfl'
      | choice b gs => exact choiceLoop_le hi _ _ _ _ _
      | concat b rs => exact concatLoop_le hi _ _ _ _
      | block b o v c e xs => exact evalBlock_le hi (by omega) _ _ _ _ _ _ _ _
      | ref b name =>
        simp only [eval]
        cases env name with
        | none => exact .rfl'
        | some r => exact (hi _ _ _).bind fun x => .rfl'
      | _ => exact .rfl'

theorem eval_mono {env : Env} {fuel fuel' : Nat} (hf : fuel ≤ fuel') {r : Rule} {flag : Int}
    {s : Stream} {x : Res × Stream} (h : eval env fuel r flag s = .ok x) :
    eval env fuel' r flag s = .ok x := (eval_le env hf r flag s).of_ok h

namespace Grammar

theorem embedLoop_le (env : Env) {fuel fuel' : Nat} (hf : fuel ≤ fuel') (r : Rule) {n n' : Nat}
    (hn : n ≤ n') (kids : List Node) (text : List Rune) (s : Stream) :
    (embedLoop env fuel r n kids text s).Le (embedLoop env fuel' r n' kids text s) := by
  induction n generalizing n' kids text s with
  | zero => exact Or.inl rfl
  | succ n ih =>
    cases n' with
    | zero => omega
    | succ n' =>
      simp only [embedLoop]
      refine (eval_le env hf _ _ _).bind fun x => ?_
      cases x.1.node with
      | none =>
        simp only
        split
        · exact .rfl'
        · exact ih (by omega) _ _ _
      | some node => exact ih (by omega) _ _ _

theorem evalRule_le (g : Grammar) {fuel fuel' : Nat} (hf : fuel ≤ fuel') (name : Name)
    (sample : List Rune) : (g.evalRule fuel name sample).Le (g.evalRule fuel' name sample) := by
  unfold evalRule
  cases g.getRecord name with
  | none => exact .rfl'
  | some r => exact (eval_le _ hf _ _ _).bind fun x => .rfl'

theorem evalEmbed_le (g : Grammar) {fuel fuel' : Nat} (hf : fuel ≤ fuel') (name : Name)
    (sample : List Rune) : (g.evalEmbed fuel name sample).Le (g.evalEmbed fuel' name sample) := by
  unfold evalEmbed
  cases g.getRecord name with
  | none => exact .rfl'
  | some r => exact (embedLoop_le _ hf _ hf _ _ _).bind fun x => .rfl'

theorem rootsLoop_le (env : Env) {fuel fuel' : Nat} (hf : fuel ≤ fuel') (flag : Int)
    (rs : List Record) (m : List Rune) (cs : Stream) :
    (rootsLoop env fuel flag rs m cs).Le (rootsLoop env fuel' flag rs m cs) := by
  induction rs generalizing m cs with
  | nil => exact .rfl'
  | cons r rs ih =>
    simp only [rootsLoop]
    exact (eval_le env hf _ _ _).bind fun x => (ih _ _).bind fun y => .rfl'

theorem rawLoop_le (env : Env) {fuel fuel' : Nat} (hf : fuel ≤ fuel') (roots : List Record)
    (sch : Sched) {n n' : Nat} (hn : n ≤ n') (i : Nat) (nodes : List Node) (flag : Int)
    (unused : List Rune) (s : Stream) :
    (rawLoop env fuel roots sch n i nodes flag unused s).Le
      (rawLoop env fuel' roots sch n' i nodes flag unused s) := by
  induction n generalizing n' i nodes flag unused s with
  | zero => exact Or.inl rfl
  | succ n ih =>
    cases n' with
    | zero => omega
    | succ n' =>
      simp only [rawLoop]
      split
      · exact .rfl'
      · refine (rootsLoop_le env hf _ _ _ _).bind fun x => ?_
        cases pick (sch.matched i x.1) with
        | none => exact .rfl'
        | ambiguous => exact .rfl'
        | found r => exact .bind .rfl' fun y => ih (by omega) _ _ _ _ _

theorem evalRaw_le (g : Grammar) {fuel fuel' : Nat} (hf : fuel ≤ fuel') (sch : Sched) (s : Stream) :
    (g.evalRaw fuel sch s).Le (g.evalRaw fuel' sch s) := by
  unfold evalRaw
  split
  · exact .rfl'
  · exact rawLoop_le _ hf _ _ hf _ _ _ _ _

theorem evalAST_le (g : Grammar) {fuel fuel' : Nat} (hf : fuel ≤ fuel') (sch : Sched) (s : Stream)
    (level : Int) : (g.evalAST fuel sch s level).Le (g.evalAST fuel' sch s level) := by
  unfold evalAST
  exact (evalRaw_le g hf sch s).bind fun x => .rfl'

end Grammar
end Xbnf
