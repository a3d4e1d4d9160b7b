import Verif.Spec.Outcome
/-
Vocabulary for parsing whole texts: rules embedded in other text, and documents.
-/
namespace Xbnf.Spec

/-- Does the reference semantics say plainly whether the rule matches? -/
def plain : Ans → Bool
  | .fail _ _ | .hit _ _ _ _ => true
  | _ => false

/-- Evaluating `r` on the text `l` ends with a match or without one, and meets neither an ambiguity
nor one of the situations in which the library is known to go astray. -/
def Clean (env : Env) (r : Rule) (flag : Int) (l : List Rune) : Prop :=
  ∃ fuel, plain (run env fuel r flag l) = true

/-- The node for text between matches; none if there is no text. -/
def gapNodes (t : List Rune) : List Node :=
  if t = [] then [] else [{ ruleType := .text, name := runes "_", chars := t }]

/-- `kids` are the matches of the rule in `l`, found from left to right, each as early as possible,
and the text between them. -/
inductive Embedded (env : Env) (r : Rule) : List Rune → List Node → Prop
  | last {t} (h : ∀ i ≤ t.length, Fails env r NOT_SKIP (t.drop i)) : Embedded env r t (gapNodes t)
  | hit {t m l nd st kids} (h : ∀ i < t.length, Fails env r NOT_SKIP ((t ++ m ++ l).drop i))
      (hm : Matches env r NOT_SKIP (m ++ l) nd m.length st) (hpos : m ≠ [])
      (hs : Embedded env r l kids) : Embedded env r (t ++ m ++ l) (gapNodes t ++ nd :: kids)

/-! ### Documents -/

/-- How far a rule looked. -/
def looked : Ans → Nat
  | .fail n _ | .ambiguous n | .hit _ _ n _ => n
  | _ => 0

/-- The match, if there is one. -/
def hitOf : Ans → Option (Node × Nat × Bool)
  | .hit nd u _ st => some (nd, u, st)
  | _ => none

/-- No answer within the fuel. -/
def isOof : Ans → Bool
  | .oof => true
  | _ => false

/-- A situation in which the library is known to go astray. -/
def isRisky : Ans → Bool
  | .risky => true
  | _ => false

/-- What the root rules do at a place. -/
inductive Round where
  | oof
  | risky
  | noMatch
  | tie
  /-- one longest match; `left` characters looked at beyond it -/
  | step (node : Node) (used left : Nat) (sticky : Bool)
deriving Repr, Inhabited

/-- The root rules at a place; `pending` characters of `l` were looked at before.  The order of the
roots does not matter.  Risky: the roots look less far than was looked before; there are three or
more roots and they do not all look equally far; two matches are equally long but not the longest. -/
def roundAt (run : Runner) (roots : List Rule) (flag : Int) (pending : Nat) (l : List Rune) : Round :=
  let as := roots.map (fun r => run r flag l)
  let look := (as.map looked).foldr max 0
  let hits := as.filterMap hitOf
  if as.any isOof then .oof
  else if as.any isRisky then .risky
  else if 2 < roots.length ∧ as.any (fun a => looked a != look) then .risky
  else
    match hits.filter (fun h => h.2.1 == longest hits) with
    | [] => .noMatch
    | [h] =>
      if look < pending then .risky
      else if (hits.map (fun h => h.2.1)).Nodup then .step h.1 h.2.1 (look - h.2.1) h.2.2 else .risky
    | _ => .tie

/-- What parsing a whole document gives. -/
inductive Doc where
  | oof
  | risky
  | noMatch
  | ambiguity
  | nodes (ns : List Node)
deriving Repr, Inhabited

/-- How white space before the next match is treated. -/
def flagNext (sticky : Bool) : Int := if sticky then SUGGEST_NOT_SKIP else SUGGEST_SKIP

/-- One match after the other, until nothing is left. -/
def docAt (run : Runner) (roots : List Rule) : Nat → Int → Nat → List Rune → List Node → Doc
  | 0, _, _, _, _ => .oof
  | n + 1, flag, pending, l, nodes =>
    if l = [] then .nodes nodes
    else
      match roundAt run roots flag pending l with
      | .oof => .oof
      | .risky => .risky
      | .noMatch => .noMatch
      | .tie => .ambiguity
      | .step nd u left st => docAt run roots n (flagNext st) left (l.drop u) (nodes ++ [nd])

/-- A document in which none of the situations comes up in which the library is known to go astray,
and whose parsing ends. -/
def Orderly (env : Env) (roots : List Rule) (l : List Rune) : Prop :=
  ∃ fuel, docAt (run env fuel) roots fuel SUGGEST_SKIP 0 l [] ≠ .oof ∧
    docAt (run env fuel) roots fuel SUGGEST_SKIP 0 l [] ≠ .risky

/-- The root `r` gives `nd` using `u` characters, and every other root that matches uses fewer. -/
def RootWins (env : Env) (roots : List Rule) (flag : Int) (l : List Rune) (nd : Node) (u : Nat)
    (st : Bool) : Prop :=
  ∃ rs1 r rs2, roots = rs1 ++ r :: rs2 ∧ Matches env r flag l nd u st ∧
    ∀ r' ∈ rs1 ++ rs2, ∀ nd' u' st', Matches env r' flag l nd' u' st' → u' < u

/-- `nodes` are the trees of root matches that follow each other without a gap up to the end of `l`;
at each place the longest match is taken. -/
inductive Document (env : Env) (roots : List Rule) : Int → List Rune → List Node → Prop
  | done {flag} : Document env roots flag [] []
  | next {flag m l nd st nodes} (hne : m ++ l ≠ [])
      (h : RootWins env roots flag (m ++ l) nd m.length st)
      (hs : Document env roots (flagNext st) l nodes) : Document env roots flag (m ++ l) (nd :: nodes)

/-- The matches reach a place at which no root matches. -/
inductive Halts (env : Env) (roots : List Rule) (P : Int → List Rune → Prop) : Int → List Rune → Prop
  | here {flag l} (hne : l ≠ []) (h : P flag l) : Halts env roots P flag l
  | next {flag m l nd st} (hne : m ++ l ≠ []) (h : RootWins env roots flag (m ++ l) nd m.length st)
      (hs : Halts env roots P (flagNext st) l) : Halts env roots P flag (m ++ l)

end Xbnf.Spec
