import Verif.Spec.Calls
/-
Building a grammar from a text, and by calls.
-/
namespace Xbnf.Spec

/-- `ds` are the lines of `ls` that are neither blank nor comments. -/
inductive Selected : List (List Rune) → List (List Rune) → Prop
  | nil : Selected [] []
  | skip {l ls ds} (h : Skipped l) (hs : Selected ls ds) : Selected (l :: ls) ds
  | keep {l ls ds} (h : ¬ Skipped l) (hs : Selected ls ds) : Selected (l :: ls) (l :: ds)

/-- What a caller does who has the definitions one by one: `AddRule` for each, until one is rejected. -/
def addAll (fuel : Nat) : List (List Rune) → Grammar → Out Grammar Unit
  | [], g => .ok () g
  | d :: ds, g =>
    match Grammar.addRule fuel d g with
    | .oof => .oof
    | .err e g => .err e g
    | .ok _ g => addAll fuel ds g

/-- … beginning with `New`, and `Validate` in the end. -/
def buildFrom (fuel : Nat) (ds : List (List Rune)) : Out Grammar Grammar :=
  match addAll fuel ds {} with
  | .oof => .oof
  | .err e g => .err e g
  | .ok _ g =>
    match g.validate with
    | none => .err .undefinedRef g
    | some g => .ok g g

/-- The same records but for the line numbers. -/
def SameDefs (a b : List Record) : Prop := a.map (fun r => (r.name, r.rule)) = b.map (fun r => (r.name, r.rule))

/-- The same grammar but for the line numbers. -/
structure SameButLines (g g' : Grammar) : Prop where
  records : SameDefs g.records g'.records
  nonRoots : g.nonRoots = g'.nonRoots
  terminals : SameDefs g.terminals g'.terminals
  roots : SameDefs g.roots g'.roots

/-- The error of a line, and that of the call with the line: the same, but a duplicate is said to be on another line and a text without '=' is
quoted without the white space around it. -/
inductive SameReason : PErr → PErr → Prop
  | duplicate {n a b} : SameReason (.duplicate n a) (.duplicate n b)
  | missingEq {t t'} (h : Trimmed t' t) : SameReason (.missingEq t) (.missingEq t')
  | other {e} : SameReason e e

/-- The outcome of `NewGrammarFromString`, and that of the calls. -/
inductive SameOutcome : Out Grammar Grammar → Out Grammar Grammar → Prop
  | ok {g h g' h'} (hs : SameButLines g g') : SameOutcome (.ok g h) (.ok g' h')
  | line {k n e e' g g'} (he : SameReason e e') (hs : SameButLines g g') : SameOutcome (.err (.atLine k n e) g) (.err e' g')
  | undefined {g g'} (hs : SameButLines g g') : SameOutcome (.err .undefinedRef g) (.err .undefinedRef g')

end Xbnf.Spec
