import Verif.Model.Eval
import Verif.Spec.Definition
import Verif.Spec.Outcome
/-
Vocabulary for errors of an evaluation: which undefined names they mention, which names a rule refers
to through other rules, and which of several failures got furthest.
-/
namespace Xbnf

/-- An error without positions. -/
def Err.erase : Err → Err
  | .missing r _ => .missing r none
  | .inConcat r e => .inConcat r e.erase
  | .inChoice r e => .inChoice r e.erase
  | e => e

namespace Spec

/-- The same error, apart from positions. -/
def SameErr (x y : Option Err) : Prop := x.map Err.erase = y.map Err.erase

/-- The error, or the error it reports, says that the rule `n` is not defined. -/
inductive Mentions : Err → Name → Prop
  | undefined {b n} : Mentions (.undefined b n) n
  | inConcat {r e n} (h : Mentions e n) : Mentions (.inConcat r e) n
  | inChoice {r e n} (h : Mentions e n) : Mentions (.inChoice r e) n

/-- The rule refers to `n`, itself or through the rules it refers to. -/
inductive RefersTo (env : Env) : Rule → Name → Prop
  | direct {r n} (h : n ∈ refs r) : RefersTo env r n
  | via {r m r' n} (h : m ∈ refs r) (hm : env m = some r') (h' : RefersTo env r' n) : RefersTo env r n

/-- The rules one by one, on their own, at the same place: none matches, and these are their results. -/
inductive Failed (env : Env) (flag : Int) (s : Stream) : List Rule → List Res → Prop
  | nil : Failed env flag s [] []
  | cons {r rs x xs fuel s'} (he : eval env fuel r flag s = .ok (x, s')) (hn : x.node = none) (h : Failed env flag s rs xs) :
      Failed env flag s (r :: rs) (x :: xs)

/-- `e` (apart from positions) and `i` are error and index of the first result that got furthest; results
with index 0 do not count. -/
def Furthest (xs : List Res) (e : Option Err) (i : Int) : Prop :=
  (i = 0 ∧ e = none ∧ ∀ x ∈ xs, x.errIdx ≤ 0) ∨
  ∃ before x after, xs = before ++ x :: after ∧ 0 < x.errIdx ∧ (∀ y ∈ before, y.errIdx < x.errIdx) ∧
    (∀ y ∈ after, y.errIdx ≤ x.errIdx) ∧ SameErr e x.error ∧ i = x.errIdx

/-- The rules match one after the other in `l` from `p` on, up to `r`, tried with the flag `f` at `q`. -/
inductive StuckAt (env : Env) (l : List Rune) : List Rule → Int → Nat → Rule → Int → Nat → Prop
  | here {r rs flag p} : StuckAt env l (r :: rs) flag p r flag p
  | later {q rs flag p nd u st r f p'} (h : Matches env q flag (l.drop p) nd u st)
      (hs : StuckAt env l rs (flagAfter flag nd st) (p + u) r f p') : StuckAt env l (q :: rs) flag p r f p'

/-- The rule as an error names it: how its characters were written is forgotten. -/
def asNamed : Rule → Rule
  | .char b t _ => .char b t false
  | .range b x _ y _ => .range b x false y false
  | r => r

/-- The rules that match text on their own: a literal, a range of characters or one out of a set. -/
def OfText : Rule → Prop
  | .char _ _ _ => True
  | .range _ _ _ _ _ => True
  | .chars _ _ => True
  | .str _ _ => True
  | _ => False

end Spec
end Xbnf
