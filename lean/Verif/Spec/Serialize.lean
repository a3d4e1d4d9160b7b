import Verif.Model.Print
import Verif.Spec.Calls
import Verif.Spec.Message
/-
Vocabulary for grammars written as text.
-/
namespace Xbnf.Spec

/-- Who refers to the rule `n`: the names of the rules that do, in the order of their definitions,
each as often as it refers to `n`. -/
def usersOf (recs : List Record) (n : Name) : List Name :=
  recs.flatMap (fun r => ((refs r.rule).filter (· == n)).map (fun _ => r.name))

/-- `num` writes the number `n` with at least four digits. -/
def FourDigits (n : Nat) (num : List Rune) : Prop :=
  ∃ k, num = List.replicate k 48 ++ decimal n ∧ 4 ≤ num.length ∧ (n < 10000 → num.length = 4)

/-- `row` describes the rule `r`: its line, its name (after '!' if the rule is virtual, before "[T]" if
it is `terminal`) in a column of `w` characters, its definition. -/
def Row (w : Nat) (terminal : Bool) (r : Record) (row : List Rune) : Prop :=
  ∃ num k, FourDigits r.line num ∧
    row = runes "L" ++ num ++ runes ": " ++ ((if r.rule.base.virt then runes "!" else []) ++ r.name
      ++ (if terminal then runes "[T]" else []) ++ List.replicate k 32) ++ runes " = " ++ r.rule.print ∧
    ((if r.rule.base.virt then runes "!" else []) ++ r.name
      ++ (if terminal then runes "[T]" else []) ++ List.replicate k 32).length = w

/-- `row` tells who refers to `r`; the name is in a column of `w` characters. -/
def UseRow (w : Nat) (users : List Name) (r : Record) (row : List Rune) : Prop :=
  ∃ k, row = runes "    " ++ r.name ++ List.replicate k 32 ++ runes ": " ++ (users.map (· ++ runes ",")).flatten ∧
    (r.name ++ List.replicate k 32).length = w

/-- What an outline says about a rule itself. -/
def heading : Rule → List Rune
  | .eof _ => runes "EOF"
  | .char b t u => runes "char:" ++ Rule.print (.char b t u)
  | .range b x xu y yu => runes "range:" ++ Rule.print (.range b x xu y yu)
  | .chars b t => runes "char:" ++ Rule.print (.chars b t)
  | .str b t => runes "token:" ++ Rule.print (.str b t)
  | .group _ _ => runes "group:"
  | .option _ _ => runes "option:"
  | .rep _ _ mn mx => runes "repetition" ++ printSpec mn mx ++ runes ":"
  | .choice _ _ => runes "choice:"
  | .concat _ _ => runes "concatenate:"
  | .block b o v c e x => Rule.print (.block b o v c e x)
  | .ref b n => runes "reference:" ++ Rule.print (.ref b n)

mutual
/-- The lines of an outline with their depths: a rule, then its parts, one deeper.  A block is one
deeper than the rules beside it, and its parts are not shown. -/
def layout (d : Nat) (r : Rule) : List (Nat × List Rune) :=
  match r with
  | .group b r => (d, heading (.group b r)) :: layout (d + 1) r
  | .option b r => (d, heading (.option b r)) :: layout (d + 1) r
  | .rep b r mn mx => (d, heading (.rep b r mn mx)) :: layout (d + 1) r
  | .choice b gs => (d, heading (.choice b gs)) :: layoutLL (d + 1) gs
  | .concat b rs => (d, heading (.concat b rs)) :: layoutL (d + 1) rs
  | .block b o v c e x => [(d + 1, heading (.block b o v c e x))]
  | .eof b => [(d, heading (.eof b))]
  | .char b t u => [(d, heading (.char b t u))]
  | .range b x xu y yu => [(d, heading (.range b x xu y yu))]
  | .chars b t => [(d, heading (.chars b t))]
  | .str b t => [(d, heading (.str b t))]
  | .ref b n => [(d, heading (.ref b n))]
/-- The lines of the rules of a list. -/
def layoutL (d : Nat) : List Rule → List (Nat × List Rune)
  | [] => []
  | r :: rs => layout d r ++ layoutL d rs
/-- The lines of the rules of a list of lists. -/
def layoutLL (d : Nat) : List (List Rule) → List (Nat × List Rune)
  | [] => []
  | g :: gs => layoutL d g ++ layoutLL d gs
end

end Xbnf.Spec
