import Verif.Spec.Spacing
/-
Grammars in which the end of the text is nowhere asked for.
-/
namespace Xbnf.Spec

mutual
/-- `EOF` is not written in the rule. -/
def eofless : Rule → Bool
  | .eof _ => false
  | .char _ _ _ | .range _ _ _ _ _ | .chars _ _ | .str _ _ | .ref _ _ => true
  | .group _ r => eofless r
  | .option _ r => eofless r
  | .rep _ r _ _ => eofless r
  | .choice _ gs => eoflessLL gs
  | .concat _ rs => eoflessL rs
  | .block _ o _ c e xs => eofless o && eofless c && eoflessO e && eoflessL xs
/-- The same for all rules of a list. -/
def eoflessL : List Rule → Bool
  | [] => true
  | r :: rs => eofless r && eoflessL rs
/-- The same for the groups of a choice. -/
def eoflessLL : List (List Rule) → Bool
  | [] => true
  | g :: gs => eoflessL g && eoflessLL gs
/-- The same for an escape. -/
def eoflessO : Option Rule → Bool
  | none => true
  | some r => eofless r
end

/-- The same for a grammar. -/
def EoflessGrammar (g : Grammar) : Prop := ∀ rc ∈ g.records ++ g.roots, eofless rc.rule = true

end Xbnf.Spec
