import Verif.Spec.Peg
import Verif.Spec.Erase
import Verif.Model.Grammar
/-
Texts that differ only in how much white space there is where there is white space, and rules in which
no white space is written.
-/
namespace Xbnf.Spec

/-- Does the text begin with white space? -/
def whiteHead : List Rune → Bool
  | [] => false
  | c :: _ => isWhiteSpace c

/-- Every run of white space replaced by one space. -/
def squeeze : List Rune → List Rune
  | [] => []
  | c :: l => if isWhiteSpace c then (if whiteHead l then squeeze l else 32 :: squeeze l) else c :: squeeze l

mutual
/-- A tree without positions, its texts squeezed. -/
def _root_.Xbnf.Node.squeeze (n : Node) : Node :=
  match n with
  | ⟨rt, nm, ch, cs, _, st, v, nd, tk⟩ => ⟨rt, nm, Spec.squeeze ch, squeezeL cs, none, st, v, nd, tk⟩
/-- Trees without positions, their texts squeezed. -/
def squeezeL : List Node → List Node
  | [] => []
  | n :: ns => n.squeeze :: squeezeL ns
end

/-- No white space among the characters. -/
def noWhite (l : List Rune) : Bool := l.all (fun c => !isWhiteSpace c)

mutual
/-- No literal of the rule contains white space, no range of the rule either; blocks only if allowed. -/
def blankless (blocks : Bool) : Rule → Bool
  | .eof _ => true
  | .char _ t _ => !isWhiteSpace t
  | .range _ x _ y _ => whiteSpaceTable.all (fun c => !between x y c)
  | .chars _ t => noWhite t
  | .str _ t => noWhite t
  | .group _ r => blankless blocks r
  | .option _ r => blankless blocks r
  | .rep _ r _ _ => blankless blocks r
  | .choice _ gs => blanklessLL blocks gs
  | .concat _ rs => blanklessL blocks rs
  | .block _ o _ c e xs => blocks && blankless blocks o && blankless blocks c && blanklessO blocks e && blanklessL blocks xs
  | .ref _ _ => true
/-- The same for all rules of a list. -/
def blanklessL (blocks : Bool) : List Rule → Bool
  | [] => true
  | r :: rs => blankless blocks r && blanklessL blocks rs
/-- The same for the groups of a choice. -/
def blanklessLL (blocks : Bool) : List (List Rule) → Bool
  | [] => true
  | g :: gs => blanklessL blocks g && blanklessLL blocks gs
/-- The same for an escape. -/
def blanklessO (blocks : Bool) : Option Rule → Bool
  | none => true
  | some r => blankless blocks r
end

/-- The same for a grammar. -/
def BlanklessGrammar (blocks : Bool) (g : Grammar) : Prop := ∀ rc ∈ g.records ++ g.roots, blankless blocks rc.rule = true

/-- The same for the rules that can be referred to. -/
def BlanklessEnv (blocks : Bool) (env : Name → Option Rule) : Prop := ∀ n r, env n = some r → blankless blocks r = true

/-- What evaluations on `l` and `l'` have in common: the tree as far as `f` shows it, or that there is none; the stickiness; and, if there is a tree,
the text used and the text left, squeezed. -/
structure SameSpaced (f : Node → Node) (l l' : List Rune) (res res' : Res) : Prop where
  tree : res.node.map f = res'.node.map f
  sticky : res.sticky = res'.sticky
  used : res.node.isSome = true → ∃ u u' : Nat, res.countUsed = u ∧ res'.countUsed = u' ∧ u ≤ l.length ∧ u' ≤ l'.length ∧
    squeeze (l.take u) = squeeze (l'.take u') ∧ squeeze (l.drop u) = squeeze (l'.drop u')

end Xbnf.Spec
