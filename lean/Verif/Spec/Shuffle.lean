import Verif.Spec.Document
import Verif.Model.Grammar
/-
Vocabulary for the order of alternatives: grammars that differ only in the order of the alternatives
of the groups of choices, and of the excluded texts of blocks.
-/
namespace Xbnf.Spec

/-- A rule without parts. -/
def noParts : Rule → Bool
  | .eof _ | .char _ _ _ | .range _ _ _ _ _ | .chars _ _ | .str _ _ | .ref _ _ => true
  | _ => false

mutual
/-- The second rule is the first with the alternatives of groups, and the excluded texts of blocks,
in another order, at any depth.  The groups themselves stay in their order. -/
inductive Shuffled : Rule → Rule → Prop
  | same {r} (h : noParts r = true) : Shuffled r r
  | group {b r r'} (h : Shuffled r r') : Shuffled (.group b r) (.group b r')
  | option {b r r'} (h : Shuffled r r') : Shuffled (.option b r) (.option b r')
  | rep {b r r' mn mx} (h : Shuffled r r') : Shuffled (.rep b r mn mx) (.rep b r' mn mx)
  | choice {b gs gs'} (h : ShuffledG gs gs') : Shuffled (.choice b gs) (.choice b gs')
  | concat {b rs rs'} (h : ShuffledL rs rs') : Shuffled (.concat b rs) (.concat b rs')
  | block {b o o' v c c' e e' xs ys zs} (ho : Shuffled o o') (hc : Shuffled c c') (he : ShuffledO e e')
      (hx : ShuffledL xs ys) (hp : ys.Perm zs) : Shuffled (.block b o v c e xs) (.block b o' v c' e' zs)
/-- The same for each rule of a list, the list itself in the same order. -/
inductive ShuffledL : List Rule → List Rule → Prop
  | nil : ShuffledL [] []
  | cons {r r' rs rs'} (h : Shuffled r r') (hs : ShuffledL rs rs') : ShuffledL (r :: rs) (r' :: rs')
/-- The same for a rule that may be missing. -/
inductive ShuffledO : Option Rule → Option Rule → Prop
  | none : ShuffledO none none
  | some {r r'} (h : Shuffled r r') : ShuffledO (some r) (some r')
/-- The same for the groups of a choice, each of which may be in another order. -/
inductive ShuffledG : List (List Rule) → List (List Rule) → Prop
  | nil : ShuffledG [] []
  | cons {g h g' gs gs'} (hg : ShuffledL g h) (hp : h.Perm g') (hs : ShuffledG gs gs') : ShuffledG (g :: gs) (g' :: gs')
end

/-- The second grammar has the same rules as the first, with alternatives and excluded texts in another order. -/
def Reordered (env env' : Env) : Prop := ∀ name, ShuffledO (env name) (env' name)

/-- And the same root rules, in any order. -/
def SameRoots (rs rs' : List Rule) : Prop := ∃ ys, ShuffledL rs ys ∧ ys.Perm rs'

end Xbnf.Spec
