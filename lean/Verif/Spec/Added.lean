import Verif.Spec.Language
import Verif.Spec.Shuffle
/-
Vocabulary for further alternatives: choices to which alternatives have been added.
-/
namespace Xbnf.Spec

/-- The second list is the first with further rules of the kind `P`, anywhere. -/
inductive Added (P : Rule → Prop) : List Rule → List Rule → Prop
  | nil : Added P [] []
  | keep {r rs rs'} (h : Added P rs rs') : Added P (r :: rs) (r :: rs')
  | add {r rs rs'} (hr : P r) (h : Added P rs rs') : Added P rs (r :: rs')

/-- The second choice is the first with further alternatives of the kind `P`: in the groups there are, or in groups of
their own, of any priority. -/
inductive AddedG (P : Rule → Prop) : List (List Rule) → List (List Rule) → Prop
  | nil : AddedG P [] []
  | group {g g' gs gs'} (h : Added P g g') (hs : AddedG P gs gs') : AddedG P (g :: gs) (g' :: gs')
  | new {g gs gs'} (h : Added P [] g) (hs : AddedG P gs gs') : AddedG P gs (g :: gs')

/-- The rule matches nothing here, and its evaluation is regular. -/
def NotHere (env : Env) (flag : Int) (l : List Rune) (r : Rule) : Prop :=
  Regular env r flag l ∧ Fails env r flag l

/-- And it does not report that white space may follow. -/
def NotHereQuiet (env : Env) (flag : Int) (l : List Rune) (r : Rule) : Prop :=
  Regular env r flag l ∧ Misses env r flag l true

mutual
/-- The second rule is the first with further alternatives of the kind `P` in its choices and further excluded texts of the kind `R` in
its blocks, at any depth; `Q` are the names it may refer to. -/
inductive Grown (P R : Rule → Prop) (Q : Name → Prop) : Rule → Rule → Prop
  | same {r} (h : noParts r = true) (hr : ∀ b n, r ≠ .ref b n) : Grown P R Q r r
  | ref {b n} (h : Q n) : Grown P R Q (.ref b n) (.ref b n)
  | group {b r r'} (h : Grown P R Q r r') : Grown P R Q (.group b r) (.group b r')
  | option {b r r'} (h : Grown P R Q r r') : Grown P R Q (.option b r) (.option b r')
  | rep {b r r' mn mx} (h : Grown P R Q r r') : Grown P R Q (.rep b r mn mx) (.rep b r' mn mx)
  | choice {b gs gs'} (h : GrownG P R Q gs gs') : Grown P R Q (.choice b gs) (.choice b gs')
  | concat {b rs rs'} (h : GrownL P R Q rs rs') : Grown P R Q (.concat b rs) (.concat b rs')
  | block {b o o' v c c' e e' xs xs'} (ho : Grown P R Q o o') (hc : Grown P R Q c c') (he : GrownO P R Q e e')
      (hx : GrownX P R Q xs xs') : Grown P R Q (.block b o v c e xs) (.block b o' v c' e' xs')
/-- The same for each rule of a list. -/
inductive GrownL (P R : Rule → Prop) (Q : Name → Prop) : List Rule → List Rule → Prop
  | nil : GrownL P R Q [] []
  | cons {r r' rs rs'} (h : Grown P R Q r r') (hs : GrownL P R Q rs rs') : GrownL P R Q (r :: rs) (r' :: rs')
/-- The same for a rule that may be missing. -/
inductive GrownO (P R : Rule → Prop) (Q : Name → Prop) : Option Rule → Option Rule → Prop
  | none : GrownO P R Q none none
  | some {r r'} (h : Grown P R Q r r') : GrownO P R Q (some r) (some r')
/-- The alternatives of a group, with further ones. -/
inductive GrownA (P R : Rule → Prop) (Q : Name → Prop) : List Rule → List Rule → Prop
  | nil : GrownA P R Q [] []
  | keep {r r' rs rs'} (h : Grown P R Q r r') (hs : GrownA P R Q rs rs') : GrownA P R Q (r :: rs) (r' :: rs')
  | add {r rs rs'} (h : P r) (hs : GrownA P R Q rs rs') : GrownA P R Q rs (r :: rs')
/-- The excluded texts of a block, with further ones. -/
inductive GrownX (P R : Rule → Prop) (Q : Name → Prop) : List Rule → List Rule → Prop
  | nil : GrownX P R Q [] []
  | keep {r r' rs rs'} (h : Grown P R Q r r') (hs : GrownX P R Q rs rs') : GrownX P R Q (r :: rs) (r' :: rs')
  | add {r rs rs'} (h : R r) (hs : GrownX P R Q rs rs') : GrownX P R Q rs (r :: rs')
/-- The groups of a choice, with further ones. -/
inductive GrownG (P R : Rule → Prop) (Q : Name → Prop) : List (List Rule) → List (List Rule) → Prop
  | nil : GrownG P R Q [] []
  | group {g g' gs gs'} (h : GrownA P R Q g g') (hs : GrownG P R Q gs gs') : GrownG P R Q (g :: gs) (g' :: gs')
  | new {g gs gs'} (h : GrownA P R Q [] g) (hs : GrownG P R Q gs gs') : GrownG P R Q gs (g :: gs')
end

/-- At no place of the text does the rule match. -/
def Nowhere (env : Env) (text : List Rune) (r : Rule) : Prop := ∀ flag l, l <:+ text → NotHere env flag l r

/-- And nowhere does it report that white space may follow. -/
def NowhereQuiet (env : Env) (text : List Rune) (r : Rule) : Prop := ∀ flag l, l <:+ text → NotHereQuiet env flag l r

/-- The second grammar is the first with further alternatives, none of which matches anywhere in the text or reports that white space
may follow, with further excluded texts that are nowhere in the text, and with further rules; `Q` are the names the rules of the first
refer to. -/
def Extended (env env' : Env) (text : List Rune) (Q : Name → Prop) : Prop :=
  ∀ n, Q n → GrownO (NowhereQuiet env' text) (Nowhere env' text) Q (env n) (env' n)

/-- The same of the root rules, which may be in another order and to which roots that match nowhere may have been added. -/
def ExtendedRoots (env' : Env) (text : List Rune) (Q : Name → Prop) (rs rs' : List Rule) : Prop :=
  ∃ ys, GrownX (NowhereQuiet env' text) (Nowhere env' text) Q rs ys ∧ ys.Perm rs'

/-- The rule begins with a literal in single quotes that begins with `c`. -/
inductive Opens (env : Env) (c : Rune) : Rule → Prop
  | char {b u} : Opens env c (.char b c u)
  | chars {b t} : Opens env c (.chars b (c :: t))
  | group {b r} (h : Opens env c r) : Opens env c (.group b r)
  | concat {b r rs} (h : Opens env c r) : Opens env c (.concat b (r :: rs))
  | ref {b n r} (hr : env n = some r) (h : Opens env c r) : Opens env c (.ref b n)

end Xbnf.Spec
