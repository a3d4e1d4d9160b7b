import Verif.Spec.Rename
/-
Giving a part of a rule a name of its own, and the converse: replacing a reference by what it refers to.
-/
namespace Xbnf.Spec

/-- The names in `S` taken away. -/
def veil (S : Name → Bool) (n : Name) : Name := if S n then [] else n

/-- The same marks and, but for the names in `S`, the same name. -/
def SameBase (S : Name → Bool) (b b' : RuleBase) : Prop := b.rename (veil S) = b'.rename (veil S)

mutual
/-- The rules differ, but for the names in `S` they have themselves, only in that some of their parts, at any depth, are on one side a reference
(without a mark) and on the other what it refers to. -/
inductive Refactored (S : Name → Bool) (env env' : Env) : Rule → Rule → Prop
  | eof {b b'} (hb : SameBase S b b') : Refactored S env env' (.eof b) (.eof b')
  | char {b b' c u} (hb : SameBase S b b') : Refactored S env env' (.char b c u) (.char b' c u)
  | range {b b' x xu y yu} (hb : SameBase S b b') : Refactored S env env' (.range b x xu y yu) (.range b' x xu y yu)
  | chars {b b' t} (hb : SameBase S b b') : Refactored S env env' (.chars b t) (.chars b' t)
  | str {b b' t} (hb : SameBase S b b') : Refactored S env env' (.str b t) (.str b' t)
  | group {b b' r r'} (hb : SameBase S b b') (h : Factored S env env' r r') : Refactored S env env' (.group b r) (.group b' r')
  | option {b b' r r'} (hb : SameBase S b b') (h : Factored S env env' r r') : Refactored S env env' (.option b r) (.option b' r')
  | rep {b b' r r' mn mx} (hb : SameBase S b b') (h : Factored S env env' r r') : Refactored S env env' (.rep b r mn mx) (.rep b' r' mn mx)
  | choice {b b' gs gs'} (hb : SameBase S b b') (h : FactoredLL S env env' gs gs') : Refactored S env env' (.choice b gs) (.choice b' gs')
  | concat {b b' rs rs'} (hb : SameBase S b b') (h : FactoredL S env env' rs rs') : Refactored S env env' (.concat b rs) (.concat b' rs')
  | block {b b' o o' v c c' e e' x x'} (hb : SameBase S b b') (ho : Factored S env env' o o') (hc : Factored S env env' c c')
      (he : FactoredO S env env' e e') (hx : FactoredL S env env' x x') : Refactored S env env' (.block b o v c e x) (.block b' o' v c' e' x')
  | ref {b b' n} (hb : SameBase S b b') (hn : S n = false) : Refactored S env env' (.ref b n) (.ref b' n)
/-- As `Refactored`, or one is a reference to the other. -/
inductive Factored (S : Name → Bool) (env env' : Env) : Rule → Rule → Prop
  | same {r r'} (h : Refactored S env env' r r') : Factored S env env' r r'
  | left {b n r r'} (hb : b.virt = false ∧ b.nondata = false ∧ b.tokenized = false) (hn : env n = some r) (h : Refactored S env env' r r') :
      Factored S env env' (.ref b n) r'
  | right {b n r r'} (hb : b.virt = false ∧ b.nondata = false ∧ b.tokenized = false) (hn : env' n = some r') (h : Refactored S env env' r r') :
      Factored S env env' r (.ref b n)
/-- Each in its turn. -/
inductive FactoredL (S : Name → Bool) (env env' : Env) : List Rule → List Rule → Prop
  | nil : FactoredL S env env' [] []
  | cons {r r' rs rs'} (h : Factored S env env' r r') (hs : FactoredL S env env' rs rs') : FactoredL S env env' (r :: rs) (r' :: rs')
/-- Each in its turn. -/
inductive FactoredLL (S : Name → Bool) (env env' : Env) : List (List Rule) → List (List Rule) → Prop
  | nil : FactoredLL S env env' [] []
  | cons {g g' gs gs'} (h : FactoredL S env env' g g') (hs : FactoredLL S env env' gs gs') : FactoredLL S env env' (g :: gs) (g' :: gs')
/-- The same if there is one. -/
inductive FactoredO (S : Name → Bool) (env env' : Env) : Option Rule → Option Rule → Prop
  | none : FactoredO S env env' none none
  | some {r r'} (h : Factored S env env' r r') : FactoredO S env env' (some r) (some r')
end

/-- Under every name that is not in `S` both have a rule, and these differ as in `Factored`, or neither has one.  The names in `S` are those of
the rules that were introduced or done away with. -/
def SameRules (S : Name → Bool) (env env' : Env) : Prop :=
  ∀ n, S n = false → (env n = none ∧ env' n = none) ∨ ∃ r r', env n = some r ∧ env' n = some r' ∧ Factored S env env' r r'

/-- The same result, except that nodes named in `S` may be without a name, and that the errors are described in other words. -/
structure Alike (S : Name → Bool) (x y : Res) : Prop where
  node : x.node.map (Node.rename (veil S)) = y.node.map (Node.rename (veil S))
  error : x.error.isSome = y.error.isSome
  errIdx : x.errIdx = y.errIdx
  read : x.read = y.read
  unused : x.unused = y.unused
  sticky : x.sticky = y.sticky

end Xbnf.Spec
