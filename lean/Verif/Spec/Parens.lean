import Verif.Spec.Outcome
/-
Parentheses: a rule in which parts were put in parentheses, and the trees it gives.
-/
namespace Xbnf.Spec

/-- The rule is not an option, nor a reference to one. -/
inductive Solid (env : Env) : Rule → Prop
  | ref {b n} (h : ∀ r, env n = some r → Solid env r) : Solid env (.ref b n)
  | other {r} (h1 : ∀ b x, r ≠ .option b x) (h2 : ∀ b n, r ≠ .ref b n) : Solid env r

mutual
/-- Parts of the rule, at any depth, were put in parentheses, but not the rule itself. -/
inductive Bracketed (env : Env) : Rule → Rule → Prop
  | eof {b} : Bracketed env (.eof b) (.eof b)
  | char {b c u} : Bracketed env (.char b c u) (.char b c u)
  | range {b x xu y yu} : Bracketed env (.range b x xu y yu) (.range b x xu y yu)
  | chars {b t} : Bracketed env (.chars b t) (.chars b t)
  | str {b t} : Bracketed env (.str b t) (.str b t)
  | group {b r r'} (h : Around env r r') : Bracketed env (.group b r) (.group b r')
  | option {b r r'} (h : Around env r r') : Bracketed env (.option b r) (.option b r')
  | rep {b r r' mn mx} (h : Around env r r') : Bracketed env (.rep b r mn mx) (.rep b r' mn mx)
  | choice {b gs gs'} (h : AroundLL env gs gs') : Bracketed env (.choice b gs) (.choice b gs')
  | concat {b rs rs'} (h : AroundL env rs rs') : Bracketed env (.concat b rs) (.concat b rs')
  | block {b o o' v c c' e e' x x'} (ho : Around env o o') (hc : Around env c c') (he : AroundO env e e') (hx : AroundL env x x') :
      Bracketed env (.block b o v c e x) (.block b o' v c' e' x')
  | ref {b n} : Bracketed env (.ref b n) (.ref b n)
/-- As `Bracketed`, and the rule itself may have been put in parentheses if it is not an option. -/
inductive Around (env : Env) : Rule → Rule → Prop
  | same {r r'} (h : Bracketed env r r') : Around env r r'
  | parens {r r'} (h : Bracketed env r r') (hs : Solid env r) : Around env r (.group {} r')
/-- Each in its turn. -/
inductive AroundL (env : Env) : List Rule → List Rule → Prop
  | nil : AroundL env [] []
  | cons {r r' rs rs'} (h : Around env r r') (hs : AroundL env rs rs') : AroundL env (r :: rs) (r' :: rs')
/-- Each in its turn. -/
inductive AroundLL (env : Env) : List (List Rule) → List (List Rule) → Prop
  | nil : AroundLL env [] []
  | cons {g g' gs gs'} (h : AroundL env g g') (hs : AroundLL env gs gs') : AroundLL env (g :: gs) (g' :: gs')
/-- The same if there is one. -/
inductive AroundO (env : Env) : Option Rule → Option Rule → Prop
  | none : AroundO env none none
  | some {r r'} (h : Around env r r') : AroundO env (some r) (some r')
end

/-- In every rule parts were put in parentheses. -/
def Parenthesised (env env' : Env) : Prop :=
  ∀ n, (env n = none ∧ env' n = none) ∨ ∃ r r', env n = some r ∧ env' n = some r' ∧ Bracketed env r r'

mutual
/-- The same tree, except that nodes of groups without a name or a mark were put around some of the nodes, which are not empty options. -/
inductive SameTree : Node → Node → Prop
  | same {rt nm ch cs cs' p st v nd tk} (h : SameTrees cs cs') : SameTree ⟨rt, nm, ch, cs, p, st, v, nd, tk⟩ ⟨rt, nm, ch, cs', p, st, v, nd, tk⟩
  | group {n n'} (h : SameTree n n') (ho : n.ruleType ≠ .option) : SameTree n { ruleType := .group, children := [n'], sticky := n.sticky }
/-- Each in its turn. -/
inductive SameTrees : List Node → List Node → Prop
  | nil : SameTrees [] []
  | cons {n n' ns ns'} (h : SameTree n n') (hs : SameTrees ns ns') : SameTrees (n :: ns) (n' :: ns')
end

/-- Both results have a tree, the second with nodes of parentheses added, and used the same characters; or neither has a tree.  The same
characters were read. -/
def SameReading (res res' : Res) : Prop :=
  res'.read = res.read ∧
    ((∃ n n', res.node = some n ∧ res'.node = some n' ∧ SameTree n.erase n'.erase ∧ res'.unused = res.unused) ∨
      res.node = none ∧ res'.node = none)

end Xbnf.Spec
