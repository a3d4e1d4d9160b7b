import Verif.Model.Rule
/-
Which trees a rule allows.  `Conforms` only uses the data types of rules and nodes.
-/
namespace Xbnf.Spec

/-- The rules a grammar defines. -/
abbrev Rules := Name → Option Rule

/-- The node is of the given type, and carries the name and the marks of its rule. -/
structure Marked (rt : RType) (b : RuleBase) (n : Node) : Prop where
  ruleType : n.ruleType = rt
  name : n.name = b.name
  virt : n.virt = b.virt
  nonData : n.nonData = b.nondata
  tokenized : n.tokenized = b.tokenized

/-- A leaf with the given text. -/
structure Leaf (text : List Rune) (n : Node) : Prop where
  chars : n.chars = text
  children : n.children = []

/-- An inner node with the given children and no text of its own. -/
structure Inner (children : List Node) (n : Node) : Prop where
  chars : n.chars = []
  children : n.children = children

/-- `n` is `m` with the marks flipped that are written on the reference. -/
structure Flipped (b : RuleBase) (m n : Node) : Prop where
  ruleType : n.ruleType = m.ruleType
  name : n.name = m.name
  chars : n.chars = m.chars
  children : n.children = m.children
  sticky : n.sticky = m.sticky
  virt : n.virt = (m.virt ^^ b.virt)
  nonData : n.nonData = (m.nonData ^^ b.nondata)
  tokenized : n.tokenized = (m.tokenized ^^ b.tokenized)

/-- The trees a rule allows.  `inRange first last c` says which characters a range may match. -/
inductive Conforms (env : Rules) (inRange : Rune → Rune → Rune → Prop) : Rule → Node → Prop
  | eof {b n} : n.ruleType = .eof → n.name = runes "EOF" → Leaf [EOFChar] n →
      n.virt = b.virt → n.nonData = b.nondata → n.tokenized = b.tokenized →
      Conforms env inRange (.eof b) n
  | char {b t u n} : Marked .char b n → Leaf [t] n → Conforms env inRange (.char b t u) n
  | range {b x xu y yu n c} : Marked .chars b n → Leaf [c] n → inRange x y c →
      Conforms env inRange (.range b x xu y yu) n
  | chars {b t n} : Marked .chars b n → Leaf t n → Conforms env inRange (.chars b t) n
  | str {b t n} : Marked .string b n → Leaf t n → Conforms env inRange (.str b t) n
  | group {b r n m} : Marked .group b n → Inner [m] n → Conforms env inRange r m →
      Conforms env inRange (.group b r) n
  | absent {b r n} : Marked .option b n → Inner [] n → Conforms env inRange (.option b r) n
  | present {b r n m} : Marked .option b n → Inner [m] n → Conforms env inRange r m →
      Conforms env inRange (.option b r) n
  | rep {b r mn mx n ms} : Marked .repetition b n → Inner ms n →
      (∀ m ∈ ms, Conforms env inRange r m) → mn ≤ ms.length → (mx = 0 ∨ ms.length ≤ mx) →
      Conforms env inRange (.rep b r mn mx) n
  | choice {b gs n m g r} : Marked .choice b n → Inner [m] n → g ∈ gs → r ∈ g →
      Conforms env inRange r m → Conforms env inRange (.choice b gs) n
  | concat {b rs n ms} : Marked .concatenate b n → Inner ms n → rs.length = ms.length →
      (∀ p ∈ rs.zip ms, Conforms env inRange p.1 p.2) → Conforms env inRange (.concat b rs) n
  | block {b o v c e xs n open' content text close'} : Marked .block b n →
      Inner ([open', content] ++ close') n → Conforms env inRange o open' →
      content.ruleType = .chars → content.name = [] → Leaf text content →
      close'.length = (if v then 0 else 1) → (∀ m ∈ close', Conforms env inRange c m) →
      Conforms env inRange (.block b o v c e xs) n
  | ref {b name r n m} : env name = some r → Conforms env inRange r m → Flipped b m n →
      Conforms env inRange (.ref b name) n

/-- Rules that match whatever comes: options, repetitions without a minimum, and what is built from
rules that match whatever comes. -/
inductive NeverFails (env : Rules) : Rule → Prop
  | option {b r} : NeverFails env (.option b r)
  | rep {b r mx} : NeverFails env (.rep b r 0 mx)
  | group {b r} : NeverFails env r → NeverFails env (.group b r)
  | concat {b rs} : (∀ r ∈ rs, NeverFails env r) → NeverFails env (.concat b rs)
  | choice {b r gs} : NeverFails env r → NeverFails env (.choice b ([r] :: gs))
  | ref {b name r} : env name = some r → NeverFails env r → NeverFails env (.ref b name)

end Xbnf.Spec
