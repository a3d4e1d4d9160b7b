import Verif.Model.Rule
/-
Blocks whose parts are literals, said without evaluations: where the content ends, and what it is
when some of it is escaped.
-/
namespace Xbnf.Spec

/-- The rule is the literal with this text. -/
inductive Wording : Rule → List Rune → Prop
  | char (b : RuleBase) (x : Rune) (u : Bool) : Wording (.char b x u) [x]
  | chars (b : RuleBase) (t : List Rune) : Wording (.chars b t) t
  | str (b : RuleBase) (t : List Rune) : Wording (.str b t) t

/-- `Within c e xs l ct r`: inside a block with the close `c`, the escape `e` and the excluded texts
`xs`, what is left is `l`; the content to come is `ct`, and after the close comes `r`. -/
inductive Within (c : List Rune) (e : Option (List Rune)) (xs : List (List Rune)) :
    List Rune → List Rune → List Rune → Prop
  /-- the close -/
  | close {r : List Rune} (he : ∀ a, e = some a → ¬ a <+: c ++ r)
      (hx : ∀ x ∈ xs, ¬ x <+: c ++ r) : Within c e xs (c ++ r) [] r
  /-- one more character -/
  | char {b : Rune} {l ct r : List Rune} (he : ∀ a, e = some a → ¬ a <+: b :: l)
      (hx : ∀ x ∈ xs, ¬ x <+: b :: l) (hc : ¬ c <+: b :: l) (h : Within c e xs l ct r) :
      Within c e xs (b :: l) (b :: ct) r
  /-- an excluded text behind the escape: it is content, the escape is not -/
  | excluded {a x l ct r : List Rune} (he : e = some a) (hx : x ∈ xs)
      (h : Within c e xs l ct r) : Within c e xs (a ++ (x ++ l)) (x ++ ct) r
  /-- the close behind the escape: it is content, the escape is not -/
  | escaped {a l ct r : List Rune} (he : e = some a) (hx : ∀ x ∈ xs, ¬ x <+: c ++ l)
      (h : Within c e xs l ct r) : Within c e xs (a ++ (c ++ l)) (c ++ ct) r
  /-- the escape before anything else: the library puts it into the content twice, together with the
  next character, whatever that is -/
  | stray {a : List Rune} {b : Rune} {l ct r : List Rune} (he : e = some a)
      (hx : ∀ x ∈ xs, ¬ x <+: b :: l) (hc : ¬ c <+: b :: l) (h : Within c e xs l ct r) :
      Within c e xs (a ++ b :: l) (a ++ (a ++ b :: ct)) r

/-- The rules are the literals with these texts. -/
inductive Wordings : List Rule → List (List Rune) → Prop
  | nil : Wordings [] []
  | cons {r : Rule} {t : List Rune} {rs : List Rule} {ts : List (List Rune)} (h : Wording r t)
      (hs : Wordings rs ts) : Wordings (r :: rs) (t :: ts)

/-- The rule is a block of literals: the open `o`, the close `c` (not taken if `v`), the escape `e` if
there is one, and the excluded texts `xs`.  An escape must be a single character in single quotes unless
there are excluded texts (see `C18_escape_diverges`). -/
inductive LiteralBlock (v : Bool) (o c : List Rune) :
    Option (List Rune) → List (List Rune) → Rule → Prop
  | plain {b : RuleBase} {ro rc : Rule} {rs : List Rule} {xs : List (List Rune)}
      (ho : Wording ro o) (hc : Wording rc c) (hx : Wordings rs xs) :
      LiteralBlock v o c none xs (.block b ro v rc none rs)
  | escape {b : RuleBase} {ro rc re : Rule} {rs : List Rule} {xs : List (List Rune)} {a : List Rune}
      (ho : Wording ro o) (hc : Wording rc c) (he : Wording re a) (hx : Wordings rs xs)
      (hn : (∃ b' x u, re = .char b' x u) ∨ xs ≠ []) :
      LiteralBlock v o c (some a) xs (.block b ro v rc (some re) rs)

/-- What is asked of the texts of a block: none is empty, they consist of characters, the open does
not begin with white space, and no two excluded texts begin alike. -/
structure Texts (o c : List Rune) (e : Option (List Rune)) (xs : List (List Rune)) : Prop where
  opens : ∃ a t, o = a :: t ∧ isWhiteSpace a = false
  nonempty : ∀ t ∈ c :: (e.toList ++ xs), t ≠ []
  chars : ∀ t ∈ o :: c :: (e.toList ++ xs), ∀ a ∈ t, a ≠ EOFChar
  apart : xs.Pairwise (fun x y => x.head? ≠ y.head?)

end Xbnf.Spec
