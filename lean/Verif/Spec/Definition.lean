import Verif.Model.Rule
/-
Vocabulary for what the definition parser produces: the references of a rule, and what a
well-formed rule is.
-/
namespace Xbnf.Spec

mutual
/-- The names a rule refers to, at any depth, from left to right. -/
def refs : Rule → List Name
  | .eof _ | .char _ _ _ | .range _ _ _ _ _ | .chars _ _ | .str _ _ => []
  | .group _ r | .option _ r | .rep _ r _ _ => refs r
  | .choice _ gs => refsLL gs
  | .concat _ rs => refsL rs
  | .block _ o _ c e x =>
    refs o ++ refsO e ++ refsL x ++ refs c
  | .ref _ n => [n]
/-- The names an optional rule refers to. -/
def refsO : Option Rule → List Name
  | none => []
  | some r => refs r
/-- The names the rules of a list refer to. -/
def refsL : List Rule → List Name
  | [] => []
  | r :: rs => refs r ++ refsL rs
/-- The names the rules of a list of lists refer to. -/
def refsLL : List (List Rule) → List Name
  | [] => []
  | g :: gs => refsL g ++ refsLL gs
end

/-- ASCII letters. -/
def Letter (c : Rune) : Prop := (97 ≤ c ∧ c ≤ 122) ∨ (65 ≤ c ∧ c ≤ 90)
/-- ASCII digits. -/
def Digit (c : Rune) : Prop := 48 ≤ c ∧ c ≤ 57

/-- A name: a letter, then letters, digits and underscores. -/
def RuleName (n : Name) : Prop := ∃ c cs, n = c :: cs ∧ Letter c ∧ ∀ d ∈ cs, Letter d ∨ Digit d ∨ d = 95

/-- What can be written as a reference: as a name, but it may start with an underscore; "EOF" is
not a reference. -/
def RefName (n : Name) : Prop :=
  (∃ c cs, n = c :: cs ∧ (Letter c ∨ c = 95) ∧ ∀ d ∈ cs, Letter d ∨ Digit d ∨ d = 95) ∧ n ≠ runes "EOF"

/-- A rule as the parser should build it: composite rules have enough parts, bounds make sense,
literals of several characters have several, references can be written, and no part has a name of
its own. -/
inductive WellFormed : Rule → Prop
  | eof {b} (h : b.name = []) : WellFormed (.eof b)
  | char {b c u} (h : b.name = []) : WellFormed (.char b c u)
  | range {b x xu y yu} (h : b.name = []) : WellFormed (.range b x xu y yu)
  | chars {b t} (h : b.name = []) (ht : 2 ≤ t.length) : WellFormed (.chars b t)
  | str {b t} (h : b.name = []) : WellFormed (.str b t)
  | group {b r} (h : b.name = []) (hr : WellFormed r) : WellFormed (.group b r)
  | option {b r} (h : b.name = []) (hr : WellFormed r) : WellFormed (.option b r)
  | rep {b r mn mx} (h : b.name = []) (hr : WellFormed r) (h1 : mn < 2 ^ 32) (h2 : mx < 2 ^ 32)
      (hle : mx = 0 ∨ mn ≤ mx) : WellFormed (.rep b r mn mx)
  | choice {b gs} (h : b.name = []) (hg : ∀ g ∈ gs, g ≠ []) (hr : ∀ g ∈ gs, ∀ r ∈ g, WellFormed r)
      (h2 : 2 ≤ (gs.map List.length).sum) : WellFormed (.choice b gs)
  | concat {b rs} (h : b.name = []) (hr : ∀ r ∈ rs, WellFormed r) (h2 : 2 ≤ rs.length) : WellFormed (.concat b rs)
  | block {b o v c e x} (h : b.name = []) (ho : WellFormed o) (hc : WellFormed c) (he : ∀ r, e = some r → WellFormed r)
      (hx : ∀ r ∈ x, WellFormed r) : WellFormed (.block b o v c e x)
  | ref {b n} (h : b.name = []) (hn : RefName n) : WellFormed (.ref b n)

/-- `c` is a way to write the hexadecimal digit `k`. -/
def HexDigit (c : Rune) (k : Int) : Prop :=
  (0 ≤ k ∧ k < 10 ∧ c = 48 + k) ∨ (10 ≤ k ∧ k < 16 ∧ (c = 87 + k ∨ c = 55 + k))

/-- `ds` are four hexadecimal digits that write the number `v`. -/
def Hex4 (ds : List Rune) (v : Int) : Prop :=
  ∃ a b c d k3 k2 k1 k0, ds = [a, b, c, d] ∧ HexDigit a k3 ∧ HexDigit b k2 ∧ HexDigit c k1 ∧ HexDigit d k0 ∧
    v = 4096 * k3 + 256 * k2 + 16 * k1 + k0

/-- `Spelling q src val u`: between quotes `q`, the text `src` is a way to write the characters `val`;
`u` tells whether one of them is written as a unicode escape. -/
inductive Spelling (q : Rune) : List Rune → List Rune → Bool → Prop
  | nil : Spelling q [] [] false
  | plain {c src val u} (h : Spelling q src val u) (hq : c ≠ q) (hb : c ≠ 92) (he : c ≠ EOFChar) : Spelling q (c :: src) (c :: val) u
  | escape {d src val u} (h : Spelling q src val u) (hd : d ≠ 117) : Spelling q (92 :: d :: src) (d :: val) u
  | unicode {ds v src val u} (h : Spelling q src val u) (hd : Hex4 ds v) : Spelling q (92 :: 117 :: (ds ++ src)) (v :: val) true

end Xbnf.Spec
