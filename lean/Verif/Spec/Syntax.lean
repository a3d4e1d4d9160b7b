import Verif.Model.Parse
import Verif.Spec.Definition
/-
The notation for definitions: which texts are definitions, and which rules they write.

Every relation has the text before and the text after what it describes.  Nothing here refers to the
parser; only the data types, the table of white space and the effect of UTF-8 on a character
(`viaUTF8`) are shared with it.
-/
namespace Xbnf.Spec

/-- `inp` is `out` with white space before it. -/
def Blank (inp out : List Rune) : Prop := ∃ w, inp = w ++ out ∧ ∀ c ∈ w, isWhiteSpace c = true

/-- `inp` is `out` with spaces (U+0020) before it. -/
def Spaces (inp out : List Rune) : Prop := ∃ w, inp = w ++ out ∧ ∀ c ∈ w, c = 32

/-- White space that may stand between the parts of a definition that ends before one of `terms`. -/
def Between (terms : List Rune) (c : Rune) : Prop := isWhiteSpace c = true ∧ c ∉ terms

/-- White space that may stand after '|' and '>'. -/
def AfterBar (c : Rune) : Prop := c = 32 ∨ c = 10 ∨ c = 9 ∨ c = 13

/-- White space and annotations: '$' makes a token, '#' no data, '~' virtual; '|' cannot follow an
annotation directly. -/
inductive Flagged (ws : Rune → Prop) : List Rune → RuleBase → List Rune → Prop
  | none {inp} : Flagged ws inp {} inp
  | white {c inp b out} (hc : ws c) (h : Flagged ws inp b out) : Flagged ws (c :: inp) b out
  | token {inp b out} (h : Flagged ws inp b out) (hb : inp.head? ≠ some 124) : Flagged ws (36 :: inp) { b with tokenized := true } out
  | nondata {inp b out} (h : Flagged ws inp b out) (hb : inp.head? ≠ some 124) : Flagged ws (35 :: inp) { b with nondata := true } out
  | virt {inp b out} (h : Flagged ws inp b out) (hb : inp.head? ≠ some 124) : Flagged ws (126 :: inp) { b with virt := true } out

/-- The last character of a range: in quotes, as an escape in quotes, or as an escape. -/
inductive RangeEnd : List Rune → Rune → Bool → Prop
  | quoted {c} (hc : c ≠ 92) : RangeEnd [39, c, 39] c false
  | quotedCode {ds v} (h : Hex4 ds v) : RangeEnd (39 :: 92 :: 117 :: ds ++ [39]) v true
  | code {ds v} (h : Hex4 ds v) : RangeEnd (92 :: 117 :: ds) v true

/-- Decimal digits, with blanks anywhere, write a number; no digits write 0. -/
inductive Number : List Rune → Nat → Prop
  | nil : Number [] 0
  | digit {ds n} {k : Nat} (h : Number ds n) (hk : k < 10) : Number (ds ++ [48 + (k : Int)]) (10 * n + k)
  | blank {ds n c} (h : Number ds n) (hc : c = 32 ∨ c = 9 ∨ c = 10) : Number (ds ++ [c]) n

/-- What follows the brace of a repetition: nothing or `*`, `+`, `<min>`, `<min,max>`. -/
inductive Bounds : List Rune → Nat → Nat → List Rune → Prop
  | none {out} (h1 : out.head? ≠ some 42) (h2 : out.head? ≠ some 43) (h3 : out.head? ≠ some 60) : Bounds out 0 0 out
  | star {out} : Bounds (42 :: out) 0 0 out
  | plus {out} : Bounds (43 :: out) 1 0 out
  | min {inp ds n out} (hw : Blank inp (ds ++ 62 :: out)) (hn : Number ds n) (h : n < 2 ^ 32) : Bounds (60 :: inp) n 0 out
  | minMax {inp ds n es m out} (hw : Blank inp (ds ++ 44 :: es ++ 62 :: out)) (hn : Number ds n) (h : n < 2 ^ 32)
      (hm : Number es m) (h' : m < 2 ^ 32) (hle : m = 0 ∨ n ≤ m) : Bounds (60 :: inp) n m out

/-- A name, as long as possible. -/
def NameText (n : Name) (out : List Rune) : Prop :=
  (∃ c cs, n = c :: cs ∧ (Letter c ∨ c = 95) ∧ ∀ d ∈ cs, Letter d ∨ Digit d ∨ d = 95) ∧
  ∀ d, out.head? = some d → ¬ (Letter d ∨ Digit d ∨ d = 95)

/-- The end of a block: '>', or '!' and '>' if the closing part is given back. -/
inductive BlockStop : List Rune → Bool → List Rune → Prop
  | close {out} : BlockStop (62 :: out) false out
  | giveBack {inp out} (h : Blank inp (62 :: out)) : BlockStop (33 :: inp) true out

/-- The groups of a choice: '>' begins a new one. -/
def grouped : List Rule → List (Rune × Rule) → List (List Rule)
  | g, [] => [g]
  | g, (op, r) :: alts => if op = 62 then g :: grouped [r] alts else grouped (g ++ [r]) alts

/-- The end of a definition: the text ends, or one of `terms` comes, or a comment; annotations before
it have no effect. -/
inductive Finish (terms : List Rune) : List Rune → List Rune → Prop
  | ended {inp b out} (hm : Flagged (Between terms) inp b out) (h : out = [] ∨ out.head? = some EOFChar) : Finish terms inp out
  | term {inp b t out} (hm : Flagged (Between terms) inp b (t :: out)) (ht : t ∈ terms) : Finish terms inp (t :: out)
  | comment {inp b c out} (hm : Flagged (Between terms) inp b (47 :: 47 :: c ++ 10 :: out)) (hc : 10 ∉ c) : Finish terms inp out
  | lastComment {inp b c} (hm : Flagged (Between terms) inp b (47 :: 47 :: c)) (hc : 10 ∉ c) : Finish terms inp []

mutual
/-- A part of a definition; `b` are its annotations. -/
inductive Simple : RuleBase → List Rune → Rule → List Rune → Prop
  | char {b src c u out} (h : Spelling 39 src [c] u) (hd : out.head? ≠ some 45) : Simple b (39 :: src ++ 39 :: out) (.char b c u) out
  | chars {b src val u out} (h : Spelling 39 src val u) (h2 : 2 ≤ val.length) : Simple b (39 :: src ++ 39 :: out) (.chars b val) out
  | charRange {b src c u e d du out} (h : Spelling 39 src [c] u) (he : RangeEnd e d du) :
      Simple b (39 :: src ++ 39 :: 45 :: (e ++ out)) (.range b c u d du) out
  | code {b ds v out} (h : Hex4 ds v) (hd : out.head? ≠ some 45) : Simple b (92 :: 117 :: ds ++ out) (.char b v true) out
  | codeRange {b ds v e d du out} (h : Hex4 ds v) (he : RangeEnd e d du) :
      Simple b (92 :: 117 :: ds ++ 45 :: (e ++ out)) (.range b v true d du) out
  | string {b src val u out} (h : Spelling 34 src val u) : Simple b (34 :: src ++ 34 :: out) (.str b (val.map viaUTF8)) out
  | eof {b out} (h : NameText (runes "EOF") out) : Simple b (runes "EOF" ++ out) (.eof b) out
  | ref {b n out} (h : NameText n out) (hn : n ≠ runes "EOF") : Simple b (n ++ out) (.ref b n) out
  | group {b inp r out} (h : Definition [41] inp r (41 :: out)) : Simple b (40 :: inp) (.group b r) out
  | option {b inp r out} (h : Definition [93] inp r (93 :: out)) : Simple b (91 :: inp) (.option b r) out
  | rep {b inp r mid mn mx out} (h : Definition [125] inp r (125 :: mid)) (hs : Bounds mid mn mx out) :
      Simple b (123 :: inp) (.rep b r mn mx) out
  | block {b inp o m1 m2 c m3 m4 v out} (ho : Definition [32, 62, 33] inp o m1) (hw : Blank m1 m2)
      (hc : Definition [32, 62, 33] m2 c m3) (hw' : Blank m3 m4) (he : BlockStop m4 v out) :
      Simple b (60 :: inp) (.block b o v c none []) out
  | blockExcludes {b inp o m1 xs m2 c m3 v out} (ho : Definition [32, 62, 33] inp o m1) (hx : Excludes m1 xs m2) (hne : xs ≠ [])
      (hc : Definition [62, 33] m2 c m3) (he : BlockStop m3 v out) : Simple b (60 :: inp) (.block b o v c none xs) out
  | blockEscape {b inp o m1 m2 e m3 xs m4 c m5 v out} (ho : Definition [32, 62, 33] inp o m1) (hw : Blank m1 m2)
      (hes : Definition [32, 62, 33] m2 e m3) (hx : Excludes m3 xs m4) (hc : Definition [62, 33] m4 c m5) (he : BlockStop m5 v out) :
      Simple b (60 :: inp) (.block b o v c (some e) xs) out
/-- The excludes of a block, each after '^'. -/
inductive Excludes : List Rune → List Rule → List Rune → Prop
  | nil {inp out} (hw : Blank inp out) : Excludes inp [] out
  | cons {inp m r m2 rs out} (hw : Blank inp (94 :: m)) (h : Definition [32, 62, 33] m r m2) (hs : Excludes m2 rs out) :
      Excludes inp (r :: rs) out
/-- A definition that ends before one of `terms`: one part, or the concatenation of several. -/
inductive Definition : List Rune → List Rune → Rule → List Rune → Prop
  | one {terms inp m r m2 out} (hw : Blank inp m) (h : Parts terms m [r] m2) (hf : Finish terms m2 out) : Definition terms inp r out
  | several {terms inp m rs m2 out} (hw : Blank inp m) (h : Parts terms m rs m2) (h2 : 2 ≤ rs.length) (hf : Finish terms m2 out) :
      Definition terms inp (.concat {} rs) out
/-- The parts of a concatenation: each with its annotations before it and, perhaps, alternatives after
it. -/
inductive Parts : List Rune → List Rune → List Rule → List Rune → Prop
  | nil {terms inp} : Parts terms inp [] inp
  | cons {terms inp b m1 r m2 r' m3 rs out} (hm : Flagged (Between terms) inp b m1) (hs : Simple b m1 r m2)
      (ht : Choices terms r m2 r' m3) (hp : Parts terms m3 rs out) : Parts terms inp (r' :: rs) out
/-- Alternatives to `r`, which give `r'`.  Annotations before the first '|' or '>' are those of the
choice. -/
inductive Choices : List Rune → Rule → List Rune → Rule → List Rune → Prop
  | nil {terms r inp} : Choices terms r inp r inp
  | cons {terms r inp b op m1 alts m2 r' out} (hm : Flagged (Between terms) inp b (op :: m1)) (ho : op = 124 ∨ op = 62) (hop : op ∉ terms)
      (ha : Alternatives (op :: m1) alts m2) (ht : Choices terms (.choice b (grouped [r] alts)) m2 r' out) :
      Choices terms r inp r' out
/-- Alternatives with the operators before them; spaces after the last one belong to the choice. -/
inductive Alternatives : List Rune → List (Rune × Rule) → List Rune → Prop
  | nil {inp out} (hw : Spaces inp out) (h0 : out.head? ≠ some 32) (h1 : out.head? ≠ some 124) (h2 : out.head? ≠ some 62) :
      Alternatives inp [] out
  | cons {inp op m b m1 r m2 alts out} (hw : Spaces inp (op :: m)) (ho : op = 124 ∨ op = 62) (hm : Flagged AfterBar m b m1)
      (hs : Simple b m1 r m2) (ha : Alternatives m2 alts out) : Alternatives inp ((op, r) :: alts) out
end

end Xbnf.Spec
