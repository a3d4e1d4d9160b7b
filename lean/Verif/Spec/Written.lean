import Verif.Spec.Calls
import Verif.Spec.Outcome
/-
Texts written in a grammar: the strings of a choice, and when they cannot be confused.
-/
namespace Xbnf.Spec

/-- `body` lists the texts `ts`, each as a string in quotes, with '|' between them, on one line. -/
inductive Listed : List (List Rune) → List Rune → Prop
  | one {src t u} (h : Spelling 34 src t u) (hn : 10 ∉ src) : Listed [t] (34 :: src ++ [34])
  | more {src t u ts body} (h : Spelling 34 src t u) (hn : 10 ∉ src) (hs : Listed ts body) :
      Listed (t :: ts) (34 :: src ++ 34 :: runes " | " ++ body)

/-- `b` is `a`, perhaps with white space before it. -/
def WhiteBefore (a b : List Rune) : Prop := ∃ w, (∀ c ∈ w, isWhiteSpace c = true) ∧ b = w ++ a

/-- No text is another one, perhaps with white space before it. -/
def Apart (ts : List (List Rune)) : Prop := ts.Pairwise (fun a b => ¬ WhiteBefore a b ∧ ¬ WhiteBefore b a)

/-- `t` is the longest of the texts `ts` that come next in `l`; it comes after the white space `ws`. -/
def LongestOf (ts : List (List Rune)) (l t ws : List Rune) : Prop :=
  t ∈ ts ∧ Comes true t l ws ∧ ∀ t' ∈ ts, ∀ ws', Comes true t' l ws' → ws'.length + t'.length ≤ ws.length + t.length

/-- How a character is written between the quotes `q`, as README.md says: a quote as a unicode escape, a backslash twice; a newline, which would
end the definition, as a unicode escape too. -/
def writtenChar (q c : Rune) : List Rune :=
  if c = q then (if q = 34 then runes "\\u0022" else runes "\\u0027") else if c = 92 then runes "\\\\" else if c = 10 then runes "\\u000a" else [c]

/-- How a text is written between the quotes `q`. -/
def written (q : Rune) (t : List Rune) : List Rune := t.flatMap (writtenChar q)

/-- Texts written as strings, with '|' between them. -/
def writtenList : List (List Rune) → List Rune
  | [] => []
  | [t] => 34 :: written 34 t ++ [34]
  | t :: ts => 34 :: written 34 t ++ 34 :: runes " | " ++ writtenList ts

end Xbnf.Spec
