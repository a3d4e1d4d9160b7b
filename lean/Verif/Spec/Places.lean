import Verif.Spec.Text
import Verif.Model.Node
/-
Where the nodes of a tree are in the text, and the positions they carry (C50).
-/
namespace Xbnf.Spec

/-- The position the library reports for the character with index `k`: its line and column; for a
character of the first line other than the first, possibly "line 2" and a negative column (C07); nil at the end. -/
def Reported (text : List Rune) (k : Nat) (p : Option Position) : Prop :=
  if k < text.length then
    p = some (posOf text k) ∨ (0 < k ∧ newline ∉ text.take (k + 1) ∧ newline ∈ text ∧ ∃ c : Int, c < 0 ∧ p = some ⟨2, c⟩)
  else p = none

/-- Only white space between two indexes. -/
def Gap (text : List Rune) (i k : Nat) : Prop :=
  i ≤ k ∧ k ≤ text.length ∧ ∀ c ∈ (text.take k).drop i, isWhiteSpace c = true

/-- The first position among some nodes. -/
def firstOf (ns : List Node) : Option Position := ns.findSome? (·.pos)

/-- The nodes are in the text from index `i` to index `j`, one after the other with only white space
between the texts of their leaves, and their positions are as the library reports them. -/
inductive Laid (text : List Rune) : Nat → List Node → Nat → Prop
  | nil {i} : Laid text i [] i
  /-- a character: the position of the character -/
  | char {i k j n ns c} (ht : n.ruleType = .char) (hc : n.children = []) (hg : Gap text i k) (hk : text[k]? = some c)
      (h : n.chars = [c]) (hp : Reported text k n.pos) (hs : Laid text (k + 1) ns j) : Laid text i (n :: ns) j
  /-- a string: the position of its first character -/
  | string {i k j n ns} (ht : n.ruleType = .string) (hc : n.children = []) (hg : Gap text i k) (h : n.chars <+: text.drop k)
      (hp : n.chars ≠ [] → Reported text k n.pos) (hs : Laid text (k + n.chars.length) ns j) : Laid text i (n :: ns) j
  /-- a character sequence: the position of its first character, if that is not white space -/
  | literal {i k j n ns} (ht : n.ruleType = .chars) (hc : n.children = []) (hg : Gap text i k) (h : n.chars <+: text.drop k)
      (hp : ∀ c, n.chars.head? = some c → isWhiteSpace c = false → Reported text k n.pos)
      (hs : Laid text (k + n.chars.length) ns j) : Laid text i (n :: ns) j
  /-- a range: the position of the character before the place where the range was tried -/
  | range {i k j n ns c} (ht : n.ruleType = .chars) (hc : n.children = []) (hg : Gap text i k) (hk : text[k]? = some c)
      (h : n.chars = [c]) (hp : if i = 0 then n.pos = none else Reported text (i - 1) n.pos)
      (hs : Laid text (k + 1) ns j) : Laid text i (n :: ns) j
  /-- the end of the text: no position -/
  | eof {i j n ns} (ht : n.ruleType = .eof) (hc : n.children = []) (hg : Gap text i text.length) (h : n.chars = [EOFChar])
      (hp : n.pos = none) (hs : Laid text text.length ns j) : Laid text i (n :: ns) j
  /-- a group: no position -/
  | group {i k j n ns m} (ht : n.ruleType = .group) (h : n.chars = []) (hc : n.children = [m]) (hm : Laid text i [m] k)
      (hp : n.pos = none) (hs : Laid text k ns j) : Laid text i (n :: ns) j
  /-- an option, choice, repetition or concatenation: the first position among its children -/
  | inner {i k j n ns} (ht : n.ruleType ∈ [RType.option, .choice, .repetition, .concatenate]) (h : n.chars = [])
      (hm : Laid text i n.children k) (hp : n.pos = firstOf n.children) (hs : Laid text k ns j) : Laid text i (n :: ns) j
  /-- a block: the position of its open text; the content begins where the open text ends -/
  | block {i a k j n ns o m cl} (ht : n.ruleType = .block) (h : n.chars = []) (hc : n.children = o :: m :: cl)
      (ho : Laid text i [o] a) (hmt : m.ruleType = .chars) (hmc : m.children = []) (hm : m.chars <+: text.drop a)
      (hmp : Reported text a m.pos) (hcl : Laid text (a + m.chars.length) cl k) (hp : n.pos = o.pos)
      (hs : Laid text k ns j) : Laid text i (n :: ns) j

/-- A character or a non-empty string is a piece of the text and carries the position of its first
character. -/
def Placed (text : List Rune) (n : Node) : Prop :=
  (n.ruleType = .char ∨ n.ruleType = .string) → n.chars ≠ [] → ∃ k, n.chars <+: text.drop k ∧ Reported text k n.pos

/-- The nodes are the text from index `i` to index `j` cut into pieces: text that belongs to no match,
which carries no position, and matches, which are laid in the text. -/
inductive Tiled (text : List Rune) : Nat → List Node → Nat → Prop
  | nil {i} : Tiled text i [] i
  /-- text between the matches -/
  | gap {i k j n ns} (ht : n.ruleType = .text) (hc : n.children = []) (hk : i < k) (hl : k ≤ text.length)
      (h : n.chars = (text.take k).drop i) (hp : n.pos = none) (hs : Tiled text k ns j) : Tiled text i (n :: ns) j
  /-- a match -/
  | hit {i k j n ns} (hk : i < k) (h : Laid text i [n] k) (hs : Tiled text k ns j) : Tiled text i (n :: ns) j

end Xbnf.Spec
