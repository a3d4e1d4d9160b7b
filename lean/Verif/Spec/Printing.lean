import Verif.Spec.Definition
/-
The rules whose printed form means the same rule again.  Left out are, with reasons in
`C36_counterexample` (`Props/Printing.lean`): a backslash inside a literal of several characters or at
an end of a range, `"` in a string, a quote as the last character of a range, marks on a range that
ends in an escape, equal bounds of a repetition, marks on a choice, a choice as an alternative, and
choices and concatenations as parts of a block.
-/
namespace Xbnf.Spec

/-- The characters a Go string can hold. -/
def Scalar (c : Rune) : Prop := (0 ≤ c ∧ c < 0xD800) ∨ (0xE000 ≤ c ∧ c ≤ 0x10FFFF)

/-- The values of four hexadecimal digits. -/
def Code (c : Rune) : Prop := 0 ≤ c ∧ c < 65536

mutual
/-- A part that is printed faithfully. -/
inductive Faithful : Rule → Prop
  | eof {b} (h : b.name = []) : Faithful (.eof b)
  | char {b c} (h : b.name = []) (hc : Scalar c) : Faithful (.char b c false)
  | code {b c} (h : b.name = []) (hc : Code c) : Faithful (.char b c true)
  | range {b x xu y} (h : b.name = []) (hx : xu = false → Scalar x ∧ x ≠ 92) (hx' : xu = true → Code x)
      (hy : Scalar y) (h1 : y ≠ 92) (h2 : y ≠ 39) : Faithful (.range b x xu y false)
  | rangeCode {x xu y} (hx : xu = false → Scalar x ∧ x ≠ 92) (hx' : xu = true → Code x) (hy : Code y) :
      Faithful (.range {} x xu y true)
  | chars {b t} (h : b.name = []) (h2 : 2 ≤ t.length) (ht : ∀ c ∈ t, Scalar c ∧ c ≠ 92) : Faithful (.chars b t)
  | str {b t} (h : b.name = []) (ht : ∀ c ∈ t, Scalar c ∧ c ≠ 92 ∧ c ≠ 34) : Faithful (.str b t)
  | group {b r} (h : b.name = []) (hr : FaithfulDef r) : Faithful (.group b r)
  | option {b r} (h : b.name = []) (hr : FaithfulDef r) : Faithful (.option b r)
  | rep {b r mn mx} (h : b.name = []) (hr : FaithfulDef r) (h1 : mn < 2 ^ 32) (h2 : mx < 2 ^ 32)
      (hle : mx = 0 ∨ mn < mx) : Faithful (.rep b r mn mx)
  | block {b o v c x} (h : b.name = []) (ho : Faithful o) (hc : Faithful c) (hx : ∀ r ∈ x, Faithful r) :
      Faithful (.block b o v c none x)
  | blockEscape {b o v c e x} (h : b.name = []) (ho : Faithful o) (hc : Faithful c) (he : Faithful e) (hx : ∀ r ∈ x, Faithful r) :
      Faithful (.block b o v c (some e) x)
  | ref {b n} (h : b.name = []) (hn : RefName n) : Faithful (.ref b n)
/-- A part of a concatenation that is printed faithfully: a simple one, or a choice between simple ones. -/
inductive FaithfulPart : Rule → Prop
  | simple {r} (h : Faithful r) : FaithfulPart r
  | choice {gs} (hg : ∀ g ∈ gs, g ≠ []) (hr : ∀ g ∈ gs, ∀ r ∈ g, Faithful r) (h2 : 2 ≤ (gs.map List.length).sum) :
      FaithfulPart (.choice {} gs)
/-- A rule that is printed faithfully. -/
inductive FaithfulDef : Rule → Prop
  | part {r} (h : FaithfulPart r) : FaithfulDef r
  | concat {rs} (hr : ∀ r ∈ rs, FaithfulPart r) (h2 : 2 ≤ rs.length) : FaithfulDef (.concat {} rs)
end

end Xbnf.Spec
