import Verif.Model.Grammar
import Verif.Spec.Definition
import Verif.Spec.Syntax
import Verif.Spec.Cause
/-
Vocabulary for grammars that are built up: histories of calls, lines of a text.
-/
namespace Xbnf.Spec

/-- One call of `ParseRule`, `AddRule` or `Validate` takes the grammar from `g` to `g'`, whether the
call returns a rule or an error. -/
inductive DefCall : Grammar → Grammar → Prop
  | parsed {fuel name text g r g'} (h : Grammar.parseRule fuel name text g = .ok r g') : DefCall g g'
  | notParsed {fuel name text g e g'} (h : Grammar.parseRule fuel name text g = .err e g') : DefCall g g'
  | added {fuel text g r g'} (h : Grammar.addRule fuel text g = .ok r g') : DefCall g g'
  | notAdded {fuel text g e g'} (h : Grammar.addRule fuel text g = .err e g') : DefCall g g'
  | validated {g g' : Grammar} (h : g.validate = some g') : DefCall g g'

/-- Any number of calls, one after the other. -/
inductive DefCalls : Grammar → Grammar → Prop
  | done {g} : DefCalls g g
  | more {g g1 g2} (h : DefCalls g g1) (hc : DefCall g1 g2) : DefCalls g g2

/-- Calls that all succeed. -/
inductive OkCalls : Grammar → Grammar → Prop
  | done {g} : OkCalls g g
  | parsed {g g1 fuel name text r g2} (h : OkCalls g g1) (hc : Grammar.parseRule fuel name text g1 = .ok r g2) : OkCalls g g2
  | added {g g1 fuel text r g2} (h : OkCalls g g1) (hc : Grammar.addRule fuel text g1 = .ok r g2) : OkCalls g g2
  | validated {g g1 g2} (h : OkCalls g g1) (hc : g1.validate = some g2) : OkCalls g g2

/-- A call of `ParseRule` or `AddRule` that returns an error. -/
inductive Rejected : Grammar → Grammar → Prop
  | parseRule {fuel name text g e g'} (h : Grammar.parseRule fuel name text g = .err e g') : Rejected g g'
  | addRule {fuel text g e g'} (h : Grammar.addRule fuel text g = .err e g') : Rejected g g'

/-- `ls` are the lines of `text`: put together again with newlines they are the text, and none of
them has a newline in it. -/
def Lines (text : List Rune) (ls : List (List Rune)) : Prop :=
  ls ≠ [] ∧ List.intercalate [newline] ls = text ∧ ∀ l ∈ ls, newline ∉ l

/-- `t` is `l` without the white space around it. -/
def Trimmed (l t : List Rune) : Prop :=
  ∃ a b, l = a ++ t ++ b ∧ (∀ c ∈ a ++ b, isWhiteSpace c = true) ∧
    (∀ c, t.head? = some c → isWhiteSpace c = false) ∧ (∀ c, t.getLast? = some c → isWhiteSpace c = false)

/-- A line that defines nothing: only white space, or a comment. -/
def Skipped (l : List Rune) : Prop := ∃ t, Trimmed l t ∧ (t = [] ∨ ∃ rest, t = runes "//" ++ rest)

/-- A line `name = body`; the body begins after the first '='. -/
def Defines (l : List Rune) (name body : List Rune) : Prop :=
  ∃ t n b, Trimmed l t ∧ t = n ++ 61 :: b ∧ 61 ∉ n ∧ Trimmed n name ∧ Trimmed b body

/-- The rule with the name `n`; its parts and marks stay as they are. -/
def withName (n : Name) : Rule → Rule
  | .eof b => .eof { b with name := n }
  | .char b t u => .char { b with name := n } t u
  | .range b x xu y yu => .range { b with name := n } x xu y yu
  | .chars b t => .chars { b with name := n } t
  | .str b t => .str { b with name := n } t
  | .group b r => .group { b with name := n } r
  | .option b r => .option { b with name := n } r
  | .rep b r mn mx => .rep { b with name := n } r mn mx
  | .choice b gs => .choice { b with name := n } gs
  | .concat b rs => .concat { b with name := n } rs
  | .block b o v c e xs => .block { b with name := n } o v c e xs
  | .ref b m => .ref { b with name := n } m

/-- `body` writes the rule `r` (which carries the name `name`); what follows a comment has no effect. -/
def Parses (name body : List Rune) (r : Rule) : Prop := ∃ r0 out, Definition [EOFChar] body r0 out ∧ r = withName name r0

/-- `recs` are the definitions written in the lines `ls`, the first of which has number `i`. -/
inductive Denotes : Nat → List (List Rune) → List Record → Prop
  | nil {i} : Denotes i [] []
  | skip {i l ls recs} (h : Skipped l) (hs : Denotes (i + 1) ls recs) : Denotes i (l :: ls) recs
  | defn {i l ls recs name body r} (h : ¬ Skipped l) (hd : Defines l name body) (hn : RuleName name) (hp : Parses name body r)
      (hs : Denotes (i + 1) ls recs) : Denotes i (l :: ls) (⟨name, r, i⟩ :: recs)

/-- Every rule that is referred to is among the definitions. -/
def Closed (recs : List Record) : Prop := ∀ r ∈ recs, ∀ n ∈ refs r.rule, ∃ q ∈ recs, q.name = n

/-- The rules no rule refers to. -/
def IsRoot (recs : List Record) (r : Record) : Prop := r ∈ recs ∧ ∀ q ∈ recs, r.name ∉ refs q.rule

/-- What is wrong with the line `l`, when the definitions before it are `known`, and the error that tells: the name of
the rule, if there is one, and the reason. -/
inductive Fault (known : List Record) (l : List Rune) : Option Name → PErr → Prop
  | missingEq {t} (hs : ¬ Skipped l) (h : ¬ ∃ name body, Defines l name body) (ht : Trimmed l t) : Fault known l none (.missingEq t)
  | badName {name body} (hs : ¬ Skipped l) (hd : Defines l name body) (h : ¬ RuleName name) : Fault known l (some name) (.badName name)
  | duplicate {name body} {q : Record} (hs : ¬ Skipped l) (hd : Defines l name body) (hn : RuleName name) (hq : q ∈ known)
      (h : q.name = name) : Fault known l (some name) (.duplicate name q.line)
  | body {name body e used rest} (hs : ¬ Skipped l) (hd : Defines l name body) (hn : RuleName name) (hq : ∀ q ∈ known, q.name ≠ name)
      (h : ¬ ∃ r, Parses name body r) (hb : body = used ++ rest) (hc : Cause e used rest) : Fault known l (some name) e

end Xbnf.Spec
