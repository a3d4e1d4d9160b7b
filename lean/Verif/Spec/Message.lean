import Verif.Spec.Error
import Verif.Spec.Places
import Verif.Model.Message
/-
Which errors a rule of a grammar can give: the error is made by the rule or by a rule it contains or
refers to, and it names the rule that made it.
-/
namespace Xbnf.Spec

/-- The errors a rule can give. -/
inductive Explains (env : Env) : Rule → Err → Prop
  /-- there is text left -/
  | eof {b} : Explains env (.eof b) .missingEOF
  /-- a terminal at the end of the text -/
  | atEOF {r} (h : OfText r) : Explains env r (.missingAtEOF (asNamed r))
  /-- a terminal elsewhere -/
  | missing {r p} (h : OfText r) : Explains env r (.missing (asNamed r) p)
  /-- groups, options and references pass on the error of their rule -/
  | group {b r e} (h : Explains env r e) : Explains env (.group b r) e
  | option {b r e} (h : Explains env r e) : Explains env (.option b r) e
  | ref {b n r e} (hn : env n = some r) (h : Explains env r e) : Explains env (.ref b n) e
  /-- a reference to nothing -/
  | undefined {b n} (hn : env n = none) : Explains env (.ref b n) (.undefined b n)
  /-- a repetition: the error of its rule, or the number of matches is too small -/
  | rep {b r mn mx e} (h : Explains env r e) : Explains env (.rep b r mn mx) e
  | tooFew {b r mn mx n} (h : n < mn) : Explains env (.rep b r mn mx) (.tooFew (.rep b r mn mx) n)
  /-- a concatenation: itself, and the error of one of its rules -/
  | concat {b rs r e} (hr : r ∈ rs) (h : Explains env r e) : Explains env (.concat b rs) (.inConcat (.concat b rs) e)
  /-- a choice: itself, and the error of one of its alternatives or none; or two matches -/
  | choice {b gs g r e} (hg : g ∈ gs) (hr : r ∈ g) (h : Explains env r e) : Explains env (.choice b gs) (.inChoice (.choice b gs) e)
  | choiceNil {b gs} : Explains env (.choice b gs) (.inChoice (.choice b gs) .nil)
  | ambiguity {b gs x y} : Explains env (.choice b gs) (.ambiguity b.name x y)
  /-- a block: the error of its open rule, a text it excludes, or no close -/
  | opening {b o v c x xs e} (h : Explains env o e) : Explains env (.block b o v c x xs) e
  | excluded {b o v c x xs t} (h : xs ≠ []) : Explains env (.block b o v c x xs) (.excluded t)
  | missingClose {b o v c x xs} : Explains env (.block b o v c x xs) (.missingClose c)

/-- A number as text. -/
def decimal (n : Int) : List Rune := runes (toString n)

/-- The texts of errors: descriptions of the rules around, then what is wrong. -/
inductive ErrorText : List Rune → Prop
  | around {d m} (h : ErrorText m) : ErrorText (d ++ runes ": " ++ m)
  | nothing {d} : ErrorText (d ++ runes ": %!s(<nil>)")
  | missing {d} {line col : Int} : ErrorText (runes "missing " ++ d ++ runes " at L" ++ decimal line ++ runes ":" ++ decimal col)
  | atEOF {d} : ErrorText (runes "missing " ++ d ++ runes " at EOF")
  | eof : ErrorText (runes "missing EOF")
  | undefined {marks n} : ErrorText (runes "rule '" ++ marks ++ n ++ runes "' not defined")
  /-- the first number is the smaller one -/
  | tooFew {d} {n least : Nat} (h : n < least) : ErrorText (d ++ runes ": " ++ decimal n ++ runes " less than minimal " ++ decimal least)
  | ambiguity {d x y} : ErrorText (d ++ runes "\t\n" ++ x ++ runes "\t\n" ++ y)
  | excluded {t} : ErrorText (runes "text `" ++ t ++ runes "` is not allowed in text block")

/-- The rule has a description: where it has no name, its parts have one, and there are parts. -/
inductive Describable : Rule → Prop
  | eof {b} : Describable (.eof b)
  | char {b t u} : Describable (.char b t u)
  | range {b x xu y yu} : Describable (.range b x xu y yu)
  | chars {b t} : Describable (.chars b t)
  | str {b t} : Describable (.str b t)
  | ref {b n} : Describable (.ref b n)
  | named {r} (h : r.base.name ≠ []) : Describable r
  | group {b r} (h : Describable r) : Describable (.group b r)
  | option {b r} (h : Describable r) : Describable (.option b r)
  | rep {b r mn mx} (h : Describable r) : Describable (.rep b r mn mx)
  | choice {b gs} (h : ∀ g ∈ gs, ∀ r ∈ g, Describable r) (hn : ∃ g ∈ gs, g ≠ []) : Describable (.choice b gs)
  | concat {b rs} (h : ∀ r ∈ rs, Describable r) (hn : rs ≠ []) : Describable (.concat b rs)
  | block {b o v c e x} (ho : Describable o) (hc : Describable c) : Describable (.block b o v c e x)

/-- The text of a terminal does not begin at index `k`.  (For a literal of white space only this may not
be so.) -/
def Absent (text : List Rune) (k : Nat) : Rule → Prop
  | .char _ c _ => text[k]? ≠ some c
  | .range _ x _ y _ => ∀ c, text[k]? = some c → ¬ (x ≤ c ∧ c ≤ y)
  | .chars _ t => (∃ c ∈ t, isWhiteSpace c = false) → ¬ t <+: text.drop k
  | .str _ t => (∃ c ∈ t, isWhiteSpace c = false) → ¬ t <+: text.drop k
  | _ => False

/-- What an error says is so in the text; `idx` is the index the error has. -/
def Holds (text : List Rune) (idx : Int) : Err → Prop
  -- the terminal is not at the position named, and that is not after the index
  | .missing r p => ∃ k : Nat, (k : Int) ≤ idx ∧ Reported text k p ∧ Absent text k r
  -- the text has ended
  | .missingAtEOF _ => idx = text.length
  | .missingClose _ => idx = text.length
  -- the text goes on
  | .missingEOF => ∃ k : Nat, (k : Int) ≤ idx ∧ k < text.length
  -- the text is there
  | .excluded t => t <:+: text
  | .tooFew r n => n < r.least
  | .inConcat _ e => Holds text idx e
  | .inChoice _ e => Holds text idx e
  | _ => True

end Xbnf.Spec
