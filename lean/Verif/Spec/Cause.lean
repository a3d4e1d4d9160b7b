import Verif.Spec.Syntax
/-
What the errors of the definition parser say about the text: `Cause e used rest` is what the error `e` claims,
when the parser has read `used` and `rest` is still to come.
-/
namespace Xbnf.Spec

/-- The text is over.  (The end-of-file character is in no text that was read from bytes, C62.) -/
def Ended (used rest : List Rune) : Prop := rest = [] ∨ used.getLast? = some EOFChar ∨ rest.head? = some EOFChar

/-- The text read ends with `t`. -/
def Just (t used : List Rune) : Prop := ∃ a, used = a ++ t

/-- The character read last, or the end of the text, is `c`. -/
def Met (c : Rune) (used rest : List Rune) : Prop := used.getLast? = some c ∨ (c = EOFChar ∧ rest = [])

/-- There is a comment. -/
def Commented (used : List Rune) : Prop := ∃ a b, used = a ++ 47 :: 47 :: b

/-- White space and annotations. -/
def Idle (c : Rune) : Prop := isWhiteSpace c = true ∨ c = 126 ∨ c = 35 ∨ c = 36

/-- No rule was read yet: only white space and annotations since the beginning, since the last bracket or '^', or
since the last part of a block. -/
def Fresh (used : List Rune) : Prop :=
  ∃ a gap, used = a ++ gap ∧ (∀ c ∈ gap, Idle c) ∧ (a = [] ∨ (∃ c, a.getLast? = some c ∧ c ∈ [40, 91, 123, 60, 94]) ∨ 60 ∈ a)

/-- The characters a part of a definition can begin with. -/
def Begins (c : Rune) : Prop := c = 39 ∨ c = 92 ∨ c = 34 ∨ c = 91 ∨ c = 123 ∨ c = 60 ∨ c = 40 ∨ Letter c ∨ c = 95

/-- The errors of the definition parser and what they say. -/
inductive Cause : PErr → List Rune → List Rune → Prop
  /-- "no rule found": the definition, or the part in brackets, ends before a rule. -/
  | noRule {used rest} (hf : Fresh used) (h : Ended used rest ∨ ∃ t, rest.head? = some t ∧ t ∈ [41, 93, 125, 32, 62, 33]) :
      Cause .noRule used rest
  | noRuleComment {used c rest} (hf : Fresh used) : Cause .noRule (used ++ 47 :: 47 :: c) rest
  /-- "invalid char": the next character begins nothing. -/
  | invalidChar {c used rest} (h : rest.head? = some c) (hb : ¬ Begins c) (hi : ¬ Idle c) (ho : c ≠ 124 ∧ c ≠ 62) :
      Cause (.invalidChar c) used rest
  /-- A single '/'. -/
  | slash {used rest d} (h : Just [47, d] used) (hd : d ≠ 47) : Cause (.invalidChar 47) used rest
  | lastSlash {used} (h : Just [47] used) : Cause (.invalidChar 47) used []
  /-- "invalid char for any rule", after '|' or '>'. -/
  | notARule {c used rest} (h : rest.head? = some c) (hb : ¬ Begins c) : Cause (.notARule c) used rest
  | eof {used rest} (h : Ended used rest) : Cause .eof used rest
  | annotation {c used rest} (hc : c = 126 ∨ c = 35 ∨ c = 36) (h : Just [c] used) (hr : rest.head? = some 124) :
      Cause (.annotation c) used rest
  | choiceOperand {used rest} (hf : Fresh used) (h : rest.head? = some 124 ∨ rest.head? = some 62) : Cause .choiceOperand used rest
  | charEnd {used rest} (h : Ended used rest) (hq : 39 ∈ used) : Cause .charEnd used rest
  | strEnd {used rest} (h : Ended used rest) (hq : 34 ∈ used) : Cause .strEnd used rest
  | charEmpty {used rest} (h : Just [39, 39] used) : Cause .charEmpty used rest
  | uniStart {used rest} (h : Just [92] used) (hr : rest.head? ≠ some 117) : Cause .uniStart used rest
  | uniEscape {used rest} (h : Just [45, 92] used) (hr : rest.head? ≠ some 117) : Cause .uniEscape used rest
  /-- Less than four hexadecimal digits after `\u`. -/
  | uniDigits {used ds rest} (h : Just (92 :: 117 :: ds) used) (hl : ds.length < 4) (hd : ∀ c ∈ ds, ∃ k, HexDigit c k) (hr : rest = []) :
      Cause .uniDigits used rest
  | uniDigit {used ds c rest} (h : Just (92 :: 117 :: (ds ++ [c])) used) (hl : ds.length < 4) (hd : ∀ c ∈ ds, ∃ k, HexDigit c k)
      (hc : ¬ ∃ k, HexDigit c k) : Cause .uniDigits used rest
  | rangeForm {used mid rest} (h : Just (45 :: 39 :: mid) used) (he : Ended used rest ∨ mid.getLast? ≠ some 39) : Cause .rangeForm used rest
  | rangeEscape {used rest} (h : Just [45, 39, 92] used) (hr : rest.head? ≠ some 117) : Cause .rangeEscape used rest
  | rangeSecond {used rest} (h : (Just [45] used ∧ rest = []) ∨ ∃ c, Just [45, c] used ∧ c ≠ 39 ∧ c ≠ 92) : Cause .rangeSecond used rest
  | groupEnd {used rest} (ho : 40 ∈ used) (h : Ended used rest ∨ Commented used) : Cause .groupEnd used rest
  | optionEnd {used rest} (ho : 91 ∈ used) (h : Ended used rest ∨ Commented used) : Cause .optionEnd used rest
  | repEnd {used rest} (ho : 123 ∈ used) (h : Ended used rest ∨ Commented used) : Cause .repEnd used rest
  | blockOpen {e used rest} (ho : 60 ∈ used) (h : Cause e used rest) : Cause (.blockOpen e) used rest
  | blockEnd {c used rest} (ho : 60 ∈ used) (hc : c ≠ 62) (h : Met c used rest) : Cause (.blockEnd c) used rest
  | specChar {c used rest} (ho : 60 ∈ used) (hc : ¬ Digit c) (hw : c ≠ 32 ∧ c ≠ 9 ∧ c ≠ 10 ∧ c ≠ 62) (h : Met c used rest) :
      Cause (.specChar c) used rest
  /-- A number that does not fit into 32 bits; the error has its digits. -/
  | specNumber {src t n used rest} (h : Just (src ++ [t]) used) (ht : t = 44 ∨ t = 62) (hn : Number src n) (hb : 2 ^ 32 ≤ n) :
      Cause (.specNumber (src.filter isDigit)) used rest
  | specOrder {s1 s2 mn mx used rest} (h : Just (s1 ++ 44 :: s2 ++ [62]) used) (h1 : Number s1 mn) (h2 : Number s2 mx)
      (h0 : mx ≠ 0) (hlt : mx < mn) : Cause (.specOrder mn mx) used rest

end Xbnf.Spec
