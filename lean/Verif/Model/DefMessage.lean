import Verif.Model.Grammar
import Verif.Model.Bytes
import Verif.Model.Show
/-
The texts of the errors of definitions: the `fmt.Errorf` calls of the definition parser, of /repo/grammar.go and of
`validateRuleName`.
-/
namespace Xbnf

/-- `%c`: a number that is no character is printed as U+FFFD.  Used by grammar.go:445, grammar.go:550, rule_block.go:209. -/
def percentC (c : Rune) : List Rune := [viaUTF8 c]

/-- rule.go:245-270 `validateRuleName`, the messages.  `ruleName[0]` is a byte, and `%c` prints the character with that
number. -/
def nameText (name : Name) : List Rune :=
  match name with
  | [] => runes "empty rule name"
  | c :: _ =>
    if isLetter c = false then
      runes "rule name must starts with a letter character: '" ++ percentC ((UTF8.encode1 c).headD 0) ++ runes "' is invalid"
    else runes "rule name must consist of letters, 0-9 digits, or '_': '" ++ name.map viaUTF8 ++ runes "' is invalid"

/-- The text of an error; the lines are cited at the constructors of `PErr`.  `missing` is the name found by `Validate`
(`Grammar.missing`).  Such as grammar.go:445. -/
def PErr.text (missing : Name) : PErr → List Rune
  | .noRule => runes "no rule found"
  | .invalidChar c => runes "invalid char '" ++ percentC c ++ runes "'"
  | .notARule c => runes "invalid char '" ++ percentC c ++ runes "' for any rule"
  | .eof => runes "EOF encountered, no more rule"
  | .annotation c => runes "annotation symbol '" ++ percentC c ++ runes "' can not appear before choice symbol '|'"
  | .choiceOperand => runes "Choice operator must in between rules"
  | .charStart => runes "terminal char must start with a single quote"
  | .charEnd => runes "terminal char must end with a single quote"
  | .charEmpty => runes "terminal char(s) must contains a least 1 character"
  | .strStart => runes "terminal string must start with a double quote"
  | .strEnd => runes "terminal string must end with a double quote"
  | .uniStart => runes "unicode terminal must start with '\\u' and followed with 4 hex chars"
  | .uniEscape => runes "unicode escape must start with '\\u'"
  | .uniDigits => runes "unicode escape must start with '\\u' and followed with 4 hex chars"
  | .rangeForm => runes "char range must be 2 chars connected by a range symbol '-'"
  | .rangeEscape => runes "char range: end char missing unicode escape \\u"
  | .rangeSecond => runes "char range must be 2 chars connected by a range symbol '-': invalid 2nd char"
  | .groupStart => runes "group must start with a round bracket '('"
  | .groupEnd => runes "group must end with a round bracket ')'"
  | .optionStart => runes "option must start with a square bracket '['"
  | .optionEnd => runes "option must end with a square bracket ']'"
  | .repStart => runes "repetition must start with curly brace '{'"
  | .repEnd => runes "repetition must end with curly brace '}'"
  | .blockStart => runes "block must start with '<' char"
  | .blockOpen e => runes "missing block open rule: " ++ e.text missing
  | .blockEnd c => runes "block must end with a '>': encountered '" ++ percentC c ++ runes "'"
  | .specStart => runes "repetition specification must start with a '<'"
  | .specChar c => runes "invalid char in repetition specification: " ++ percentC c
  | .specNumber ds => runes "invalid repetition specification: " ++ ds.map viaUTF8
  | .specOrder mn mx => runes "invalid repetition specification: max repeat less than min repeat: <" ++ percentD mn ++ runes "," ++ percentD mx ++ runes ">"
  | .choiceGroup => runes "no rule found for choice group before '>'"
  | .choiceFew => runes "choice rule must has at least 2 rules as choices"
  | .reference => runes "rule name reference must be start with a letter or an underscore"
  | .badName name => nameText name
  | .duplicate name line => runes "rule '" ++ name.map viaUTF8 ++ runes "' already defined at line " ++ percentD line
  | .missingEq t => runes "invalid(missing =): " ++ t.map viaUTF8
  | .undefinedRef => runes "rule name '" ++ missing.map viaUTF8 ++ runes "' referenced but not defined"
  | .atLine n none e => runes "L#" ++ percentD n ++ runes ": " ++ e.text missing
  | .atLine n (some name) e => runes "L#" ++ percentD n ++ runes ": rule [" ++ name.map viaUTF8 ++ runes "] - " ++ e.text missing

/-- grammar.go:218-222: the name `Validate` complains about; `order` is the order in which Go visits the map. -/
def Grammar.missing (g : Grammar) (order : List (Name × List Name)) : Option Name :=
  (order.find? (fun p => (g.getRecord p.1).isNone)).map (·.1)

end Xbnf
