import Verif.Model.Parse
/-
Rules printed back as definitions: the `String` methods of /repo/rule_*.go.
`desc` is in Model/Message.lean.  `StringWithIndent` is in Model/Serialize.lean.
-/
namespace Xbnf

/-- rule.go:211-223 `annotation`: '$', '~', '#' in this order. -/
def annotation (b : RuleBase) : List Rune :=
  (if b.tokenized then [ch '$'] else []) ++ (if b.virt then [ch '~'] else [])
    ++ (if b.nondata then [ch '#'] else [])

/-- An upper-case hex digit.  For `%04X`, rule_terminal_char.go:80. -/
def hexDigit (n : Nat) : Rune := if n < 10 then 48 + n else 55 + n

/-- `fmt.Sprintf("%04X", c)`, for `c` below 65536: four upper-case hex digits.  Only characters written
as escapes are printed so, and an escape has four digits (`parseUnicodeEscape`).
rule_terminal_char.go:80, rule_terminal_range.go:79, rule_terminal_range.go:88. -/
def hex4 (n : Nat) : List Rune :=
  [hexDigit (n / 4096 % 16), hexDigit (n / 256 % 16), hexDigit (n / 16 % 16), hexDigit (n % 16)]

/-- The decimal digits of `n`, with `fuel` for the division.  For `%d`, rule_repetition.go:254. -/
def decDigits : Nat → Nat → List Rune
  | 0, _ => []
  | fuel + 1, n => if n < 10 then [48 + (n : Int)] else decDigits fuel (n / 10) ++ [48 + ((n % 10 : Nat) : Int)]

/-- `fmt.Sprintf("%d", n)` for the bounds of a repetition, which are below 2^32 and have at most ten
digits.  rule_repetition.go:251-267. -/
def dec (n : Nat) : List Rune := decDigits 10 n

/-- rule_terminal_char.go:77-89 `TerminalCharRule.String`. -/
def printChar (b : RuleBase) (text : Rune) (asUnicode : Bool) : List Rune :=
  if asUnicode then annotation b ++ runes "\\u" ++ hex4 text.toNat
  else if text = ch '\\' then annotation b ++ runes "'\\\\'"
  else if text = ch '\'' then annotation b ++ runes "'\\''"
  else annotation b ++ runes "'" ++ [viaUTF8 text] ++ runes "'"

/-- rule_terminal_range.go:78-95: one end of a range. -/
def printEnd (b : RuleBase) (c : Rune) (asUnicode : Bool) : List Rune :=
  if asUnicode then annotation b ++ runes "\\u" ++ hex4 c.toNat
  else if c = ch '\'' then runes "'\\''"
  else runes "'" ++ [viaUTF8 c] ++ runes "'"

/-- rule_repetition.go:251-267 `repetitionSpecString`. -/
def printSpec (min max : Nat) : List Rune :=
  if min = max then
    if min ≠ 0 then runes "<" ++ dec min ++ runes ">" else []
  else if max = 0 then
    if min = 1 then runes "+" else runes "<" ++ dec min ++ runes ",0>"
  else runes "<" ++ dec min ++ runes "," ++ dec max ++ runes ">"

/-- rule_terminal_chars.go:88-90: single quotes get a backslash. -/
def escapeQuote : List Rune → List Rune
  | [] => []
  | c :: cs => if c = ch '\'' then ch '\\' :: ch '\'' :: escapeQuote cs else c :: escapeQuote cs

mutual
/-- `IRule.String`: rule_eof.go:25-28, rule_terminal_char.go:77-89, rule_terminal_range.go:74-98,
rule_terminal_chars.go:85-92, rule_terminal_string.go:85-88, rule_group.go:57-66,
rule_option.go:58-67, rule_repetition.go:117-127, rule_choice.go:168-209,
rule_concatenate.go:101-120, rule_block.go:26-50, rule_reference.go:53-56.  The panics of
`ChoiceRule.String` on an empty group and the message for a concatenation of fewer than two rules
are not modelled: the parser builds no such rule (`C38_well_formed`). -/
def Rule.print (r : Rule) : List Rune :=
  match r with
  | .eof b => annotation b ++ runes "EOF"
  | .char b t u => printChar b t u
  | .range b x xu y yu => annotation b ++ printEnd b x xu ++ runes "-" ++ printEnd b y yu
  | .chars b t => annotation b ++ runes "'" ++ escapeQuote (t.map viaUTF8) ++ runes "'"
  | .str b t => annotation b ++ runes "\"" ++ t.map viaUTF8 ++ runes "\""
  | .group b r => annotation b ++ runes "( " ++ r.print ++ runes " )"
  | .option b r => annotation b ++ runes "[ " ++ r.print ++ runes " ]"
  | .rep b r mn mx => annotation b ++ runes "{ " ++ r.print ++ runes " }" ++ printSpec mn mx
  | .choice b gs =>
    if annotation b = [] then printGroups gs
    else annotation b ++ runes "(" ++ printGroups gs ++ runes ")"
  | .concat b rs =>
    if annotation b = [] then printSeq (runes " ") rs
    else annotation b ++ runes "(" ++ printSeq (runes " ") rs ++ runes ")"
  | .block b o v c e x =>
    annotation b ++ runes "<" ++ o.print
      ++ (match e with
          | none => []
          | some e => runes " " ++ e.print)
      ++ printExcludes x ++ runes " " ++ c.print ++ (if v then runes " !" else []) ++ runes ">"
  | .ref b n => annotation b ++ n
/-- The rules of a sequence with a separator between them.  rule_concatenate.go:101-120, rule_choice.go:168-209. -/
def printSeq (sep : List Rune) : List Rule → List Rune
  | [] => []
  | [r] => r.print
  | r :: r' :: rs => r.print ++ sep ++ printSeq sep (r' :: rs)
/-- rule_choice.go:177-202: " | " inside a group, " > " between groups. -/
def printGroups : List (List Rule) → List Rune
  | [] => []
  | [g] => printSeq (runes " | ") g
  | g :: g' :: gs => printSeq (runes " | ") g ++ runes " > " ++ printGroups (g' :: gs)
/-- rule_block.go:37-40. -/
def printExcludes : List Rule → List Rune
  | [] => []
  | r :: rs => runes " ^" ++ r.print ++ printExcludes rs
end

end Xbnf
