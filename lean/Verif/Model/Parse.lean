import Verif.Model.Rule
/-
The parser of rule definitions: `Grammar.parse`/`parseOne` of /repo/grammar.go and the `in…`
functions of /repo/rule_*.go.

The code reads the definition through a `CharstreamString` and only calls `Peek`, `Next` and
`SkipSpaces`.  Here the stream is just the list of characters left; `parser_reads` in
`Verif/Props/Definitions.lean` proves that these three methods of the stream model are `peekR`, `pNext`
and `skipR` on that list.
-/
namespace Xbnf

/-- The errors of the definition parser and of the grammar; the message texts are in Model/DefMessage.lean.  Such as grammar.go:445. -/
inductive PErr where
  /-- "no rule found" (grammar.go:579) -/
  | noRule
  /-- "invalid char" (grammar.go:550, 573) -/
  | invalidChar (c : Rune)
  /-- "invalid char … for any rule" (grammar.go:675) -/
  | notARule (c : Rune)
  /-- grammar.go:602 -/
  | eof
  /-- an annotation directly before '|' (grammar.go:445, 615) -/
  | annotation (c : Rune)
  /-- choice operator without a rule before it (grammar.go:482) -/
  | choiceOperand
  /-- rule_terminal_char.go:101 -/
  | charStart
  /-- rule_terminal_char.go:106 -/
  | charEnd
  /-- rule_terminal_char.go:127 -/
  | charEmpty
  /-- rule_terminal_string.go:99 -/
  | strStart
  /-- rule_terminal_string.go:105 -/
  | strEnd
  /-- rule_terminal_char.go:150 -/
  | uniStart
  /-- rule_terminal_char.go:180 -/
  | uniEscape
  /-- rule_terminal_char.go:189 -/
  | uniDigits
  /-- rule_terminal_range.go:110, 129 -/
  | rangeForm
  /-- rule_terminal_range.go:124 -/
  | rangeEscape
  /-- rule_terminal_range.go:139 -/
  | rangeSecond
  /-- rule_group.go:44 -/
  | groupStart
  /-- rule_group.go:52 -/
  | groupEnd
  /-- rule_option.go:45 -/
  | optionStart
  /-- rule_option.go:53 -/
  | optionEnd
  /-- rule_repetition.go:133 -/
  | repStart
  /-- rule_repetition.go:141 -/
  | repEnd
  /-- rule_block.go:209 -/
  | blockStart
  /-- rule_block.go:215: the error of the open rule. -/
  | blockOpen (e : PErr)
  /-- rule_block.go:235, 273 -/
  | blockEnd (c : Rune)
  /-- rule_repetition.go:171 -/
  | specStart
  /-- rule_repetition.go:195, 223 -/
  | specChar (c : Rune)
  /-- rule_repetition.go:202, 230: the digits. -/
  | specNumber (digits : List Rune)
  /-- rule_repetition.go:236 -/
  | specOrder (min max : Nat)
  /-- rule_choice.go:145 -/
  | choiceGroup
  /-- rule_choice.go:161 -/
  | choiceFew
  /-- rule_reference.go:69 -/
  | reference
  /-- rule.go:251-264 -/
  | badName (name : Name)
  /-- grammar.go:106 -/
  | duplicate (name : Name) (line : Nat)
  /-- grammar.go:138, 707: the text without '='. -/
  | missingEq (text : List Rune)
  /-- grammar.go:221 (which name is reported depends on map order) -/
  | undefinedRef
  /-- grammar.go:707 (no name) and 713: "L#n: …" -/
  | atLine (n : Nat) (name : Option Name) (e : PErr)
deriving Repr, DecidableEq, Inhabited

/-- Outcome of a computation with a state: returns, fails (the state stays changed), or the
model's fuel ran out.  The Go functions return a value or an error, such as grammar.go:407. -/
inductive Out (σ α : Type) where
  | ok (a : α) (s : σ)
  | err (e : PErr) (s : σ)
  | oof
deriving Repr

/-- Parser state: the characters left and the calls of `Grammar.AddUsage(ruleName, userRule)`
made so far.  charstream.go:282-287; grammar.go:208-212. -/
structure PState where
  rest : List Rune
  usages : List (Name × Name) := []
deriving Repr, DecidableEq

/-- A parsing function.  Such as grammar.go:407. -/
def P (α : Type) := PState → Out PState α

namespace P

/-- Sequencing: an error ends the computation. -/
protected def bind {α β : Type} (x : P α) (f : α → P β) : P β := fun st =>
  match x st with
  | .ok a st' => f a st'
  | .err e st' => .err e st'
  | .oof => .oof

instance : Monad P where
  pure a := fun st => .ok a st
  bind := P.bind

/-- Return an error.  Such as grammar.go:482. -/
def fail {α : Type} (e : PErr) : P α := fun st => .err e st

/-- Return another error instead.  rule_block.go:215. -/
def mapErr {α : Type} (f : PErr → PErr) (x : P α) : P α := fun st =>
  match x st with
  | .ok a st' => .ok a st'
  | .err e st' => .err (f e) st'
  | .oof => .oof

/-- Out of fuel.  For the loop of grammar.go:414-576. -/
def oof {α : Type} : P α := fun _ => .oof

end P

/-- `Peek` on the characters left.  charstream.go:355-366. -/
def peekR (rest : List Rune) : Rune := rest.headD EOFChar

/-- `SkipSpaces` on the characters left.  charstream.go:370-390. -/
def skipR (rest : List Rune) : List Rune := rest.dropWhile isWhiteSpace

/-- `cs.Peek()`.  charstream.go:355-366. -/
def pPeek : P Rune := fun st => .ok (peekR st.rest) st

/-- `cs.Next()`.  charstream.go:331-353. -/
def pNext : P Rune := fun st => .ok (peekR st.rest) { st with rest := st.rest.tail }

/-- `cs.SkipSpaces()`.  charstream.go:370-390. -/
def pSkip : P Unit := fun st => .ok () { st with rest := skipR st.rest }

/-- grammar.go:208-212 `AddUsage`, as a log entry. -/
def pUsage (ruleName user : Name) : P Unit := fun st =>
  .ok () { st with usages := st.usages ++ [(ruleName, user)] }

/-- The characters of a Go character literal, for readability.  Such as grammar.go:448. -/
def ch (c : Char) : Rune := c.toNat

/-- `'a'..'z'`, `'A'..'Z'`.  grammar.go:562. -/
def isLetter (c : Rune) : Bool :=
  (decide (97 ≤ c) && decide (c ≤ 122)) || (decide (65 ≤ c) && decide (c ≤ 90))

/-- `'0'..'9'`.  rule.go:245-272. -/
def isDigit (c : Rune) : Bool := decide (48 ≤ c) && decide (c ≤ 57)

/-- rule_terminal_char.go:186-188, the hex digits. -/
def isHex (c : Rune) : Bool :=
  isDigit c || (decide (97 ≤ c) && decide (c ≤ 102)) || (decide (65 ≤ c) && decide (c ≤ 70))

/-- The value of a hex digit (`strconv.ParseInt(…, 16, 32)`, rule_terminal_char.go:193). -/
def hexVal (c : Rune) : Int :=
  if c ≤ 57 then c - 48 else if c ≤ 70 then c - 55 else c - 87

/-- rule_terminal_char.go:184-192: read `n` hex digits. -/
def hexDigits : Nat → P (List Rune)
  | 0 => pure []
  | n + 1 => do
    let c ← pNext
    if c = EOFChar ∨ isHex c = false then P.fail .uniDigits
    else do
      let cs ← hexDigits n
      pure (c :: cs)

/-- rule_terminal_char.go:178-198 `parseUnicodeEscape`.  Four hex digits always fit, so the error
of `ParseInt` (line 195) cannot occur. -/
def parseUnicodeEscape : P Rune := do
  let c ← pPeek
  if c ≠ ch 'u' then P.fail .uniEscape
  else do
    let _ ← pNext
    let ds ← hexDigits 4
    pure (ds.foldl (fun acc d => acc * 16 + hexVal d) 0)

/-- rule_terminal_char.go:103-124 and rule_terminal_string.go:102-123 (the same text up to where
the character is stored): the characters up to the closing quote, and whether a unicode escape
was among them. -/
def litLoop (quote : Rune) : Nat → List Rune → Bool → P (List Rune × Bool)
  | 0, _, _ => P.oof
  | n + 1, buf, uni => do
    let c ← pNext
    if c = EOFChar then P.fail (if quote = ch '\'' then .charEnd else .strEnd)
    else if c = quote then pure (buf, uni)
    else if c = ch '\\' then do
      let d ← pPeek
      if d = ch 'u' then do
        let u ← parseUnicodeEscape
        litLoop quote n (buf ++ [u]) true
      else do
        let d ← pNext
        litLoop quote n (buf ++ [d]) uni
    else litLoop quote n (buf ++ [c]) uni

/-- rule_terminal_range.go:105-148 `inRange`. -/
def inRange (first : Rune) (firstAsUnicode : Bool) : P Rule := do
  let c ← pNext
  if c ≠ ch '-' then P.fail .rangeForm
  else do
    let e ← pNext
    if e = ch '\'' then do
      let e ← pNext
      let (last, uni) ← (if e = ch '\\' then do
          let d ← pPeek
          if d = ch 'u' then do
            let u ← parseUnicodeEscape
            pure (u, true)
          else P.fail .rangeEscape
        else pure (e, false) : P (Rune × Bool))
      let c ← pNext
      if c ≠ ch '\'' then P.fail .rangeForm
      else pure (.range {} first firstAsUnicode last uni)
    else if e = ch '\\' then do
      let u ← parseUnicodeEscape
      pure (.range {} first firstAsUnicode u true)
    else P.fail .rangeSecond

/-- rule_terminal_char.go:96-142 `inChar`. -/
def inChar (fuel : Nat) : P Rule := do
  let o ← pNext
  if o ≠ ch '\'' then P.fail .charStart
  else do
    let (buf, uni) ← litLoop (ch '\'') fuel [] false
    match buf with
    | [] => P.fail .charEmpty
    | [c] => do
      let d ← pPeek
      if d = ch '-' then inRange c uni else pure (.char {} c uni)
    | _ => pure (.chars {} buf)

/-- rule_terminal_char.go:146-166 `inUnicode`. -/
def inUnicode : P Rule := do
  let o ← pNext
  let u ← pPeek
  if o ≠ ch '\\' ∨ u ≠ ch 'u' then P.fail .uniStart
  else do
    let c ← parseUnicodeEscape
    let d ← pPeek
    if d = ch '-' then inRange c true else pure (.char {} c true)

/-- What `strings.Builder.WriteRune` followed by `[]rune(buf.String())` makes of a rune
(rule_terminal_string.go:122-125): surrogates and out-of-range values become U+FFFD. -/
def viaUTF8 (c : Rune) : Rune :=
  if (0 ≤ c ∧ c < 0xD800) ∨ (0xE000 ≤ c ∧ c ≤ 0x10FFFF) then c else 0xFFFD

/-- rule_terminal_string.go:94-127 `inString`. -/
def inString (fuel : Nat) : P Rule := do
  let o ← pNext
  if o ≠ ch '"' then P.fail .strStart
  else do
    let (buf, _) ← litLoop (ch '"') fuel [] false
    pure (.str {} (buf.map viaUTF8))

/-- The characters of a rule name after the first: rule_reference.go:74. -/
def isNameChar (c : Rune) : Bool := isLetter c || c == ch '_' || isDigit c

/-- rule_reference.go:72-80: the rest of the name. -/
def nameChars : P (List Rune) := fun st =>
  .ok (st.rest.takeWhile isNameChar) { st with rest := st.rest.dropWhile isNameChar }

/-- rule_eof.go:9-14 `EOF()`. -/
def eofRule : Rule := .eof { nondata := true, virt := true }

/-- rule_reference.go:63-89 `inReference`. -/
def inReference (name : Name) : P Rule := do
  pSkip
  let c ← pNext
  if isLetter c = false ∧ c ≠ ch '_' then P.fail .reference
  else do
    let cs ← nameChars
    let refName := c :: cs
    if refName = runes "EOF" then pure eofRule
    else do
      pUsage refName name
      pure (.ref {} refName)

/-- `strconv.ParseUint(s, 10, 32)` on a string of digits (rule_repetition.go:200, 228); the empty
string is not parsed and leaves 0. -/
def decimal (ds : List Rune) : Nat := ds.foldl (fun acc d => acc * 10 + (d - 48).toNat) 0

/-- One loop of `inRepeatSpec` (rule_repetition.go:179-197 and 210-225): collect digits, ignore
blanks, up to ',' (only if `comma`) or '>'.  Result: the digits, and whether ',' ended it. -/
def specLoop (comma : Bool) : Nat → List Rune → P (List Rune × Bool)
  | 0, _ => P.oof
  | n + 1, buf => do
    let c ← pNext
    if c = 32 ∨ c = 9 ∨ c = 10 then specLoop comma n buf
    else if comma = true ∧ c = ch ',' then pure (buf, true)
    else if c = ch '>' then pure (buf, false)
    else if isDigit c then specLoop comma n (buf ++ [c])
    else P.fail (.specChar c)

/-- rule_repetition.go:167-239 `inRepeatSpec`. -/
def inRepeatSpec (fuel : Nat) : P (Nat × Nat) := do
  let o ← pNext
  if o ≠ ch '<' then P.fail .specStart
  else do
    pSkip
    let (minDigits, hasComma) ← specLoop true fuel []
    if decimal minDigits ≥ 2 ^ 32 then P.fail (.specNumber minDigits)
    else do
      let maxDigits ← (if hasComma then do
          let (ds, _) ← specLoop false fuel []
          pure ds
        else pure [] : P (List Rune))
      if decimal maxDigits ≥ 2 ^ 32 then P.fail (.specNumber maxDigits)
      else
        let min := decimal minDigits
        let max := decimal maxDigits
        if max ≠ 0 ∧ max < min then P.fail (.specOrder min max) else pure (min, max)

/-- rule_group.go:40-56 `inGroup`; `parse` is `grammar.parse(name, cs, ·)`. -/
def inGroup (parse : List Rune → P Rule) : P Rule := do
  let o ← pNext
  if o ≠ ch '(' then P.fail .groupStart
  else do
    let r ← parse [ch ')']
    let c ← pNext
    if c ≠ ch ')' then P.fail .groupEnd else pure (.group {} r)

/-- rule_option.go:41-57 `inOption`. -/
def inOption (parse : List Rune → P Rule) : P Rule := do
  let o ← pNext
  if o ≠ ch '[' then P.fail .optionStart
  else do
    let r ← parse [ch ']']
    let c ← pNext
    if c ≠ ch ']' then P.fail .optionEnd else pure (.option {} r)

/-- rule_repetition.go:129-165 `inRepetition`. -/
def inRepetition (parse : List Rune → P Rule) (fuel : Nat) : P Rule := do
  let o ← pNext
  if o ≠ ch '{' then P.fail .repStart
  else do
    let r ← parse [ch '}']
    let c ← pNext
    if c ≠ ch '}' then P.fail .repEnd
    else do
      let d ← pPeek
      if d = ch '*' then do
        let _ ← pNext
        pure (.rep {} r 0 0)
      else if d = ch '+' then do
        let _ ← pNext
        pure (.rep {} r 1 0)
      else if d = ch '<' then do
        let (mn, mx) ← inRepeatSpec fuel
        pure (.rep {} r mn mx)
      else pure (.rep {} r 0 0)

/-- rule_block.go:246-258: the exclude rules. -/
def excludeLoop (parse : List Rune → P Rule) : Nat → List Rule → P (List Rule)
  | 0, _ => P.oof
  | n + 1, acc => do
    pSkip
    let c ← pPeek
    if c ≠ ch '^' then pure acc
    else do
      let _ ← pNext
      let r ← parse [32, ch '>', ch '!']
      excludeLoop parse n (acc ++ [r])

/-- rule_block.go:245-275: excludes, close rule and closing symbol, for a block with the given
open rule and escape. -/
def blockTail (parse : List Rune → P Rule) (fuel : Nat) (opn : Rule) (escape : Option Rule) :
    P Rule := do
  let excludes ← excludeLoop parse fuel []
  let close ← parse [ch '>', ch '!']
  let c ← pNext
  if c = ch '!' then do
    pSkip
    let c ← pNext
    if c ≠ ch '>' then P.fail (.blockEnd c) else pure (.block {} opn true close escape excludes)
  else if c ≠ ch '>' then P.fail (.blockEnd c)
  else pure (.block {} opn false close escape excludes)

/-- rule_block.go:204-276 `inBlock`. -/
def inBlock (parse : List Rune → P Rule) (fuel : Nat) : P Rule := do
  let o ← pNext
  if o ≠ ch '<' then P.fail .blockStart
  else do
    let opn ← (parse [32, ch '>', ch '!']).mapErr .blockOpen
    pSkip
    let c ← pPeek
    if c ≠ ch '^' then do
      let r ← parse [32, ch '>', ch '!']
      pSkip
      let p ← pPeek
      if p = ch '>' ∨ p = ch '!' then do
        let p ← pNext
        if p = ch '!' then do
          pSkip
          let q ← pNext
          if q ≠ ch '>' then P.fail (.blockEnd q) else pure (.block {} opn true r none [])
        else pure (.block {} opn false r none [])
      else blockTail parse fuel opn (some r)
    else blockTail parse fuel opn none

/-- The cases `'`, `\`, `"`, `[`, `{`, `<`, `(` and names of the two switches grammar.go:432-575
(`parse`) and grammar.go:597-676 (`parseOne`); `c` is the character peeked, `other` the error of the
default case. -/
def primary (other : Rune → PErr) (parse : List Rune → P Rule) (fuel : Nat) (name : Name) (c : Rune) : P Rule :=
  if c = ch '\'' then inChar fuel
  else if c = ch '\\' then inUnicode
  else if c = ch '"' then inString fuel
  else if c = ch '[' then inOption parse
  else if c = ch '{' then inRepetition parse fuel
  else if c = ch '<' then inBlock parse fuel
  else if c = ch '(' then inGroup parse
  else if isLetter c ∨ c = ch '_' then inReference name
  else P.fail (other c)

/-- grammar.go:595-677, the loop of `parseOne`; `prim` handles the cases of `primary`. -/
def parseOneLoop (prim : Rune → P Rule) : Nat → Bool → Bool → Bool → P Rule
  | 0, _, _, _ => P.oof
  | n + 1, tk, nd, v => do
    let c ← pPeek
    if c = 32 ∨ c = 10 ∨ c = 9 ∨ c = 13 then do
      let _ ← pNext
      parseOneLoop prim n tk nd v
    else if c = EOFChar then P.fail .eof
    else if c = ch '~' ∨ c = ch '#' ∨ c = ch '$' then do
      let _ ← pNext
      let d ← pPeek
      if d = ch '|' then P.fail (.annotation c)
      else parseOneLoop prim n (tk || c == ch '$') (nd || c == ch '#') (v || c == ch '~')
    else do
      let r ← prim c
      pure (r.setAnnotation tk nd v)

/-- rule_choice.go:129-159, the loop of `inChoice`; `rules` is the group being built. -/
def choiceParse (one : P Rule) : Nat → List (List Rule) → List Rule → P (List (List Rule))
  | 0, _, _ => P.oof
  | n + 1, groups, rules => do
    let c ← pPeek
    if c = 32 then do
      let _ ← pNext
      choiceParse one n groups rules
    else if c = ch '|' then do
      let _ ← pNext
      let r ← one
      choiceParse one n groups (rules ++ [r])
    else if c = ch '>' then
      if rules.length = 0 then P.fail .choiceGroup
      else do
        let _ ← pNext
        let r ← one
        choiceParse one n (groups ++ [rules]) [r]
    else pure (groups ++ [rules])

/-- rule_choice.go:126-166 `inChoice`. -/
def inChoice (one : P Rule) (fuel : Nat) (first : Rule) : P Rule := do
  let groups ← choiceParse one fuel [] [first]
  if groups.length < 1 ∨ (groups.length = 1 ∧ (groups.headD []).length < 2) then P.fail .choiceFew
  else pure (.choice {} groups)

/-- grammar.go:553-559: the rest of a comment, up to and including the newline. -/
def skipComment : P Unit := fun st =>
  .ok () { st with rest := (st.rest.dropWhile (fun c => !(c == newline))).tail }

/-- grammar.go:577-586: the rule made of the rules collected. -/
def finish (rules : List Rule) : P Rule :=
  match rules with
  | [] => P.fail .noRule
  | [r] => pure r
  | _ => pure (.concat {} rules)

/-- grammar.go:413-576, the loop of `parse`.  `prim` handles the cases of `primary`, `one` is
`grammar.parseOne(name, cs)`. -/
def parseLoop (prim : Rune → P Rule) (one : P Rule) (terms : List Rune) :
    Nat → List Rule → Bool → Bool → Bool → P Rule
  | 0, _, _, _, _ => P.oof
  | n + 1, rules, tk, nd, v => do
    let c ← pPeek
    if c = EOFChar then finish rules
    else if terms.contains c then finish rules
    else if isWhiteSpace c then do
      let _ ← pNext
      parseLoop prim one terms n rules tk nd v
    else if c = ch '~' ∨ c = ch '#' ∨ c = ch '$' then do
      let _ ← pNext
      let d ← pPeek
      if d = ch '|' then P.fail (.annotation c)
      else parseLoop prim one terms n rules (tk || c == ch '$') (nd || c == ch '#') (v || c == ch '~')
    else if c = ch '|' ∨ c = ch '>' then
      match rules.getLast? with
      | none => P.fail .choiceOperand
      | some last => do
        let r ← inChoice one n last
        parseLoop prim one terms n (rules.dropLast ++ [r.setAnnotation tk nd v]) false false false
    else if c = ch '/' then do
      let _ ← pNext
      let d ← pNext
      if d ≠ ch '/' then P.fail (.invalidChar c)
      else do
        skipComment
        finish rules
    else do
      let r ← prim c
      parseLoop prim one terms n (rules ++ [r.setAnnotation tk nd v]) false false false

/-- grammar.go:407-587 `Grammar.parse` and (as `one`) grammar.go:591-678 `Grammar.parseOne`.
`fuel` bounds the nesting depth and the number of rounds of each loop. -/
def parse : Nat → Name → List Rune → P Rule
  | 0, _, _ => P.oof
  | n + 1, name, terms => do
    pSkip
    let prim := fun other => primary other (parse n name) n name
    parseLoop (prim .invalidChar) (parseOneLoop (prim .notARule) n false false false) terms n [] false false false

end Xbnf
