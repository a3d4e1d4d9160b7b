import Verif.Model.Serialize
/-
Go strings are bytes; everywhere else in the model a text is a list of code points.  Here is what the code does with
the bytes: `[]rune(s)`, `string(runes)`, and the functions of package `strings` it calls on grammar texts
(/repo/charstream.go:276, /repo/grammar.go:98-143 and 680-722, /repo/rule.go:245-270).

`utf8.DecodeRune`, `utf8.DecodeLastRune`, `strings.TrimSpace`, `Split`, `SplitN`, `HasPrefix` and `ReplaceAll` are
Go's library: they are modelled after its documentation and source.  A byte is a natural number here; nothing depends on
its being below 256.
-/
namespace Xbnf

namespace UTF8

/-- The byte continues a sequence: `!utf8.RuneStart(b)`.  Behind `[]rune(input)`, charstream.go:276. -/
def isCont (b : Nat) : Bool := decide (0x80 ≤ b) && decide (b < 0xC0)

/-- The six bits of a continuation byte.  Behind `[]rune(input)`, charstream.go:276. -/
def six (b : Nat) : Nat := b - 0x80

/-- Which second bytes may follow the first byte of a sequence of three.  Behind `[]rune(input)`, charstream.go:276. -/
def second3 (b0 b1 : Nat) : Bool :=
  if b0 = 0xE0 then decide (0xA0 ≤ b1) && decide (b1 < 0xC0)
  else if b0 = 0xED then decide (0x80 ≤ b1) && decide (b1 < 0xA0)
  else isCont b1

/-- Which second bytes may follow the first byte of a sequence of four.  Behind `[]rune(input)`, charstream.go:276. -/
def second4 (b0 b1 : Nat) : Bool :=
  if b0 = 0xF0 then decide (0x90 ≤ b1) && decide (b1 < 0xC0)
  else if b0 = 0xF4 then decide (0x80 ≤ b1) && decide (b1 < 0x90)
  else isCont b1

/-- The first character of a string and the number of bytes it takes: `utf8.DecodeRune`.  A byte that does not begin a
well-formed sequence counts as U+FFFD, and so does nothing at all.  Behind `[]rune(input)`, charstream.go:276. -/
def first : List Nat → Rune × Nat
  | [] => (0xFFFD, 0)
  | b0 :: r =>
    if b0 < 0x80 then (b0, 1)
    else match r with
      | [] => (0xFFFD, 1)
      | b1 :: r =>
        if 0xC2 ≤ b0 ∧ b0 < 0xE0 ∧ isCont b1 then (((b0 - 0xC0) * 64 + six b1 : Nat), 2)
        else match r with
          | [] => (0xFFFD, 1)
          | b2 :: r =>
            if 0xE0 ≤ b0 ∧ b0 < 0xF0 ∧ second3 b0 b1 ∧ isCont b2 then (((b0 - 0xE0) * 4096 + six b1 * 64 + six b2 : Nat), 3)
            else match r with
              | [] => (0xFFFD, 1)
              | b3 :: _ =>
                if 0xF0 ≤ b0 ∧ b0 < 0xF5 ∧ second4 b0 b1 ∧ isCont b2 ∧ isCont b3 then
                  (((b0 - 0xF0) * 262144 + six b1 * 4096 + six b2 * 64 + six b3 : Nat), 4)
                else (0xFFFD, 1)

/-- `n` characters at most.  Behind `[]rune(input)`, charstream.go:276. -/
def decodeLoop : Nat → List Nat → List Rune
  | 0, _ => []
  | _, [] => []
  | n + 1, b :: bs => (first (b :: bs)).1 :: decodeLoop n ((b :: bs).drop (first (b :: bs)).2)

/-- `[]rune(s)`: charstream.go:276. -/
def decode (bs : List Nat) : List Rune := decodeLoop bs.length bs

/-- The bytes of a character: `utf8.AppendRune`, `string(r)`.  rule_choice.go:99, rule_terminal_string.go:86. -/
def encode1 (c : Rune) : List Nat :=
  let n := (viaUTF8 c).toNat
  if n < 0x80 then [n]
  else if n < 0x800 then [0xC0 + n / 64, 0x80 + n % 64]
  else if n < 0x10000 then [0xE0 + n / 4096, 0x80 + n / 64 % 64, 0x80 + n % 64]
  else [0xF0 + n / 262144, 0x80 + n / 4096 % 64, 0x80 + n / 64 % 64, 0x80 + n % 64]

/-- `string(runes)`.  rule_choice.go:99, rule_terminal_string.go:86. -/
def encode (l : List Rune) : List Nat := (l.map encode1).flatten

/-- Go back over bytes that continue a sequence, at most `n` of them; what is before and behind.  For grammar.go:108. -/
def backTo : Nat → List Nat → List Nat → List Nat × List Nat
  | 0, rev, acc => (rev, acc)
  | _, [], acc => ([], acc)
  | n + 1, b :: rev, acc => if isCont b then backTo n rev (b :: acc) else (rev, b :: acc)

/-- `utf8.DecodeLastRune` on the reversed bytes: the last character and the number of its bytes.  For grammar.go:108. -/
def last : List Nat → Rune × Nat
  | [] => (0xFFFD, 0)
  | b :: rev =>
    if b < 0x80 then (b, 1)
    else
      let tail := (backTo 3 rev [b]).2
      if (first tail).2 = tail.length then first tail else (0xFFFD, 1)

/-- `strings.TrimLeftFunc(s, unicode.IsSpace)`.  grammar.go:108. -/
def trimLeftLoop : Nat → List Nat → List Nat
  | 0, bs => bs
  | _, [] => []
  | n + 1, b :: bs =>
    if isWhiteSpace (first (b :: bs)).1 then trimLeftLoop n ((b :: bs).drop (first (b :: bs)).2) else b :: bs

/-- `strings.TrimRightFunc(s, unicode.IsSpace)`, on reversed bytes.  grammar.go:108. -/
def trimRightLoop : Nat → List Nat → List Nat
  | 0, rev => rev
  | _, [] => []
  | n + 1, b :: rev =>
    if isWhiteSpace (last (b :: rev)).1 then trimRightLoop n ((b :: rev).drop (last (b :: rev)).2) else b :: rev

/-- `strings.TrimSpace`.  grammar.go:108, grammar.go:140-141, grammar.go:700. -/
def trimSpace (bs : List Nat) : List Nat :=
  let l := trimLeftLoop bs.length bs
  (trimRightLoop l.length l.reverse).reverse

/-- `strings.Split(s, "\n")`.  grammar.go:698. -/
def splitLines : List Nat → List (List Nat)
  | [] => [[]]
  | b :: bs =>
    match splitLines bs with
    | [] => [[b]]
    | l :: ls => if b = 10 then [] :: l :: ls else (b :: l) :: ls

/-- `strings.SplitN(s, "=", 2)`: `none` when there is no '='.  grammar.go:136, grammar.go:705. -/
def splitEq : List Nat → Option (List Nat × List Nat)
  | [] => none
  | b :: bs => if b = 61 then some ([], bs) else (splitEq bs).map (fun p => (b :: p.1, p.2))

/-- rule.go:245-270 `validateRuleName`: the first byte, then the characters of what follows. -/
def validName (name : List Nat) : Bool :=
  match name with
  | [] => false
  | b :: bs => isLetter (b : Nat) && (decode bs).all isNameChar

/-- `strings.ReplaceAll(s, old, new)` where `old` is one ASCII character.  rule_terminal_chars.go:89, rule.go:93, node.go:298. -/
def replaceAll (old : Nat) (new : List Nat) (bs : List Nat) : List Nat :=
  (bs.map (fun b => if b = old then new else [b])).flatten

end UTF8

namespace Grammar
open UTF8

/-- grammar.go:81-85 `GetRecord`: the map is looked up by bytes. -/
def getRecordBytes (g : Grammar) (name : List Nat) : Option Record :=
  g.records.find? (fun r => encode r.name == name)

/-- grammar.go:98-130 `ParseRule`, on bytes. -/
def parseRuleBytes (fuel : Nat) (name ruleStr : List Nat) (g : Grammar) : Out Grammar Rule :=
  if UTF8.validName name = false then .err (.badName (decode name)) g
  else
    match g.getRecordBytes name with
    | some r => .err (.duplicate (decode name) r.line) g
    | none =>
      match parse fuel (decode name) [EOFChar] { rest := decode (UTF8.trimSpace ruleStr) } with
      | .oof => .oof
      | .err e st => .err e (g.withUsages st.usages)
      | .ok r st =>
        let g := g.withUsages st.usages
        let rule := r.setName (decode name)
        .ok rule { g with maxLine := g.maxLine + 1,
                          records := g.records ++ [⟨decode name, rule, g.maxLine + 1⟩] }

/-- grammar.go:133-143 `AddRule`, on bytes. -/
def addRuleBytes (fuel : Nat) (defn : List Nat) (g : Grammar) : Out Grammar Rule :=
  match UTF8.splitEq defn with
  | none => .err (.missingEq (decode defn)) g
  | some (n, r) => parseRuleBytes fuel (UTF8.trimSpace n) (UTF8.trimSpace r) g

/-- grammar.go:699-716, on bytes. -/
def linesLoopBytes (fuel : Nat) : Nat → List (List Nat) → Grammar → Out Grammar Unit
  | _, [], g => .ok () g
  | i, l :: ls, g =>
    let line := UTF8.trimSpace l
    if line.length = 0 ∨ line.take 2 = [47, 47] then
      linesLoopBytes fuel (i + 1) ls { g with maxLine := i + 1 }
    else
      match UTF8.splitEq line with
      | none => .err (.atLine (i + 1) none (.missingEq (decode line))) g
      | some (n, r) =>
        match parseRuleBytes fuel (UTF8.trimSpace n) (UTF8.trimSpace r) g with
        | .oof => .oof
        | .err e g => .err (.atLine (i + 1) (some (decode (UTF8.trimSpace n))) e) g
        | .ok _ g => linesLoopBytes fuel (i + 1) ls { g with maxLine := i + 1 }

/-- grammar.go:696-722 `NewGrammarFromString`, on bytes. -/
def fromBytes (fuel : Nat) (text : List Nat) : Out Grammar Grammar :=
  match linesLoopBytes fuel 0 (UTF8.splitLines text) {} with
  | .oof => .oof
  | .err e g => .err e g
  | .ok _ g =>
    match g.validate with
    | none => .err .undefinedRef g
    | some g => .ok g g

/-- grammar.go:289-299 `EvalRule`, on bytes. -/
def evalRuleBytes (g : Grammar) (fuel : Nat) (name sample : List Nat) : Exec Res :=
  match g.getRecordBytes name with
  | none => .ok { error := some (.undefined {} (decode name)) }
  | some r => do
    let (res, _) ← eval g.env fuel r.rule SUGGEST_SKIP (Stream.ofChars (decode sample))
    .ok res

/-- grammar.go:248-287 `EvalEmbed`, on bytes. -/
def evalEmbedBytes (g : Grammar) (fuel : Nat) (name sample : List Nat) : Exec Res :=
  match g.getRecordBytes name with
  | none => .ok { error := some (.undefined {} (decode name)) }
  | some r => do
    let kids ← embedLoop g.env fuel r.rule fuel [] [] (Stream.ofChars (decode sample))
    .ok { node := some { ruleType := .embed, name := decode name, children := kids } }

end Grammar
end Xbnf
