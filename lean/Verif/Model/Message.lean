import Verif.Model.Print
import Verif.Model.Show
/-
The texts of errors: the `desc` methods of /repo/rule_*.go and the formats at the places where an
evaluation makes an error.  Strings are lists of runes; where the code makes a string out of runes,
those that are no Unicode scalar values become U+FFFD (`viaUTF8`).
-/
namespace Xbnf

/-- `rules[0]`, then ", " and the next ones, then " and " and `rules[count-1]`
(rule_choice.go:24-31, rule_concatenate.go:17-24).  For one rule `rules[count-1]` is `rules[0]` again;
without rules `rules[0]` panics. -/
def enumerate : List (List Rune) → Exec (List Rune)
  | [] => .panic
  | d :: ds => .ok (d ++ (ds.dropLast.map (fun x => runes ", " ++ x)).flatten ++ runes " and " ++ ds.getLastD d)

/-- rule_repetition.go:21-26. -/
def timesDesc (min max : Nat) : List Rune :=
  if max = 0 then dec min ++ runes " or more time(s)" else dec min ++ runes " to " ++ dec max ++ runes " time(s)"

mutual
/-- `IRule.desc`: rule_eof.go:16-18, rule_terminal_char.go:14-19, rule_terminal_range.go:15-20,
rule_terminal_chars.go:13-18, rule_terminal_string.go:13-18, rule_group.go:13-18, rule_option.go:13-18,
rule_repetition.go:20-31, rule_choice.go:14-32, rule_concatenate.go:13-25, rule_block.go:19-24,
rule_reference.go:13-15. -/
def Rule.desc (r : Rule) : Exec (List Rune) :=
  match r with
  | .eof _ => .ok (runes "EOF")
  | .char b t _ => .ok (if b.name = [] then runes "'" ++ [viaUTF8 t] ++ runes "'" else b.name)
  | .range b x _ y _ => .ok (if b.name = [] then [viaUTF8 x] ++ runes "-" ++ [viaUTF8 y] else b.name)
  | .chars b t => .ok (if b.name = [] then runes "'" ++ t.map viaUTF8 ++ runes "'" else b.name)
  | .str b t => .ok (if b.name = [] then runes "\"" ++ t.map viaUTF8 ++ runes "\"" else b.name)
  | .group b r => if b.name = [] then r.desc else .ok b.name
  | .option b r =>
    if b.name = [] then do
      let d ← r.desc
      .ok (runes "optional " ++ d)
    else .ok (runes "optional " ++ b.name)
  | .rep b r mn mx =>
    if b.name = [] then do
      let d ← r.desc
      .ok (timesDesc mn mx ++ runes " of " ++ d)
    else .ok (b.name ++ runes ": " ++ timesDesc mn mx)
  | .choice b gs =>
    if b.name = [] then do
      let ds ← descGroups gs
      enumerate ds
    else .ok b.name
  | .concat b rs =>
    if b.name = [] then do
      let ds ← descs rs
      enumerate ds
    else .ok b.name
  | .block b o _ c _ _ =>
    if b.name = [] then do
      let d ← o.desc
      let d' ← c.desc
      .ok (d ++ runes " to " ++ d')
    else .ok b.name
  | .ref _ n => .ok n
/-- The descriptions of some rules.  rule_choice.go:26-30, rule_concatenate.go:19-23. -/
def descs : List Rule → Exec (List (List Rune))
  | [] => .ok []
  | r :: rs => do
    let d ← r.desc
    let ds ← descs rs
    .ok (d :: ds)
/-- rule_choice.go:18-23: the rules of all groups. -/
def descGroups : List (List Rule) → Exec (List (List Rune))
  | [] => .ok []
  | g :: gs => do
    let ds ← descs g
    let ds' ← descGroups gs
    .ok (ds ++ ds')
end

/-- `inst.min` of a repetition (rule_repetition.go:104). -/
def Rule.least : Rule → Nat
  | .rep _ _ mn _ => mn
  | _ => 0

/-- `error.Error()` of the errors of an evaluation.
* `nil` a nil error formatted with "%s"
* `missingAtEOF` rule_terminal_char.go:25, rule_terminal_range.go:27, rule_terminal_chars.go:25,
  rule_terminal_string.go:25
* `missing` rule_terminal_char.go:55 and 64, rule_terminal_range.go:68, rule_terminal_chars.go:50, 61
  and 74, rule_terminal_string.go:50, 60 and 73
* `missingEOF` rule_eof.go:54
* `undefined` rule_reference.go:21 and 53-56; grammar.go:252 and 293
* `tooFew` rule_repetition.go:104
* `inConcat` rule_concatenate.go:71
* `inChoice` rule_choice.go:120
* `ambiguity` rule_choice.go:92-101
* `ambiguousExcludes` rule.go:307-312
* `excluded` rule_block.go:145
* `missingClose` rule_block.go:179
-/
def Err.message : Err → Exec (List Rune)
  | .nil => .ok (runes "%!s(<nil>)")
  | .missingAtEOF r => do
    let d ← r.desc
    .ok (runes "missing " ++ d ++ runes " at EOF")
  | .missing r p => do
    let d ← r.desc
    .ok (runes "missing " ++ d ++ runes " at " ++ showPos p)
  | .missingEOF => .ok (runes "missing EOF")
  | .undefined b n => .ok (runes "rule '" ++ annotation b ++ n ++ runes "' not defined")
  | .tooFew r n => do
    let d ← r.desc
    .ok (d ++ runes ": " ++ percentD n ++ runes " less than minimal " ++ percentD r.least)
  | .inConcat r e => do
    let d ← r.desc
    let m ← e.message
    .ok (d ++ runes ": " ++ m)
  | .inChoice r e => do
    let d ← r.desc
    let m ← e.message
    .ok (d ++ runes ": " ++ m)
  | .ambiguity n x y =>
    .ok ((if n = [] then runes "ambiguity found:" else runes "rule " ++ n ++ runes ": ambiguity found")
      ++ runes "\t\n" ++ x.1 ++ runes ": " ++ x.2.map viaUTF8 ++ runes "\t\n" ++ y.1 ++ runes ": " ++ y.2.map viaUTF8)
  | .ambiguousExcludes x y => .ok (runes "ambiguity found:" ++ runes "\t\n" ++ x.map viaUTF8 ++ runes "\t\n" ++ y.map viaUTF8)
  | .excluded t => .ok (runes "text `" ++ t.map viaUTF8 ++ runes "` is not allowed in text block")
  | .missingClose r => do
    let d ← r.desc
    .ok (runes "missing " ++ d ++ runes " at EOF")

end Xbnf
