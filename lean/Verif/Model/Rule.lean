import Verif.Model.Node
/-
Grammar rules as data: the struct definitions of /repo/rule*.go, and the result of evaluating one.
-/
namespace Xbnf

/-- rule.go:158-164 `ruleBase`. -/
structure RuleBase where
  name : Name := []
  virt : Bool := false
  nondata : Bool := false
  tokenized : Bool := false
deriving Repr, DecidableEq, Inhabited

/-- The implementations of `IRule`.
* `eof`    rule_eof.go:5-7
* `char`   rule_terminal_char.go:8-12
* `range`  rule_terminal_range.go:7-13
* `chars`  rule_terminal_chars.go:8-11
* `str`    rule_terminal_string.go:8-11
* `group`  rule_group.go:8-11
* `option` rule_option.go:8-11
* `rep`    rule_repetition.go:9-18 (`max = 0`: unlimited; `uint` modelled as `Nat`, the parser
           only ever stores values below 2^32)
* `choice` rule_choice.go:9-12
* `concat` rule_concatenate.go:8-11
* `block`  rule_block.go:10-17 (`escape == nil` is `none`)
* `ref`    rule_reference.go:8-11
-/
inductive Rule where
  | eof (b : RuleBase)
  | char (b : RuleBase) (text : Rune) (asUnicode : Bool)
  | range (b : RuleBase) (first : Rune) (firstAsUnicode : Bool) (last : Rune) (lastAsUnicode : Bool)
  | chars (b : RuleBase) (text : List Rune)
  | str (b : RuleBase) (text : List Rune)
  | group (b : RuleBase) (rule : Rule)
  | option (b : RuleBase) (rule : Rule)
  | rep (b : RuleBase) (rule : Rule) (min max : Nat)
  | choice (b : RuleBase) (groups : List (List Rule))
  | concat (b : RuleBase) (rules : List Rule)
  | block (b : RuleBase) (opn : Rule) (virtualClose : Bool) (close : Rule)
      (escape : Option Rule) (excludes : List Rule)
  | ref (b : RuleBase) (refName : Name)
deriving Repr, Inhabited

/-- The embedded `ruleBase` of a rule.  rule.go:158-164, embedded as in rule_group.go:8-11. -/
def Rule.base : Rule → RuleBase
  | .eof b | .char b _ _ | .range b _ _ _ _ | .chars b _ | .str b _ | .group b _ | .option b _
  | .rep b _ _ _ | .choice b _ | .concat b _ | .block b _ _ _ _ _ | .ref b _ => b

/-- Replace the embedded `ruleBase`.  rule.go:170-203. -/
def Rule.setBase (b : RuleBase) : Rule → Rule
  | .eof _ => .eof b
  | .char _ t u => .char b t u
  | .range _ x xu y yu => .range b x xu y yu
  | .chars _ t => .chars b t
  | .str _ t => .str b t
  | .group _ r => .group b r
  | .option _ r => .option b r
  | .rep _ r mn mx => .rep b r mn mx
  | .choice _ gs => .choice b gs
  | .concat _ rs => .concat b rs
  | .block _ o v c e x => .block b o v c e x
  | .ref _ n => .ref b n

/-- rule.go:170-172 `setName`. -/
def Rule.setName (n : Name) (r : Rule) : Rule := r.setBase { r.base with name := n }

/-- rule.go:198-202 `setAnnotation`. -/
def Rule.setAnnotation (tokenized nondata virt : Bool) (r : Rule) : Rule :=
  r.setBase { r.base with tokenized := tokenized, nondata := nondata, virt := virt }

/-- The errors an evaluation can report, one constructor per `fmt.Errorf`/`errors.New` site, with what
the site puts into the text.  The code calls `desc()` of a rule at the site; here the error keeps the
rule, and `Err.message` (Model/Message.lean) makes the text.  (A rule does not change after it is
parsed, so it does not matter when its description is made.)  Such as rule_terminal_char.go:25. -/
inductive Err where
  /-- a nil error formatted into another one -/
  | nil
  /-- "missing … at EOF" of the terminal rules -/
  | missingAtEOF (what : Rule)
  /-- "missing … at Lx:y" of the terminal rules -/
  | missing (what : Rule) (pos : Option Position)
  /-- rule_eof.go:54 -/
  | missingEOF
  /-- rule_reference.go:21; the reference is printed with its annotations -/
  | undefined (b : RuleBase) (name : Name)
  /-- rule_repetition.go:104: the repetition and the number of matches -/
  | tooFew (what : Rule) (n : Nat)
  /-- rule_concatenate.go:71 -/
  | inConcat (what : Rule) (inner : Err)
  /-- rule_choice.go:120 -/
  | inChoice (what : Rule) (inner : Err)
  /-- rule_choice.go:93-101: the name of the choice, and name and text of two matches -/
  | ambiguity (rule : Name) (x y : Name × List Rune)
  /-- rule.go:308-312: the texts of two matches -/
  | ambiguousExcludes (x y : List Rune)
  /-- rule_block.go:145: the text found -/
  | excluded (text : List Rune)
  /-- rule_block.go:179: the close rule -/
  | missingClose (what : Rule)
deriving Repr, Inhabited

/-- rule.go:47-64 `EvalResult`. -/
structure Res where
  node : Option Node := none
  error : Option Err := none
  errIdx : Int := 0
  read : List Rune := []
  unused : List Rune := []
  sticky : Bool := false
deriving Repr, Inhabited

/-- rule.go:73-75 `countCharsUsed`. -/
def Res.countUsed (r : Res) : Int := (r.read.length : Int) - r.unused.length

/-- rule.go:77-79 `charsUsed`: a slice expression, so it can panic. -/
def Res.charsUsed (r : Res) : Exec (List Rune) := sliceTo r.read r.countUsed

end Xbnf
