import Verif.Spec.Text
import Verif.Model.Rule
/-
A reference semantics of rules on the list of characters left, written without the streams, the
push-back and the bookkeeping of the code.  `run` says, for a rule at a place, whether it matches,
the tree, how many characters it uses, and how far it looked ahead.  Where the library is known to
leave this semantics (look-ahead lost or read twice, order dependent ties), `run` answers `risky`
and says nothing.
-/
namespace Xbnf.Spec

/-- What a rule does at a place. -/
inductive Ans where
  /-- no answer within the fuel -/
  | oof
  /-- a situation in which the library is known to go astray -/
  | risky
  /-- no match; looked at `look` characters -/
  | fail (look : Nat) (sticky : Bool)
  /-- two longest alternatives -/
  | ambiguous (look : Nat)
  /-- a match of the first `used` characters; looked at `look` of them -/
  | hit (node : Node) (used look : Nat) (sticky : Bool)
deriving Repr, Inhabited

/-- A leaf without a position. -/
def leaf (rt : RType) (b : RuleBase) (sticky : Bool) (text : List Rune) : Node :=
  { ruleType := rt, name := b.name, chars := text, sticky := sticky, virt := b.virt,
    nonData := b.nondata, tokenized := b.tokenized }

/-- An inner node without a position. -/
def inner (rt : RType) (b : RuleBase) (sticky : Bool) (children : List Node) : Node :=
  { ruleType := rt, name := b.name, children := children, sticky := sticky, virt := b.virt,
    nonData := b.nondata, tokenized := b.tokenized }

/-- The white space at the front, if it may be skipped. -/
def blank (skip : Bool) (l : List Rune) : List Rune :=
  if skip then l.takeWhile isWhiteSpace else []

/-- End of input. -/
def eofAt (b : RuleBase) (skip : Bool) (l : List Rune) : Ans :=
  let ws := blank skip l
  if l.drop ws.length = [] then
    .hit { ruleType := .eof, name := runes "EOF", chars := [EOFChar], sticky := true,
           virt := b.virt, nonData := b.nondata, tokenized := b.tokenized } ws.length ws.length true
  else .fail ws.length true

/-- One character satisfying `p`: the first such among the white space that may be skipped, or the
character after it. -/
def oneAt (rt : RType) (b : RuleBase) (skip : Bool) (p : Rune → Bool) (l : List Rune) : Ans :=
  let ws := blank skip l
  match ws.findIdx? p with
  | some i => .hit (leaf rt b true [ws.getD i EOFChar]) (i + 1) ws.length true
  | none =>
    match l.drop ws.length with
    | [] => .fail ws.length true
    | c :: _ =>
      if p c then .hit (leaf rt b true [c]) (ws.length + 1) (ws.length + 1) true
      else .fail ws.length true

/-- A text: white space may come first if `skip`; then exactly the white space the text itself
begins with, and the rest of the text. -/
def textAt (rt : RType) (b : RuleBase) (sticky skip : Bool) (text : List Rune) (l : List Rune) : Ans :=
  let ws := blank skip l
  let lead := if skip then text.takeWhile isWhiteSpace else []
  let rest := text.drop lead.length
  let l' := l.drop ws.length
  if l = [] then .fail 0 sticky
  else if lead.isSuffixOf ws then
    if rest.isPrefixOf l' then
      .hit (leaf rt b sticky text) (ws.length + rest.length) (ws.length + rest.length) sticky
    else .fail (ws.length + min l'.length ((commonPrefix rest l').length + 1)) sticky
  else .fail ws.length sticky

/-- How to continue with white space after a part. -/
def flagAfter (flag : Int) (n : Node) (sticky : Bool) : Int :=
  if n.ruleType = .option ∧ n.children = [] ∧ n.chars = [] then flag
  else if sticky then SUGGEST_NOT_SKIP else SUGGEST_SKIP

/-- How rules are run. -/
abbrev Runner := Rule → Int → List Rune → Ans

/-- The parts of a concatenation, one after the other; `pos` characters used, `look` looked at. -/
def seqAt (run : Runner) (b : RuleBase) (l : List Rune) :
    List Rule → Nat → Nat → Bool → Int → List Node → Ans
  | [], pos, look, sticky, _, nodes => .hit (inner .concatenate b sticky nodes) pos look sticky
  | r :: rs, pos, look, sticky, flag, nodes =>
    match run r flag (l.drop pos) with
    | .oof => .oof
    | .risky => .risky
    | .fail n st => .fail (max look (pos + n)) (sticky && st)
    | .ambiguous n => .fail (max look (pos + n)) false
    | .hit nd u n st =>
      -- the part did not look as far as an earlier one
      if pos + n < look ∧ (rs ≠ [] ∨ look - pos < 2 * u) then .risky
      else seqAt run b l rs (pos + u) (max look (pos + n)) (sticky && st) (flagAfter flag nd st)
        (nodes ++ [nd])

/-- A repetition that ends here. -/
def repEnd (b : RuleBase) (mn pos look : Nat) (sticky : Bool) (nodes : List Node) : Ans :=
  if nodes.length < mn then .fail look sticky
  else .hit (inner .repetition b sticky nodes) pos look sticky

/-- The rounds of a repetition. -/
def repAt (run : Runner) (b : RuleBase) (r : Rule) (mn mx : Nat) (flag : Int) (l : List Rune) :
    Nat → Nat → Nat → Bool → List Node → Ans
  | 0, _, _, _, _ => .oof
  | fuel + 1, pos, look, sticky, nodes =>
    if l.drop pos = [] then repEnd b mn pos look sticky nodes
    else
      match run r flag (l.drop pos) with
      | .oof => .oof
      | .risky => .risky
      | .fail n st => repEnd b mn pos (max look (pos + n)) (sticky && st) nodes
      | .ambiguous _ => .risky
      | .hit nd u n st =>
        if mx > 0 ∧ nodes.length + 1 = mx then
          if pos + n < look ∧ look - pos < 2 * u then .risky
          else repEnd b mn (pos + u) (max look (pos + n)) (sticky && st) (nodes ++ [nd])
        else if pos + n < look then .risky
        else repAt run b r mn mx flag l fuel (pos + u) (max look (pos + n)) (sticky && st)
          (nodes ++ [nd])

/-- What the alternatives of one group do. -/
inductive Alts where
  | oof
  | risky
  | ok (hits : List (Node × Nat × Bool)) (look : Nat) (sticky : Bool)
deriving Repr, Inhabited

/-- All alternatives of a group, each at the same place. -/
def altsAt (run : Runner) (flag : Int) (l : List Rune) : List Rule → Nat → Bool → Alts
  | [], look, sticky => .ok [] look sticky
  | r :: rs, look, sticky =>
    match run r flag l with
    | .oof => .oof
    | .risky => .risky
    | .fail n st => altsAt run flag l rs (max look n) (sticky && st)
    | .ambiguous n => altsAt run flag l rs (max look n) false
    | .hit nd u n st =>
      match altsAt run flag l rs (max look n) (sticky && st) with
      | .ok hits look sticky => .ok ((nd, u, st) :: hits) look sticky
      | a => a

/-- The greatest number of characters used. -/
def longest (hits : List (Node × Nat × Bool)) : Nat := hits.foldr (fun h m => max h.2.1 m) 0

/-- Does some hit use as many characters as the longest of those before it? -/
def runningTie : Option Nat → List (Node × Nat × Bool) → Bool
  | _, [] => false
  | none, h :: hs => runningTie (some h.2.1) hs
  | some m, h :: hs => h.2.1 == m || runningTie (some (max m h.2.1)) hs

/-- The choice among the hits of a group. -/
inductive Best where
  | none
  | tie
  /-- a unique longest hit, after a tie among shorter ones: the library reports a tie -/
  | order
  | one (node : Node) (used : Nat) (sticky : Bool)
deriving Repr, Inhabited

/-- The longest of the matches. -/
def best (hits : List (Node × Nat × Bool)) : Best :=
  match hits.filter (fun h => h.2.1 == longest hits) with
  | [] => .none
  | [h] => if runningTie Option.none hits then .order else .one h.1 h.2.1 h.2.2
  | _ => .tie

/-- The groups of a choice, in order of priority. -/
def choiceAt (run : Runner) (b : RuleBase) (flag : Int) (l : List Rune) :
    List (List Rule) → Nat → Bool → Ans
  | [], look, sticky => .fail look sticky
  | g :: gs, look, sticky =>
    match altsAt run flag l g look sticky with
    | .oof => .oof
    | .risky => .risky
    | .ok hits look sticky =>
      match best hits with
      | .none => choiceAt run b flag l gs look sticky
      | .tie => .ambiguous look
      | .order => .risky
      | .one nd u _ => .hit (inner .choice b sticky [nd]) u look sticky

/-- Whether the escape of a block matches here, and how far it looks. -/
def escapeAt (run : Runner) (escape : Option Rule) (noExcludes : Bool) (l : List Rune) : Ans :=
  match escape with
  | none => .fail 0 true
  | some e =>
    match run e NOT_SKIP l with
    | .oof => .oof
    | .fail n st => if noExcludes && n != 0 then .risky else .fail n st
    | .ambiguous n => if noExcludes && n != 0 then .risky else .fail n false
    | _ => .risky

/-- Whether an excluded text is here. -/
def excludeAt (run : Runner) (excludes : List Rule) (l : List Rune) : Ans :=
  match altsAt run NOT_SKIP l excludes 0 true with
  | .oof => .oof
  | .risky => .risky
  | .ok hits look sticky =>
    match best hits with
    | .none => .fail look sticky
    | .one nd u st => .hit nd u look st
    | _ => .risky

/-- A block from `pos` on, its content beginning at `start`. -/
def blockAt (run : Runner) (b : RuleBase) (virtualClose : Bool) (close : Rule)
    (escape : Option Rule) (excludes : List Rule) (opn : Node) (start : Nat) (l : List Rune) :
    Nat → Nat → Nat → Ans
  | 0, _, _ => .oof
  | fuel + 1, pos, look =>
    match escapeAt run escape excludes.isEmpty (l.drop pos) with
    | .oof => .oof
    | .fail ne _ =>
      let look := max look (pos + ne)
      match excludeAt run excludes (l.drop pos) with
      | .oof => .oof
      | .risky | .ambiguous _ => .risky
      | .hit _ _ nx _ =>
        if pos + nx < look then .risky else .fail (pos + nx) false
      | .fail nx _ =>
        let look := max look (pos + nx)
        match run close NOT_SKIP (l.drop pos) with
        | .oof => .oof
        | .risky | .ambiguous _ => .risky
        | .hit nd u n _ =>
          if pos + n < look then .risky
          else
            let content : Node :=
              { ruleType := .chars, chars := (l.drop start).take (pos - start), sticky := true }
            .hit (inner .block b false ([opn, content] ++ if virtualClose then [] else [nd]))
              (if virtualClose then pos else pos + u) (pos + n) false
        | .fail n _ =>
          if l.drop pos = [] then .fail l.length false
          else blockAt run b virtualClose close escape excludes opn start l fuel (pos + 1)
            (max look (max (pos + n) (pos + 1)))
    | _ => .risky

/-- Flip the marks written on a reference. -/
def flip (b : RuleBase) (n : Node) : Node :=
  { n with virt := n.virt ^^ b.virt, nonData := n.nonData ^^ b.nondata,
           tokenized := n.tokenized ^^ b.tokenized }

/-- Is the character in the range? -/
def between (first last c : Rune) : Bool := decide (first ≤ c) && decide (c ≤ last)

/-- What a rule does at the front of a list of characters. -/
def run (env : Name → Option Rule) : Nat → Runner
  | 0, _, _, _ => .oof
  | fuel + 1, rule, flag, l =>
    let skip := decide (flag = SUGGEST_SKIP)
    match rule with
    | .eof b => eofAt b skip l
    | .char b t _ => if t = EOFChar then .risky else oneAt .char b skip (fun c => c == t) l
    | .range b x _ y _ =>
      -- white space at or above both ends counts as in the range for the library
      if x < 0 ∨ (blank skip l).any (fun c => decide (x ≤ c ∧ y ≤ c) != between x y c) then .risky
      else oneAt .chars b skip (between x y) l
    | .chars b t => textAt .chars b true skip t l
    | .str b t =>
      textAt .string b false (decide (flag = SUGGEST_SKIP ∨ flag = SUGGEST_NOT_SKIP)) t l
    | .group b r =>
      match run env fuel r flag l with
      | .ambiguous n => .fail n false
      | .hit nd u n st => .hit (inner .group b st [nd]) u n st
      | a => a
    | .option b r =>
      match run env fuel r flag l with
      | .fail n st => .hit (inner .option b st []) 0 n st
      | .ambiguous _ => .risky
      | .hit nd u n st => .hit (inner .option b st [nd]) u n st
      | a => a
    | .rep b r mn mx => repAt (run env fuel) b r mn mx flag l fuel 0 0 true []
    | .choice b gs => choiceAt (run env fuel) b flag l gs 0 true
    | .concat b rs => seqAt (run env fuel) b l rs 0 0 true flag []
    | .block b o v c e xs =>
      match run env fuel o flag l with
      | .fail n _ => .fail n false
      | .hit nd u n _ =>
        if u < n ∧ e = none then .risky
        else blockAt (run env fuel) b v c e xs nd u l fuel u n
      | a => a
    | .ref b name =>
      match env name with
      | none => .fail 0 false
      | some r =>
        match run env fuel r flag l with
        | .hit nd u n st => .hit (flip b nd) u n st
        | a => a

end Xbnf.Spec
