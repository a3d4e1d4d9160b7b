import Verif.Spec.Document
import Verif.Spec.Predictive
/-
The language of a grammar: which texts can be read as a rule, and as which trees.  Alternatives,
optional parts and the number of repetitions are free; nothing is said about which is tried first, how
far the parser looks or what it gives back.  What is not free is white space: whether it may come before
a part depends on what the part before it reported (`flagAfter`), and where a part is left out, on what
the rule left out reports there.
-/
namespace Xbnf.Spec

/-- Evaluating `r` on the text `l` gives no tree and reports the stickiness `st`. -/
def Misses (env : Env) (r : Rule) (flag : Int) (l : List Rune) (st : Bool) : Prop :=
  ∃ fuel res s', eval env fuel r flag (Stream.ofChars l) = .ok (res, s') ∧ res.node = none ∧ res.sticky = st

/-- Literals, ranges and the end of the text. -/
def terminal : Rule → Bool
  | .eof _ | .char _ _ _ | .range _ _ _ _ _ | .chars _ _ | .str _ _ => true
  | _ => false

/-- What is to be read: a rule, rules one after the other, or a rule any number of times. -/
inductive Goal where
  | one (r : Rule)
  | parts (rs : List Rule)
  | rounds (r : Rule)

/-- The first `u` characters of `l` can be read as the goal, giving the trees `nds`; `st` is the
stickiness reported. -/
inductive Derives (env : Env) : Goal → Int → List Rune → List Node → Nat → Bool → Prop
  /-- what the terminals match is in C16, C17 and C40 -/
  | terminal {r flag l nd u st} (ht : terminal r = true) (h : Matches env r flag l nd u st) :
      Derives env (.one r) flag l [nd] u st
  /-- a block counts as one token; it begins with its open rule (the rest is in C18) -/
  | block {b o v c e xs flag l nd u st nds u' st'} (h : Matches env (.block b o v c e xs) flag l nd u st)
      (ho : Derives env (.one o) flag l nds u' st') : Derives env (.one (.block b o v c e xs)) flag l [nd] u st
  | group {b r flag l nd u st} (h : Derives env (.one r) flag l [nd] u st) :
      Derives env (.one (.group b r)) flag l [inner .group b st [nd]] u st
  | present {b r flag l nd u st} (h : Derives env (.one r) flag l [nd] u st) :
      Derives env (.one (.option b r)) flag l [inner .option b st [nd]] u st
  | absent {b r flag l st} (hst : ∀ st', Misses env r flag l st' → st = st') :
      Derives env (.one (.option b r)) flag l [inner .option b st []] 0 st
  /-- any alternative -/
  | choice {b gs1 rs1 r rs2 gs2 flag l nd u st} (h : Derives env (.one r) flag l [nd] u st) (f : Rule → Bool)
      (hf : ∀ r' ∈ gs1.flatten ++ rs1 ++ rs2, ∀ st', Misses env r' flag l st' → f r' = st') :
      Derives env (.one (.choice b (gs1 ++ (rs1 ++ r :: rs2) :: gs2))) flag l
        [inner .choice b (st && (gs1.flatten ++ rs1 ++ rs2).all f) [nd]] u (st && (gs1.flatten ++ rs1 ++ rs2).all f)
  | concat {b rs flag l nds u st} (h : Derives env (.parts rs) flag l nds u st) :
      Derives env (.one (.concat b rs)) flag l [inner .concatenate b st nds] u st
  /-- any number of rounds between the minimum and the maximum -/
  | rep {b r mn mx flag l nds u st last} (h : Derives env (.rounds r) flag l nds u st) (hmn : mn ≤ nds.length)
      (hmx : mx = 0 ∨ nds.length ≤ mx)
      (hlast : if (0 < mx ∧ nds.length = mx) ∨ l.drop u = [] then last = true
               else ∀ st', Misses env r flag (l.drop u) st' → last = st') :
      Derives env (.one (.rep b r mn mx)) flag l [inner .repetition b (st && last) nds] u (st && last)
  | ref {b name r flag l nd u st} (hr : env name = some r) (h : Derives env (.one r) flag l [nd] u st) :
      Derives env (.one (.ref b name)) flag l [flip b nd] u st
  | done {flag l} : Derives env (.parts []) flag l [] 0 true
  | next {r rs flag l nd u st nds v st'} (h : Derives env (.one r) flag l [nd] u st)
      (hs : Derives env (.parts rs) (flagAfter flag nd st) (l.drop u) nds v st') :
      Derives env (.parts (r :: rs)) flag l (nd :: nds) (u + v) (st && st')
  | stop {r flag l} : Derives env (.rounds r) flag l [] 0 true
  | again {r flag l nd u st nds v st'} (hl : l ≠ []) (h : Derives env (.one r) flag l [nd] u st)
      (hs : Derives env (.rounds r) flag (l.drop u) nds v st') :
      Derives env (.rounds r) flag l (nd :: nds) (u + v) (st && st')

/-- The whole text can be read as one root rule after the other, any root at each place. -/
inductive Reads (env : Env) (roots : List Rule) : Int → List Rune → List Node → Prop
  | done {flag} : Reads env roots flag [] []
  | next {r flag l nd u st nodes} (hne : l ≠ []) (hr : r ∈ roots) (h : Derives env (.one r) flag l [nd] u st)
      (hs : Reads env roots (flagNext st) (l.drop u) nodes) : Reads env roots flag l (nd :: nodes)

/-! ### Grammars whose language the parser accepts -/

/-- What is known of the named rules: which can match without using a character, with which characters
each can begin, and with which characters a match of it could go on. -/
structure Sets where
  nullable : List Name := []
  first : List (Name × CharSet) := []
  more : List (Name × CharSet) := []
deriving Repr, Inhabited

namespace Sets

/-- With which characters the named rule can begin. -/
def firstGet (t : Sets) (n : Name) : CharSet := (t.first.lookup n).getD []
/-- With which characters a match of the named rule could go on. -/
def moreGet (t : Sets) (n : Name) : CharSet := (t.more.lookup n).getD []

mutual
/-- With which characters the rule can begin. -/
def firstOf (t : Sets) : Rule → CharSet
  | .eof _ => []
  | .char _ c _ => [(c, c)]
  | .range _ x _ y _ => [(x, y)]
  | .chars _ s => match s with | [] => [] | c :: _ => [(c, c)]
  | .str _ s => match s with | [] => [] | c :: _ => [(c, c)]
  | .group _ r => firstOf t r
  | .option _ r => firstOf t r
  | .rep _ r _ _ => firstOf t r
  | .choice _ gs => firstLL t gs
  | .concat _ rs => firstSeq t rs
  | .block _ o _ _ _ _ => firstOf t o
  | .ref _ n => t.firstGet n
/-- The same for rules one after the other. -/
def firstSeq (t : Sets) : List Rule → CharSet
  | [] => []
  | r :: rs => if nulB t.nullable r then (firstOf t r).union (firstSeq t rs) else firstOf t r
/-- The same for any of some rules. -/
def firstL (t : Sets) : List Rule → CharSet
  | [] => []
  | r :: rs => (firstOf t r).union (firstL t rs)
/-- The same for the groups of a choice. -/
def firstLL (t : Sets) : List (List Rule) → CharSet
  | [] => []
  | g :: gs => (firstL t g).union (firstLL t gs)
end

mutual
/-- With which characters a match of the rule could go on. -/
def moreOf (t : Sets) : Rule → CharSet
  | .group _ r => moreOf t r
  | .option _ r => (firstOf t r).union (moreOf t r)
  | .rep _ r _ _ => (firstOf t r).union (moreOf t r)
  | .choice _ gs => moreLL t gs
  | .concat _ rs => moreSeq t rs
  | .ref _ n => t.moreGet n
  | .eof _ | .char _ _ _ | .range _ _ _ _ _ | .chars _ _ | .str _ _ | .block _ _ _ _ _ _ => []
/-- The same for rules one after the other. -/
def moreSeq (t : Sets) : List Rule → CharSet
  | [] => []
  | r :: rs => if nulAll t.nullable rs then (moreOf t r).union (moreSeq t rs) else moreSeq t rs
/-- The same for any of some rules. -/
def moreL (t : Sets) : List Rule → CharSet
  | [] => []
  | r :: rs => (moreOf t r).union (moreL t rs)
/-- The same for the groups of a choice. -/
def moreLL (t : Sets) : List (List Rule) → CharSet
  | [] => []
  | g :: gs => (moreL t g).union (moreLL t gs)
end

/-- No two begin with the same character, and none can be empty. -/
def differ (t : Sets) : List Rule → Bool
  | [] => true
  | r :: rs => !nulB t.nullable r && rs.all (fun r' => (firstOf t r).apart (firstOf t r')) && differ t rs

mutual
/-- One character decides: which alternative, whether an option is there, whether a repetition goes on. -/
def decides (t : Sets) : Rule → Bool
  | .eof _ => true
  | .char _ c _ => decide (32 < c)
  | .range _ x _ _ _ => decide (32 < x)
  | .chars _ s => match s with | [] => false | c :: _ => decide (32 < c) && !isWhiteSpace c
  | .str _ s => match s with | [] => false | c :: _ => decide (32 < c) && !isWhiteSpace c
  | .group _ r => decides t r
  | .option _ r => decides t r && !nulB t.nullable r
  | .rep _ r _ _ => decides t r && !nulB t.nullable r && (firstOf t r).apart (moreOf t r)
  | .choice _ gs => decidesLL t gs && differ t gs.flatten
  | .concat _ rs => decidesSeq t rs
  | .block _ o _ _ _ _ => decides t o && !nulB t.nullable o
  | .ref _ _ => true
/-- The same for rules one after the other. -/
def decidesSeq (t : Sets) : List Rule → Bool
  | [] => true
  | r :: rs => decides t r && (firstSeq t rs).apart (moreOf t r) && decidesSeq t rs
/-- The same for all of some rules. -/
def decidesL (t : Sets) : List Rule → Bool
  | [] => true
  | r :: rs => decides t r && decidesL t rs
/-- The same for the groups of a choice. -/
def decidesLL (t : Sets) : List (List Rule) → Bool
  | [] => true
  | g :: gs => decidesL t g && decidesLL t gs
end

/-- All ranges of the first are ranges of the second. -/
def within (a b : CharSet) : Bool := a.all (fun i => b.contains i)

/-- The sets are right for the grammar, and one character decides everywhere. -/
def ok (t : Sets) (g : Grammar) : Bool :=
  g.records.all fun rc =>
    (!nulB t.nullable rc.rule || t.nullable.contains rc.name) && within (firstOf t rc.rule) (t.firstGet rc.name) &&
      within (moreOf t rc.rule) (t.moreGet rc.name) && decides t rc.rule

/-- One character tells which root comes next, and whether the one before could go on. -/
def rootsOk (t : Sets) (roots : List Rule) : Bool :=
  roots.all (fun r => decides t r && roots.all (fun r' => (firstOf t r').apart (moreOf t r))) && differ t roots

/-- Finding the sets: `n` rounds of approximation. -/
def infer (g : Grammar) : Nat → Sets
  | 0 => {}
  | n + 1 =>
    let t := infer g n
    { nullable := (g.records.filter fun r => nulB t.nullable r.rule).map (·.name)
      first := g.records.map fun r => (r.name, firstOf t r.rule)
      more := g.records.map fun r => (r.name, moreOf t r.rule) }

end Sets

end Xbnf.Spec
