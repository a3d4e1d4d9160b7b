import Verif.Spec.Document
/-
How many rules are tried when a rule is read as in Spec/Peg.lean, or a text as in Spec/Document.lean: each function counts the calls of the
function there with the same control flow.
-/
namespace Xbnf.Spec

/-- The number of rules tried inside a rule. -/
abbrev Tries := Rule → Int → List Rune → Nat

/-- Is it a match? -/
def Ans.isHit : Ans → Bool
  | .hit _ _ _ _ => true
  | _ => false

/-- The parts of a concatenation, up to the first that does not match. -/
def seqTries (run : Runner) (cnt : Tries) (l : List Rune) : List Rule → Nat → Int → Nat
  | [], _, _ => 0
  | r :: rs, pos, flag =>
    cnt r flag (l.drop pos) +
      match run r flag (l.drop pos) with
      | .hit nd u _ st => seqTries run cnt l rs (pos + u) (flagAfter flag nd st)
      | _ => 0

/-- The rounds of a repetition, `count` of which are done. -/
def repTries (run : Runner) (cnt : Tries) (r : Rule) (mx : Nat) (flag : Int) (l : List Rune) : Nat → Nat → Nat → Nat
  | 0, _, _ => 0
  | fuel + 1, pos, count =>
    if l.drop pos = [] then 0
    else
      cnt r flag (l.drop pos) +
        match run r flag (l.drop pos) with
        | .hit _ u _ _ => if mx > 0 ∧ count + 1 = mx then 0 else repTries run cnt r mx flag l fuel (pos + u) (count + 1)
        | _ => 0

/-- All of some rules, each at the same place. -/
def allTries (cnt : Tries) (flag : Int) (l : List Rune) (rs : List Rule) : Nat := (rs.map fun r => cnt r flag l).sum

/-- The groups of a choice, up to the first in which something matches. -/
def choiceTries (run : Runner) (cnt : Tries) (flag : Int) (l : List Rune) : List (List Rule) → Nat
  | [] => 0
  | g :: gs =>
    allTries cnt flag l g + if g.any (fun r => (run r flag l).isHit) then 0 else choiceTries run cnt flag l gs

/-- A block from `pos` on: escape, excluded texts and close at each place. -/
def blockTries (run : Runner) (cnt : Tries) (close : Rule) (escape : Option Rule) (excludes : List Rule) (l : List Rune) :
    Nat → Nat → Nat
  | 0, _ => 0
  | fuel + 1, pos =>
    (match escape with
      | none => 0
      | some e => cnt e NOT_SKIP (l.drop pos)) + allTries cnt NOT_SKIP (l.drop pos) excludes +
    if excludes.any (fun r => (run r NOT_SKIP (l.drop pos)).isHit) then 0
    else
      cnt close NOT_SKIP (l.drop pos) +
        if (run close NOT_SKIP (l.drop pos)).isHit ∨ l.drop pos = [] then 0
        else blockTries run cnt close escape excludes l fuel (pos + 1)

/-- The number of rules tried when a rule is read at the front of a list of characters, itself included. -/
def tries (env : Name → Option Rule) : Nat → Tries
  | 0, _, _, _ => 0
  | fuel + 1, rule, flag, l =>
    1 + match rule with
      | .group _ r => tries env fuel r flag l
      | .option _ r => tries env fuel r flag l
      | .rep _ r _ mx => repTries (run env fuel) (tries env fuel) r mx flag l fuel 0 0
      | .choice _ gs => choiceTries (run env fuel) (tries env fuel) flag l gs
      | .concat _ rs => seqTries (run env fuel) (tries env fuel) l rs 0 flag
      | .block _ o _ c e xs =>
        tries env fuel o flag l +
          match run env fuel o flag l with
          | .hit _ u _ _ => blockTries (run env fuel) (tries env fuel) c e xs l fuel u
          | _ => 0
      | .ref _ name =>
        match env name with
        | none => 0
        | some r => tries env fuel r flag l
      | _ => 0

/-- The root rules tried on a document: all of them at each place, until none matches. -/
def docTries (run : Runner) (cnt : Tries) (roots : List Rule) : Nat → Int → Nat → List Rune → Nat
  | 0, _, _, _ => 0
  | n + 1, flag, pending, l =>
    if l = [] then 0
    else
      allTries cnt flag l roots +
        match roundAt run roots flag pending l with
        | .step _ u left st => docTries run cnt roots n (flagNext st) left (l.drop u)
        | _ => 0

/-- A rule tried at one place after the other; where it matches, the search goes on behind the match. -/
def embedTries (run : Runner) (cnt : Tries) (r : Rule) : Nat → List Rune → Nat
  | 0, _ => 0
  | n + 1, l =>
    cnt r NOT_SKIP l +
      match run r NOT_SKIP l with
      | .hit _ u _ _ => embedTries run cnt r n (l.drop u)
      | _ => if l = [] then 0 else embedTries run cnt r n (l.drop 1)

end Xbnf.Spec
