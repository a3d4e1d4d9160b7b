import Verif.Spec.Peg
import Verif.Spec.Erase
import Verif.Model.Grammar
/-
Vocabulary for properties that relate the evaluation of a rule to the evaluations of its parts:
what evaluating a rule on a text gives, sequences of matches, and the texts a literal matches.
-/
namespace Xbnf.Spec

/-- Evaluating `r` on the text `l` gives the tree `nd` (positions aside), using `u` characters;
`st` is the stickiness reported. -/
def Matches (env : Env) (r : Rule) (flag : Int) (l : List Rune) (nd : Node) (u : Nat) (st : Bool) :
    Prop :=
  ∃ fuel res s', eval env fuel r flag (Stream.ofChars l) = .ok (res, s') ∧
    res.node.map Node.erase = some nd ∧ res.countUsed = u ∧ res.sticky = st

/-- Evaluating `r` on the text `l` gives no tree. -/
def Fails (env : Env) (r : Rule) (flag : Int) (l : List Rune) : Prop :=
  ∃ fuel res s', eval env fuel r flag (Stream.ofChars l) = .ok (res, s') ∧ res.node = none

/-- Evaluating `r` on the text `l` meets none of the situations in which the library is known to go
astray (`Spec.run` does not answer `risky`), and ends. -/
def Regular (env : Env) (r : Rule) (flag : Int) (l : List Rune) : Prop :=
  ∃ fuel, run env fuel r flag l ≠ .oof ∧ run env fuel r flag l ≠ .risky

/-- The rules match one after the other in `l` from `p` to `q`, giving the trees `nds`. -/
inductive Sequence (env : Env) (l : List Rune) :
    List Rule → Int → Nat → List Node → Nat → Prop
  | nil {flag p} : Sequence env l [] flag p [] p
  | cons {r rs flag p nd u st nds q} (h : Matches env r flag (l.drop p) nd u st)
      (hs : Sequence env l rs (flagAfter flag nd st) (p + u) nds q) :
      Sequence env l (r :: rs) flag p (nd :: nds) q

/-- The rules match one after the other in `l` from `p` on, up to one that does not. -/
inductive Stuck (env : Env) (l : List Rune) : List Rule → Int → Nat → Prop
  | here {r rs flag p} (h : Fails env r flag (l.drop p)) : Stuck env l (r :: rs) flag p
  | later {r rs flag p nd u st} (h : Matches env r flag (l.drop p) nd u st)
      (hs : Stuck env l rs (flagAfter flag nd st) (p + u)) : Stuck env l (r :: rs) flag p

/-- The rule matches again and again in `l` from `p` to `q`, each time with input left, giving the
trees `nds`. -/
inductive Repeats (env : Env) (r : Rule) (flag : Int) (l : List Rune) :
    Nat → List Node → Nat → Prop
  | nil {p} : Repeats env r flag l p [] p
  | cons {p nd u st nds q} (hl : l.drop p ≠ []) (h : Matches env r flag (l.drop p) nd u st)
      (hs : Repeats env r flag l (p + u) nds q) : Repeats env r flag l p (nd :: nds) q

/-- Which alternatives match: one entry for each that does, in order. -/
inductive HitList (env : Env) (flag : Int) (l : List Rune) :
    List Rule → List (Node × Nat × Bool) → Prop
  | nil : HitList env flag l [] []
  | miss {r rs hs} (h : Fails env r flag l) (hr : HitList env flag l rs hs) :
      HitList env flag l (r :: rs) hs
  | hit {r rs nd u st hs} (h : Matches env r flag l nd u st) (hr : HitList env flag l rs hs) :
      HitList env flag l (r :: rs) ((nd, u, st) :: hs)

/-- Nothing more to repeat: at the end of the input, no further match, or the maximum reached. -/
def RepStops (env : Env) (r : Rule) (mx : Nat) (flag : Int) (l : List Rune) (q count : Nat) : Prop :=
  l.drop q = [] ∨ Fails env r flag (l.drop q) ∨ (mx > 0 ∧ count = mx)

/-- The alternative `r` of a group gives `c` using `u` characters, and every other that matches uses
fewer. -/
def Wins (env : Env) (flag : Int) (l : List Rune) (g : List Rule) (c : Node) (u : Nat) : Prop :=
  ∃ rs1 r rs2 st, g = rs1 ++ r :: rs2 ∧ Matches env r flag l c u st ∧
    ∀ r' ∈ rs1 ++ rs2, ∀ nd u' st', Matches env r' flag l nd u' st' → u' < u

/-- Two alternatives of a group use equally many characters, and none uses more. -/
def Tied (env : Env) (flag : Int) (l : List Rune) (g : List Rule) : Prop :=
  ∃ m rs1 r rs2 r' rs3, g = rs1 ++ r :: rs2 ++ r' :: rs3 ∧ (∃ nd st, Matches env r flag l nd m st) ∧
    (∃ nd st, Matches env r' flag l nd m st) ∧
    ∀ r'' ∈ g, ∀ nd u st, Matches env r'' flag l nd u st → u ≤ m

/-- The first group in which some alternative matches. -/
def FirstGroup (env : Env) (flag : Int) (l : List Rune) (gs : List (List Rule)) (g : List Rule) : Prop :=
  ∃ gs1 gs2, gs = gs1 ++ g :: gs2 ∧ ∀ g' ∈ gs1, ∀ r ∈ g', Fails env r flag l

/-- The content of a block goes on from `p` up to `q`: nowhere in between is there an escape, an
excluded text or the close, and there is input. -/
def Content (env : Env) (close : Rule) (escape : Option Rule) (excludes : List Rule) (l : List Rune)
    (p q : Nat) : Prop :=
  p ≤ q ∧ q ≤ l.length ∧ ∀ i, p ≤ i → i < q →
    (∀ e ∈ escape, Fails env e NOT_SKIP (l.drop i)) ∧
    (∀ x ∈ excludes, Fails env x NOT_SKIP (l.drop i)) ∧ Fails env close NOT_SKIP (l.drop i)

/-- The text `t` comes next in `l`, after the white space `ws`.  White space may only come first if
it may be skipped; and white space is skipped and matched as a whole, so a text of white space only
must be followed by something else. -/
def Comes (skip : Bool) (t l ws : List Rune) : Prop :=
  l ≠ [] ∧ ∃ rest, l = ws ++ t ++ rest ∧ (∀ c ∈ ws, isWhiteSpace c = true) ∧
    (skip = false → ws = []) ∧
    (skip = true → (∀ c ∈ t, isWhiteSpace c = true) → ∀ c ∈ rest.head?, isWhiteSpace c = false)

/-- A character satisfying `p` comes next in `l`, after the white space `ws`, in which there is
none. -/
def ComesOne (skip : Bool) (p : Rune → Prop) (l ws : List Rune) (c : Rune) : Prop :=
  p c ∧ (∃ rest, l = ws ++ c :: rest) ∧ (∀ w ∈ ws, isWhiteSpace w = true ∧ ¬ p w) ∧
    (skip = false → ws = [])

end Xbnf.Spec
