import Verif.Model.Rule
/-
What the termination property is stated with: rules that can match nothing, and left recursion.
-/
namespace Xbnf.Spec

/-- The rule can match without using a character (over-approximated for blocks, whose content and
close are not looked at). -/
inductive Nullable (env : Name → Option Rule) : Rule → Prop
  | eof {b} : Nullable env (.eof b)
  | chars {b} : Nullable env (.chars b [])
  | str {b} : Nullable env (.str b [])
  | group {b r} (h : Nullable env r) : Nullable env (.group b r)
  | option {b r} : Nullable env (.option b r)
  | repZero {b r mx} : Nullable env (.rep b r 0 mx)
  | rep {b r mn mx} (h : Nullable env r) : Nullable env (.rep b r mn mx)
  | choice {b gs g r} (hg : g ∈ gs) (hr : r ∈ g) (h : Nullable env r) : Nullable env (.choice b gs)
  | concat {b rs} (h : ∀ r ∈ rs, Nullable env r) : Nullable env (.concat b rs)
  | block {b o v c e xs} (h : Nullable env o) : Nullable env (.block b o v c e xs)
  | ref {b name r} (hn : env name = some r) (h : Nullable env r) : Nullable env (.ref b name)

/-- Evaluating the first rule evaluates the second at the same place, no character having been used. -/
inductive LeftCall (env : Name → Option Rule) : Rule → Rule → Prop
  | group {b r} : LeftCall env (.group b r) r
  | option {b r} : LeftCall env (.option b r) r
  | rep {b r mn mx} : LeftCall env (.rep b r mn mx) r
  | choice {b gs g r} (hg : g ∈ gs) (hr : r ∈ g) : LeftCall env (.choice b gs) r
  | concat {b rs1 r rs2} (h : ∀ r' ∈ rs1, Nullable env r') :
      LeftCall env (.concat b (rs1 ++ r :: rs2)) r
  | opn {b o v c e xs} : LeftCall env (.block b o v c e xs) o
  | close {b o v c e xs} (h : Nullable env o) : LeftCall env (.block b o v c e xs) c
  | escape {b o v c e xs} (h : Nullable env o) : LeftCall env (.block b o v c (some e) xs) e
  | exclude {b o v c e xs x} (h : Nullable env o) (hx : x ∈ xs) : LeftCall env (.block b o v c e xs) x
  | ref {b name r} (hn : env name = some r) : LeftCall env (.ref b name) r

/-- There is no left recursion: no endless chain of evaluations at one place. -/
def NoLeftRecursion (env : Name → Option Rule) : Prop :=
  WellFounded fun r' r => LeftCall env r r'

/-- The second rule is written directly inside the first. -/
inductive Part : Rule → Rule → Prop
  | group {b r} : Part (.group b r) r
  | option {b r} : Part (.option b r) r
  | rep {b r mn mx} : Part (.rep b r mn mx) r
  | choice {b gs g r} (hg : g ∈ gs) (hr : r ∈ g) : Part (.choice b gs) r
  | concat {b rs r} (hr : r ∈ rs) : Part (.concat b rs) r
  | opn {b o v c e xs} : Part (.block b o v c e xs) o
  | close {b o v c e xs} : Part (.block b o v c e xs) c
  | escape {b o v c e xs} : Part (.block b o v c (some e) xs) e
  | exclude {b o v c e xs x} (hx : x ∈ xs) : Part (.block b o v c e xs) x

/-- The second rule is the first or written inside it. -/
inductive Inside : Rule → Rule → Prop
  | refl {r} : Inside r r
  | step {r r' r''} (h : Part r r') (h' : Inside r' r'') : Inside r r''

/-- No repetition without maximum written in the rule repeats something that can match nothing. -/
def SoundReps (env : Name → Option Rule) (r : Rule) : Prop :=
  ∀ b x mn, Inside r (.rep b x mn 0) → ¬ Nullable env x

end Xbnf.Spec
