import Verif.Model.Rule
/-
What a description of a rule is about.
-/
namespace Xbnf.Spec
open Xbnf

/-- The rule `q` is the first or a part of it that is not hidden behind a name. -/
inductive Shown (q : Rule) : Rule → Prop
  | self : Shown q q
  | group {b r} (hb : b.name = []) (h : Shown q r) : Shown q (.group b r)
  | option {b r} (hb : b.name = []) (h : Shown q r) : Shown q (.option b r)
  | rep {b r mn mx} (hb : b.name = []) (h : Shown q r) : Shown q (.rep b r mn mx)
  | choice {b gs g r} (hb : b.name = []) (hg : g ∈ gs) (hr : r ∈ g) (h : Shown q r) : Shown q (.choice b gs)
  | concat {b rs r} (hb : b.name = []) (hr : r ∈ rs) (h : Shown q r) : Shown q (.concat b rs)
  | opn {b o v c e xs} (hb : b.name = []) (h : Shown q o) : Shown q (.block b o v c e xs)
  | close {b o v c e xs} (hb : b.name = []) (h : Shown q c) : Shown q (.block b o v c e xs)

end Xbnf.Spec
