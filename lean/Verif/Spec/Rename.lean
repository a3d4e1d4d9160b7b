import Verif.Model.Grammar
/-
Grammars, trees and results with other names.
-/
namespace Xbnf

/-- The same annotations under another name. -/
def RuleBase.rename (f : Name → Name) (b : RuleBase) : RuleBase := { b with name := f b.name }

mutual
/-- A rule with every name in it replaced: its own, those of its parts and those it refers to. -/
def Rule.rename (f : Name → Name) : Rule → Rule
  | .eof b => .eof (b.rename f)
  | .char b t u => .char (b.rename f) t u
  | .range b x xu y yu => .range (b.rename f) x xu y yu
  | .chars b t => .chars (b.rename f) t
  | .str b t => .str (b.rename f) t
  | .group b r => .group (b.rename f) (r.rename f)
  | .option b r => .option (b.rename f) (r.rename f)
  | .rep b r mn mx => .rep (b.rename f) (r.rename f) mn mx
  | .choice b gs => .choice (b.rename f) (renameLL f gs)
  | .concat b rs => .concat (b.rename f) (renameL f rs)
  | .block b o v c e xs => .block (b.rename f) (o.rename f) v (c.rename f) (renameO f e) (renameL f xs)
  | .ref b n => .ref (b.rename f) (f n)
/-- An optional rule with other names. -/
def renameO (f : Name → Name) : Option Rule → Option Rule
  | none => none
  | some r => some (r.rename f)
/-- Rules with other names. -/
def renameL (f : Name → Name) : List Rule → List Rule
  | [] => []
  | r :: rs => r.rename f :: renameL f rs
/-- Groups of rules with other names. -/
def renameLL (f : Name → Name) : List (List Rule) → List (List Rule)
  | [] => []
  | g :: gs => renameL f g :: renameLL f gs
end

mutual
/-- A tree with other names. -/
def Node.rename (f : Name → Name) (n : Node) : Node :=
  match n with
  | ⟨rt, nm, ch, cs, p, st, v, nd, tk⟩ => ⟨rt, f nm, ch, renameNodes f cs, p, st, v, nd, tk⟩
/-- Trees with other names. -/
def renameNodes (f : Name → Name) : List Node → List Node
  | [] => []
  | n :: ns => n.rename f :: renameNodes f ns
end

/-- An error with other names. -/
def Err.rename (f : Name → Name) : Err → Err
  | .nil => .nil
  | .missingAtEOF r => .missingAtEOF (r.rename f)
  | .missing r p => .missing (r.rename f) p
  | .missingEOF => .missingEOF
  | .undefined b n => .undefined (b.rename f) (f n)
  | .tooFew r n => .tooFew (r.rename f) n
  | .inConcat r e => .inConcat (r.rename f) (e.rename f)
  | .inChoice r e => .inChoice (r.rename f) (e.rename f)
  | .ambiguity n x y => .ambiguity (f n) (f x.1, x.2) (f y.1, y.2)
  | .ambiguousExcludes x y => .ambiguousExcludes x y
  | .excluded t => .excluded t
  | .missingClose r => .missingClose (r.rename f)

/-- A result with other names. -/
def Res.rename (f : Name → Name) (r : Res) : Res :=
  { r with node := r.node.map (Node.rename f), error := r.error.map (Err.rename f) }

namespace Spec

/-- Different names stay different, and the names the code itself gives to nodes stay as they are: the
empty name of parts of rules, "EOF" and the "_" of text in `EvalEmbed`. -/
structure Renaming (f : Name → Name) : Prop where
  inj : ∀ {a b}, f a = f b → a = b
  empty : f [] = []
  eof : f (runes "EOF") = runes "EOF"
  text : f (runes "_") = runes "_"

/-- The definitions of the one are those of the other with other names, in any order and on any lines. -/
def SameBut (f : Name → Name) (recs recs' : List Record) : Prop :=
  (recs'.map (fun r => (r.name, r.rule))).Perm (recs.map (fun r => (f r.name, r.rule.rename f)))

end Spec
end Xbnf
