import Verif.Model.Grammar
/-
Grammars, trees and results without some of the annotations.
-/
namespace Xbnf

/-- A choice of annotations: `~`, `#`, `$`. -/
structure Marks where
  virt : Bool := false
  nondata : Bool := false
  tokenized : Bool := false

/-- The same name without these annotations. -/
def RuleBase.strip (k : Marks) (b : RuleBase) : RuleBase :=
  { b with virt := b.virt && !k.virt, nondata := b.nondata && !k.nondata, tokenized := b.tokenized && !k.tokenized }

mutual
/-- A rule without these annotations, neither its own nor those of its parts. -/
def Rule.strip (k : Marks) : Rule → Rule
  | .eof b => .eof (b.strip k)
  | .char b t u => .char (b.strip k) t u
  | .range b x xu y yu => .range (b.strip k) x xu y yu
  | .chars b t => .chars (b.strip k) t
  | .str b t => .str (b.strip k) t
  | .group b r => .group (b.strip k) (r.strip k)
  | .option b r => .option (b.strip k) (r.strip k)
  | .rep b r mn mx => .rep (b.strip k) (r.strip k) mn mx
  | .choice b gs => .choice (b.strip k) (stripLL k gs)
  | .concat b rs => .concat (b.strip k) (stripL k rs)
  | .block b o v c e xs => .block (b.strip k) (o.strip k) v (c.strip k) (stripO k e) (stripL k xs)
  | .ref b n => .ref (b.strip k) n
/-- An optional rule without these annotations. -/
def stripO (k : Marks) : Option Rule → Option Rule
  | none => none
  | some r => some (r.strip k)
/-- Rules without these annotations. -/
def stripL (k : Marks) : List Rule → List Rule
  | [] => []
  | r :: rs => r.strip k :: stripL k rs
/-- Groups of rules without these annotations. -/
def stripLL (k : Marks) : List (List Rule) → List (List Rule)
  | [] => []
  | g :: gs => stripL k g :: stripLL k gs
end

mutual
/-- A tree without these marks. -/
def Node.strip (k : Marks) (n : Node) : Node :=
  match n with
  | ⟨rt, nm, ch, cs, p, st, v, nd, tk⟩ =>
    ⟨rt, nm, ch, stripNodes k cs, p, st, v && !k.virt, nd && !k.nondata, tk && !k.tokenized⟩
/-- Trees without these marks. -/
def stripNodes (k : Marks) : List Node → List Node
  | [] => []
  | n :: ns => n.strip k :: stripNodes k ns
end

/-- An error without these annotations: errors quote rules. -/
def Err.strip (k : Marks) : Err → Err
  | .nil => .nil
  | .missingAtEOF r => .missingAtEOF (r.strip k)
  | .missing r p => .missing (r.strip k) p
  | .missingEOF => .missingEOF
  | .undefined b n => .undefined (b.strip k) n
  | .tooFew r n => .tooFew (r.strip k) n
  | .inConcat r e => .inConcat (r.strip k) (e.strip k)
  | .inChoice r e => .inChoice (r.strip k) (e.strip k)
  | .ambiguity n x y => .ambiguity n x y
  | .ambiguousExcludes x y => .ambiguousExcludes x y
  | .excluded t => .excluded t
  | .missingClose r => .missingClose (r.strip k)

/-- A result without these marks. -/
def Res.strip (k : Marks) (r : Res) : Res :=
  { r with node := r.node.map (Node.strip k), error := r.error.map (Err.strip k) }

namespace Spec

/-- The definitions of the one are those of the other but for these annotations, in any order and on any lines. -/
def SameButMarks (k : Marks) (recs recs' : List Record) : Prop :=
  (recs'.map (fun r => (r.name, r.rule.strip k))).Perm (recs.map (fun r => (r.name, r.rule.strip k)))

/-- The annotations say nothing about this level of `Eval`: `$` never does, `#` not at the raw level, `~` not at the raw and the basic level. -/
def Silent (k : Marks) (level : Int) : Prop :=
  level ≠ Grammar.LevelRaw → k.nondata = false ∧ (level = Grammar.LevelNoVirtual ∨ level = Grammar.LevelDataOnly → k.virt = false)

end Spec
end Xbnf
