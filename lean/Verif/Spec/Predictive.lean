import Verif.Model.Grammar
/-
Grammars in which one character decides how to go on.  `shapeOf` works out, for a rule and a flag for
leading white space, what can be said of every evaluation of it: with which characters it can begin,
whether it can match nothing, how far it looks when it does not match and how far it looks beyond a
match.  It gives no shape to rules that could get into one of the situations in which the library is
known to go astray (Spec/Peg.lean).  Everything here is computable: whether a grammar is of this kind
can be checked before any text is parsed.
-/
namespace Xbnf.Spec

/-- A set of characters: ranges with both ends in. -/
abbrev CharSet := List (Rune × Rune)

namespace CharSet

/-- Is the character in the set? -/
def has (s : CharSet) (c : Rune) : Bool := s.any (fun i => decide (i.1 ≤ c) && decide (c ≤ i.2))

/-- No character is in both sets. -/
def apart (s t : CharSet) : Bool := s.all (fun i => t.all (fun j => decide (i.2 < j.1) || decide (j.2 < i.1)))

/-- All characters of both sets. -/
def union (s t : CharSet) : CharSet := s ++ t.filter (fun i => !s.contains i)

end CharSet

/-- The number of white space characters in front. -/
def blanks (l : List Rune) : Nat := (l.takeWhile isWhiteSpace).length

/-- Is the first character that is no white space in the set? -/
def begins (s : CharSet) (l : List Rune) : Bool :=
  match l.dropWhile isWhiteSpace with
  | [] => false
  | c :: _ => s.has c

/-- How many characters are looked at. -/
inductive Look where
  /-- none -/
  | zero
  /-- the white space in front -/
  | blank
  /-- one, if there is one -/
  | one
  /-- the white space in front and one more, if there is one -/
  | blankOne
deriving Repr, DecidableEq, Inhabited

namespace Look

/-- The number of characters in a text. -/
def at_ (k : Look) (l : List Rune) : Nat :=
  match k with
  | .zero => 0
  | .blank => blanks l
  | .one => min 1 l.length
  | .blankOne => min (blanks l + 1) l.length

/-- The first is never more than the second. -/
def le (a b : Look) : Bool := a == .zero || b == .blankOne || a == b

/-- Both are at most this. -/
def sup (a b : Look) : Look := if a.le b then b else if b.le a then a else .blankOne

/-- At least one of the two, the greater if they compare. -/
def upper (a b : Look) : Look := if a.le b then b else a

/-- Both are at least this. -/
def inf (a b : Look) : Look := if a.le b then a else if b.le a then b else .zero

end Look

/-- What is known of every evaluation of a rule. -/
structure Shape where
  /-- it matches nothing where it does not match something -/
  null : Bool := false
  /-- with which characters a match begins -/
  first : CharSet
  /-- it can match at the end of the text -/
  eof : Bool := false
  /-- when it does not match, or matches nothing: it looks at this many characters or more … -/
  lo : Look
  /-- … and not at more than this … -/
  hi : Look
  /-- … unless one of these comes next -/
  deep0 : CharSet := []
  /-- it looks at most so far beyond a match … -/
  lag : Look := .zero
  /-- … unless one of these comes next -/
  deep : CharSet := []
  /-- matching nothing gives the node of an option -/
  opt : Bool := false
  /-- what it says about sticking to the next when it does not match, or matches nothing -/
  stickyMiss : Option Bool := none
  /-- what it says about sticking to the next when it matches something -/
  stickyHit : Option Bool := none
deriving Repr, DecidableEq, Inhabited

/-- The shapes of named rules, as far as known, for each flag. -/
abbrev Shapes := Name → Int → Option Shape

/-- Known of both. -/
def known (a b : Option Bool) : Option Bool := if a = b then a else none

/-- `&&` as far as known. -/
def both3 (a b : Option Bool) : Option Bool :=
  match a, b with
  | some false, _ => some false
  | _, some false => some false
  | some true, some true => some true
  | _, _ => none

/-- What is known if one of two shapes applies. -/
def Shape.join (a b : Shape) : Option Shape :=
  if a.null = b.null ∧ a.opt = b.opt then
    some { null := a.null, first := a.first.union b.first, eof := a.eof || b.eof, lo := a.lo.inf b.lo,
           hi := a.hi.sup b.hi, deep0 := a.deep0.union b.deep0, lag := a.lag.sup b.lag,
           deep := a.deep.union b.deep, opt := a.opt, stickyMiss := known a.stickyMiss b.stickyMiss,
           stickyHit := known a.stickyHit b.stickyHit }
  else none

/-- What is known after a result whose stickiness is known, or not. -/
def afterSticky (k : Int → Option Shape) : Option Bool → Option Shape
  | some true => k SUGGEST_NOT_SKIP
  | some false => k SUGGEST_SKIP
  | none =>
    match k SUGGEST_NOT_SKIP, k SUGGEST_SKIP with
    | some a, some b => a.join b
    | _, _ => none

/-- One character of a range. -/
def oneShape (x y : Rune) (flag : Int) : Option Shape :=
  if 32 < x then
    some { first := [(x, y)], lo := if flag = SUGGEST_SKIP then .blank else .zero,
           hi := if flag = SUGGEST_SKIP then .blank else .zero, stickyMiss := some true,
           stickyHit := some true }
  else none

/-- A text. -/
def textShape (text : List Rune) (skip sticky : Bool) : Option Shape :=
  match text with
  | [] => none
  | c :: rest =>
    if 32 < c ∧ isWhiteSpace c = false then
      some { first := [(c, c)], lo := if skip then .blankOne else .one, hi := if skip then .blankOne else .one,
             deep0 := if rest = [] then [] else [(c, c)], stickyMiss := some sticky, stickyHit := some sticky }
    else none

/-- A repetition. -/
def repShape (a : Shape) (mn : Nat) : Option Shape :=
  if a.null = false ∧ a.eof = false ∧ a.first.apart a.deep = true then
    some { null := decide (mn = 0), first := a.first, lo := a.lo, hi := a.hi,
           deep0 := if mn ≤ 1 then a.deep0 else a.deep0.union a.first, lag := a.lag.sup a.hi,
           deep := a.deep.union a.deep0,
           stickyMiss := if a.stickyMiss = some true ∧ a.stickyHit = some true then some true else none,
           stickyHit := if a.stickyHit = some false then some false
                        else if a.stickyMiss = some true ∧ a.stickyHit = some true then some true else none }
  else none

/-- The alternatives exclude each other. -/
def exclusive : List Shape → Bool
  | [] => true
  | a :: as =>
    !a.null && as.all (fun b => a.first.apart b.first && a.first.apart b.deep0 && b.first.apart a.deep0
      && !(a.eof && b.eof)) && exclusive as

/-- One of several. -/
def altShape (as : List Shape) : Shape :=
  match as with
  | [] => { first := [], lo := .zero, hi := .zero, lag := .zero, stickyMiss := some true, stickyHit := some true }
  | a :: as =>
    let b := altShape as
    { null := false, first := a.first.union b.first, eof := a.eof || b.eof, lo := a.lo.upper b.lo,
      hi := a.hi.sup b.hi, deep0 := a.deep0.union b.deep0, lag := a.lag.sup b.lag, deep := a.deep.union b.deep,
      stickyMiss := both3 a.stickyMiss b.stickyMiss,
      stickyHit :=
        if a.stickyMiss = some false ∧ a.stickyHit = some false then some false
        else if a.stickyMiss = some true ∧ a.stickyHit = some true ∧ b.stickyMiss = some true ∧ b.stickyHit = some true
        then some true else none }

/-- The text that closes a block: the blocks whose close is a literal. -/
def closeText : Rule → Option (List Rune)
  | .char _ t _ => if t = EOFChar then none else some [t]
  | .chars _ t => if t = [] then none else some t
  | .str _ t => if t = [] then none else some t
  | _ => none

/-- Excluded single characters. -/
def excludedChars : List Rule → Option (List Rune)
  | [] => some []
  | .char _ t _ :: xs =>
    match excludedChars xs with
    | some ts => if t = EOFChar ∨ ts.contains t then none else some (t :: ts)
    | none => none
  | _ :: _ => none

/-- Is the rule a single character? -/
def isChar : Rule → Bool
  | .char _ _ _ => true
  | _ => false

/-- A block, given the shape of what opens it. -/
def blockShape (a : Shape) (v : Bool) (close : Rule) (escape : Option Rule) (excludes : List Rule) : Option Shape :=
  match closeText close, excludedChars excludes, escape with
  | some t, some xs, none =>
    if a.null = false ∧ a.eof = false ∧ a.lag = .zero ∧ a.deep = [] ∧ (xs = [] ∨ isChar close = true) ∧
        (v = true → t.length = 1) then
      some { first := a.first, lo := a.lo, hi := a.hi, deep0 := a.deep0.union a.first,
             lag := if v then .blankOne else .zero, stickyMiss := some false, stickyHit := some false }
    else none
  | _, _, _ => none

/-- A part followed by the rest of a concatenation: `a` is the part, `lag` and `deep` how far was looked
beyond it before it, `s1` the rest after the part matched something, `s0` the rest after it matched
nothing. -/
def consShape (a s1 : Shape) (s0 : Option Shape) (lag : Look) (deep : CharSet) : Option Shape :=
  let hitLag := if s1.null then s1.lag.sup s1.hi else s1.lag
  let hitDeep := if s1.null then s1.deep.union s1.deep0 else s1.deep
  let hitSticky := both3 a.stickyHit (if s1.null then known s1.stickyHit s1.stickyMiss else s1.stickyHit)
  if a.null then
    match s0 with
    | none => none
    | some s0 =>
      if s0.null = s1.null then
        some { null := s0.null, first := a.first.union s0.first, eof := a.eof || s0.eof, lo := a.lo.upper s0.lo,
               hi := a.hi.sup s0.hi, deep0 := if s1.null then s0.deep0 else s0.deep0.union a.first,
               lag := hitLag.sup s0.lag, deep := hitDeep.union s0.deep,
               stickyMiss := if s1.null then both3 a.stickyMiss s0.stickyMiss
                             else known (both3 a.stickyMiss s0.stickyMiss) (both3 a.stickyHit s1.stickyMiss),
               stickyHit := known hitSticky (both3 a.stickyMiss s0.stickyHit) }
      else none
  else
    some { null := false, first := a.first, eof := a.eof, lo := a.lo, hi := lag.sup a.hi,
           deep0 := if s1.null then deep.union a.deep0 else (deep.union a.deep0).union a.first,
           lag := hitLag, deep := hitDeep,
           stickyMiss := if s1.null then a.stickyMiss else known a.stickyMiss (both3 a.stickyHit s1.stickyMiss),
           stickyHit := hitSticky }

mutual
/-- The shape of a rule. -/
def shapeOf (T : Shapes) (r : Rule) (flag : Int) : Option Shape :=
  match r with
  | .eof _ =>
    some { first := [], eof := true, lo := if flag = SUGGEST_SKIP then .blank else .zero,
           hi := if flag = SUGGEST_SKIP then .blank else .zero, stickyMiss := some true, stickyHit := some true }
  | .char _ t _ => oneShape t t flag
  | .range _ x _ y _ => oneShape x y flag
  | .chars _ t => textShape t (decide (flag = SUGGEST_SKIP)) true
  | .str _ t => textShape t (decide (flag = SUGGEST_SKIP ∨ flag = SUGGEST_NOT_SKIP)) false
  | .group _ r =>
    match shapeOf T r flag with
    | some a => some { a with opt := false }
    | none => none
  | .option _ r =>
    match shapeOf T r flag with
    | some a => if a.null then none else some { a with null := true, opt := true }
    | none => none
  | .rep _ r mn _ =>
    match shapeOf T r flag with
    | some a => repShape a mn
    | none => none
  | .choice _ gs =>
    match shapesLL T gs flag with
    | some as => if exclusive as then some (altShape as) else none
    | none => none
  | .concat _ rs => seqShape T rs flag .zero []
  | .block _ o v c e xs =>
    match shapeOf T o flag with
    | some a => blockShape a v c e xs
    | none => none
  | .ref _ name => T name flag
/-- The shapes of some rules. -/
def shapesL (T : Shapes) (rs : List Rule) (flag : Int) : Option (List Shape) :=
  match rs with
  | [] => some []
  | r :: rs =>
    match shapeOf T r flag, shapesL T rs flag with
    | some a, some as => some (a :: as)
    | _, _ => none
/-- The shapes of the rules of all groups. -/
def shapesLL (T : Shapes) (gs : List (List Rule)) (flag : Int) : Option (List Shape) :=
  match gs with
  | [] => some []
  | g :: gs =>
    match shapesL T g flag, shapesLL T gs flag with
    | some as, some bs => some (as ++ bs)
    | _, _ => none
/-- The shape of the rest of a concatenation; `lag`, `deep`: how far was looked beyond it before. -/
def seqShape (T : Shapes) (rs : List Rule) (flag : Int) (lag : Look) (deep : CharSet) : Option Shape :=
  match rs with
  | [] =>
    some { null := true, first := [], lo := .zero, hi := lag, deep0 := deep, stickyMiss := some true,
           stickyHit := some true }
  | r :: rs =>
    match shapeOf T r flag with
    | none => none
    | some a =>
      if a.first.apart deep = true ∧ (a.null = true → rs = [] ∨ (deep = [] ∧ lag.le a.lo = true)) then
        match afterSticky (fun f => seqShape T rs f a.lag a.deep) a.stickyHit with
        | none => none
        | some s1 =>
          consShape a s1
            (if a.null then
              (if a.opt then seqShape T rs flag (lag.sup a.hi) (deep.union a.deep0)
               else afterSticky (fun f => seqShape T rs f (lag.sup a.hi) (deep.union a.deep0)) a.stickyMiss)
             else none) lag deep
      else none
end

/-- The shapes given for the named rules are those of their definitions. -/
def Consistent (T : Shapes) (env : Name → Option Rule) : Prop :=
  ∀ name flag s, T name flag = some s → ∃ r, env name = some r ∧ shapeOf T r flag = some s

/-! ### Checking a grammar -/

mutual
/-- Can the rule match without using a character, the named rules in `N` being those that can? -/
def nulB (N : List Name) : Rule → Bool
  | .eof _ => true
  | .char _ _ _ => false
  | .range _ _ _ _ _ => false
  | .chars _ t => t == []
  | .str _ t => t == []
  | .group _ r => nulB N r
  | .option _ _ => true
  | .rep _ r mn _ => mn == 0 || nulB N r
  | .choice _ gs => nulSome N gs
  | .concat _ rs => nulAll N rs
  | .block _ o _ _ _ _ => nulB N o
  | .ref _ name => N.contains name
/-- Can one of the rules match nothing? -/
def nulAny (N : List Name) : List Rule → Bool
  | [] => false
  | r :: rs => nulB N r || nulAny N rs
/-- The same for the groups of a choice. -/
def nulSome (N : List Name) : List (List Rule) → Bool
  | [] => false
  | g :: gs => nulAny N g || nulSome N gs
/-- Can all of the rules match nothing? -/
def nulAll (N : List Name) : List Rule → Bool
  | [] => true
  | r :: rs => nulB N r && nulAll N rs
end

mutual
/-- The named rules that are evaluated without a character having been used. -/
def leftRefs (N : List Name) : Rule → List Name
  | .group _ r => leftRefs N r
  | .option _ r => leftRefs N r
  | .rep _ r _ _ => leftRefs N r
  | .choice _ gs => leftRefsLL N gs
  | .concat _ rs => leftRefsSeq N rs
  | .block _ o _ c e xs =>
    leftRefs N o ++ if nulB N o then leftRefs N c ++ leftRefsO N e ++ leftRefsL N xs else []
  | .ref _ name => [name]
  | _ => []
/-- The same for all of some rules. -/
def leftRefsL (N : List Name) : List Rule → List Name
  | [] => []
  | r :: rs => leftRefs N r ++ leftRefsL N rs
/-- The same for the groups of a choice. -/
def leftRefsLL (N : List Name) : List (List Rule) → List Name
  | [] => []
  | g :: gs => leftRefsL N g ++ leftRefsLL N gs
/-- The same for an escape. -/
def leftRefsO (N : List Name) : Option Rule → List Name
  | none => []
  | some r => leftRefs N r
/-- The same for rules one after the other. -/
def leftRefsSeq (N : List Name) : List Rule → List Name
  | [] => []
  | r :: rs => leftRefs N r ++ if nulB N r then leftRefsSeq N rs else []
end

mutual
/-- No repetition without maximum repeats something that can match nothing. -/
def repsOk (N : List Name) : Rule → Bool
  | .group _ r => repsOk N r
  | .option _ r => repsOk N r
  | .rep _ r _ mx => (mx != 0 || !nulB N r) && repsOk N r
  | .choice _ gs => repsOkLL N gs
  | .concat _ rs => repsOkL N rs
  | .block _ o _ c e xs => repsOk N o && repsOk N c && repsOkO N e && repsOkL N xs
  | _ => true
/-- The same for all of some rules. -/
def repsOkL (N : List Name) : List Rule → Bool
  | [] => true
  | r :: rs => repsOk N r && repsOkL N rs
/-- The same for the groups of a choice. -/
def repsOkLL (N : List Name) : List (List Rule) → Bool
  | [] => true
  | g :: gs => repsOkL N g && repsOkLL N gs
/-- The same for an escape. -/
def repsOkO (N : List Name) : Option Rule → Bool
  | none => true
  | some r => repsOk N r
end

/-- What a grammar is checked with: shapes of its rules, the names of the rules that can match nothing,
and its names in an order in which each rule begins only with rules that come later. -/
structure Certificate where
  shapes : List ((Name × Int) × Shape)
  nullable : List Name
  order : List Name
deriving Repr, Inhabited

/-- What the certificate says of a named rule. -/
def Certificate.get (c : Certificate) : Shapes := fun name flag => c.shapes.lookup (name, flag)

/-- The flags rules are evaluated with. -/
def flags : List Int := [SUGGEST_SKIP, SUGGEST_NOT_SKIP, NOT_SKIP]

/-- Each name's rule begins only with rules of names that come later. -/
def ordered (g : Grammar) (N : List Name) : List Name → Bool
  | [] => true
  | n :: rest =>
    (match g.getRecord n with
     | none => true
     | some r => (leftRefs N r.rule).all (fun m => rest.contains m)) && ordered g N rest

/-- The certificate is right for the grammar. -/
def Certificate.ok (c : Certificate) (g : Grammar) : Bool :=
  c.shapes.all (fun e =>
    match g.getRecord e.1.1 with
    | some r => decide (shapeOf c.get r.rule e.1.2 = some e.2)
    | none => false) &&
  g.records.all (fun r => flags.all (fun f => (c.get r.name f).isSome)) &&
  g.records.all (fun r => (!nulB c.nullable r.rule || c.nullable.contains r.name) && repsOk c.nullable r.rule) &&
  g.records.all (fun r => c.order.contains r.name) &&
  ordered g c.nullable c.order

/-- The rule, written in terms of the grammar, passes the check. -/
def Certificate.covers (c : Certificate) (r : Rule) (flag : Int) : Bool :=
  (shapeOf c.get r flag).isSome && repsOk c.nullable r

/-- The rule never matches without using a character. -/
def Certificate.uses (c : Certificate) (r : Rule) (flag : Int) : Bool :=
  match shapeOf c.get r flag with
  | some s => !s.null && !s.eof
  | none => false

/-- The roots of a document pass the check: at most two, and one character tells which one comes next. -/
def Certificate.rootsOk (c : Certificate) (roots : List Rule) : Bool :=
  decide (roots.length ≤ 2) && roots.all (repsOk c.nullable) &&
  match shapesL c.get roots SUGGEST_SKIP, shapesL c.get roots SUGGEST_NOT_SKIP with
  | some as, some bs =>
    exclusive as && exclusive bs && (as ++ bs).all (fun a => (as ++ bs).all (fun b => b.first.apart a.deep))
  | _, _ => false

/-- A predictive grammar: one character tells which alternative to take, whether to take an optional
part, and whether to go on repeating; and no rule begins with itself. -/
def Predictive (g : Grammar) : Prop := ∃ c : Certificate, c.ok g = true

/-! ### Finding certificates -/

/-- The first guess. -/
def unknownShape : Shape :=
  { first := [], lo := .blankOne, hi := .zero, stickyMiss := some true, stickyHit := some true }

/-- The shapes of the rules, given shapes of the named rules. -/
def improve (g : Grammar) (t : List ((Name × Int) × Shape)) : List ((Name × Int) × Shape) :=
  g.records.flatMap fun r => flags.filterMap fun f =>
    (shapeOf (fun name flag => t.lookup (name, flag)) r.rule f).map fun s => ((r.name, f), s)

/-- The first guess, improved a number of times. -/
def inferShapes (g : Grammar) : Nat → List ((Name × Int) × Shape)
  | 0 => g.records.flatMap fun r => flags.map fun f => ((r.name, f), unknownShape)
  | n + 1 => improve g (inferShapes g n)

/-- The rules that can match nothing, found in a number of rounds. -/
def inferNullable (g : Grammar) : Nat → List Name
  | 0 => []
  | n + 1 =>
    let N := inferNullable g n
    (g.records.filter fun r => nulB N r.rule).map (·.name)

/-- The names not yet in the order whose rules begin only with rules in it come first. -/
def inferOrder (g : Grammar) (N : List Name) : Nat → List Name
  | 0 => []
  | n + 1 =>
    let o := inferOrder g N n
    ((g.records.filter fun r => !o.contains r.name && (leftRefs N r.rule).all (fun m => o.contains m)).map
      (·.name)) ++ o

/-- A certificate, if the grammar is predictive; `n` rounds of approximation. -/
def certify (g : Grammar) (n : Nat) : Certificate :=
  let N := inferNullable g n
  { shapes := inferShapes g n, nullable := N, order := inferOrder g N n }

end Xbnf.Spec
