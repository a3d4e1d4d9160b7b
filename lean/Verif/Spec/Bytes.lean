import Verif.Spec.Printing
/-
UTF-8, as the standard describes it: which bytes stand for which character, and what bytes that
stand for nothing are read as.
-/
namespace Xbnf.Spec

/-- The bytes that stand for a character: the table of the standard (the shortest form only, no
surrogates, nothing beyond U+10FFFF). -/
inductive StandsFor : List Nat → Rune → Prop
  | one {n : Nat} (h : n < 0x80) : StandsFor [n] n
  | two {x y : Nat} (hx : x < 32) (hy : y < 64) (h : 0x80 ≤ x * 64 + y) :
      StandsFor [0xC0 + x, 0x80 + y] ((x * 64 + y : Nat) : Int)
  | three {x y z : Nat} (hx : x < 16) (hy : y < 64) (hz : z < 64) (h : 0x800 ≤ (x * 64 + y) * 64 + z)
      (hs : (x * 64 + y) * 64 + z < 0xD800 ∨ 0xDFFF < (x * 64 + y) * 64 + z) :
      StandsFor [0xE0 + x, 0x80 + y, 0x80 + z] (((x * 64 + y) * 64 + z : Nat) : Int)
  | four {w x y z : Nat} (hw : w < 8) (hx : x < 64) (hy : y < 64) (hz : z < 64)
      (h : 0x10000 ≤ ((w * 64 + x) * 64 + y) * 64 + z) (hm : ((w * 64 + x) * 64 + y) * 64 + z ≤ 0x10FFFF) :
      StandsFor [0xF0 + w, 0x80 + x, 0x80 + y, 0x80 + z] ((((w * 64 + x) * 64 + y) * 64 + z : Nat) : Int)

/-- How a text of bytes is read: a byte that begins no character is read as U+FFFD, alone. -/
inductive ReadAs : List Nat → List Rune → Prop
  | done : ReadAs [] []
  | char {u rest c l} (h : StandsFor u c) (hr : ReadAs rest l) : ReadAs (u ++ rest) (c :: l)
  | bad {b bs l} (h : ∀ u rest c, b :: bs = u ++ rest → ¬ StandsFor u c) (hr : ReadAs bs l) :
      ReadAs (b :: bs) (0xFFFD :: l)

/-- Bytes that are all parts of characters. -/
inductive WellFormedBytes : List Nat → Prop
  | done : WellFormedBytes []
  | char {u rest c} (h : StandsFor u c) (hr : WellFormedBytes rest) : WellFormedBytes (u ++ rest)

end Xbnf.Spec
