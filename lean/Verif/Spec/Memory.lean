import Verif.Model.Heap
/-
What one may expect of slices and streams in memory: when a slice lies inside of its array, when two slices share
nothing, which objects a stream is made of.
-/
namespace Xbnf.Mem

/-- A slice that lies inside of an array. -/
def Slice.ok (h : Heap) (s : Slice) : Prop :=
  s.len ≤ s.cap ∧ (s.cap = 0 ∨ s.arr < h.arrays.length ∧ s.off + s.cap ≤ (h.arrays.getD s.arr []).length)

/-- Slices of different arrays. -/
def Apart (o x : Slice) : Prop := x.cap = 0 ∨ o.cap = 0 ∨ x.arr ≠ o.arr

/-- A stream whose layers lie inside of their arrays, down to the text. -/
inductive Stands (h : Heap) : Nat → Prop
  | base {cs t c l} : h.streams[cs]? = some (.base t c l) → t.ok h → Stands h cs
  | pre {cs p c u} : h.streams[cs]? = some (.pre p c u) → p.ok h → u < cs → Stands h u → Stands h cs

/-- The objects a stream is made of. -/
inductive Reach (h : Heap) : Nat → Nat → Prop
  | self (cs) : Reach h cs cs
  | under {cs p c u i} : h.streams[cs]? = some (.pre p c u) → u < cs → Reach h u i → Reach h cs i

/-- From one heap to the other, nothing was written into an array there was (not even what was there anyway). -/
def NoWrite (h h' : Heap) : Prop := ∃ l, h'.arrays.written = h.arrays.written ++ l ∧ ∀ a ∈ l, h.arrays.length ≤ a

mutual
/-- The slices of a tree. -/
def HNode.slices (n : HNode) : List Slice :=
  match n with
  | ⟨_, _, ch, cs, _, _, _, _, _⟩ => ch :: slicesL cs
/-- The slices of trees. -/
def slicesL : List HNode → List Slice
  | [] => []
  | n :: ns => n.slices ++ slicesL ns
end

/-- The slices of a result. -/
def HRes.slices (r : HRes) : List Slice := r.read :: r.unused :: (r.node.map HNode.slices).getD []

end Xbnf.Mem
