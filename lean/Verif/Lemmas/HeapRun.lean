import Verif.Lemmas.HeapStream
import Verif.Model.HeapEval
/-
Memory: what a run on the heap has to do with a run on values, step by step.
-/
namespace Xbnf.Mem

/-- Two runs that end the same way, with results that are related. -/
def Rel {α β : Type} (R : α → β → Prop) : Exec α → Exec β → Prop
  | .ok a, .ok b => R a b
  | .panic, .panic => True
  | .oof, .oof => True
  | _, _ => False

theorem Rel.bind {α β γ δ : Type} {R : α → β → Prop} {S : γ → δ → Prop} {x : Exec α} {y : Exec β} {f : α → Exec γ} {g : β → Exec δ}
    (h : Rel R x y) (k : ∀ a b, R a b → Rel S (f a) (g b)) : Rel S (x >>= f) (y >>= g) := by
  cases x <;> cases y <;> first | exact k _ _ h | exact h | exact False.elim h

theorem Rel.mono {α β : Type} {R S : α → β → Prop} {x : Exec α} {y : Exec β} (h : Rel R x y) (k : ∀ a b, R a b → S a b) : Rel S x y := by
  cases x <;> cases y <;> first | exact k _ _ h | exact h

/-- A change on the side of the values after the run. -/
theorem Rel.bind_left {α β γ : Type} {R : α → β → Prop} {S : γ → β → Prop} {x : Exec α} {y : Exec β} {f : α → Exec γ}
    (h : Rel R x y) (k : ∀ a b, R a b → Rel S (f a) (.ok b)) : Rel S (x >>= f) y := by
  cases x <;> cases y <;> first | exact k _ _ h | exact h | exact False.elim h

/-! ### The stream a run works on -/

/-- A stream in a heap: its layers lie in the arrays, and the text is in one of the first `n`. -/
structure Scene (n : Nat) (T : Slice) (L : List Slice) (cs : Nat) (h : Heap) : Prop where
  chain : Chain h cs L T
  ok : ∀ x ∈ L, x.ok h
  size : n ≤ h.arrays.length
  text : 0 < T.cap → T.arr < n

theorem Scene.mk' {T : Slice} {L : List Slice} {cs : Nat} {h : Heap} (c : Chain h cs L T) (ok : ∀ x ∈ L, x.ok h) : Scene h.arrays.length T L cs h := by
  refine ⟨c, ok, Nat.le_refl _, fun k => ?_⟩
  rcases (ok T c.text_mem).2 with h0 | h0
  · omega
  · exact h0.1

theorem Scene.now {n : Nat} {T : Slice} {L : List Slice} {cs : Nat} {h : Heap} (sc : Scene n T L cs h) : Scene h.arrays.length T L cs h :=
  .mk' sc.chain sc.ok

theorem Scene.step {n m : Nat} {T : Slice} {L : List Slice} {cs : Nat} {h h' : Heap} (sc : Scene n T L cs h) (k : Kept m h h') (s : Shape h h') :
    Scene n T L cs h' :=
  ⟨sc.chain.shape s, fun x hx => k.ok (sc.ok x hx), Nat.le_trans sc.size k.size, sc.text⟩

/-- From `h` to `h'`, where the stream shows `s`; the first `n` arrays were left alone. -/
structure Run (n : Nat) (T : Slice) (L : List Slice) (cs : Nat) (h h' : Heap) (s : Stream) : Prop where
  scene : Scene n T L cs h'
  kept : Kept n h h'
  only : Only cs h h'
  stream : h'.stream cs = s

theorem Run.shape {n : Nat} {T : Slice} {L : List Slice} {cs : Nat} {h h' : Heap} {s : Stream} (r : Run n T L cs h h' s) : Shape h h' := r.only.toShape

/-- A slice, and what it shows; it is a part of the text or was made since. -/
structure Has (n : Nat) (T : Slice) (h : Heap) (x : Slice) (l : List Rune) : Prop where
  ok : x.ok h
  born : Born n T x
  read : h.read x = l

section
variable {n : Nat} {T : Slice} {L : List Slice} {cs : Nat} {h h1 h2 : Heap} {s : Stream} {grow : Growth}

theorem Has.nil : Has n T h {} [] := ⟨Slice.ok_nil h, Born.nil n T, read_empty h⟩

theorem Has.len {x : Slice} {l : List Rune} (k : Has n T h x l) : x.len = l.length := by rw [← k.read, read_length k.ok]

theorem Has.kept {x : Slice} {l : List Rune} (k : Has n T h x l) (e : Kept h.arrays.length h h1) : Has n T h1 x l :=
  ⟨e.ok k.ok, k.born, (e.read_all k.ok).trans k.read⟩

theorem Has.mono {m : Nat} {x : Slice} {l : List Rune} (k : Has n T h x l) (e : m ≤ n) : Has m T h x l := ⟨k.ok, k.born.mono e, k.read⟩

theorem Has.part {x : Slice} {l : List Rune} (k : Has n T h x l) {i j : Nat} (hij : i ≤ j) (hj : j ≤ l.length) :
    Has n T h (x.part i j) ((l.drop i).take (j - i)) := by
  rw [← k.len] at hj
  exact ⟨part_ok k.ok hij hj, part_born k.born i j, by rw [read_part hj, k.read]⟩

theorem Has.rest {x : Slice} {l : List Rune} (k : Has n T h x l) {i : Nat} (hi : i ≤ l.length) : Has n T h (x.part i x.len) (l.drop i) := by
  have := k.part (i := i) (j := l.length) hi (Nat.le_refl _)
  rw [List.take_of_length_le (by simp)] at this
  rw [k.len]
  exact this

theorem Run.refl (sc : Scene n T L cs h) : Run n T L cs h h (h.stream cs) := ⟨sc, Kept.refl _ _, Only.refl sc.chain.lt, rfl⟩

theorem Run.peek (r : Run n T L cs h h1 s) : h1.peek cs = s.peek := by rw [← r.stream, peek_eq r.scene.chain r.scene.ok]
theorem Run.size (r : Run n T L cs h h1 s) : h1.size cs = s.size := by rw [← r.stream, size_eq r.scene.chain r.scene.ok]
theorem Run.cursor (r : Run n T L cs h h1 s) : h1.cursor cs = s.cursor := by rw [← r.stream, cursor_eq r.scene.chain r.scene.ok]
theorem Run.lookup (r : Run n T L cs h h1 s) (i : Int) : h1.positionLookup cs i = s.positionLookup i := by
  rw [← r.stream, lookup_eq r.scene.chain r.scene.ok]

theorem Run.moved (r : Run n T L cs h h1 s) (m : Moved cs h1 h2) : Run n T L cs h h2 (h2.stream cs) :=
  ⟨r.scene.step (Kept.of_arrays (n := n) m.arrays) m.shape, r.kept.trans (Kept.of_arrays m.arrays), r.only.trans (m.only r.scene.chain.lt), rfl⟩

theorem Run.position (r : Run n T L cs h h1 s) : (h1.position cs).1 = s.position.1 ∧ Run n T L cs h (h1.position cs).2 s.position.2 ∧
    (h1.position cs).2.arrays = h1.arrays := by
  obtain ⟨a, b, c⟩ := position_spec r.scene.chain r.scene.ok
  rw [r.stream] at a b
  refine ⟨a, ?_, c.arrays⟩
  have := r.moved c
  rwa [b] at this

theorem Run.next (r : Run n T L cs h h1 s) : (h1.next cs).1 = s.next.1 ∧ Run n T L cs h (h1.next cs).2 s.next.2 ∧
    (h1.next cs).2.arrays = h1.arrays := by
  obtain ⟨a, b, c⟩ := next_spec r.scene.chain r.scene.ok
  rw [r.stream] at a b
  refine ⟨a, ?_, c.arrays⟩
  have := r.moved c
  rwa [b] at this

theorem Has.of_arrays {x : Slice} {l : List Rune} (k : Has n T h x l) (e : h1.arrays = h.arrays) : Has n T h1 x l := k.kept (Kept.of_arrays e)

/-- A change of the arrays that leaves the streams alone, and the layers of this one. -/
theorem Run.change (r : Run n T L cs h h1 s) (k : Kept n h1 h2) (e : h2.streams = h1.streams) (hL : ∀ x ∈ L, h2.read x = h1.read x) :
    Run n T L cs h h2 s :=
  ⟨r.scene.step k (Shape.of_streams e), r.kept.trans k, r.only.trans (Only.of_streams r.scene.chain.lt e),
   (stream_congr r.scene.chain (fun i _ => by rw [e]) hL).trans r.stream⟩

/-- What an append to an own slice does. -/
structure Appended (n : Nat) (o : Slice) (xs : List Rune) (h : Heap) (a : Slice × Heap) : Prop where
  ok : a.1.ok a.2
  own : Own n a.1
  read : a.2.read a.1 = h.read o ++ xs
  kept : Kept n h a.2
  streams : a.2.streams = h.streams
  other : ∀ x, x.ok h → Apart o x → x.ok a.2 ∧ Apart a.1 x ∧ a.2.read x = h.read x

theorem appended {o : Slice} (hok : o.ok h) (ho : Own n o) (hn : n ≤ h.arrays.length) (xs : List Rune) : Appended n o xs h (h.append grow o xs) := by
  obtain ⟨a, b, c, d, e⟩ := append_spec (grow := grow) xs hok ho hn
  exact ⟨a, b, c, d, append_streams xs, e⟩

theorem Apart.nil_left (x : Slice) : Apart {} x := .inr (.inl rfl)
theorem Apart.nil_right (o : Slice) : Apart o {} := .inl rfl
theorem Apart.symm {o x : Slice} (k : Apart o x) : Apart x o := by
  rcases k with k | k | k
  · exact .inr (.inl k)
  · exact .inl k
  · exact .inr (.inr fun e => k e.symm)

theorem Has.appended {x o : Slice} {l xs : List Rune} {a : Slice × Heap} (k : Has n T h x l) (ap : Appended n o xs h a) (d : Apart o x) :
    Has n T a.2 x l ∧ Apart a.1 x := by
  obtain ⟨e1, e2, e3⟩ := ap.other x k.ok d
  exact ⟨⟨e1, k.born, e3.trans k.read⟩, e2⟩

theorem Run.appended {o : Slice} {xs : List Rune} {a : Slice × Heap} (r : Run n T L cs h h1 s) (ap : Appended n o xs h1 a) (d : ∀ x ∈ L, Apart o x) :
    Run n T L cs h a.2 s ∧ ∀ x ∈ L, Apart a.1 x :=
  ⟨r.change ap.kept ap.streams (fun x hx => (ap.other x (r.scene.ok x hx) (d x hx)).2.2), fun x hx => (ap.other x (r.scene.ok x hx) (d x hx)).2.1⟩

theorem Appended.has {o : Slice} {xs l : List Rune} {a : Slice × Heap} (ap : Appended n o xs h a) (k : h.read o = l) : Has n T a.2 a.1 (l ++ xs) :=
  ⟨ap.ok, ap.own.born T, by rw [ap.read, k]⟩

/-- What appending to nothing does. -/
structure Made (n : Nat) (T : Slice) (L : List Slice) (cs : Nat) (h h1 : Heap) (s : Stream) (xs : List Rune) (a : Slice × Heap) : Prop where
  run : Run n T L cs h a.2 s
  has : Has n T a.2 a.1 xs
  own : Own n a.1
  layers : ∀ x ∈ L, Apart a.1 x
  other : ∀ x l, Has n T h1 x l → Has n T a.2 x l ∧ Apart a.1 x

theorem Run.made (r : Run n T L cs h h1 s) (xs : List Rune) : Made n T L cs h h1 s xs (h1.append grow {} xs) := by
  have ap := Mem.appended (grow := grow) (Slice.ok_nil h1) (Own.nil n) r.scene.size xs
  have hr := r.appended ap (fun x _ => Apart.nil_left x)
  refine ⟨hr.1, ?_, ap.own, hr.2, fun x l k => k.appended ap (Apart.nil_left x)⟩
  have := ap.has (T := T) (read_empty h1)
  simpa using this

/-- What appending to an own slice does, where the layers are elsewhere. -/
structure Grown (n : Nat) (T : Slice) (L : List Slice) (cs : Nat) (h h1 : Heap) (s : Stream) (o : Slice) (l : List Rune) (a : Slice × Heap) : Prop where
  run : Run n T L cs h a.2 s
  has : Has n T a.2 a.1 l
  own : Own n a.1
  layers : ∀ x ∈ L, Apart a.1 x
  other : ∀ x l, Has n T h1 x l → Apart o x → Has n T a.2 x l ∧ Apart a.1 x

theorem Run.grown (r : Run n T L cs h h1 s) {o : Slice} {l : List Rune} (ko : Has n T h1 o l) (ho : Own n o) (d : ∀ x ∈ L, Apart o x) (xs : List Rune) :
    Grown n T L cs h h1 s o (l ++ xs) (h1.append grow o xs) := by
  have ap := Mem.appended (grow := grow) ko.ok ho r.scene.size xs
  have hr := r.appended ap d
  exact ⟨hr.1, ap.has ko.read, ap.own, hr.2, fun x l k e => k.appended ap e⟩

/-! ### White space and literals -/

theorem skipLoop_spec (m : Nat) : ∀ {h1 : Heap} {s : Stream} {out : Slice} {l : List Rune}, Run n T L cs h h1 s → Has n T h1 out l → Own n out →
    (∀ x ∈ L, Apart out x) →
    Run n T L cs h (Heap.skipLoop grow m h1 cs out).2 (s.skipLoop m).2 ∧
    Has n T (Heap.skipLoop grow m h1 cs out).2 (Heap.skipLoop grow m h1 cs out).1 (l ++ (s.skipLoop m).1) := by
  induction m with
  | zero =>
    intro h1 s out l r ko ho d
    simp only [Heap.skipLoop, Stream.skipLoop, List.append_nil]
    exact ⟨r, ko⟩
  | succ m ih =>
    intro h1 s out l r ko ho d
    simp only [Heap.skipLoop, Stream.skipLoop, r.peek]
    by_cases h0 : s.peek = EOFChar
    · simp only [if_pos h0, List.append_nil]
      exact ⟨r, ko⟩
    · by_cases hw : (!isWhiteSpace s.peek) = true
      · simp only [if_neg h0, if_pos hw, List.append_nil]
        exact ⟨r, ko⟩
      · simp only [if_neg h0, if_neg hw]
        obtain ⟨n1, n2, n3⟩ := r.next
        have g := n2.grown (grow := grow) (ko.of_arrays n3) ho d [s.next.1]
        have := ih g.run g.has g.own g.layers
        rw [List.append_assoc] at this
        rw [n1]
        exact this

theorem skipSpaces_spec (r : Run n T L cs h h1 s) :
    Run n T L cs h (h1.skipSpaces grow cs).2 s.skipSpaces.2 ∧ Has n T (h1.skipSpaces grow cs).2 (h1.skipSpaces grow cs).1 s.skipSpaces.1 := by
  have hstream := r.stream
  have hsc := r.scene
  cases hsc.chain with
  | @base _ t c l e =>
    rw [stream_base e] at hstream
    have hok := hsc.ok T List.mem_cons_self
    subst hstream
    simp only [Heap.skipSpaces, e, Stream.skipSpaces, Base.skipSpaces]
    by_cases h0 : List.takeWhile isWhiteSpace (List.drop c (h1.read T)) = []
    · simp only [if_pos h0]
      exact ⟨r, Has.nil⟩
    · simp only [if_neg h0]
      have m := moved_put (o' := .base T (c + (List.takeWhile isWhiteSpace (List.drop c (h1.read T))).length)
        (posUpdate l c (List.takeWhile isWhiteSpace (List.drop c (h1.read T))))) e rfl
      have r' := r.moved m
      rw [stream_base (put_get e)] at r'
      have hlen : (List.takeWhile isWhiteSpace (List.drop c (h1.read T))).length ≤ (h1.read T).length - c := by
        refine Nat.le_trans (List.takeWhile_sublist _).length_le ?_
        simp
      refine ⟨r', ?_⟩
      have hT : Has n T h1 T (h1.read T) := ⟨hok, ?_, rfl⟩
      · have hp := (hT.of_arrays (h1 := h1.put cs (.base T (c + (List.takeWhile isWhiteSpace (List.drop c (h1.read T))).length)
          (posUpdate l c (List.takeWhile isWhiteSpace (List.drop c (h1.read T)))))) rfl).part (i := c)
          (j := c + (List.takeWhile isWhiteSpace (List.drop c (h1.read T))).length) (by omega) (by
            have : 0 < (List.takeWhile isWhiteSpace (List.drop c (h1.read T))).length := List.length_pos_iff.2 h0
            omega)
        have e1 : (List.drop c (h1.read T)).take (c + (List.takeWhile isWhiteSpace (List.drop c (h1.read T))).length - c) =
            List.takeWhile isWhiteSpace (List.drop c (h1.read T)) := by
          rw [Nat.add_sub_cancel_left]
          exact (List.prefix_iff_eq_take.1 (List.takeWhile_prefix _)).symm
        rw [e1] at hp
        exact hp
      · by_cases h0 : T.cap = 0
        · exact .inl h0
        · exact .inr (.inl ⟨rfl, by omega⟩)
  | @pre _ p c u L' _ e hu k =>
    have hsz := r.size
    rw [stream_pre e hu] at hstream
    have := skipLoop_spec (grow := grow) s.size r Has.nil (Own.nil n) (fun x _ => Apart.nil_left x)
    subst hstream
    simp only [Heap.skipSpaces, e, Stream.skipSpaces]
    rw [hsz]
    exact this

theorem matchLoop_spec (text : List Rune) : ∀ {h1 : Heap} {s : Stream} {out : Slice} {l : List Rune}, Run n T L cs h h1 s → Has n T h1 out l → Own n out →
    (∀ x ∈ L, Apart out x) →
    Run n T L cs h (Heap.matchLoop grow text h1 cs out).2.2 (s.matchRunes text).2.2 ∧
    (Heap.matchLoop grow text h1 cs out).2.1 = (s.matchRunes text).2.1 ∧
    Has n T (Heap.matchLoop grow text h1 cs out).2.2 (Heap.matchLoop grow text h1 cs out).1 (l ++ (s.matchRunes text).1) ∧
    ∀ x m, Has n T h1 x m → Apart out x → Has n T (Heap.matchLoop grow text h1 cs out).2.2 x m := by
  induction text with
  | nil =>
    intro h1 s out l r ko ho d
    simp only [Heap.matchLoop, Stream.matchRunes, List.append_nil]
    exact ⟨r, trivial, ko, fun x m k _ => k⟩
  | cons w rest ih =>
    intro h1 s out l r ko ho d
    obtain ⟨n1, n2, n3⟩ := r.next
    simp only [Heap.matchLoop, Stream.matchRunes, n1]
    have g := n2.grown (grow := grow) (ko.of_arrays n3) ho d [s.next.1]
    by_cases h0 : s.next.1 = EOFChar
    · simp only [if_pos h0, List.append_nil]
      exact ⟨n2, trivial, ko.of_arrays n3, fun x m k _ => k.of_arrays n3⟩
    · by_cases hw : s.next.1 ≠ w
      · simp only [if_neg h0, if_pos hw]
        exact ⟨g.run, trivial, g.has, fun x m k e => (g.other x m (k.of_arrays n3) e).1⟩
      · simp only [if_neg h0, if_neg hw]
        obtain ⟨a, b, c, e⟩ := ih g.run g.has g.own g.layers
        rw [List.append_assoc] at c
        refine ⟨a, b, c, fun x m k e' => ?_⟩
        obtain ⟨k1, k2⟩ := g.other x m (k.of_arrays n3) e'
        exact e x m k1 k2

end

/-! ### Results -/

theorem slicesL_append (a b : List HNode) : slicesL (a ++ b) = slicesL a ++ slicesL b := by
  induction a with
  | nil => rfl
  | cons x xs ih => simp [slicesL, ih]

theorem viewL_append (h : Heap) (a b : List HNode) : viewL h (a ++ b) = viewL h a ++ viewL h b := by
  induction a with
  | nil => rfl
  | cons x xs ih => simp [viewL, ih]

theorem viewL_length (h : Heap) (a : List HNode) : (viewL h a).length = a.length := by
  induction a with
  | nil => rfl
  | cons x xs ih => simp [viewL, ih]

mutual
theorem view_congr {h h' : Heap} (n : HNode) (k : ∀ x ∈ n.slices, h'.read x = h.read x) : n.view h' = n.view h := by
  obtain ⟨rt, nm, ch, cs, p, st, v, nd, tk⟩ := n
  simp only [HNode.slices] at k
  simp only [HNode.view]
  rw [k ch List.mem_cons_self, viewL_congr cs fun x hx => k x (List.mem_cons_of_mem _ hx)]
theorem viewL_congr {h h' : Heap} (ns : List HNode) (k : ∀ x ∈ slicesL ns, h'.read x = h.read x) : viewL h' ns = viewL h ns := by
  match ns with
  | [] => rfl
  | n :: ns =>
    simp only [slicesL, List.mem_append] at k
    simp only [viewL]
    rw [view_congr n fun x hx => k x (.inl hx), viewL_congr ns fun x hx => k x (.inr hx)]
end

/-- What was made later is elsewhere. -/
theorem fresh_apart {h : Heap} {x y : Slice} (kx : x.ok h) (ky : Own h.arrays.length y) : Apart x y := by
  rcases kx.2 with h0 | ⟨h1, _⟩
  · exact .inr (.inl h0)
  · rcases ky with h2 | h2
    · exact .inl h2
    · exact .inr (.inr (by omega))

/-- A tree on the heap, and what it shows.  Its slices were made since, and no two share an array. -/
structure Tree (n : Nat) (T : Slice) (h : Heap) (ns : List HNode) (l : List Node) : Prop where
  all : ∀ x ∈ slicesL ns, x.ok h ∧ Own n x
  view : viewL h ns = l
  apart : (slicesL ns).Pairwise Apart

theorem Tree.kept {n : Nat} {T : Slice} {h h' : Heap} {ns : List HNode} {l : List Node} (t : Tree n T h ns l) (k : Kept h.arrays.length h h') :
    Tree n T h' ns l :=
  ⟨fun x hx => ⟨k.ok (t.all x hx).1, (t.all x hx).2⟩, (viewL_congr ns fun x hx => k.read_all (t.all x hx).1).trans t.view, t.apart⟩

theorem Tree.mono {n m : Nat} {T : Slice} {h : Heap} {ns : List HNode} {l : List Node} (t : Tree n T h ns l) (k : m ≤ n) : Tree m T h ns l :=
  ⟨fun x hx => ⟨(t.all x hx).1, (t.all x hx).2.mono k⟩, t.view, t.apart⟩

theorem Tree.nil (n : Nat) (T : Slice) (h : Heap) : Tree n T h [] [] := ⟨fun _ hx => absurd hx List.not_mem_nil, rfl, List.Pairwise.nil⟩

theorem Tree.append {n : Nat} {T : Slice} {h : Heap} {ns ms : List HNode} {l m : List Node} (a : Tree n T h ns l) (b : Tree n T h ms m)
    (d : ∀ x ∈ slicesL ns, ∀ y ∈ slicesL ms, Apart x y) : Tree n T h (ns ++ ms) (l ++ m) := by
  refine ⟨fun x hx => ?_, by rw [viewL_append, a.view, b.view], by rw [slicesL_append]; exact List.pairwise_append.2 ⟨a.apart, b.apart, d⟩⟩
  rw [slicesL_append] at hx
  exact (List.mem_append.1 hx).elim (a.all x) (b.all x)

theorem Tree.appended {n : Nat} {T o : Slice} {h : Heap} {ns : List HNode} {l : List Node} {xs : List Rune} {a : Slice × Heap} (t : Tree n T h ns l)
    (ap : Appended n o xs h a) (d : ∀ x ∈ slicesL ns, Apart o x) : Tree n T a.2 ns l ∧ ∀ x ∈ slicesL ns, Apart a.1 x :=
  ⟨⟨fun x hx => ⟨(ap.other x (t.all x hx).1 (d x hx)).1, (t.all x hx).2⟩,
    (viewL_congr ns fun x hx => (ap.other x (t.all x hx).1 (d x hx)).2.2).trans t.view, t.apart⟩, fun x hx => (ap.other x (t.all x hx).1 (d x hx)).2.1⟩

/-- A result on the heap, and what it shows. -/
structure Shows (n : Nat) (T : Slice) (h : Heap) (r : HRes) (v : Res) : Prop where
  read : Has n T h r.read v.read
  unused : Has n T h r.unused v.unused
  node : Tree n T h r.node.toList v.node.toList
  error : r.error = v.error
  errIdx : r.errIdx = v.errIdx
  sticky : r.sticky = v.sticky

theorem Shows.kept {n : Nat} {T : Slice} {h h' : Heap} {r : HRes} {v : Res} (t : Shows n T h r v) (k : Kept h.arrays.length h h') : Shows n T h' r v :=
  ⟨t.read.kept k, t.unused.kept k, t.node.kept k, t.error, t.errIdx, t.sticky⟩

theorem Shows.mono {n m : Nat} {T : Slice} {h : Heap} {r : HRes} {v : Res} (t : Shows n T h r v) (k : m ≤ n) : Shows m T h r v :=
  ⟨t.read.mono k, t.unused.mono k, t.node.mono k, t.error, t.errIdx, t.sticky⟩

theorem Shows.view {n : Nat} {T : Slice} {h : Heap} {r : HRes} {v : Res} (t : Shows n T h r v) : r.view h = v := by
  obtain ⟨vn, ve, vi, vr, vu, vs⟩ := v
  have hn := t.node.view
  simp only [HRes.view, t.read.read, t.unused.read, t.error, t.errIdx, t.sticky, Res.mk.injEq, and_true]
  revert hn
  cases r.node <;> cases vn <;> simp [viewL]

/-- What a call on the heap has to do with a call on values. -/
structure Post (n : Nat) (T : Slice) (L : List Slice) (cs : Nat) (h : Heap) (v : Res × Stream) (r : HRes × Heap) : Prop where
  run : Run n T L cs h r.2 v.2
  shows : Shows n T r.2 r.1 v.1

/-- An evaluator on the heap does what one on values does. -/
def Sim (ev : Evaluator) (hev : HEvaluator) : Prop :=
  ∀ rule flag cs h L T, Scene h.arrays.length T L cs h →
    Rel (Post h.arrays.length T L cs h) (ev rule flag (h.stream cs)) (hev rule flag cs h)

end Xbnf.Mem
