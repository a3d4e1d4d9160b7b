import Verif.Lemmas.Heap
import Verif.Lemmas.Stream
/-
Memory: the stream objects behave like the streams that are seen through them.
-/
namespace Xbnf.Mem

/-- What never changes of a stream object. -/
def StreamObj.shape : StreamObj → Slice × Option Nat
  | .base s _ _ => (s, none)
  | .pre p _ u => (p, some u)

/-- The stream objects there were are there, with the same slices and the same streams below. -/
structure Shape (h h' : Heap) : Prop where
  size : h.streams.length ≤ h'.streams.length
  same : ∀ (i : Nat) (o : StreamObj), h.streams[i]? = some o → ∃ o' : StreamObj, h'.streams[i]? = some o' ∧ o'.shape = o.shape

theorem Shape.refl (h : Heap) : Shape h h := ⟨Nat.le_refl _, fun _ o k => ⟨o, k, rfl⟩⟩

theorem Shape.of_streams {h h' : Heap} (e : h'.streams = h.streams) : Shape h h' := by
  refine ⟨by rw [e]; exact Nat.le_refl _, fun i o k => ⟨o, by rw [e]; exact k, rfl⟩⟩

theorem Shape.trans {h1 h2 h3 : Heap} (a : Shape h1 h2) (b : Shape h2 h3) : Shape h1 h3 := by
  refine ⟨Nat.le_trans a.size b.size, fun i o k => ?_⟩
  obtain ⟨o2, k2, e2⟩ := a.same i o k
  obtain ⟨o3, k3, e3⟩ := b.same i o2 k2
  exact ⟨o3, k3, e3.trans e2⟩

theorem shape_put {h : Heap} {cs : Nat} {o o' : StreamObj} (ho : h.streams[cs]? = some o) (e : o'.shape = o.shape) : Shape h (h.put cs o') := by
  refine ⟨by simp [Heap.put], fun i x k => ?_⟩
  by_cases hi : cs = i
  · subst hi
    obtain ⟨hlt, -⟩ := List.getElem?_eq_some_iff.1 ho
    refine ⟨o', by simp [Heap.put, hlt], ?_⟩
    rw [ho] at k
    cases k
    exact e
  · exact ⟨x, by simp only [Heap.put, List.getElem?_set_ne hi]; exact k, rfl⟩

theorem Shape.reach {h h' : Heap} (s : Shape h h') {cs i : Nat} (k : Reach h' cs i) (hc : cs < h.streams.length) : Reach h cs i := by
  induction k with
  | self cs => exact .self cs
  | @under cs p c u i e hu _ ih =>
    obtain ⟨o, ho, eo⟩ := s.same cs _ (List.getElem?_eq_getElem hc)
    rw [e] at ho
    cases ho
    have hg := List.getElem?_eq_getElem hc
    generalize h.streams[cs] = x at hg eo
    cases x with
    | base _ _ _ => cases eo
    | pre p' c' u' =>
      cases eo
      exact .under hg hu (ih (by omega))

/-- The stream objects there were are there with the same shape, and those the stream is not made of have not changed. -/
structure Only (cs : Nat) (h h' : Heap) : Prop extends Shape h h' where
  lt : cs < h.streams.length
  others : ∀ i, i < h.streams.length → ¬ Reach h cs i → h'.streams[i]? = h.streams[i]?

theorem Only.refl {cs : Nat} {h : Heap} (k : cs < h.streams.length) : Only cs h h := ⟨Shape.refl h, k, fun _ _ _ => rfl⟩

theorem Only.of_streams {cs : Nat} {h h' : Heap} (k : cs < h.streams.length) (e : h'.streams = h.streams) : Only cs h h' :=
  ⟨Shape.of_streams e, k, fun i _ _ => by rw [e]⟩

theorem Only.trans {cs : Nat} {h1 h2 h3 : Heap} (a : Only cs h1 h2) (b : Only cs h2 h3) : Only cs h1 h3 :=
  ⟨a.toShape.trans b.toShape, a.lt, fun i hi k =>
    (b.others i (Nat.lt_of_lt_of_le hi a.size) fun r => k (a.toShape.reach r a.lt)).trans (a.others i hi k)⟩

/-- The layers of a stream: the slices, the topmost first, and the text. -/
inductive Chain (h : Heap) : Nat → List Slice → Slice → Prop
  | base {cs t c l} : h.streams[cs]? = some (.base t c l) → Chain h cs [t] t
  | pre {cs p c u L t} : h.streams[cs]? = some (.pre p c u) → u < cs → Chain h u L t → Chain h cs (p :: L) t

theorem Chain.lt {h : Heap} {cs : Nat} {L : List Slice} {t : Slice} (k : Chain h cs L t) : cs < h.streams.length := by
  cases k with
  | base e => exact (List.getElem?_eq_some_iff.1 e).1
  | pre e _ _ => exact (List.getElem?_eq_some_iff.1 e).1

theorem Chain.text_mem {h : Heap} {cs : Nat} {L : List Slice} {t : Slice} (k : Chain h cs L t) : t ∈ L := by
  induction k with
  | base e => exact List.mem_singleton.2 rfl
  | pre e _ _ ih => exact List.mem_cons_of_mem _ ih

theorem Chain.shape {h h' : Heap} (hs : Shape h h') {cs : Nat} {L : List Slice} {t : Slice} (k : Chain h cs L t) : Chain h' cs L t := by
  induction k with
  | @base cs t c l e =>
    obtain ⟨o, ho, e'⟩ := hs.same _ _ e
    cases o with
    | base t' c' l' => cases e'; exact .base ho
    | pre p c u => cases e'
  | @pre cs p c u L t e hu _ ih =>
    obtain ⟨o, ho, e'⟩ := hs.same _ _ e
    cases o with
    | base t' c' l' => cases e'
    | pre p c u => cases e'; exact .pre ho hu ih

theorem stream_base {h : Heap} {cs : Nat} {t : Slice} {c : Nat} {l : List Int} (e : h.streams[cs]? = some (.base t c l)) :
    h.stream cs = .base ⟨h.read t, c, l⟩ := by
  rw [Heap.stream, e]

theorem stream_pre {h : Heap} {cs : Nat} {p : Slice} {c u : Nat} (e : h.streams[cs]? = some (.pre p c u)) (hu : u < cs) :
    h.stream cs = .pre (h.read p) c (h.stream u) := by
  rw [Heap.stream, e]
  exact if_pos hu

/-- The stream seen depends on the objects up to the reference and on what their slices show. -/
theorem stream_congr {h h' : Heap} {cs : Nat} {L : List Slice} {t : Slice} (k : Chain h cs L t) (ho : ∀ i, i ≤ cs → h'.streams[i]? = h.streams[i]?)
    (hr : ∀ x ∈ L, h'.read x = h.read x) : h'.stream cs = h.stream cs := by
  induction k with
  | base e =>
    rw [stream_base e, stream_base ((ho _ (Nat.le_refl _)).trans e), hr _ List.mem_cons_self]
  | pre e hu _ ih =>
    rw [stream_pre e hu, stream_pre ((ho _ (Nat.le_refl _)).trans e) hu, hr _ List.mem_cons_self,
      ih (fun i hi => ho i (by omega)) (fun x hx => hr x (List.mem_cons_of_mem _ hx))]

section
variable {h : Heap} {cs : Nat} {L : List Slice} {t : Slice}

theorem peek_eq (k : Chain h cs L t) (hL : ∀ x ∈ L, x.ok h) : h.peek cs = (h.stream cs).peek := by
  induction k with
  | base e =>
    rw [stream_base e, Heap.peek, e]
    rfl
  | pre e hu _ ih =>
    rw [stream_pre e hu, Heap.peek, e]
    simp only [Stream.peek, read_length (hL _ List.mem_cons_self), if_pos hu]
    rw [ih fun x hx => hL x (List.mem_cons_of_mem _ hx)]

theorem size_eq (k : Chain h cs L t) (hL : ∀ x ∈ L, x.ok h) : h.size cs = (h.stream cs).size := by
  induction k with
  | base e =>
    rw [stream_base e, Heap.size, e]
    simp only [Stream.size, read_length (hL _ List.mem_cons_self)]
  | pre e hu _ ih =>
    rw [stream_pre e hu, Heap.size, e]
    simp only [Stream.size, read_length (hL _ List.mem_cons_self), if_pos hu]
    rw [ih fun x hx => hL x (List.mem_cons_of_mem _ hx)]

theorem cursor_eq (k : Chain h cs L t) (hL : ∀ x ∈ L, x.ok h) : h.cursor cs = (h.stream cs).cursor := by
  induction k with
  | base e =>
    rw [stream_base e, Heap.cursor, e]
    rfl
  | pre e hu _ ih =>
    rw [stream_pre e hu, Heap.cursor, e]
    simp only [Stream.cursor, read_length (hL _ List.mem_cons_self), if_pos hu]
    rw [ih fun x hx => hL x (List.mem_cons_of_mem _ hx)]

theorem lookup_eq (k : Chain h cs L t) (hL : ∀ x ∈ L, x.ok h) (idx : Int) : h.positionLookup cs idx = (h.stream cs).positionLookup idx := by
  induction k with
  | base e =>
    rw [stream_base e, Heap.positionLookup, e]
    simp only [Stream.positionLookup, Base.positionLookup, read_length (hL _ List.mem_cons_self)]
  | pre e hu _ ih =>
    rw [stream_pre e hu, Heap.positionLookup, e]
    simp only [Stream.positionLookup, if_pos hu]
    rw [ih fun x hx => hL x (List.mem_cons_of_mem _ hx)]

/-- What a method of a stream does to the heap: no array changes, no object above the stream changes. -/
structure Moved (cs : Nat) (h h' : Heap) : Prop where
  arrays : h'.arrays = h.arrays
  shape : Shape h h'
  above : ∀ i, cs < i → h'.streams[i]? = h.streams[i]?
  others : ∀ i, ¬ Reach h cs i → h'.streams[i]? = h.streams[i]?

theorem Moved.refl (cs : Nat) (h : Heap) : Moved cs h h := ⟨rfl, Shape.refl h, fun _ _ => rfl, fun _ _ => rfl⟩

theorem Moved.only {h' : Heap} (m : Moved cs h h') (k : cs < h.streams.length) : Only cs h h' := ⟨m.shape, k, fun i _ d => m.others i d⟩

theorem Moved.read {h' : Heap} (m : Moved cs h h') (s : Slice) : h'.read s = h.read s := by rw [Heap.read, Heap.read, m.arrays]

theorem Moved.ok {h' : Heap} (m : Moved cs h h') {s : Slice} (k : s.ok h) : s.ok h' := (Kept.of_arrays (n := 0) m.arrays).ok k

theorem moved_put {o o' : StreamObj} (ho : h.streams[cs]? = some o) (e : o'.shape = o.shape) : Moved cs h (h.put cs o') :=
  ⟨rfl, shape_put ho e, fun i hi => List.getElem?_set_ne (by omega),
   fun i hi => List.getElem?_set_ne (fun e : cs = i => hi (e ▸ Reach.self cs))⟩

theorem put_get {o o' : StreamObj} (ho : h.streams[cs]? = some o) : (h.put cs o').streams[cs]? = some o' := by
  obtain ⟨hlt, -⟩ := List.getElem?_eq_some_iff.1 ho
  simp [Heap.put, hlt]

theorem next_spec (k : Chain h cs L t) (hL : ∀ x ∈ L, x.ok h) :
    (h.next cs).1 = (h.stream cs).next.1 ∧ (h.next cs).2.stream cs = (h.stream cs).next.2 ∧ Moved cs h (h.next cs).2 := by
  induction k with
  | @base cs t c l e =>
    have hlen := read_length (hL t List.mem_cons_self)
    rw [stream_base e, Heap.next, e]
    simp only [Stream.next, Base.next, hlen]
    by_cases hc : c ≥ t.len
    · simp only [if_pos hc]
      exact ⟨trivial, stream_base e, Moved.refl _ _⟩
    · simp only [if_neg hc]
      exact ⟨trivial, stream_base (put_get e), moved_put e rfl⟩
  | @pre cs p c u L t e hu k ih =>
    have hlen := read_length (hL p List.mem_cons_self)
    obtain ⟨i1, i2, i3⟩ := ih fun x hx => hL x (List.mem_cons_of_mem _ hx)
    rw [stream_pre e hu, Heap.next, e]
    simp only [Stream.next, hlen, if_pos hu]
    by_cases hc : c < p.len
    · simp only [if_pos hc]
      refine ⟨trivial, ?_, moved_put e rfl⟩
      rw [stream_pre (put_get e) hu]
      congr 1
      exact stream_congr k (fun i hi => List.getElem?_set_ne (by omega)) (fun x _ => rfl)
    · simp only [if_neg hc]
      refine ⟨i1, ?_, i3.arrays, i3.shape, fun i hi => i3.above i (by omega), fun i hi => i3.others i fun r => hi (.under e hu r)⟩
      rw [stream_pre ((i3.above cs hu).trans e) hu, i2, i3.read]

theorem position_spec (k : Chain h cs L t) (hL : ∀ x ∈ L, x.ok h) :
    (h.position cs).1 = (h.stream cs).position.1 ∧ (h.position cs).2.stream cs = (h.stream cs).position.2 ∧ Moved cs h (h.position cs).2 := by
  induction k with
  | @base cs t c l e =>
    have hlen := read_length (hL t List.mem_cons_self)
    rw [stream_base e, Heap.position, e]
    simp only [Stream.position, Base.position, hlen]
    by_cases hc : c ≥ t.len
    · simp only [if_pos hc]
      exact ⟨trivial, stream_base e, Moved.refl _ _⟩
    · by_cases h0 : c = 0
      · simp only [if_neg hc, if_pos h0]
        exact ⟨trivial, stream_base e, Moved.refl _ _⟩
      · simp only [if_neg hc, if_neg h0]
        exact ⟨trivial, stream_base (put_get e), moved_put e rfl⟩
  | @pre cs p c u L t e hu k ih =>
    have hlen := read_length (hL p List.mem_cons_self)
    have hL' : ∀ x ∈ L, x.ok h := fun x hx => hL x (List.mem_cons_of_mem _ hx)
    obtain ⟨i1, i2, i3⟩ := ih hL'
    rw [stream_pre e hu, Heap.position, e]
    simp only [Stream.position, hlen, if_pos hu]
    by_cases hc : c ≥ p.len
    · simp only [if_pos hc]
      refine ⟨i1, ?_, i3.arrays, i3.shape, fun i hi => i3.above i (by omega), fun i hi => i3.others i fun r => hi (.under e hu r)⟩
      rw [stream_pre ((i3.above cs hu).trans e) hu, i2, i3.read]
    · simp only [if_neg hc]
      refine ⟨?_, stream_pre e hu, Moved.refl _ _⟩
      rw [lookup_eq k hL', cursor_eq k hL']

end

/-! ### Layers -/

theorem newPre_arrays (h : Heap) (cs : Nat) (p : Slice) : (h.newPre cs p).2.arrays = h.arrays := by
  unfold Heap.newPre
  split <;> rfl

theorem newPre_shape (h : Heap) (cs : Nat) (p : Slice) : Shape h (h.newPre cs p).2 := by
  unfold Heap.newPre
  split
  · exact Shape.refl h
  · refine ⟨by simp, fun i o k => ⟨o, ?_, rfl⟩⟩
    obtain ⟨hlt, -⟩ := List.getElem?_eq_some_iff.1 k
    simp only [List.getElem?_append_left hlt]
    exact k

theorem newPre_only (h : Heap) {cs : Nat} (k : cs < h.streams.length) (p : Slice) : Only cs h (h.newPre cs p).2 := by
  refine ⟨newPre_shape h cs p, k, fun i hi _ => ?_⟩
  unfold Heap.newPre
  split
  · rfl
  · exact List.getElem?_append_left hi

/-- Work on a layer changes the objects of the stream below, and new ones. -/
theorem Only.pop {h0 h1 h3 : Heap} {cs : Nat} {p : Slice} (a : Only cs h0 h1) (k : cs < h1.streams.length)
    (b : Only (h1.newPre cs p).1 (h1.newPre cs p).2 h3) : Only cs h0 h3 := by
  have a2 := a.trans (newPre_only h1 k p)
  refine ⟨a2.toShape.trans b.toShape, a.lt, fun i hi d => ?_⟩
  refine (b.others i (Nat.lt_of_lt_of_le hi a2.size) fun r => d ?_).trans (a2.others i hi d)
  refine a2.toShape.reach ?_ a.lt
  have hi1 := Nat.lt_of_lt_of_le hi a.size
  by_cases hl : p.len = 0
  · have e : h1.newPre cs p = (cs, h1) := by rw [Heap.newPre, if_pos hl]
    rw [e] at r ⊢
    exact r
  · have e : h1.newPre cs p = (h1.streams.length, { h1 with streams := h1.streams ++ [.pre p 0 cs] }) := by rw [Heap.newPre, if_neg hl]
    rw [e] at r ⊢
    cases r with
    | self => omega
    | under e' _ r' =>
      simp only [List.getElem?_concat_length, Option.some.injEq, StreamObj.pre.injEq] at e'
      obtain ⟨_, _, rfl⟩ := e'
      exact r'

/-- A new layer, and what is seen through it. -/
theorem newPre_spec {h : Heap} {cs : Nat} {L : List Slice} {t : Slice} (k : Chain h cs L t) {p : Slice} (hp : p.ok h) :
    (∃ L', Chain (h.newPre cs p).2 (h.newPre cs p).1 L' t ∧ (∀ x ∈ L', x = p ∨ x ∈ L) ∧ ∀ x ∈ L, x ∈ L') ∧
    (h.newPre cs p).2.stream (h.newPre cs p).1 = (h.stream cs).pushBack (h.read p) := by
  have hs := newPre_shape h cs p
  have ha := newPre_arrays h cs p
  have hst : (h.newPre cs p).2.stream cs = h.stream cs := by
    refine stream_congr k (fun i hi => ?_) (fun x _ => by rw [Heap.read, Heap.read, ha])
    have := k.lt
    unfold Heap.newPre
    split
    · rfl
    · exact List.getElem?_append_left (by omega)
  by_cases hl : p.len = 0
  · have e : h.newPre cs p = (cs, h) := by rw [Heap.newPre, if_pos hl]
    rw [e]
    refine ⟨⟨L, k, fun x hx => .inr hx, fun x hx => hx⟩, ?_⟩
    rw [Stream.pushBack, if_pos ((read_eq_nil hp).2 hl)]
  · have e : h.newPre cs p = (h.streams.length, { h with streams := h.streams ++ [.pre p 0 cs] }) := by rw [Heap.newPre, if_neg hl]
    have hobj : (h.newPre cs p).2.streams[(h.newPre cs p).1]? = some (.pre p 0 cs) := by
      rw [e]
      simp
    have hlt : cs < (h.newPre cs p).1 := by
      rw [e]
      exact k.lt
    refine ⟨⟨p :: L, .pre hobj hlt (k.shape hs), fun x hx => List.mem_cons.1 hx, fun x hx => List.mem_cons_of_mem _ hx⟩, ?_⟩
    rw [stream_pre hobj hlt, hst, Stream.pushBack, if_neg (fun h0 => hl ((read_eq_nil hp).1 h0))]
    congr 1
    rw [Heap.read, Heap.read, ha]

/-- What is seen through the stream below a layer, after work was done on the layer. -/
theorem newPre_pop {h h' : Heap} {cs : Nat} {L : List Slice} {t : Slice} (k : Chain h cs L t) {p : Slice} (hp : p.ok h)
    (hs : Shape (h.newPre cs p).2 h') : h'.stream cs = (h'.stream (h.newPre cs p).1).popBack (h.read p) := by
  by_cases hl : p.len = 0
  · have e : h.newPre cs p = (cs, h) := by rw [Heap.newPre, if_pos hl]
    rw [e, Stream.popBack, if_pos ((read_eq_nil hp).2 hl)]
  · have e : h.newPre cs p = (h.streams.length, { h with streams := h.streams ++ [.pre p 0 cs] }) := by rw [Heap.newPre, if_neg hl]
    have hobj : (h.newPre cs p).2.streams[(h.newPre cs p).1]? = some (.pre p 0 cs) := by
      rw [e]
      simp
    have hlt : cs < (h.newPre cs p).1 := by
      rw [e]
      exact k.lt
    obtain ⟨o, ho, e'⟩ := hs.same _ _ hobj
    cases o with
    | base t' c' l' => cases e'
    | pre p' c' u' =>
      cases e'
      rw [stream_pre ho hlt, Stream.popBack, if_neg (fun h0 => hl ((read_eq_nil hp).1 h0))]
      rfl

end Xbnf.Mem
