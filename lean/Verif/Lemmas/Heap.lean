import Verif.Spec.Memory
/-
Memory: which slices a change of the heap leaves alone.
-/
namespace Xbnf.Mem

/-! ### Slices -/

theorem Slice.ok_nil (h : Heap) : Slice.ok h {} := ⟨Nat.le_refl _, .inl rfl⟩

theorem read_length {h : Heap} {s : Slice} (hs : s.ok h) : (h.read s).length = s.len := by
  obtain ⟨h1, h2⟩ := hs
  simp only [Heap.read, List.length_take, List.length_drop]
  rcases h2 with h2 | h2 <;> omega

theorem read_nil (h : Heap) {s : Slice} (hs : s.len = 0) : h.read s = [] := by
  rw [Heap.read, hs, List.take_zero]

@[simp] theorem read_empty (h : Heap) : h.read {} = [] := read_nil h rfl

theorem read_eq_nil {h : Heap} {s : Slice} (hs : s.ok h) : h.read s = [] ↔ s.len = 0 := by
  rw [← read_length hs, List.length_eq_zero_iff]

/-- What a heap keeps of another: the arrays before `n`, and the sizes of all. -/
structure Kept (n : Nat) (h h' : Heap) : Prop where
  size : h.arrays.length ≤ h'.arrays.length
  lens : ∀ a, a < h.arrays.length → (h'.arrays.getD a []).length = (h.arrays.getD a []).length
  same : ∀ a, a < n → a < h.arrays.length → h'.arrays.getD a [] = h.arrays.getD a []
  log : ∃ l, h'.arrays.written = h.arrays.written ++ l ∧ ∀ a ∈ l, n ≤ a

theorem Kept.refl (n : Nat) (h : Heap) : Kept n h h := ⟨Nat.le_refl _, fun _ _ => rfl, fun _ _ _ => rfl, [], (List.append_nil _).symm, fun _ h => nomatch h⟩

theorem Kept.of_arrays {n : Nat} {h h' : Heap} (e : h'.arrays = h.arrays) : Kept n h h' := by
  refine ⟨by rw [e]; exact Nat.le_refl _, fun a _ => by rw [e], fun a _ _ => by rw [e], [], by rw [e, List.append_nil], fun _ h => nomatch h⟩

theorem Kept.trans {n : Nat} {h1 h2 h3 : Heap} (a : Kept n h1 h2) (b : Kept n h2 h3) : Kept n h1 h3 :=
  ⟨Nat.le_trans a.size b.size, fun i hi => (b.lens i (Nat.lt_of_lt_of_le hi a.size)).trans (a.lens i hi),
   fun i hi hs => (b.same i hi (Nat.lt_of_lt_of_le hs a.size)).trans (a.same i hi hs), by
    obtain ⟨l, e, k⟩ := a.log
    obtain ⟨m, f, j⟩ := b.log
    exact ⟨l ++ m, by rw [f, e, List.append_assoc], fun x hx => (List.mem_append.1 hx).elim (k x) (j x)⟩⟩

theorem Kept.mono {n m : Nat} {h h' : Heap} (a : Kept n h h') (hm : m ≤ n) : Kept m h h' :=
  ⟨a.size, a.lens, fun i hi hs => a.same i (Nat.lt_of_lt_of_le hi hm) hs, a.log.imp fun _ h => ⟨h.1, fun x hx => Nat.le_trans hm (h.2 x hx)⟩⟩

theorem Kept.ok {n : Nat} {h h' : Heap} (a : Kept n h h') {s : Slice} (hs : s.ok h) : s.ok h' := by
  refine ⟨hs.1, ?_⟩
  rcases hs.2 with h2 | ⟨h2, h3⟩
  · exact .inl h2
  · exact .inr ⟨Nat.lt_of_lt_of_le h2 a.size, by rw [a.lens _ h2]; exact h3⟩

theorem Kept.read {n : Nat} {h h' : Heap} (a : Kept n h h') {s : Slice} (hs : s.ok h) (hn : s.cap = 0 ∨ s.arr < n) : h'.read s = h.read s := by
  rcases hs.2 with h2 | ⟨h2, h3⟩
  · have : s.len = 0 := by have := hs.1; omega
    rw [read_nil _ this, read_nil _ this]
  · rcases hn with hn | hn
    · have : s.len = 0 := by have := hs.1; omega
      rw [read_nil _ this, read_nil _ this]
    · rw [Heap.read, Heap.read, a.same _ hn h2]

/-- A slice that existed reads as before, when all arrays there were are kept. -/
theorem Kept.read_all {h h' : Heap} (a : Kept h.arrays.length h h') {s : Slice} (hs : s.ok h) : h'.read s = h.read s :=
  a.read hs (hs.2.imp_right And.left)

/-- A slice whose array is not among the first `n`. -/
def Own (n : Nat) (o : Slice) : Prop := o.cap = 0 ∨ n ≤ o.arr

/-- A slice of the text, or of an array not among the first `n`. -/
def Born (n : Nat) (T x : Slice) : Prop := x.cap = 0 ∨ (x.arr = T.arr ∧ 0 < T.cap) ∨ n ≤ x.arr

theorem Own.nil (n : Nat) : Own n {} := .inl rfl
theorem Born.nil (n : Nat) (T : Slice) : Born n T {} := .inl rfl
theorem Own.born {n : Nat} {o : Slice} (h : Own n o) (T : Slice) : Born n T o := h.elim .inl (fun h => .inr (.inr h))
theorem Born.mono {n m : Nat} {T x : Slice} (h : Born n T x) (hm : m ≤ n) : Born m T x := by
  rcases h with h | h | h
  · exact .inl h
  · exact .inr (.inl h)
  · exact .inr (.inr (Nat.le_trans hm h))

theorem Own.mono {n m : Nat} {x : Slice} (h : Own n x) (hm : m ≤ n) : Own m x := h.imp_right (Nat.le_trans hm)

/-- What a sub-call returns is not in an array that was allocated before the call and after `n`. -/
theorem Born.apart {n : Nat} {h : Heap} {T o x : Slice} (hx : Born h.arrays.length T x) (ho : Own n o) (hok : o.ok h) (hT : 0 < T.cap → T.arr < n) :
    Apart o x := by
  rcases hx with hx | ⟨hx, hc⟩ | hx
  · exact .inl hx
  · rcases ho with ho | ho
    · exact .inr (.inl ho)
    · have := hT hc
      exact .inr (.inr (by omega))
  · rcases hok.2 with h2 | ⟨h2, h3⟩
    · exact .inr (.inl h2)
    · exact .inr (.inr (by omega))

/-! ### Append -/

theorem getD_append_left {l : Arrays} {x d : List Rune} {i : Nat} (h : i < l.length) : (l.push x).getD i d = l.getD i d := by
  simp only [Arrays.getD, Arrays.push, List.getD_eq_getElem?_getD, List.getElem?_append_left (show i < l.data.length from h)]

theorem getD_append_self {l : Arrays} {x d : List Rune} : (l.push x).getD l.length d = x := by
  simp [Arrays.getD, Arrays.push, Arrays.length, List.getD_eq_getElem?_getD]

theorem getD_modify_same {l : Arrays} {d : List Rune} {i : Nat} {f : List Rune → List Rune} (h : i < l.length) : (l.modify i f).getD i d = f (l.getD i d) := by
  simp [Arrays.getD, Arrays.modify, List.getD_eq_getElem?_getD, show i < l.data.length from h]

theorem getD_modify_other {l : Arrays} {d : List Rune} {i j : Nat} {f : List Rune → List Rune} (h : j ≠ i) : (l.modify i f).getD j d = l.getD j d := by
  have : ¬ i = j := fun e => h e.symm
  simp [Arrays.getD, Arrays.modify, List.getD_eq_getElem?_getD, this]

@[simp] theorem push_length (l : Arrays) (x : List Rune) : (l.push x).length = l.length + 1 := by simp [Arrays.push, Arrays.length]
@[simp] theorem modify_length (l : Arrays) (i : Nat) (f : List Rune → List Rune) : (l.modify i f).length = l.length := by simp [Arrays.modify, Arrays.length]

theorem splice_length {a : List Rune} {pos : Nat} {xs : List Rune} (h : pos + xs.length ≤ a.length) :
    (a.take pos ++ xs ++ a.drop (pos + xs.length)).length = a.length := by
  simp only [List.length_append, List.length_take, List.length_drop]
  omega

theorem kept_alloc (n : Nat) (h : Heap) (xs : List Rune) : Kept n h { h with arrays := h.arrays.push xs } := by
  refine ⟨by simp, fun a ha => ?_, fun a _ ha => ?_, [], (List.append_nil _).symm, fun _ h => nomatch h⟩ <;> simp only [getD_append_left ha]

theorem write_nil (h : Heap) (a pos : Nat) : h.write a pos [] = h := by simp [Heap.write]

theorem write_streams (h : Heap) (a pos : Nat) (xs : List Rune) : (h.write a pos xs).streams = h.streams := by
  unfold Heap.write
  split <;> rfl

section
variable {grow : Growth} {h : Heap} {o : Slice} (xs : List Rune)

theorem append_streams : (h.append grow o xs).2.streams = h.streams := by
  unfold Heap.append
  split
  · exact write_streams _ _ _ _
  · rfl

theorem append_len : (h.append grow o xs).1.len = o.len + xs.length := by
  unfold Heap.append
  split <;> rfl

/-- Everything about appending to a slice of one's own. -/
theorem append_spec {n : Nat} (hok : o.ok h) (ho : Own n o) (hn : n ≤ h.arrays.length) :
    (h.append grow o xs).1.ok (h.append grow o xs).2 ∧ Own n (h.append grow o xs).1 ∧
    (h.append grow o xs).2.read (h.append grow o xs).1 = h.read o ++ xs ∧ Kept n h (h.append grow o xs).2 ∧
    ∀ x : Slice, x.ok h → Apart o x →
      x.ok (h.append grow o xs).2 ∧ Apart (h.append grow o xs).1 x ∧ (h.append grow o xs).2.read x = h.read x := by
  by_cases hc : o.len + xs.length ≤ o.cap
  · have e : h.append grow o xs = ({ o with len := o.len + xs.length }, h.write o.arr (o.off + o.len) xs) := by
      unfold Heap.append
      rw [if_pos hc]
    rw [e]
    by_cases hx : xs = []
    · subst hx
      simp only [write_nil, List.length_nil, Nat.add_zero, List.append_nil]
      exact ⟨hok, ho, trivial, Kept.refl _ _, fun x k1 k2 => ⟨k1, k2, trivial⟩⟩
    · have hcap : o.cap ≠ 0 := by
        have := List.length_pos_iff.2 hx
        omega
      have ew : h.write o.arr (o.off + o.len) xs =
          { h with arrays := h.arrays.modify o.arr (fun a => a.take (o.off + o.len) ++ xs ++ a.drop (o.off + o.len + xs.length)) } := by
        rw [Heap.write, if_neg hx]
      rw [ew]
      obtain ⟨h1, h2⟩ := hok.2.resolve_left hcap
      have hown := ho.resolve_left hcap
      have hlen : o.off + o.len + xs.length ≤ (h.arrays.getD o.arr []).length := by omega
      have hkept : Kept n h { h with arrays := h.arrays.modify o.arr (fun a => a.take (o.off + o.len) ++ xs ++ a.drop (o.off + o.len + xs.length)) } := by
        refine ⟨by simp, fun a ha => ?_, fun a ha _ => ?_, [o.arr], rfl, fun a ha => List.mem_singleton.1 ha ▸ hown⟩
        · by_cases hao : a = o.arr
          · subst hao
            simp only [getD_modify_same h1]
            exact splice_length hlen
          · simp only [getD_modify_other hao]
        · simp only [getD_modify_other (show a ≠ o.arr by omega)]
      refine ⟨⟨hc, .inr ⟨by simpa using h1, ?_⟩⟩, .inr hown, ?_, hkept, fun x k1 k2 => ⟨hkept.ok k1, ?_, ?_⟩⟩
      · have := hkept.lens _ h1
        show o.off + o.cap ≤ _
        rw [this]; exact h2
      · simp only [Heap.read, getD_modify_same h1]
        generalize h.arrays.getD o.arr [] = a at *
        rw [List.append_assoc, List.drop_append_of_le_length (by simp; omega), List.take_append]
        rw [List.take_of_length_le (by simp; omega)]
        have e1 : o.len + xs.length - (List.drop o.off (List.take (o.off + o.len) a)).length = xs.length := by
          simp only [List.length_drop, List.length_take]
          omega
        rw [e1, List.take_append_of_le_length (Nat.le_refl _), List.take_length, List.drop_take]
        congr 2
        omega
      · rcases k2 with k2 | k2 | k2
        · exact .inl k2
        · exact absurd k2 hcap
        · exact .inr (.inr k2)
      · rcases k2 with k2 | k2 | k2
        · have : x.len = 0 := by have := k1.1; omega
          rw [read_nil _ this, read_nil _ this]
        · exact absurd k2 hcap
        · simp only [Heap.read, getD_modify_other k2]
  · have e : h.append grow o xs =
        ({ arr := h.arrays.length, off := 0, len := o.len + xs.length, cap := o.len + xs.length + grow o.cap (o.len + xs.length) },
         { h with arrays := h.arrays.push (h.read o ++ xs ++ List.replicate (grow o.cap (o.len + xs.length)) 0) }) := by
      unfold Heap.append
      rw [if_neg hc]
    rw [e]
    have hk := kept_alloc n h (h.read o ++ xs ++ List.replicate (grow o.cap (o.len + xs.length)) 0)
    have hl := read_length hok
    refine ⟨⟨by simp, .inr ⟨by simp, ?_⟩⟩, .inr hn, ?_, hk, fun x k1 k2 => ⟨hk.ok k1, ?_, ?_⟩⟩
    · simp only [getD_append_self, List.length_append, List.length_replicate, hl]
      omega
    · simp only [Heap.read, getD_append_self, List.drop_zero]
      rw [List.take_append_of_le_length (by rw [List.length_append]; show _ ≤ (h.read o).length + _; omega)]
      exact List.take_of_length_le (by rw [List.length_append]; show (h.read o).length + _ ≤ _; omega)
    · rcases k1.2 with k | ⟨k, _⟩
      · exact .inl k
      · exact .inr (.inr (by show x.arr ≠ h.arrays.length; omega))
    · rcases k1.2 with k | ⟨k, _⟩
      · have : x.len = 0 := by have := k1.1; omega
        rw [read_nil _ this, read_nil _ this]
      · simp only [Heap.read, getD_append_left k]

end

/-- Appending to nothing changes no array that exists. -/
theorem append_nil_spec {grow : Growth} {h : Heap} (xs : List Rune) :
    (h.append grow {} xs).1.ok (h.append grow {} xs).2 ∧ Own h.arrays.length (h.append grow {} xs).1 ∧
    (h.append grow {} xs).2.read (h.append grow {} xs).1 = xs ∧ Kept h.arrays.length h (h.append grow {} xs).2 := by
  obtain ⟨a, b, c, d, _⟩ := append_spec (grow := grow) xs (Slice.ok_nil h) (Own.nil h.arrays.length) (Nat.le_refl _)
  exact ⟨a, b, by rw [c]; simp, d⟩

theorem alloc_spec {h : Heap} (xs : List Rune) :
    (h.alloc xs).1.ok (h.alloc xs).2 ∧ Own h.arrays.length (h.alloc xs).1 ∧ (h.alloc xs).2.read (h.alloc xs).1 = xs ∧
    Kept h.arrays.length h (h.alloc xs).2 := by
  refine ⟨⟨Nat.le_refl _, .inr ⟨by simp [Heap.alloc], by simp [Heap.alloc, getD_append_self]⟩⟩, .inr (Nat.le_refl _), by simp [Heap.read, Heap.alloc, getD_append_self], kept_alloc _ _ _⟩

/-! ### Parts of slices -/

theorem part_ok {h : Heap} {s : Slice} (hs : s.ok h) {i j : Nat} (hij : i ≤ j) (hj : j ≤ s.len) : (s.part i j).ok h := by
  obtain ⟨h1, h2⟩ := hs
  refine ⟨by simp only [Slice.part]; omega, ?_⟩
  rcases h2 with h2 | ⟨h2, h3⟩
  · left; simp only [Slice.part]; omega
  · right; simp only [Slice.part]; exact ⟨h2, by omega⟩

theorem read_part {h : Heap} {s : Slice} {i j : Nat} (hj : j ≤ s.len) : h.read (s.part i j) = ((h.read s).drop i).take (j - i) := by
  simp only [Heap.read, Slice.part, ← List.drop_drop]
  rw [List.drop_take, List.take_take]
  congr 1
  omega

theorem part_born {n : Nat} {T s : Slice} (hs : Born n T s) (i j : Nat) : Born n T (s.part i j) := by
  rcases hs with hs | hs | hs
  · left; simp only [Slice.part]; omega
  · right; left; exact hs
  · right; right; exact hs

theorem fromIdx_eq {s : Slice} {i : Int} {t : Slice} (h : s.fromIdx i = .ok t) : t = s.part i.toNat s.len ∧ 0 ≤ i ∧ i ≤ s.len := by
  unfold Slice.fromIdx at h
  split at h
  · next hi =>
    cases h
    exact ⟨rfl, hi.1, hi.2⟩
  · cases h

theorem part_apart {o s : Slice} (hs : Apart o s) (i j : Nat) : Apart o (s.part i j) := by
  rcases hs with hs | hs | hs
  · left; simp only [Slice.part]; omega
  · right; left; exact hs
  · right; right; exact hs

end Xbnf.Mem
