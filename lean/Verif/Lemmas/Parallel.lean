import Verif.Model.Parallel
import Verif.Lemmas.Access
/-
Goroutines that write into no shared array do not notice each other.
-/
namespace Xbnf.Par
open Xbnf.Mem Xbnf.Grammar

variable {grow : Growth} {α : Type}

/-! ### One program -/

/-- The accesses a program makes, undisturbed. -/
def Prog.cost (grow : Growth) : Prog α → Heap → Nat
  | .ret _, _ | .panic, _ | .oof, _ => 0
  | .read s k, h => (k (h.read s)).cost grow h + 1
  | .append s xs k, h => (k (h.append grow s xs).1).cost grow (h.append grow s xs).2 + 1
  | .alloc xs k, h => (k (h.alloc xs).1).cost grow (h.alloc xs).2 + 1
  | .load cs k, h => (k h.streams[cs]?).cost grow h + 1
  | .store cs o k, h => k.cost grow (h.put cs o) + 1
  | .new o k, h => (k h.streams.length).cost grow { h with streams := h.streams ++ [o] } + 1

theorem step_run {p p' : Prog α} {h h' : Heap} (e : p.step grow h = some (p', h')) :
    p'.run grow h' = p.run grow h ∧ p.cost grow h = p'.cost grow h' + 1 := by
  cases p <;> simp only [Prog.step, Option.some.injEq, Prod.mk.injEq, reduceCtorEq] at e <;> obtain ⟨rfl, rfl⟩ := e <;> exact ⟨rfl, rfl⟩

theorem step_none {p : Prog α} {h h' : Heap} {a : α} (e : p.step grow h = none) (r : p.run grow h = .ok (a, h')) : p = .ret a ∧ h = h' := by
  cases p <;> simp only [Prog.step, reduceCtorEq] at e <;> simp only [Prog.run, Exec.ok.injEq, Prod.mk.injEq, reduceCtorEq] at r
  exact ⟨by rw [r.1], r.2⟩

theorem append_log (h : Heap) (s : Slice) (xs : List Rune) : ∃ l, (h.append grow s xs).2.arrays.written = h.arrays.written ++ l ∧
    h.arrays.data.length ≤ (h.append grow s xs).2.arrays.data.length ∧
    ∀ n, n ≤ h.arrays.data.length → (∀ a ∈ l, n ≤ a) → (h.append grow s xs).2.arrays.data.take n = h.arrays.data.take n := by
  unfold Heap.append
  split
  · unfold Heap.write
    split
    · exact ⟨[], (List.append_nil _).symm, Nat.le_refl _, fun _ _ _ => rfl⟩
    · refine ⟨[s.arr], rfl, by simp [Arrays.modify], fun n hn hl => ?_⟩
      have := hl s.arr List.mem_cons_self
      simp only [Arrays.modify]
      refine List.ext_getElem? fun i => ?_
      simp only [List.getElem?_take, List.getElem?_modify]
      split
      · have hne : s.arr ≠ i := by omega
        simp [hne]
      · rfl
  · refine ⟨[], (List.append_nil _).symm, by simp [Arrays.push], fun n hn _ => ?_⟩
    exact List.take_append_of_le_length hn

theorem step_log {p p' : Prog α} {h h' : Heap} (e : p.step grow h = some (p', h')) : ∃ l, h'.arrays.written = h.arrays.written ++ l ∧
    h.arrays.data.length ≤ h'.arrays.data.length ∧
    ∀ n, n ≤ h.arrays.data.length → (∀ a ∈ l, n ≤ a) → h'.arrays.data.take n = h.arrays.data.take n := by
  have same : ∀ g : Heap, g.arrays = h.arrays → ∃ l, g.arrays.written = h.arrays.written ++ l ∧ h.arrays.data.length ≤ g.arrays.data.length ∧
      ∀ n, n ≤ h.arrays.data.length → (∀ a ∈ l, n ≤ a) → g.arrays.data.take n = h.arrays.data.take n := fun g eg =>
    ⟨[], by rw [eg, List.append_nil], by rw [eg]; exact Nat.le_refl _, fun _ _ _ => by rw [eg]⟩
  cases p <;> simp only [Prog.step, Option.some.injEq, Prod.mk.injEq, reduceCtorEq] at e <;> obtain ⟨-, rfl⟩ := e
  · exact same _ rfl
  · exact append_log _ _ _
  · exact ⟨[], (List.append_nil _).symm, by simp [Heap.alloc, Arrays.push], fun n hn _ => List.take_append_of_le_length hn⟩
  · exact same _ rfl
  · exact same _ rfl
  · exact same _ rfl

/-- The log only grows. -/
theorem run_log (p : Prog α) : ∀ {h h' : Heap} {a : α}, p.run grow h = .ok (a, h') → ∃ l, h'.arrays.written = h.arrays.written ++ l := by
  induction p with
  | ret a =>
    intro h h' b e
    simp only [Prog.run, Exec.ok.injEq, Prod.mk.injEq] at e
    exact ⟨[], by rw [e.2, List.append_nil]⟩
  | panic => intro h h' b e; cases e
  | oof => intro h h' b e; cases e
  | read s k ih => intro h h' b e; exact ih _ e
  | append s xs k ih =>
    intro h h' b e
    obtain ⟨l, el⟩ := ih _ e
    obtain ⟨m, em, _⟩ := append_log (grow := grow) h s xs
    exact ⟨m ++ l, by rw [el, em, List.append_assoc]⟩
  | alloc xs k ih => intro h h' b e; exact ih _ (h := (h.alloc xs).2) e
  | load cs k ih => intro h h' b e; exact ih _ e
  | store cs o k ih => intro h h' b e; exact ih (h := h.put cs o) e
  | new o k ih => intro h h' b e; exact ih _ (h := { h with streams := h.streams ++ [o] }) e

/-! ### One goroutine -/

/-- Undisturbed, the goroutine returns this and leaves this memory, and writes into no shared array. -/
def Tame (grow : Growth) (shared : List (List Rune)) (x : Worker α) (a : α) (h' : Heap) : Prop :=
  x.prog.run grow (x.heap shared) = .ok (a, h') ∧ ∀ k ∈ h'.arrays.written, shared.length ≤ k

theorem Tame.written {shared : List (List Rune)} {x : Worker α} {a : α} {h' : Heap} (t : Tame grow shared x a h') : ∀ k ∈ x.written, shared.length ≤ k := by
  obtain ⟨l, e⟩ := run_log _ t.1
  exact fun k hk => t.2 k (by rw [e]; exact List.mem_append_left _ hk)

/-- The accesses left. -/
def Worker.cost (grow : Growth) (shared : List (List Rune)) (x : Worker α) : Nat := x.prog.cost grow (x.heap shared)

theorem tame_step {shared : List (List Rune)} {x : Worker α} {a : α} {h' : Heap} (t : Tame grow shared x a h') {y : List (List Rune) × Worker α}
    (e : x.step grow shared = some y) : y.1 = shared ∧ Tame grow shared y.2 a h' ∧ x.cost grow shared = y.2.cost grow shared + 1 := by
  unfold Worker.step at e
  cases es : x.prog.step grow (x.heap shared) with
  | none => rw [es] at e; cases e
  | some z =>
    obtain ⟨p, h1⟩ := z
    rw [es] at e
    simp only [Option.map_some, Option.some.injEq] at e
    subst e
    obtain ⟨er, ec⟩ := step_run es
    obtain ⟨l, el, elen, et⟩ := step_log es
    obtain ⟨m, em⟩ := run_log _ (er.trans t.1)
    have tk : h1.arrays.data.take shared.length = shared := by
      rw [et shared.length (by simp [Worker.heap]) fun k hk => t.2 k (by rw [em, el]; simp [hk])]
      simp [Worker.heap]
    have hh : Worker.heap shared (⟨p, h1.arrays.data.drop shared.length, h1.streams, h1.arrays.written⟩ : Worker α) = h1 := by
      have : shared ++ h1.arrays.data.drop shared.length = h1.arrays.data := by
        conv => lhs; arg 1; rw [← tk]
        exact List.take_append_drop _ _
      simp only [Worker.heap, this]
    refine ⟨tk, ⟨?_, t.2⟩, ?_⟩
    · rw [hh]; exact er.trans t.1
    · unfold Worker.cost; rw [hh]; exact ec

theorem tame_stop {shared : List (List Rune)} {x : Worker α} {a : α} {h' : Heap} (t : Tame grow shared x a h') (e : x.step grow shared = none) :
    x.result = some a ∧ x.heap shared = h' := by
  unfold Worker.step at e
  rw [Option.map_eq_none_iff] at e
  obtain ⟨e1, e2⟩ := step_none e t.1
  exact ⟨by rw [Worker.result, e1], e2⟩

theorem tame_result {shared : List (List Rune)} {x : Worker α} {a b : α} {h' : Heap} (t : Tame grow shared x a h') (e : x.result = some b) :
    b = a ∧ x.heap shared = h' ∧ x.step grow shared = none := by
  have hn : x.step grow shared = none := by
    unfold Worker.result at e
    unfold Worker.step
    split at e
    · rename_i ep; rw [ep]; rfl
    · cases e
  obtain ⟨e1, e2⟩ := tame_stop t hn
  rw [e] at e1
  exact ⟨Option.some.inj e1, e2, hn⟩

/-! ### All goroutines -/

/-- The accesses left of all. -/
def World.cost (grow : Growth) (w : World α) : Nat := (w.workers.map (Worker.cost grow w.shared)).sum

theorem sum_set {β : Type} (f : β → Nat) : ∀ (l : List β) (i : Nat) (x y : β), l[i]? = some x → ((l.set i y).map f).sum + f x = (l.map f).sum + f y
  | [], _, _, _, h => by cases h
  | a :: l, 0, x, y, h => by
    simp only [List.getElem?_cons_zero, Option.some.injEq] at h
    subst h
    simp only [List.set_cons_zero, List.map_cons, List.sum_cons]
    omega
  | a :: l, i + 1, x, y, h => by
    have := sum_set f l i x y h
    simp only [List.set_cons_succ, List.map_cons, List.sum_cons]
    omega

/-- What every goroutine does, undisturbed. -/
def AllTame (grow : Growth) (w : World α) (r : Nat → α × Heap) : Prop :=
  ∀ (i : Nat) (x : Worker α), w.workers[i]? = some x → Tame grow w.shared x (r i).1 (r i).2

theorem world_step {w w' : World α} {r : Nat → α × Heap} (t : AllTame grow w r) {i : Nat} (e : w.step grow i = some w') :
    w'.shared = w.shared ∧ w'.workers.length = w.workers.length ∧ AllTame grow w' r ∧ w.cost grow = w'.cost grow + 1 := by
  unfold World.step at e
  split at e
  · cases e
  · rename_i x ex
    cases es : x.step grow w.shared with
    | none => rw [es] at e; cases e
    | some y =>
      rw [es] at e
      simp only [Option.map_some, Option.some.injEq] at e
      subst e
      obtain ⟨e1, e2, e3⟩ := tame_step (t i x ex) es
      refine ⟨e1, List.length_set, fun j z hz => ?_, ?_⟩
      · rw [e1]
        rw [List.getElem?_set] at hz
        split at hz
        · rename_i hij
          subst hij
          split at hz
          · cases hz; exact e2
          · cases hz
        · exact t j z hz
      · have := sum_set (Worker.cost grow w.shared) w.workers i x y.2 ex
        simp only [World.cost, e1]
        omega

theorem world_run {r : Nat → α × Heap} : ∀ (is : List Nat) {w w' : World α}, AllTame grow w r → w.run grow is = some w' →
    w'.shared = w.shared ∧ w'.workers.length = w.workers.length ∧ AllTame grow w' r ∧ w.cost grow = w'.cost grow + is.length
  | [], w, w', t, e => by cases e; exact ⟨rfl, rfl, t, rfl⟩
  | i :: is, w, w', t, e => by
    rw [World.run] at e
    split at e
    · cases e
    · rename_i w1 e1
      obtain ⟨a1, a2, a3, a4⟩ := world_step t e1
      obtain ⟨b1, b2, b3, b4⟩ := world_run is a3 e
      exact ⟨b1.trans a1, b2.trans a2, b3, by rw [a4, b4, List.length_cons]; omega⟩

/-- A goroutine that has not returned can go on. -/
theorem world_go {w : World α} {r : Nat → α × Heap} (t : AllTame grow w r) {i : Nat} {x : Worker α} (ex : w.workers[i]? = some x) (hn : x.result = none) :
    ∃ w', w.step grow i = some w' := by
  cases es : x.step grow w.shared with
  | none => rw [(tame_stop (t i x ex) es).1] at hn; cases hn
  | some y => exact ⟨_, by unfold World.step; simp only [ex, es]; rfl⟩

end Xbnf.Par
