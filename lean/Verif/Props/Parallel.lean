import Verif.Lemmas.Parallel
import Verif.Props.Heap
/-
C74: one grammar, several goroutines.  However their accesses to memory are interleaved, each goroutine gets what it would
get alone; nobody writes into memory that others see; and all come to an end.
-/
namespace Xbnf.Props
open Xbnf.Mem Xbnf.Grammar Xbnf.Par

/-! ### What is expected -/

/-- What a job returns, as a value. -/
inductive Val where
  | res (r : Res)
  | trees (r : Except RawErr (List Node)) (after : Stream)
  | text (t : List Rune)

/-- What a job returns when it is alone and slices are values. -/
def _root_.Xbnf.Par.Job.value (g : Grammar) (fuel : Nat) (h : Heap) : Job → Exec Val
  | .rule name sample => (evalRule g fuel name sample).map' .res
  | .embed name sample => (evalEmbed g fuel name sample).map' .res
  | .document o cs level => (evalAST g fuel o.sched (h.stream cs) level).map' fun x => .trees x.1 x.2
  | .text nodes => .ok (.text (astText (viewL h nodes)))

/-- The stream and the trees of a job are in the memory. -/
def _root_.Xbnf.Par.Job.Ready (h : Heap) : Job → Prop
  | .rule _ _ | .embed _ _ => True
  | .document _ cs _ => Stands h cs
  | .text nodes => ∀ x ∈ slicesL nodes, x.ok h

/-- What a result shows, and for a document the stream afterwards. -/
def _root_.Xbnf.Par.Job.shows (h : Heap) : Job → Returned → Option Val
  | .rule _ _, .res r | .embed _ _, .res r => some (.res (r.view h))
  | .document _ cs _, .trees r => some (.trees (r.map (viewL h)) (h.stream cs))
  | .text _, .text s => some (.text (h.read s))
  | _, _ => none

/-- A goroutine at its start: its job, and its own arrays and streams. -/
structure Goroutine where
  job : Job
  data : List (List Rune) := []
  streams : List StreamObj := []

/-- The goroutine. -/
def Goroutine.worker (g : Grammar) (fuel : Nat) (s : Goroutine) : Worker Returned := { prog := s.job.prog g fuel, data := s.data, streams := s.streams }

/-- Its memory. -/
def Goroutine.heap (shared : List (List Rune)) (s : Goroutine) : Heap := { arrays := { data := shared ++ s.data }, streams := s.streams }

/-- Goroutines at their start. -/
def starts (g : Grammar) (fuel : Nat) (shared : List (List Rune)) (l : List Goroutine) : World Returned := ⟨shared, l.map (Goroutine.worker g fuel)⟩

/-- All jobs are ready, and each would end, alone, with this value. -/
def AllEnd (g : Grammar) (fuel : Nat) (shared : List (List Rune)) (l : List Goroutine) (v : Nat → Val) : Prop :=
  ∀ (i : Nat) (s : Goroutine), l[i]? = some s → s.job.Ready (s.heap shared) ∧ s.job.value g fuel (s.heap shared) = .ok (v i)

/-! ### Auxiliary -/

theorem map'_ok {α β : Type} {x : Exec α} {f : α → β} {b : β} (e : x.map' f = .ok b) : ∃ a, x = .ok a ∧ f a = b := by
  cases x with
  | ok a => exact ⟨a, rfl, Exec.ok.inj e⟩
  | panic => cases e
  | oof => cases e

theorem noWrite_tame {h h' : Heap} {n : Nat} (nw : NoWrite h h') (e : h.arrays.written = []) (hn : n ≤ h.arrays.length) : ∀ k ∈ h'.arrays.written, n ≤ k := by
  obtain ⟨l, el, hl⟩ := nw
  intro k hk
  rw [el, e, List.nil_append] at hk
  exact Nat.le_trans hn (hl k hk)

/-- One job alone. -/
theorem job_tame {grow : Growth} {g : Grammar} {fuel : Nat} {job : Job} {h : Heap} {v : Val} (rd : job.Ready h) (ev : job.value g fuel h = .ok v) :
    ∃ a h', (job.prog g fuel).run grow h = .ok (a, h') ∧ job.shows h' a = some v ∧ NoWrite h h' := by
  cases job with
  | rule name sample =>
    obtain ⟨r, er, rfl⟩ := map'_ok ev
    rw [C73_rule grow g fuel name sample h] at er
    obtain ⟨⟨a, h'⟩, ea, rfl⟩ := map'_ok er
    refine ⟨.res a, h', ?_, rfl, (C73_rule_untouched ea).1⟩
    rw [Job.prog, run_bind, pEvalRule_run, ea]; rfl
  | embed name sample =>
    obtain ⟨r, er, rfl⟩ := map'_ok ev
    rw [C73_embed grow g fuel name sample h] at er
    obtain ⟨⟨a, h'⟩, ea, rfl⟩ := map'_ok er
    refine ⟨.res a, h', ?_, rfl, (C73_embed_untouched ea).1⟩
    rw [Job.prog, run_bind, pEvalEmbed_run, ea]; rfl
  | document o cs level =>
    obtain ⟨r, er, rfl⟩ := map'_ok ev
    rw [C73_eval grow g fuel o level rd] at er
    obtain ⟨⟨a, h'⟩, ea, rfl⟩ := map'_ok er
    refine ⟨.trees a, h', ?_, rfl, (C73_eval_untouched rd ea).1⟩
    rw [Job.prog, run_bind, pEvalAST_run, ea]; rfl
  | text nodes =>
    have := hAstText_spec (grow := grow) (m := h.arrays.length) nodes (acc := {}) (Slice.ok_nil h) (Mem.Own.nil _) (Nat.le_refl _)
      fun x hx => ⟨rd x hx, (rd x hx).below⟩
    rw [read_empty] at this
    refine ⟨.text (hAstText grow {} nodes h).1, (hAstText grow {} nodes h).2, ?_, ?_, this.kept.log⟩
    · rw [Job.prog, run_bind, pAstText_run]; rfl
    · have e := this.read
      simp only [Job.value, Exec.ok.injEq] at ev
      rw [← ev]
      exact congrArg (fun t => some (Val.text t)) e

theorem starts_tame (grow : Growth) {g : Grammar} {fuel : Nat} {shared : List (List Rune)} {l : List Goroutine} {v : Nat → Val} (k : AllEnd g fuel shared l v) :
    ∃ r : Nat → Returned × Heap, AllTame grow (starts g fuel shared l) r ∧
      ∀ (i : Nat) (s : Goroutine), l[i]? = some s → s.job.shows (r i).2 (r i).1 = some (v i) := by
  have ex : ∀ i, ∃ r : Returned × Heap, ∀ s : Goroutine, l[i]? = some s →
      Tame grow shared (s.worker g fuel) r.1 r.2 ∧ s.job.shows r.2 r.1 = some (v i) := by
    intro i
    cases e : l[i]? with
    | none => exact ⟨(.text {}, {}), fun s hs => nomatch hs⟩
    | some s =>
      obtain ⟨rd, ev⟩ := k i s e
      obtain ⟨a, h', e1, e2, e3⟩ := job_tame (grow := grow) rd ev
      refine ⟨(a, h'), fun t ht => ?_⟩
      cases ht
      exact ⟨⟨e1, noWrite_tame e3 rfl (by simp [Goroutine.heap, Arrays.length])⟩, e2⟩
  refine ⟨fun i => (ex i).choose, fun i x hx => ?_, fun i s hs => ((ex i).choose_spec s hs).2⟩
  simp only [starts, List.getElem?_map, Option.map_eq_some_iff] at hx
  obtain ⟨s, hs, rfl⟩ := hx
  exact ((ex i).choose_spec s hs).1

/-! ### Theorems -/

/-- After any accesses of any goroutines in any order, a goroutine that has returned has what it would have alone. -/
theorem C74_alone {grow : Growth} {g : Grammar} {fuel : Nat} {shared : List (List Rune)} {l : List Goroutine} {v : Nat → Val} (k : AllEnd g fuel shared l v)
    {sched : List Nat} {w : World Returned} (e : (starts g fuel shared l).run grow sched = some w) {i : Nat} {s : Goroutine} {x : Worker Returned}
    (hs : l[i]? = some s) (hx : w.workers[i]? = some x) {a : Returned} (ha : x.result = some a) : s.job.shows (x.heap w.shared) a = some (v i) := by
  obtain ⟨r, t, hr⟩ := starts_tame grow k
  obtain ⟨-, -, t', -⟩ := world_run sched t e
  obtain ⟨e1, e2, -⟩ := tame_result (t' i x hx) ha
  rw [e1, e2]
  exact hr i s hs

/-- At no time has a goroutine written into a shared array, and what is shared is what it was at the start. -/
theorem C74_no_race {grow : Growth} {g : Grammar} {fuel : Nat} {shared : List (List Rune)} {l : List Goroutine} {v : Nat → Val} (k : AllEnd g fuel shared l v)
    {sched : List Nat} {w : World Returned} (e : (starts g fuel shared l).run grow sched = some w) :
    w.shared = shared ∧ w.workers.length = l.length ∧ ∀ x ∈ w.workers, ∀ a ∈ x.written, shared.length ≤ a := by
  obtain ⟨r, t, hr⟩ := starts_tame grow k
  obtain ⟨e1, e2, t', -⟩ := world_run sched t e
  refine ⟨e1, e2.trans (by simp [starts]), fun x hx => ?_⟩
  obtain ⟨i, hi, rfl⟩ := List.getElem_of_mem hx
  have := (t' i _ (List.getElem?_eq_getElem hi)).written
  rw [e1] at this
  exact this

/-- A goroutine that has not returned can make its next access: nobody waits, and nobody panics. -/
theorem C74_no_wait {grow : Growth} {g : Grammar} {fuel : Nat} {shared : List (List Rune)} {l : List Goroutine} {v : Nat → Val} (k : AllEnd g fuel shared l v)
    {sched : List Nat} {w : World Returned} (e : (starts g fuel shared l).run grow sched = some w) {i : Nat} {x : Worker Returned}
    (hx : w.workers[i]? = some x) (hn : x.result = none) : ∃ w', w.step grow i = some w' := by
  obtain ⟨r, t, hr⟩ := starts_tame grow k
  obtain ⟨-, -, t', -⟩ := world_run sched t e
  exact world_go t' hx hn

theorem run_append {α : Type} {grow : Growth} : ∀ (is js : List Nat) (w : World α), w.run grow (is ++ js) = (w.run grow is).bind (World.run grow js)
  | [], _, _ => rfl
  | i :: is, js, w => by
    rw [List.cons_append, World.run, World.run]
    cases w.step grow i with
    | none => rfl
    | some w => exact run_append is js w

theorem sum_zero : ∀ {l : List Nat}, l.sum = 0 → ∀ x ∈ l, x = 0
  | [], _, x, hx => nomatch hx
  | a :: l, h, x, hx => by
    rw [List.sum_cons] at h
    rcases List.mem_cons.1 hx with e | e
    · omega
    · exact sum_zero (by omega) x e

/-- A goroutine has returned when it makes no more accesses. -/
theorem cost_zero {α : Type} {grow : Growth} {shared : List (List Rune)} {x : Worker α} {a : α} {h' : Heap} (t : Tame grow shared x a h') :
    x.cost grow shared = 0 ↔ x.result = some a := by
  constructor
  · intro h
    cases es : x.step grow shared with
    | none => exact (tame_stop t es).1
    | some y =>
      have := (tame_step t es).2.2
      omega
  · intro h
    unfold Worker.result at h
    unfold Worker.cost
    split at h
    · rename_i e
      rw [e]; rfl
    · cases h

/-- All come to an end, after a number of accesses that does not depend on the order: no schedule is longer, one that
is as long has let all return, and any other can be continued to such a one. -/
theorem C74_end (grow : Growth) {g : Grammar} {fuel : Nat} {shared : List (List Rune)} {l : List Goroutine} {v : Nat → Val} (k : AllEnd g fuel shared l v) :
    ∃ N : Nat, ∀ (sched : List Nat) (w : World Returned), (starts g fuel shared l).run grow sched = some w →
      sched.length ≤ N ∧ (sched.length = N ↔ ∀ x ∈ w.workers, x.result ≠ none) ∧
      ∃ (more : List Nat) (w' : World Returned), (starts g fuel shared l).run grow (sched ++ more) = some w' ∧ ∀ x ∈ w'.workers, x.result ≠ none := by
  obtain ⟨r, t, hr⟩ := starts_tame grow k
  refine ⟨(starts g fuel shared l).cost grow, fun sched w e => ?_⟩
  obtain ⟨-, -, t', c⟩ := world_run sched t e
  have iff : ∀ {w : World Returned}, AllTame grow w r → (w.cost grow = 0 ↔ ∀ x ∈ w.workers, x.result ≠ none) := by
    intro w t'
    constructor
    · intro h x hx
      obtain ⟨i, hi, rfl⟩ := List.getElem_of_mem hx
      have := (cost_zero (t' i _ (List.getElem?_eq_getElem hi))).1 (sum_zero h _ (List.mem_map_of_mem hx))
      rw [this]
      exact Option.some_ne_none _
    · intro h
      have : ∀ m : List (Worker Returned), (∀ x ∈ m, x.cost grow w.shared = 0) → (m.map (Worker.cost grow w.shared)).sum = 0 := by
        intro m hm
        induction m with
        | nil => rfl
        | cons x m ih =>
          rw [List.map_cons, List.sum_cons, hm x List.mem_cons_self, ih fun y hy => hm y (List.mem_cons_of_mem _ hy)]
      refine this _ fun x hx => ?_
      obtain ⟨i, hi, rfl⟩ := List.getElem_of_mem hx
      refine (cost_zero (t' i _ (List.getElem?_eq_getElem hi))).2 ?_
      obtain ⟨a, ha⟩ := Option.ne_none_iff_exists'.1 (h _ hx)
      rw [ha, (tame_result (t' i _ (List.getElem?_eq_getElem hi)) ha).1]
  refine ⟨by omega, ?_, ?_⟩
  · rw [← iff t']; omega
  · have go : ∀ (n : Nat) (w : World Returned), AllTame grow w r → w.cost grow = n → ∃ (more : List Nat) (w' : World Returned), w.run grow more = some w' ∧ AllTame grow w' r ∧ w'.cost grow = 0 := by
      intro n
      induction n with
      | zero => exact fun w t c => ⟨[], w, rfl, t, c⟩
      | succ n ih =>
        intro w t c
        have hn : ¬ ∀ x ∈ w.workers, x.result ≠ none := fun h => by
          have := (iff t).2 h
          omega
        simp only [Classical.not_forall, Classical.not_not] at hn
        obtain ⟨x, hx, e⟩ := hn
        obtain ⟨i, hi, rfl⟩ := List.getElem_of_mem hx
        obtain ⟨w1, e1⟩ := world_go t (List.getElem?_eq_getElem hi) e
        obtain ⟨-, -, t1, c1⟩ := world_step t e1
        obtain ⟨more, w', a, b, d⟩ := ih w1 t1 (by omega)
        exact ⟨i :: more, w', by rw [World.run, e1]; exact a, b, d⟩
    obtain ⟨more, w', a, b, d⟩ := go _ w t' rfl
    exact ⟨more, w', by rw [run_append, e]; exact a, (iff b).1 d⟩

/-! ### Concrete cases -/

/-- Go round, letting everyone make an access that can; at most `n` rounds. -/
def roundRobin {α : Type} (grow : Growth) (count : Nat) : Nat → Nat → World α → List Nat
  | 0, _, _ => []
  | n + 1, i, w =>
    match w.step grow (i % count) with
    | some w' => (i % count) :: roundRobin grow count n (i + 1) w'
    | none => roundRobin grow count n (i + 1) w

/-- One after the other. -/
def inTurn {α : Type} (grow : Growth) (i : Nat) : Nat → World α → List Nat
  | 0, _ => []
  | n + 1, w =>
    match w.step grow i with
    | some w' => i :: inTurn grow i n w'
    | none => []

/-- The text that is shared: `12stop3`, with room behind it. -/
def sharedText : List (List Rune) := [runes "12stop3" ++ [0, 0, 0], runes "47"]

/-- A tree that is shared: two digits next to each other. -/
def sharedTree : List HNode :=
  [{ ruleType := .char, chars := { arr := 1, off := 0, len := 1, cap := 2 }, sticky := true },
   { ruleType := .char, chars := { arr := 1, off := 1, len := 1, cap := 1 }, sticky := true }]

/-- Two goroutines read the shared text by streams of their own, one evaluates a rule, one looks for a rule in a text, one prints the shared tree. -/
def fiveJobs : List Goroutine :=
  [{ job := .document byIndex 0 2, streams := [.base { arr := 0, off := 0, len := 7, cap := 10 } 0 [-1]] },
   { job := .document byIndex 0 0, streams := [.base { arr := 0, off := 0, len := 7, cap := 10 } 0 [-1]] },
   { job := .rule (runes "num") (runes "56x") },
   { job := .embed (runes "stop") (runes "ab stop") },
   { job := .text sharedTree }]

/-- The texts of what was returned. -/
def Val.texts : Val → Option (List (List Rune))
  | .res r => r.node.map fun n => [n.text]
  | .trees r _ => r.toOption.map fun ns => ns.map Node.text
  | .text t => some [t]

/-- The value, if there is one. -/
def theValue (x : Exec Val) : Val :=
  match x with
  | .ok v => v
  | _ => .text []

theorem theValue_eq {x : Exec Val} (h : (theValue x).texts ≠ some [[]]) : x = .ok (theValue x) := by
  unfold theValue at h ⊢
  split
  · rfl
  · rename_i k
    split at h
    · rename_i v
      exact absurd rfl (k v)
    · exact absurd rfl h

/-- What the five return alone. -/
def fiveValues (i : Nat) : Val :=
  match fiveJobs[i]? with
  | some s => theValue (s.job.value numbersAndStops 20 (s.heap sharedText))
  | none => .text []

theorem fiveJobs_end : AllEnd numbersAndStops 20 sharedText fiveJobs fiveValues := by
  have ready : ∀ (i : Nat) (s : Goroutine), fiveJobs[i]? = some s → s.job.Ready (s.heap sharedText) := by
    intro i s h
    match i, h with
    | 0, h => cases h; exact .base rfl ⟨by decide, .inr (by decide)⟩
    | 1, h => cases h; exact .base rfl ⟨by decide, .inr (by decide)⟩
    | 2, h => cases h; trivial
    | 3, h => cases h; trivial
    | 4, h =>
      cases h
      intro x hx
      simp only [sharedTree, slicesL, HNode.slices, List.append_nil, List.cons_append, List.nil_append, List.mem_cons, List.not_mem_nil, or_false] at hx
      rcases hx with rfl | rfl <;> exact ⟨by decide, .inr (by decide)⟩
    | n + 5, h => cases h
  intro i s h
  refine ⟨ready i s h, ?_⟩
  have e : fiveValues i = theValue (s.job.value numbersAndStops 20 (s.heap sharedText)) := by rw [fiveValues, h]
  rw [e]
  refine theValue_eq ?_
  rw [← e]
  match i, h with
  | 0, _ | 1, _ | 2, _ | 3, _ | 4, _ => decide +kernel
  | n + 5, h => cases h

/-- The values are what one expects. -/
example : (List.range 5).map (fun i => (fiveValues i).texts) =
    [some [runes "12", runes "stop", runes "3"], some [runes "12", runes "stop", runes "3"], some [runes "56"], some [runes "ab stop"], some [runes "47"]] := by
  decide +kernel

/-- The goroutines taking turns: all return, and that after the number of accesses that they need. -/
example : let w0 := starts numbersAndStops 20 sharedText fiveJobs
    (w0.run twice (roundRobin twice 5 3000 0 w0)).map (fun w => w.workers.map fun x => x.result.isSome) = some [true, true, true, true, true] := by
  decide +kernel

/-- That is not so for all programs: two goroutines merge trees that begin with the same node, which has room behind its text. -/
def mergers : World (List HNode) :=
  let a : HNode := { ruleType := .char, chars := { arr := 0, off := 0, len := 1, cap := 2 }, sticky := true }
  let b : HNode := { ruleType := .char, chars := { arr := 1, off := 0, len := 1, cap := 1 }, sticky := true }
  let c : HNode := { ruleType := .char, chars := { arr := 2, off := 0, len := 1, cap := 1 }, sticky := true }
  ⟨[[97, 0], [98], [99]], [{ prog := pMergeStickyNodes [a, b] }, { prog := pMergeStickyNodes [a, c] }]⟩

/-- Alone, they get `ab` and `ac`; the first gets `ac` if the second merges after it.  It wrote into array 0. -/
example : let first := inTurn twice 0 100 mergers
    let texts := fun (w : World (List HNode)) => w.workers.map fun x => x.result.map fun ns => (viewL (x.heap w.shared) ns).map Node.text
    (mergers.run twice first).map texts = some [some [[97, 98]], none] ∧
    (mergers.run twice (first ++ List.replicate first.length 1)).map texts = some [some [[97, 99]], some [[97, 99]]] ∧
    (mergers.run twice first).map (fun w => w.workers.map Worker.written) = some [[0], []] := by
  decide +kernel

end Xbnf.Props
