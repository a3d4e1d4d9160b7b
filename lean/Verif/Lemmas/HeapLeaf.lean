import Verif.Lemmas.HeapRun
/-
Memory: the rules that match texts.
-/
namespace Xbnf.Mem

section
variable {n : Nat} {T : Slice} {L : List Slice} {cs : Nat} {h h1 : Heap} {s : Stream} {grow : Growth}

theorem leaf_tree {rt : RType} {b : RuleBase} {st : Bool} {x : Slice} {l : List Rune} {p : Option Position} (k : Has n T h x l) (ho : Own n x) :
    Tree n T h [hLeaf rt b st x p] [leafNode rt b st l p] := by
  refine ⟨fun y hy => ?_, ?_, ?_⟩
  · simp only [slicesL, HNode.slices, hLeaf, List.append_nil, List.mem_cons, List.not_mem_nil, or_false] at hy
    subst hy
    exact ⟨k.ok, ho⟩
  · simp only [viewL, HNode.view, hLeaf, leafNode, k.read]
  · simp [slicesL, HNode.slices, hLeaf]

/-- The result of a rule that did not match. -/
theorem shows_error {e : Option Err} {i : Int} {st : Bool} {x y : Slice} {l m : List Rune} (k : Has n T h x l) (k' : Has n T h y m) :
    Shows n T h { error := e, errIdx := i, read := x, unused := y, sticky := st } { error := e, errIdx := i, read := l, unused := m, sticky := st } :=
  ⟨k, k', Tree.nil n T h, rfl, rfl, rfl⟩

theorem shows_leaf {rt : RType} {b : RuleBase} {st st' : Bool} {x y z : Slice} {l m w : List Rune} {p : Option Position} (k : Has n T h x l)
    (k' : Has n T h y m) (kz : Has n T h z w) (ho : Own n z) :
    Shows n T h { node := some (hLeaf rt b st z p), read := x, unused := y, sticky := st' }
      { node := some (leafNode rt b st w p), read := l, unused := m, sticky := st' } :=
  ⟨k, k', leaf_tree kz ho, rfl, rfl, rfl⟩

theorem alloc_made (r : Run n T L cs h h1 s) (xs : List Rune) :
    Run n T L cs h (h1.alloc xs).2 s ∧ Has n T (h1.alloc xs).2 (h1.alloc xs).1 xs ∧ Own n (h1.alloc xs).1 ∧ ∀ x l, Has n T h1 x l → Has n T (h1.alloc xs).2 x l := by
  obtain ⟨a, b, c, d⟩ := alloc_spec (h := h1) xs
  exact ⟨r.change (d.mono r.scene.size) rfl (fun x hx => d.read_all (r.scene.ok x hx)), ⟨a, (b.mono r.scene.size).born T, c⟩, b.mono r.scene.size, fun x l k => k.kept d⟩

theorem hEOF_spec (b : RuleBase) (flag : Int) (sc : Scene n T L cs h) : Post n T L cs h (evalEOF b flag (h.stream cs)) (hEOF grow b flag cs h) := by
  have r := Run.refl sc
  have key : Run n T L cs h (if flag = SUGGEST_SKIP then h.skipSpaces grow cs else ({}, h)).2
      (if flag = SUGGEST_SKIP then (h.stream cs).skipSpaces else ([], h.stream cs)).2 ∧
      Has n T (if flag = SUGGEST_SKIP then h.skipSpaces grow cs else ({}, h)).2 (if flag = SUGGEST_SKIP then h.skipSpaces grow cs else ({}, h)).1
      (if flag = SUGGEST_SKIP then (h.stream cs).skipSpaces else ([], h.stream cs)).1 := by
    split
    · exact skipSpaces_spec r
    · exact ⟨r, Has.nil⟩
  unfold evalEOF hEOF
  generalize (if flag = SUGGEST_SKIP then h.skipSpaces grow cs else ({}, h)) = hsk at *
  generalize (if flag = SUGGEST_SKIP then (h.stream cs).skipSpaces else ([], h.stream cs)) = sk at *
  obtain ⟨r1, k1⟩ := key
  simp only [r1.peek, r1.cursor]
  by_cases h0 : sk.2.peek = EOFChar
  · simp only [if_pos h0]
    obtain ⟨r2, k2, ko, k3⟩ := alloc_made r1 [EOFChar]
    obtain ⟨p1, p2, p3⟩ := r2.position
    rw [p1]
    refine ⟨p2, (k3 _ _ k1).of_arrays p3, Has.nil, ⟨fun y hy => ?_, ?_, ?_⟩, rfl, rfl, rfl⟩
    · simp only [Option.toList, slicesL, HNode.slices, List.append_nil, List.mem_cons, List.not_mem_nil, or_false] at hy
      subst hy
      exact ⟨(k2.of_arrays p3).ok, ko⟩
    · simp only [Option.toList, viewL, HNode.view, (k2.of_arrays p3).read]
    · simp [slicesL, HNode.slices]
  · simp only [if_neg h0]
    exact ⟨r1, shows_error k1 k1⟩

/-- The white space skipped and its copy. -/
theorem hSkip_spec (flag : Int) (r : Run n T L cs h h1 s) :
    Run n T L cs h (hSkip grow flag cs h1).2.2 (if flag = SUGGEST_SKIP then s.skipSpaces else ([], s)).2 ∧
    Has n T (hSkip grow flag cs h1).2.2 (hSkip grow flag cs h1).1 (if flag = SUGGEST_SKIP then s.skipSpaces else ([], s)).1 ∧
    Has n T (hSkip grow flag cs h1).2.2 (hSkip grow flag cs h1).2.1 (if flag = SUGGEST_SKIP then s.skipSpaces else ([], s)).1 ∧
    Own n (hSkip grow flag cs h1).2.1 ∧ (∀ x ∈ L, Apart (hSkip grow flag cs h1).2.1 x) ∧
    Apart (hSkip grow flag cs h1).2.1 (hSkip grow flag cs h1).1 := by
  unfold hSkip
  by_cases hf : flag = SUGGEST_SKIP
  · simp only [if_pos hf]
    obtain ⟨r1, k1⟩ := skipSpaces_spec (grow := grow) r
    have m := r1.made (grow := grow) ((h1.skipSpaces grow cs).2.read (h1.skipSpaces grow cs).1)
    have e := m.other _ _ k1
    refine ⟨m.run, e.1, ?_, m.own, m.layers, e.2⟩
    have := m.has
    rw [k1.read] at this
    rw [k1.read]
    exact this
  · simp only [if_neg hf]
    exact ⟨r, Has.nil, Has.nil, Own.nil n, fun x _ => Apart.nil_left x, Apart.nil_left _⟩

theorem hChar_spec (b : RuleBase) (text : Rune) (flag : Int) (sc : Scene n T L cs h) :
    Post n T L cs h (evalChar b text flag (h.stream cs)) (hChar grow b text flag cs h) := by
  have r := Run.refl sc
  unfold evalChar hChar
  rw [r.peek, r.cursor]
  by_cases h0 : (h.stream cs).peek = EOFChar
  · simp only [if_pos h0]
    exact ⟨r, shows_error Has.nil Has.nil⟩
  simp only [if_neg h0]
  obtain ⟨p1, p2, p3⟩ := r.position
  rw [p1]
  obtain ⟨r1, k1, k2, ho, hl, hd⟩ := hSkip_spec (grow := grow) flag p2
  generalize hSkip grow flag cs (h.position cs).2 = hsk at *
  generalize (if flag = SUGGEST_SKIP then (h.stream cs).position.2.skipSpaces else ([], (h.stream cs).position.2)) = sk at *
  have hlen : hsk.1.len > 0 ↔ sk.1 ≠ [] := by
    rw [k1.len]
    exact List.length_pos_iff
  simp only [hlen, k1.read, r1.cursor, r1.peek]
  by_cases hc : flag = SUGGEST_SKIP ∧ isWhiteSpace text = true ∧ sk.1 ≠ []
  · simp only [if_pos hc]
    cases hi : sk.1.findIdx? (fun c => c == text) with
    | none =>
      exact ⟨r1, shows_error k2 k2⟩
    | some i =>
      have hlt : i < sk.1.length := (List.findIdx?_eq_some_iff_getElem.1 hi).1
      have m := r1.made (grow := grow) [text]
      simp only [m.run.cursor, m.run.lookup, k1.len]
      have kk := (m.other _ _ k1).1.rest (i := i + 1) hlt
      rw [k1.len] at kk
      exact ⟨m.run, shows_leaf (m.other _ _ k2).1 kk m.has m.own⟩
  · simp only [if_neg hc]
    by_cases hp : sk.2.peek ≠ text
    · simp only [if_pos hp]
      exact ⟨r1, shows_error k2 k2⟩
    · simp only [if_neg hp]
      obtain ⟨q1, q2, q3⟩ := r1.position
      obtain ⟨n1, n2, n3⟩ := q2.next
      rw [q1, n1]
      have g := n2.grown (grow := grow) ((k2.of_arrays q3).of_arrays n3) ho hl [sk.2.position.2.next.1]
      have m := g.run.made (grow := grow) [sk.2.position.2.next.1]
      exact ⟨m.run, shows_leaf (m.other _ _ g.has).1 Has.nil m.has m.own⟩

theorem hRange_spec (b : RuleBase) (first last : Rune) (flag : Int) (sc : Scene n T L cs h) :
    Post n T L cs h (evalRange b first last flag (h.stream cs)) (hRange grow b first last flag cs h) := by
  have r := Run.refl sc
  unfold evalRange hRange
  rw [r.peek, r.cursor]
  by_cases h0 : (h.stream cs).peek = EOFChar
  · simp only [if_pos h0]
    exact ⟨r, shows_error Has.nil Has.nil⟩
  simp only [if_neg h0, r.lookup]
  obtain ⟨r1, k1, k2, ho, hl, hd⟩ := hSkip_spec (grow := grow) flag r
  generalize hSkip grow flag cs h = hsk at *
  generalize (if flag = SUGGEST_SKIP then (h.stream cs).skipSpaces else ([], (h.stream cs))) = sk at *
  simp only [k1.read]
  cases hi : sk.1.findIdx? (fun c => decide (first ≤ c) && decide (c ≥ last)) with
  | some i =>
    have hlt : i < sk.1.length := (List.findIdx?_eq_some_iff_getElem.1 hi).1
    have m := r1.made (grow := grow) [sk.1.getD i EOFChar]
    exact ⟨m.run, shows_leaf (m.other _ _ k2).1 ((m.other _ _ k1).1.rest (i := i + 1) hlt) m.has m.own⟩
  | none =>
    obtain ⟨q1, q2, q3⟩ := r1.position
    simp only [q1, q2.peek, q2.cursor]
    by_cases hp : first ≤ sk.2.position.2.peek ∧ sk.2.position.2.peek ≤ last
    · simp only [if_pos hp]
      obtain ⟨n1, n2, n3⟩ := q2.next
      rw [n1]
      have g := n2.grown (grow := grow) ((k2.of_arrays q3).of_arrays n3) ho hl [sk.2.position.2.next.1]
      have m := g.run.made (grow := grow) [sk.2.position.2.next.1]
      exact ⟨m.run, shows_leaf (m.other _ _ g.has).1 Has.nil m.has m.own⟩
    · simp only [if_neg hp]
      exact ⟨q2, shows_error (k2.of_arrays q3) (k2.of_arrays q3)⟩

theorem hText_spec (text : List Rune) (skip : Bool) (r : Run n T L cs h h1 s) :
    Run n T L cs h (hText grow text skip cs h1).2.2.2 (matchText text skip s).2.2.2 ∧
    (hText grow text skip cs h1).2.2.1 = (matchText text skip s).2.2.1 ∧
    Has n T (hText grow text skip cs h1).2.2.2 (hText grow text skip cs h1).1 (matchText text skip s).1 ∧
    Has n T (hText grow text skip cs h1).2.2.2 (hText grow text skip cs h1).2.1 (matchText text skip s).2.1 := by
  unfold hText matchText
  cases skip with
  | false =>
    simp only [Bool.false_eq_true, if_false]
    obtain ⟨a, b, c, d⟩ := matchLoop_spec (grow := grow) text r Has.nil (Own.nil n) (fun x _ => Apart.nil_left x)
    simp only [List.nil_append] at c
    rw [c.read]
    have m := a.made (grow := grow) (s.matchRunes text).1
    exact ⟨m.run, b, Has.nil, m.has⟩
  | true =>
    simp only [if_true]
    obtain ⟨r1, k1⟩ := skipSpaces_spec (grow := grow) r
    generalize h1.skipSpaces grow cs = hsk at *
    generalize s.skipSpaces = sk at *
    rw [k1.read]
    have m := r1.made (grow := grow) sk.1
    obtain ⟨k2, hd⟩ := m.other _ _ k1
    simp only [k1.len]
    by_cases hl : sk.1.length < (leadingWhiteSpace text).length
    · simp only [if_pos hl]
      exact ⟨m.run, trivial, k2, m.has⟩
    · simp only [if_neg hl]
      have kk := k2.rest (i := sk.1.length - (leadingWhiteSpace text).length) (by omega)
      rw [k1.len] at kk
      rw [kk.read]
      by_cases hq : sk.1.drop (sk.1.length - (leadingWhiteSpace text).length) ≠ leadingWhiteSpace text
      · simp only [if_pos hq]
        exact ⟨m.run, trivial, k2, m.has⟩
      · simp only [if_neg hq]
        obtain ⟨a, b, c, d⟩ := matchLoop_spec (grow := grow) (text.drop (leadingWhiteSpace text).length) m.run Has.nil (Own.nil n)
          (fun x _ => Apart.nil_left x)
        simp only [List.nil_append] at c
        rw [c.read]
        have g := a.grown (grow := grow) (d _ _ m.has (Apart.nil_left _)) m.own m.layers (sk.2.matchRunes (text.drop (leadingWhiteSpace text).length)).1
        exact ⟨g.run, b, (g.other _ _ (d _ _ k2 (Apart.nil_left _)) hd).1, g.has⟩

theorem hChars_spec (b : RuleBase) (text : List Rune) (flag : Int) (sc : Scene n T L cs h) :
    Post n T L cs h (evalChars b text flag (h.stream cs)) (hChars grow b text flag cs h) := by
  have r := Run.refl sc
  unfold evalChars hChars
  rw [r.peek, r.cursor]
  by_cases h0 : (h.stream cs).peek = EOFChar
  · simp only [if_pos h0]
    exact ⟨r, shows_error Has.nil Has.nil⟩
  simp only [if_neg h0]
  obtain ⟨p1, p2, p3⟩ := r.position
  simp only [p1, p2.cursor]
  obtain ⟨a, b', c, d⟩ := hText_spec (grow := grow) text (decide (flag = SUGGEST_SKIP)) p2
  generalize hText grow text (decide (flag = SUGGEST_SKIP)) cs (h.position cs).2 = hm at *
  generalize matchText text (decide (flag = SUGGEST_SKIP)) (h.stream cs).position.2 = m at *
  simp only [b', a.lookup, a.cursor, c.len]
  cases m.2.2.1 with
  | true =>
    simp only [if_true]
    have mm := a.made (grow := grow) text
    exact ⟨mm.run, shows_leaf (mm.other _ _ d).1 Has.nil mm.has mm.own⟩
  | false =>
    simp only [Bool.false_eq_true, if_false]
    exact ⟨a, shows_error d d⟩

theorem hString_spec (b : RuleBase) (text : List Rune) (flag : Int) (sc : Scene n T L cs h) :
    Post n T L cs h (evalString b text flag (h.stream cs)) (hString grow b text flag cs h) := by
  have r := Run.refl sc
  unfold evalString hString
  rw [r.peek, r.cursor]
  by_cases h0 : (h.stream cs).peek = EOFChar
  · simp only [if_pos h0]
    exact ⟨r, shows_error Has.nil Has.nil⟩
  simp only [if_neg h0]
  obtain ⟨p1, p2, p3⟩ := r.position
  simp only [p1]
  obtain ⟨a, b', c, d⟩ := hText_spec (grow := grow) text (decide (flag = SUGGEST_SKIP ∨ flag = SUGGEST_NOT_SKIP)) p2
  generalize hText grow text (decide (flag = SUGGEST_SKIP ∨ flag = SUGGEST_NOT_SKIP)) cs (h.position cs).2 = hm at *
  generalize matchText text (decide (flag = SUGGEST_SKIP ∨ flag = SUGGEST_NOT_SKIP)) (h.stream cs).position.2 = m at *
  simp only [b', a.lookup, a.cursor]
  cases m.2.2.1 with
  | true =>
    simp only [if_true]
    have mm := a.made (grow := grow) text
    exact ⟨mm.run, shows_leaf (mm.other _ _ d).1 Has.nil mm.has mm.own⟩
  | false =>
    simp only [Bool.false_eq_true, if_false]
    exact ⟨a, shows_error d d⟩

end

end Xbnf.Mem
