import Verif.Props.Merge
import Verif.Props.Rules
/-
C46: the text of a match is the text it uses, apart from white space.
-/
namespace Xbnf.Props
open Spec

variable {env : Env}

theorem solid_append (a b : List Rune) : solid (a ++ b) = solid a ++ solid b := by
  unfold solid; rw [List.filter_append]

theorem solid_nil : solid [] = [] := rfl

theorem solid_white {l : List Rune} (h : ∀ c ∈ l, isWhiteSpace c = true) : solid l = [] := by
  unfold solid
  rw [List.filter_eq_nil_iff]
  intro c hc
  simp [h c hc]

theorem solid_take_add (l : List Rune) (p u : Nat) :
    solid (l.take (p + u)) = solid (l.take p) ++ solid ((l.drop p).take u) := by
  rw [List.take_add, solid_append]

theorem yield_inner {rt b st cs} : yield (inner rt b st cs) = yieldL cs := by
  rw [yield_eq]; rfl

theorem yieldL_one (n : Node) : yieldL [n] = yield n := by
  simp [yieldL]

theorem yield_leaf {rt b st} {t : List Rune} (h : t ≠ [EOFChar]) : yield (leaf rt b st t) = t := by
  rw [yield_eq]
  show (if t = [] then yieldL [] else if t = [EOFChar] then [] else t) = t
  split
  · rename_i h; rw [h]; rfl
  · rfl

mutual
theorem yield_erase : (n : Node) → yield n.erase = yield n
  | ⟨rt, nm, ch, cs, p, st, v, nd, tk⟩ => by
    rw [Node.erase, yield, yield, yieldL_erase cs]
theorem yieldL_erase : (ns : List Node) → yieldL (eraseL ns) = yieldL ns
  | [] => rfl
  | n :: ns => by rw [eraseL, yieldL, yieldL, yield_erase n, yieldL_erase ns]
end

theorem seqAt_yield {run : Runner} (hr : ∀ {r flag l nd u n st}, Valid l → run r flag l = .hit nd u n st →
      solid (yield nd) = solid (l.take u)) {b l} (hv : Valid l) {rs pos look st flag nodes nd u n s}
    (hp : solid (yieldL nodes) = solid (l.take pos))
    (h : seqAt run b l rs pos look st flag nodes = .hit nd u n s) : solid (yield nd) = solid (l.take u) := by
  induction rs generalizing pos look st flag nodes with
  | nil =>
    simp only [seqAt, Ans.hit.injEq] at h
    obtain ⟨rfl, rfl, _⟩ := h
    rw [yield_inner, hp]
  | cons r rs ih =>
    simp only [seqAt] at h
    cases ha : run r flag (l.drop pos) with
    | hit nd' u' n' st' =>
      rw [ha] at h
      simp only at h
      split at h
      · cases h
      · refine ih ?_ h
        rw [yieldL_append, solid_append, hp, yieldL_one, hr (hv.drop pos) ha, solid_take_add]
    | _ => rw [ha] at h; cases h

theorem repEnd_yield {b mn pos look st nodes nd u n s} {l : List Rune}
    (hp : solid (yieldL nodes) = solid (l.take pos))
    (h : repEnd b mn pos look st nodes = .hit nd u n s) : solid (yield nd) = solid (l.take u) := by
  unfold repEnd at h
  split at h
  · cases h
  · simp only [Ans.hit.injEq] at h
    obtain ⟨rfl, rfl, _⟩ := h
    rw [yield_inner, hp]

theorem repAt_yield {run : Runner} (hr : ∀ {r flag l nd u n st}, Valid l → run r flag l = .hit nd u n st →
      solid (yield nd) = solid (l.take u)) {b r mn mx flag l} (hv : Valid l) {fuel pos look st nodes nd u n s}
    (hp : solid (yieldL nodes) = solid (l.take pos))
    (h : repAt run b r mn mx flag l fuel pos look st nodes = .hit nd u n s) :
    solid (yield nd) = solid (l.take u) := by
  induction fuel generalizing pos look st nodes with
  | zero => cases h
  | succ fuel ih =>
    simp only [repAt] at h
    split at h
    · exact repEnd_yield hp h
    · cases ha : run r flag (l.drop pos) with
      | hit nd' u' n' st' =>
        rw [ha] at h
        have hp' : solid (yieldL (nodes ++ [nd'])) = solid (l.take (pos + u')) := by
          rw [yieldL_append, solid_append, hp, yieldL_one, hr (hv.drop pos) ha, solid_take_add]
        simp only at h
        split at h
        · split at h
          · cases h
          · exact repEnd_yield hp' h
        · split at h
          · cases h
          · exact ih hp' h
      | fail n' st' => rw [ha] at h; exact repEnd_yield hp h
      | _ => rw [ha] at h; cases h

theorem altsAt_hits_mem {run : Runner} {flag l} {rs : List Rule} {look st hits look' st'}
    (h : altsAt run flag l rs look st = .ok hits look' st') :
    ∀ x ∈ hits, ∃ r n, run r flag l = .hit x.1 x.2.1 n x.2.2 := by
  induction rs generalizing look st hits look' st' with
  | nil =>
    simp only [altsAt, Alts.ok.injEq] at h
    obtain ⟨rfl, _⟩ := h
    intro x hx; cases hx
  | cons r rs ih =>
    simp only [altsAt] at h
    cases hr : run r flag l with
    | oof => rw [hr] at h; cases h
    | risky => rw [hr] at h; cases h
    | fail n s => rw [hr] at h; exact ih h
    | ambiguous n => rw [hr] at h; exact ih h
    | hit nd u n s =>
      rw [hr] at h
      simp only at h
      split at h
      · rename_i ha
        simp only [Alts.ok.injEq] at h
        obtain ⟨rfl, _⟩ := h
        intro x hx
        rcases List.mem_cons.1 hx with rfl | hx
        · exact ⟨r, n, hr⟩
        · exact ih ha x hx
      · rename_i hne
        exact absurd h (hne _ _ _)

theorem choiceAt_yield {run : Runner} (hr : ∀ {r flag l nd u n st}, Valid l → run r flag l = .hit nd u n st →
      solid (yield nd) = solid (l.take u)) {b flag l} (hv : Valid l) {gs look st nd u n s}
    (h : choiceAt run b flag l gs look st = .hit nd u n s) : solid (yield nd) = solid (l.take u) := by
  induction gs generalizing look st with
  | nil => cases h
  | cons g gs ih =>
    simp only [choiceAt] at h
    cases ha : altsAt run flag l g look st with
    | oof => rw [ha] at h; cases h
    | risky => rw [ha] at h; cases h
    | ok hits look' st' =>
      rw [ha] at h
      simp only at h
      cases hb : best hits with
      | none => rw [hb] at h; exact ih h
      | tie => rw [hb] at h; cases h
      | order => rw [hb] at h; cases h
      | one nd' u' st'' =>
        rw [hb] at h
        simp only [Ans.hit.injEq] at h
        obtain ⟨rfl, rfl, _⟩ := h
        obtain ⟨r, n', hrun⟩ := altsAt_hits_mem ha _ (best_mem hb)
        rw [yield_inner, yieldL_one, hr hv hrun]

theorem valid_ne_eof {l t : List Rune} (hv : Valid l) (h : ∀ c ∈ t, c ∈ l) : t ≠ [EOFChar] := by
  intro hc
  subst hc
  exact absurd (hv EOFChar (h _ (List.mem_singleton_self _))) (by decide)

theorem content_yield {l : List Rune} (hv : Valid l) (start k : Nat) :
    solid (yield { ruleType := .chars, chars := (l.drop start).take k, sticky := true }) =
      solid ((l.drop start).take k) := by
  have hne : (l.drop start).take k ≠ [EOFChar] :=
    valid_ne_eof hv (fun c hc => List.mem_of_mem_drop (List.mem_of_mem_take hc))
  rw [yield_eq]
  simp only
  rw [if_neg hne]
  split
  · rename_i h0; rw [h0]; rfl
  · rfl

theorem blockAt_yield {run : Runner} (hr : ∀ {r flag l nd u n st}, Valid l → run r flag l = .hit nd u n st →
      solid (yield nd) = solid (l.take u)) {b v c e xs opn start l} (hv : Valid l) {fuel pos look nd u n s}
    (ho : solid (yield opn) = solid (l.take start)) (hpos : start ≤ pos)
    (h : blockAt run b v c e xs opn start l fuel pos look = .hit nd u n s) :
    solid (yield nd) = solid (l.take u) := by
  induction fuel generalizing pos look with
  | zero => cases h
  | succ fuel ih =>
    have hp : solid (l.take pos) = solid (yield opn) ++ solid ((l.drop start).take (pos - start)) := by
      have := solid_take_add l start (pos - start)
      rwa [Nat.add_sub_cancel' hpos, ← ho] at this
    have hcont := content_yield hv start (pos - start)
    simp only [blockAt] at h
    repeat' split at h
    all_goals first
      | (cases h; done)
      | exact ih (by omega) h
      | skip
    · simp only [Ans.hit.injEq] at h
      obtain ⟨rfl, rfl, _⟩ := h
      rw [yield_inner]
      simp only [List.append_nil, yieldL, solid_append]
      rw [hcont, hp]
    · rename_i nd' u' n' st' hclose _ _
      simp only [Ans.hit.injEq] at h
      obtain ⟨rfl, rfl, _⟩ := h
      rw [yield_inner]
      simp only [List.cons_append, List.nil_append, yieldL, solid_append]
      rw [hcont, solid_take_add, hp, hr (hv.drop pos) hclose, solid_nil]
      simp

theorem oneAt_yield {rt b skip p l} (hv : Valid l) {nd u n st}
    (h : oneAt rt b skip p l = .hit nd u n st) : solid (yield nd) = solid (l.take u) := by
  unfold oneAt at h
  simp only at h
  have htake := L.take_blank skip l
  split at h
  · rename_i i hf
    simp only [Ans.hit.injEq] at h
    obtain ⟨rfl, rfl, _⟩ := h
    obtain ⟨hi, _⟩ := List.findIdx?_eq_some_iff_getElem.1 hf
    have hmem : (blank skip l).getD i EOFChar ∈ blank skip l := by
      rw [List.getD_eq_getElem?_getD, List.getElem?_eq_getElem hi]
      exact List.getElem_mem hi
    have hsub : ∀ c ∈ blank skip l, c ∈ l := fun c hc => (L.blank_prefix skip l).subset hc
    rw [yield_leaf (valid_ne_eof hv (fun c hc => by rw [List.mem_singleton.1 hc]; exact hsub _ hmem))]
    rw [solid_white (fun c hc => by rw [List.mem_singleton.1 hc]; exact L.blank_ws hmem), solid_white]
    intro c hc
    have : c ∈ l.take (blank skip l).length := List.mem_of_mem_take (i := i + 1) (by
      rw [List.take_take, Nat.min_eq_left (by omega)]; exact hc)
    rw [htake] at this
    exact L.blank_ws this
  · split at h
    · cases h
    · rename_i c t hd
      split at h
      · simp only [Ans.hit.injEq] at h
        obtain ⟨rfl, rfl, _⟩ := h
        have hc : c ∈ l := List.mem_of_mem_drop (i := (blank skip l).length) (by rw [hd]; exact List.mem_cons_self)
        rw [yield_leaf (valid_ne_eof hv (fun x hx => by rw [List.mem_singleton.1 hx]; exact hc))]
        rw [solid_take_add, htake, hd, solid_white (l := blank skip l) (fun c hc => L.blank_ws hc)]
        rfl
      · cases h

theorem textAt_yield {rt b st skip text l} (hv : Valid l) {nd u n s}
    (h : textAt rt b st skip text l = .hit nd u n s) : solid (yield nd) = solid (l.take u) := by
  unfold textAt at h
  simp only at h
  have hlead : text = (if skip = true then text.takeWhile isWhiteSpace else []) ++
      text.drop (if skip = true then text.takeWhile isWhiteSpace else []).length := by
    cases skip with
    | true =>
      simp only [if_true]
      have h1 : text.takeWhile isWhiteSpace = text.take (text.takeWhile isWhiteSpace).length :=
        List.prefix_iff_eq_take.1 (List.takeWhile_prefix _)
      conv => lhs; rw [← List.take_append_drop (text.takeWhile isWhiteSpace).length text]
      rw [← h1]
    | false => simp
  generalize (if skip = true then text.takeWhile isWhiteSpace else []) = lead at *
  generalize text.drop lead.length = rest at *
  subst hlead
  by_cases h0 : l = []
  · rw [if_pos h0] at h; cases h
  rw [if_neg h0] at h
  by_cases hsuf : lead.isSuffixOf (blank skip l) = true
  · rw [if_pos hsuf] at h
    by_cases hpre : rest.isPrefixOf (l.drop (blank skip l).length) = true
    · rw [if_pos hpre] at h
      simp only [Ans.hit.injEq] at h
      obtain ⟨rfl, rfl, _⟩ := h
      have hpre := List.isPrefixOf_iff_prefix.1 hpre
      have hsuf := List.isSuffixOf_iff_suffix.1 hsuf
      have hmem : ∀ c ∈ lead ++ rest, c ∈ l := by
        intro c hc
        rcases List.mem_append.1 hc with hc | hc
        · exact (L.blank_prefix skip l).subset (hsuf.subset hc)
        · exact List.mem_of_mem_drop (hpre.subset hc)
      rw [yield_leaf (valid_ne_eof hv hmem), solid_take_add, L.take_blank, solid_append,
        ← List.prefix_iff_eq_take.1 hpre, solid_white (fun c hc => L.blank_ws (hsuf.subset hc)),
        solid_white (l := blank skip l) (fun c hc => L.blank_ws hc)]
    · rw [if_neg hpre] at h; cases h
  · rw [if_neg hsuf] at h; cases h

/-- The characters of a tree are those its match uses. -/
theorem run_yield {fuel r flag l nd u n st} (hv : Valid l)
    (h : Spec.run env fuel r flag l = .hit nd u n st) : solid (yield nd) = solid (l.take u) := by
  induction fuel generalizing r flag l nd u n st with
  | zero => cases h
  | succ fuel ih =>
    have ih' : ∀ {r flag l nd u n st}, Valid l → Spec.run env fuel r flag l = .hit nd u n st →
        solid (yield nd) = solid (l.take u) := fun hv h => ih hv h
    cases r with
    | eof b =>
      simp only [Spec.run, eofAt] at h
      split at h
      · simp only [Ans.hit.injEq] at h
        obtain ⟨rfl, rfl, _⟩ := h
        rw [L.take_blank, solid_white (l := blank _ l) (fun c hc => L.blank_ws hc)]
        rfl
      · cases h
    | char b t tu =>
      simp only [Spec.run] at h
      split at h
      · cases h
      · exact oneAt_yield hv h
    | range b x xu y yu =>
      simp only [Spec.run] at h
      split at h
      · cases h
      · exact oneAt_yield hv h
    | chars b t => exact textAt_yield hv h
    | str b t => exact textAt_yield hv h
    | group b r =>
      simp only [Spec.run] at h
      split at h
      · cases h
      · rename_i hr
        simp only [Ans.hit.injEq] at h
        obtain ⟨rfl, rfl, _⟩ := h
        rw [yield_inner, yieldL_one, ih hv hr]
      · exact ih hv h
    | option b r =>
      simp only [Spec.run] at h
      split at h
      · simp only [Ans.hit.injEq] at h
        obtain ⟨rfl, rfl, _⟩ := h
        rw [yield_inner]; rfl
      · cases h
      · rename_i hr
        simp only [Ans.hit.injEq] at h
        obtain ⟨rfl, rfl, _⟩ := h
        rw [yield_inner, yieldL_one, ih hv hr]
      · exact ih hv h
    | rep b r mn mx => exact repAt_yield ih' hv rfl h
    | choice b gs => exact choiceAt_yield ih' hv h
    | concat b rs => exact seqAt_yield ih' hv rfl h
    | block b o v c e xs =>
      simp only [Spec.run] at h
      split at h
      · cases h
      · rename_i ho
        split at h
        · cases h
        · exact blockAt_yield ih' hv (ih hv ho) (Nat.le_refl _) h
      · exact ih hv h
    | ref b name =>
      simp only [Spec.run] at h
      split at h
      · cases h
      · split at h
        · rename_i hr
          simp only [Ans.hit.injEq] at h
          obtain ⟨rfl, rfl, _⟩ := h
          rw [← ih hv hr]
          rw [yield_eq, yield_eq]; rfl
        · exact ih hv h

/-- The tree of a match contains the characters it uses, all of them and in order, apart from white
space.  (Missing from the full claim: evaluations that lose look-ahead or read it twice.) -/
theorem C46_text_is_used_partial {r : Rule} {flag : Int} {s s' : Stream} {res : Res} {n : Node} {fuel : Nat}
    (h : Ready s) (hr : Regular env r flag s.rem) (he : eval env fuel r flag s = .ok (res, s'))
    (hn : res.node = some n) :
    ∃ u : Nat, res.countUsed = u ∧ u ≤ s.rem.length ∧ solid n.text = solid (s.rem.take u) := by
  obtain ⟨F, k, h1, h2, h3, h4, h5⟩ := regular_eval h hr he
  cases ha : Spec.run env F r flag s.rem with
  | oof => exact absurd ha h1
  | risky => exact absurd ha h2
  | fail m st => rw [ha] at h5; have := (ref_fail h5).1; rw [hn] at this; cases this
  | ambiguous m => rw [ha] at h5; have := (ref_ambiguous h5).1; rw [hn] at this; cases this
  | hit nd u m st =>
    have hy := run_yield h.valid ha
    rw [ha] at h5
    obtain ⟨g1, g2, g3, g4, g5, g6, g7⟩ := ref_hit h5
    rw [hn] at g1
    simp only [Option.map_some, Option.some.injEq] at g1
    refine ⟨u, g2, by omega, ?_⟩
    rw [← (text_spaced n).solid, ← yield_erase, g1, hy]

/-- Non-vacuity: `'a' ',' "b"`, with white space around. -/
example : Regular noRules (.concat {} [lit "a", lit ",", .str {} (runes "b")]) SUGGEST_SKIP (runes "  a, b c") ∧
    seen (eval noRules 9 (.concat {} [lit "a", lit ",", .str {} (runes "b")]) SUGGEST_SKIP
      (Stream.ofChars (runes "  a, b c"))) =
    some (some (runes "a, b", 3), runes "  a, b", [], runes " c") :=
  ⟨regular_of (fuel := 9) (by decide +kernel), by decide +kernel⟩

/-- The full claim is false: the tree of `{ 'xbbc' | 'x' | 'b' }` on "xbbbb" repeats characters. -/
theorem C46_counterexample :
    seen (eval noRules 30 (.rep {} xb 0 0) SUGGEST_SKIP (Stream.ofChars (runes "xbbb"))) =
      some (some (runes "xbbbbbb", 7), runes "xbbbbbb", [], []) := by decide +kernel

end Xbnf.Props
