import Verif.Lemmas.Alike
import Verif.Props.Language
import Verif.Props.Spacing
/-
C78: white space decides whether a text is read, never how.  Two texts with the same characters apart from
white space, both of which are read to the end, have the same tree.
-/
namespace Xbnf.Props
open Spec Grammar Spec.Unspaced

theorem bare_erase (n : Node) : n.erase.bare = n.bare := by
  induction n using node_ind with
  | h rt nm ch cs p st v nd tk ih =>
    simp only [Node.erase, Node.bare]
    congr 1
    induction cs with
    | nil => rfl
    | cons c cs ihc =>
      simp only [eraseL, bareL]
      rw [ih c List.mem_cons_self, ihc fun x hx => ih x (List.mem_cons_of_mem _ hx)]

theorem bareL_erase (ns : List Node) : bareL (ns.map Node.erase) = ns.map Node.bare := by
  rw [bareL_eq_map, List.map_map]
  exact List.map_congr_left fun n _ => bare_erase n

/-! ### Rules -/

/-- **C78** for `EvalRule`.  If no literal and no range of the grammar contains white space and one character decides, then texts with the same
characters apart from white space, on which the rule matches and cannot go on after the match, have the same tree apart from positions and
stickiness; and the characters left over are the same apart from white space. -/
theorem C78_rule {c : Certificate} {t : Sets} {g : Grammar} (hc : c.ok g = true) (ht : t.ok g = true) (hg : BlanklessGrammar false g)
    {name : Name} {rc : Record} (hrc : g.getRecord name = some rc) {l l' : List Rune} (hv : Valid l) (hv' : Valid l') (hw : Tidy l)
    (hw' : Tidy l') (hl : solid l = solid l') {fuel fuel' : Nat} {res res' : Res} {n n' : Node} (h : g.evalRule fuel name l = .ok res)
    (h' : g.evalRule fuel' name l' = .ok res') (hn : res.node = some n) (hn' : res'.node = some n')
    (he : begins (t.moreOf rc.rule) (l.drop res.countUsed.toNat) = false) (he' : begins (t.moreOf rc.rule) (l'.drop res'.countUsed.toNat) = false) :
    n.bare = n'.bare ∧ solid (l.drop res.countUsed.toNat) = solid (l'.drop res'.countUsed.toNat) := by
  obtain ⟨u, hu, hd⟩ := C59_sound ⟨c, hc⟩ hrc hv hw h hn
  obtain ⟨u', hu', hd'⟩ := C59_sound ⟨c, hc⟩ hrc hv' hw' h' hn'
  rw [hu, Int.toNat_natCast] at he ⊢
  rw [hu', Int.toNat_natCast] at he' ⊢
  have hb : blankless false rc.rule = true := blankless_env hg name _ (by simp [Grammar.env, hrc])
  rcases agree (decided ht) (blankless_env hg) hd hv hw (by simp [goalOk, decides_of_record ht hrc, hb]) hd' hv' hw' hl with h | h | h
  · refine ⟨?_, h.2⟩
    have h1 := h.1
    simp only [bareL, bare_erase, List.cons.injEq, and_true] at h1
    exact h1
  · rw [goalMore, he] at h; cases h
  · rw [goalMore, he'] at h; cases h

/-- Texts that are entirely used, white space at the end aside. -/
theorem C78_entire {c : Certificate} {t : Sets} {g : Grammar} (hc : c.ok g = true) (ht : t.ok g = true) (hg : BlanklessGrammar false g)
    {name : Name} {rc : Record} (hrc : g.getRecord name = some rc) {l l' : List Rune} (hv : Valid l) (hv' : Valid l') (hw : Tidy l)
    (hw' : Tidy l') (hl : solid l = solid l') {fuel fuel' : Nat} {res res' : Res} {n n' : Node} (h : g.evalRule fuel name l = .ok res)
    (h' : g.evalRule fuel' name l' = .ok res') (hn : res.node = some n) (hn' : res'.node = some n')
    (he : solid (l.drop res.countUsed.toNat) = []) (he' : solid (l'.drop res'.countUsed.toNat) = []) : n.bare = n'.bare :=
  (C78_rule hc ht hg hrc hv hv' hw hw' hl h h' hn hn' (by rw [begins_solid, he]) (by rw [begins_solid, he'])).1

/-- The text of a tree, if it is read entirely, is read as that tree again. -/
theorem C78_text {c : Certificate} {t : Sets} {g : Grammar} (hc : c.ok g = true) (ht : t.ok g = true) (hg : BlanklessGrammar false g)
    {name : Name} {rc : Record} (hrc : g.getRecord name = some rc) {l : List Rune} (hv : Valid l) (hw : Tidy l) {fuel fuel' : Nat}
    {res res' : Res} {n n' : Node} (h : g.evalRule fuel name l = .ok res) (hn : res.node = some n)
    (he : solid (l.drop res.countUsed.toNat) = []) (hv' : Valid n.text) (hw' : Tidy n.text)
    (h' : g.evalRule fuel' name n.text = .ok res') (hn' : res'.node = some n') (he' : solid (n.text.drop res'.countUsed.toNat) = []) :
    n.bare = n'.bare := by
  refine C78_entire hc ht hg hrc hv hv' hw hw' ?_ h h' hn hn' he he'
  have h0 := h
  simp only [Grammar.evalRule, hrc] at h0
  obtain ⟨⟨res0, s'⟩, e, h0⟩ := Exec.of_bind h0
  cases h0
  have hr := rem_ofChars l
  obtain ⟨u, hu, _, h1⟩ := C46_text_is_used_partial (ready_ofChars hv) (by
    rw [hr]; exact Clean.regular ((certified hc).clean ((certified hc).covers hrc (flag := SUGGEST_SKIP) (by decide)) hv hw)) e hn
  rw [hr] at h1
  rw [hu, Int.toNat_natCast] at he
  rw [h1]
  have := congrArg solid (List.take_append_drop u l)
  rw [solid_append, he, List.append_nil] at this
  exact this.symm

/-! ### Documents -/

/-- **C78** for `EvalRaw`: two documents with the same characters apart from white space, both accepted, have the same trees apart from
positions and stickiness, in whatever order the maps are visited. -/
theorem C78_document {c : Certificate} {t : Sets} {g : Grammar} (hc : c.ok g = true) (ht : t.ok g = true)
    (hr : c.rootsOk (g.roots.map (·.rule)) = true) (hr' : t.rootsOk (g.roots.map (·.rule)) = true) (hg : BlanklessGrammar false g)
    {l l' : List Rune} (hv : Valid l) (hv' : Valid l') (hw : Tidy l) (hw' : Tidy l') (hne : l ≠ []) (hne' : l' ≠ [])
    (hl : solid l = solid l') {fuel fuel' : Nat} {sch sch' : Sched} (hf : sch.Fair) (hf' : sch'.Fair) {nodes nodes' : List Node} {s s' : Stream}
    (h : g.evalRaw fuel sch (Stream.ofChars l) = .ok (.ok nodes, s)) (h' : g.evalRaw fuel' sch' (Stream.ofChars l') = .ok (.ok nodes', s')) :
    nodes.map Node.bare = nodes'.map Node.bare := by
  have h1 := (C59_document hc ht hr hr' hv hw hne).1 fuel sch hf nodes s h
  have h2 := (C59_document hc ht hr hr' hv' hw' hne').1 fuel' sch' hf' nodes' s' h'
  have := agree_reads (decided ht) (blankless_env hg) hr' (blankless_roots hg) h1 hv hw h2 hv' hw' hl
  rwa [bareL_erase, bareL_erase] at this

/-! ### White space at the end

Only white space at the end of the text makes a difference to stickiness, and with it to what the simplification does.  Where both texts end in
white space, or neither does, nothing is different but positions. -/

theorem traced_of_matches {env : Env} {r : Rule} {flag : Int} {l : List Rune} (hv : Valid l) (hr : Regular env r flag l) {nd u st}
    (h : Matches env r flag l nd u st) : Traced env (.one r) flag l [nd] u st := by
  obtain ⟨F, h1, h2⟩ := hr
  have hf := found_of_matches (fuel := F) hv h
  cases hx : Spec.run env F r flag l with
  | oof => exact absurd hx h1
  | risky => exact absurd hx h2
  | fail n st => rw [hx] at hf; exact hf.elim
  | ambiguous n => rw [hx] at hf; exact hf.elim
  | hit nd' u' n st' =>
    rw [hx] at hf
    obtain ⟨rfl, rfl, rfl⟩ := hf
    exact run_traced hv hx

theorem traced_reads {c : Certificate} {g : Grammar} (hc : c.ok g = true) {roots : List Rule} (hr : c.rootsOk roots = true)
    {flag : Int} {l : List Rune} {nodes : List Node} (h : Document g.env roots flag l nodes) :
    flag ∈ [SUGGEST_SKIP, SUGGEST_NOT_SKIP] → Valid l → Tidy l → TracedReads g.env roots flag l nodes := by
  induction h with
  | done => intro _ _ _; exact .done
  | @next flag m l nd st nodes hne h hs ih =>
    intro hf hv hw
    obtain ⟨rs1, r, rs2, rfl, hm, _⟩ := h
    have hmem : r ∈ rs1 ++ r :: rs2 := by simp
    have hd := traced_of_matches hv (Clean.regular ((certified hc).clean (roots_covered hr hmem hf) hv hw)) hm
    refine .next hne hmem hd ?_
    rw [List.drop_left]
    refine ih (flagNext_mem st) ?_ ?_
    · have := hv.drop m.length; rwa [List.drop_left] at this
    · have := hw.drop m.length; rwa [List.drop_left] at this

/-- `EvalRule`, on texts that both end in white space or both do not: the trees are the same but for positions, stickiness included. -/
theorem C78_exact {c : Certificate} {t : Sets} {g : Grammar} (hc : c.ok g = true) (ht : t.ok g = true) (hg : BlanklessGrammar false g)
    {name : Name} {rc : Record} (hrc : g.getRecord name = some rc) {l l' : List Rune} (hv : Valid l) (hv' : Valid l') (hw : Tidy l)
    (hw' : Tidy l') (hl : solid l = solid l') (hend : endsBlank l = endsBlank l') {fuel fuel' : Nat} {res res' : Res} {n n' : Node}
    (h : g.evalRule fuel name l = .ok res) (h' : g.evalRule fuel' name l' = .ok res') (hn : res.node = some n) (hn' : res'.node = some n')
    (he : begins (t.moreOf rc.rule) (l.drop res.countUsed.toNat) = false) (he' : begins (t.moreOf rc.rule) (l'.drop res'.countUsed.toNat) = false) :
    n.erase = n'.erase ∧ res.sticky = res'.sticky := by
  have tr : ∀ {l fuel res n}, Valid l → Tidy l → g.evalRule fuel name l = .ok res → res.node = some n →
      begins (t.moreOf rc.rule) (l.drop res.countUsed.toNat) = false →
      ∃ u, res.countUsed.toNat = u ∧ Traced g.env (.one rc.rule) SUGGEST_SKIP l [n.erase] u res.sticky := by
    intro l fuel res n hv hw h hn he
    obtain ⟨u, hu, hd⟩ := C59_sound ⟨c, hc⟩ hrc hv hw h hn
    have hcov := (certified hc).covers hrc (flag := SUGGEST_SKIP) (by decide)
    rw [hu, Int.toNat_natCast] at he
    refine ⟨u, by rw [hu, Int.toNat_natCast], traced_of_matches hv (Clean.regular ((certified hc).clean hcov hv hw))
      (matches_of_derives hc ht hcov (decides_of_record ht hrc) hv hw hd he)⟩
  obtain ⟨u, hu, hd⟩ := tr hv hw h hn he
  obtain ⟨u', hu', hd'⟩ := tr hv' hw' h' hn' he'
  rw [hu] at he
  rw [hu'] at he'
  have hb : blankless false rc.rule = true := blankless_env hg name _ (by simp [Grammar.env, hrc])
  rcases agree_exact (decided ht) (blankless_env hg) hd hv hw (by simp [goalOk, decides_of_record ht hrc, hb]) hd' hv' hw' ⟨hl, hend⟩ with h | h | h
  · obtain ⟨h1, h2, _⟩ := h
    simp only [List.cons.injEq, and_true] at h1
    exact ⟨h1, h2⟩
  · rw [goalMore, he] at h; cases h
  · rw [goalMore, he'] at h; cases h

/-- `Eval`, at every level, on such texts: the trees are the same but for positions. -/
theorem C78_levels {c : Certificate} {t : Sets} {g : Grammar} (hc : c.ok g = true) (ht : t.ok g = true)
    (hr : c.rootsOk (g.roots.map (·.rule)) = true) (hr' : t.rootsOk (g.roots.map (·.rule)) = true) (hg : BlanklessGrammar false g)
    {l l' : List Rune} (hv : Valid l) (hv' : Valid l') (hw : Tidy l) (hw' : Tidy l') (hne : l ≠ []) (hne' : l' ≠ [])
    (hl : solid l = solid l') (hend : endsBlank l = endsBlank l') {fuel fuel' : Nat} {sch sch' : Sched} (hf : sch.Fair) (hf' : sch'.Fair)
    {level : Int} {nodes nodes' : List Node} {s s' : Stream} (h : g.evalAST fuel sch (Stream.ofChars l) level = .ok (.ok nodes, s))
    (h' : g.evalAST fuel' sch' (Stream.ofChars l') level = .ok (.ok nodes', s')) : nodes.map Node.erase = nodes'.map Node.erase := by
  simp only [evalAST] at h h'
  obtain ⟨⟨z, u⟩, e, h⟩ := Exec.of_bind h
  obtain ⟨⟨z', u'⟩, e', h'⟩ := Exec.of_bind h'
  cases z with
  | error _ => simp [Except.map] at h
  | ok ns =>
    cases z' with
    | error _ => simp [Except.map] at h'
    | ok ns' =>
      simp only [Except.map, Exec.ok.injEq, Prod.mk.injEq, Except.ok.injEq] at h h'
      obtain ⟨rfl, rfl⟩ := h
      obtain ⟨rfl, rfl⟩ := h'
      have hd := C24_document_partial hf (ready_ofChars hv) (by rw [rem_ofChars]; exact hne) (by rw [rem_ofChars]; exact C58_orderly hc hr hv hw) e
      have hd' := C24_document_partial hf' (ready_ofChars hv') (by rw [rem_ofChars]; exact hne') (by rw [rem_ofChars]; exact C58_orderly hc hr hv' hw') e'
      simp only [rem_ofChars] at hd hd'
      have := agree_documents (decided ht) (blankless_env hg) hr' (blankless_roots hg) (traced_reads hc hr hd (by simp) hv hw) hv hw
        (traced_reads hc hr hd' (by simp) hv' hw') hv' hw' ⟨hl, hend⟩
      rw [← simplify_erase, ← simplify_erase, this]

/-! ### Cases -/

/-- Two spellings of a document, both accepted, and a third that is not: white space inside of a number. -/
example : solid (runes "12+2*a3;") = solid (runes " 12 + 2* a3 ;") ∧
    (match arith.evalRaw 60 forward (Stream.ofChars (runes "12+2*a3;")) with | .ok (.ok ns, _) => ns.length == 1 | _ => false) = true ∧
    (match arith.evalRaw 60 forward (Stream.ofChars (runes " 12 + 2* a3 ;")) with | .ok (.ok ns, _) => ns.length == 1 | _ => false) = true ∧
    (match arith.evalRaw 60 forward (Stream.ofChars (runes "1 2+2*a3;")) with | .ok (.error _, _) => true | _ => false) = true := by
  decide +kernel

/-- However an expression is spaced, if it is accepted it has the tree of the one without white space. -/
example {l : List Rune} (hv : Valid l) (hw : Tidy l) (hl : solid l = runes "12+2*a3;") {fuel fuel' : Nat} {sch sch' : Sched} (hf : sch.Fair)
    (hf' : sch'.Fair) {nodes nodes' : List Node} {s s' : Stream} (h : arith.evalRaw fuel sch (Stream.ofChars l) = .ok (.ok nodes, s))
    (h' : arith.evalRaw fuel' sch' (Stream.ofChars (runes "12+2*a3;")) = .ok (.ok nodes', s')) : nodes.map Node.bare = nodes'.map Node.bare :=
  C78_document arith_checks.1.1 arith_decides.1 arith_checks.1.2 arith_decides.2 arith_blankless hv (by unfold Valid; decide +kernel) hw
    (by unfold Tidy; decide +kernel) (by rintro rfl; exact absurd hl (by decide +kernel)) (by decide +kernel) (by rw [hl]; decide +kernel) hf hf' h h'

/-- Neither ends in white space: the simplified trees are the same as well. -/
example {l : List Rune} (hv : Valid l) (hw : Tidy l) (hl : solid l = runes "12+2*a3;") (hend : endsBlank l = false) {fuel fuel' : Nat} {sch sch' : Sched}
    (hf : sch.Fair) (hf' : sch'.Fair) {nodes nodes' : List Node} {s s' : Stream} (h : arith.evalAST fuel sch (Stream.ofChars l) LevelDataOnly = .ok (.ok nodes, s))
    (h' : arith.evalAST fuel' sch' (Stream.ofChars (runes "12+2*a3;")) LevelDataOnly = .ok (.ok nodes', s')) : nodes.map Node.erase = nodes'.map Node.erase :=
  C78_levels arith_checks.1.1 arith_decides.1 arith_checks.1.2 arith_decides.2 arith_blankless hv (by unfold Valid; decide +kernel) hw
    (by unfold Tidy; decide +kernel) (by rintro rfl; exact absurd hl (by decide +kernel)) (by decide +kernel) (by rw [hl]; decide +kernel)
    (by rw [hend]; decide +kernel) hf hf' h h'

/-- `a = 'x' {"y"} EOF` -/
def endSpace : Grammar :=
  let r : Rule := .concat { name := runes "a" } [.char {} 120 false, .rep {} (.str {} (runes "y")) 0 0, .eof {}]
  { records := [⟨runes "a", r, 1⟩], roots := [⟨runes "a", r, 1⟩], terminals := [⟨runes "a", r, 1⟩], maxLine := 1 }

theorem endSpace_fits : ((certify endSpace 4).ok endSpace = true ∧ (certify endSpace 4).rootsOk (endSpace.roots.map (·.rule)) = true) ∧
    ((Sets.infer endSpace 4).ok endSpace = true ∧ (Sets.infer endSpace 4).rootsOk (endSpace.roots.map (·.rule)) = true) ∧
    (endSpace.records ++ endSpace.roots).all (fun rc => blankless false rc.rule) = true := by decide +kernel

/-- How many children the trees of a document have. -/
def branches (g : Grammar) (level : Int) (l : List Rune) : Option (List Nat) :=
  match g.evalAST 60 forward (Stream.ofChars l) level with
  | .ok (.ok ns, _) => some (ns.map fun n => n.children.length)
  | _ => none

/-- The claim does not hold for the simplified trees of `Eval`: with a space at the end of the text, an empty repetition before the end is
not sticky, and nodes that are merged without the space are not merged with it. -/
theorem C78_counterexample : solid (runes "x") = solid (runes "x ") ∧ branches endSpace LevelRaw (runes "x") = some [3] ∧
    branches endSpace LevelRaw (runes "x ") = some [3] ∧ branches endSpace LevelBasic (runes "x") = some [0] ∧
    branches endSpace LevelBasic (runes "x ") = some [2] := by decide +kernel

/-- `a = 'a' ('b' "x")` -/
def closeUp : Grammar :=
  let r : Rule := .concat { name := runes "a" } [.char {} 97 false, .group {} (.concat {} [.char {} 98 false, .str {} (runes "x")])]
  { records := [⟨runes "a", r, 1⟩], roots := [⟨runes "a", r, 1⟩], terminals := [⟨runes "a", r, 1⟩], maxLine := 1 }

/-- Nor is the text of a tree always read: `Text` puts a space where the grammar allows none. -/
theorem C78_text_counterexample :
    (match closeUp.evalRule 60 (runes "a") (runes "abx") with | .ok r => r.node.map (·.text) | _ => none) = some (runes "a b x") ∧
    (match closeUp.evalRule 60 (runes "a") (runes "a b x") with | .ok r => r.node.isNone | _ => false) = true := by decide +kernel

/-- Non-vacuity of `C78_text`: the text of an expression is another spelling of it, and read entirely. -/
example : (match arith.evalRule 60 (runes "expr") (runes "1+(a2*3)") with | .ok r => r.node.map (·.text) | _ => none) = some (runes "1 + ( a2 * 3 )") ∧
    (match arith.evalRule 60 (runes "expr") (runes "1 + ( a2 * 3 )") with | .ok r => (r.node.isSome, r.countUsed) | _ => (false, 0)) = (true, 14) := by
  decide +kernel

end Xbnf.Props
