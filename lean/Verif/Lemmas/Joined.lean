import Verif.Lemmas.Unspaced
/-
A text that begins with the characters of another, white space apart: what can be read as a rule in both is read the same way in both, unless
it could go on.  A text with the characters of two others is read as the two are.
-/
namespace Xbnf.Spec.Unspaced
open Props

theorem begins_joined {l l' w : List Rune} (h : solid l' = solid l ++ solid w) (s : CharSet) : begins s l' = begins s (l ++ w) :=
  begins_same (by rw [h, solid_append]) s

theorem begins_left {s : CharSet} {l : List Rune} (w : List Rune) (h : begins s l = true) : begins s (l ++ w) = true := by
  rw [begins_solid] at h ⊢
  rw [solid_append]
  cases hl : solid l with
  | nil => rw [hl] at h; cases h
  | cons c cs => rw [hl] at h; exact h

theorem begins_blank {s : CharSet} {l w : List Rune} (h : solid l = []) : begins s (l ++ w) = begins s w :=
  begins_same (by rw [solid_append, h, List.nil_append]) s

theorem solid_drop_nil {l : List Rune} (h : solid l = []) (n : Nat) : solid (l.drop n) = [] := by
  unfold solid at *
  rw [List.filter_eq_nil_iff] at *
  exact fun c hc => h c (List.mem_of_mem_drop hc)

/-- What comes after a part that could go on is nothing. -/
theorem parts_end_more {env : Env} {t : Sets} (hD : Decided t env) {r : Rule} {rs : List Rule} (hap : (t.firstSeq rs).apart (t.moreOf r) = true)
    (hd : t.decidesSeq rs = true) {flag l nds u v st} (hs : Derives env (.parts rs) flag (l.drop u) nds v st) (hv : Valid l) (ht : Tidy l)
    {w : List Rune} (hm : begins (t.moreOf r) (l.drop u ++ w) = true) : begins (t.moreSeq (r :: rs)) (l.drop (u + v) ++ w) = true := by
  rcases begins_of_derives hD hs (hv.drop u) (ht.drop u) hd with h | ⟨h1, rfl | h2⟩
  · rw [Shape.begins_apart hap (begins_left w h)] at hm; cases hm
  · rw [Sets.moreSeq, if_pos h1, Shape.begins_union, Nat.add_zero, hm]; rfl
  · have h3 := blanks_solid h2
    rw [begins_blank h3] at hm
    rw [Sets.moreSeq, if_pos h1, Shape.begins_union, ← List.drop_drop, begins_blank (solid_drop_nil h3 v), hm]; rfl

theorem rounds_end_more {env : Env} {t : Sets} (hD : Decided t env) {r : Rule} (hap : (t.firstOf r).apart (t.moreOf r) = true)
    (hd : t.decides r = true) (hn : nulB t.nullable r = false) {flag l nds u v st} (hs : Derives env (.rounds r) flag (l.drop u) nds v st)
    (hv : Valid l) (ht : Tidy l) {w : List Rune} (hm : begins (t.moreOf r) (l.drop u ++ w) = true) :
    begins ((t.firstOf r).union (t.moreOf r)) (l.drop (u + v) ++ w) = true := by
  rcases begins_of_derives hD hs (hv.drop u) (ht.drop u) hd hn with h | ⟨_, rfl⟩
  · rw [Shape.begins_apart hap (begins_left w h)] at hm; cases hm
  · rw [Shape.begins_union, Nat.add_zero, hm]; simp

/-- The trees are the same, and what is left of the second text is what is left of the first and the rest of the second. -/
def More (nds nds' : List Node) (m m' w : List Rune) : Prop := bareL nds = bareL nds' ∧ solid m' = solid m ++ solid w

/-- A text and another that begins with the same characters apart from white space, both read as the goal: the readings are the
same, unless one of them could go on in the longer text. -/
theorem agree_more {env : Env} {t : Sets} (hD : Decided t env) (hB : BlanklessEnv false env) {g flag l nds u st}
    (h : Derives env g flag l nds u st) : Valid l → Tidy l → goalOk t g = true → ∀ {flag' l' nds' u' st'} {w : List Rune},
    Derives env g flag' l' nds' u' st' → Valid l' → Tidy l' → solid l' = solid l ++ solid w →
    More nds nds' (l.drop u) (l'.drop u') w ∨ begins (goalMore t g) (l.drop u ++ w) = true ∨ begins (goalMore t g) (l'.drop u') = true := by
  induction h with
  | @terminal r flag l nd u st htm hm =>
    intro hv ht hok flag' l' nds' u' st' w h' hv' ht' hl
    simp only [goalOk, Bool.and_eq_true] at hok
    have h'' : ∃ nd', nds' = [nd'] ∧ Matches env r flag' l' nd' u' st' := by
      cases h' <;> first | exact ⟨_, rfl, by assumption⟩ | cases htm
    obtain ⟨nd', rfl, hm'⟩ := h''
    obtain ⟨w0, e1, e2, e3, _⟩ := terminal_reads hv ht hm htm hok.1 hok.2
    obtain ⟨w', e1', e2', e3', _⟩ := terminal_reads hv' ht' hm' htm hok.1 hok.2
    rw [e1, e1', List.append_assoc] at hl
    obtain ⟨hw, hl⟩ := List.append_inj hl (e2'.trans e2.symm)
    exact .inl ⟨bareL_one (by rw [e3, e3', hw]), hl⟩
  | block hm ho ih =>
    intro hv ht hok
    simp [goalOk, blankless] at hok
  | @group b r flag l nd u st h ih =>
    intro hv ht hok flag' l' nds' u' st' w h' hv' ht' hl
    cases h' with
    | terminal htm _ => cases htm
    | group h' =>
      refine (ih hv ht hok h' hv' ht' hl).imp_left fun h => ⟨?_, h.2⟩
      exact bareL_one (by rw [bare_inner, bare_inner, h.1])
  | @present b r flag l nd u st h ih =>
    intro hv ht hok flag' l' nds' u' st' w h' hv' ht' hl
    simp only [goalOk, Sets.decides, blankless, Bool.and_eq_true, Bool.not_eq_true'] at hok
    cases h' with
    | terminal htm _ => cases htm
    | present h' =>
      have hmore : ∀ {m}, begins (t.moreOf r) m = true → begins (goalMore t (.one (.option b r))) m = true := by
        intro m hm
        rw [goalMore, Sets.moreOf, Shape.begins_union, hm]; simp
      rcases ih hv ht (by simp [goalOk, hok]) h' hv' ht' hl with h | h | h
      · refine .inl ⟨?_, h.2⟩
        exact bareL_one (by rw [bare_inner, bare_inner, h.1])
      · exact .inr (.inl (hmore h))
      · exact .inr (.inr (hmore h))
    | absent hst =>
      have hb := begins_left w (begins_of_one hD hok.1.1 hok.1.2 h hv ht)
      rw [← begins_joined hl] at hb
      right; right
      rw [goalMore, Sets.moreOf, Shape.begins_union, List.drop_zero, hb]; simp
  | @absent b r flag l st hst =>
    intro hv ht hok flag' l' nds' u' st' w h' hv' ht' hl
    simp only [goalOk, Sets.decides, blankless, Bool.and_eq_true, Bool.not_eq_true'] at hok
    cases h' with
    | terminal htm _ => cases htm
    | present h' =>
      have hb := begins_of_one hD hok.1.1 hok.1.2 h' hv' ht'
      rw [begins_joined hl] at hb
      right; left
      rw [goalMore, Sets.moreOf, Shape.begins_union, List.drop_zero, hb]; simp
    | absent hst =>
      refine .inl ⟨?_, by rw [List.drop_zero, List.drop_zero]; exact hl⟩
      exact bareL_one (by rw [bare_inner, bare_inner])
  | @choice b gs1 rs1 r rs2 gs2 flag l nd u st h f hf ih =>
    intro hv ht hok flag' l' nds' u' st' w h' hv' ht' hl
    simp only [goalOk, Sets.decides, blankless, Bool.and_eq_true] at hok
    obtain ⟨⟨hd, hdf⟩, hbl⟩ := hok
    have hmem : r ∈ (gs1 ++ (rs1 ++ r :: rs2) :: gs2).flatten := by simp
    have hsplit : (gs1 ++ (rs1 ++ r :: rs2) :: gs2).flatten = (gs1.flatten ++ rs1) ++ r :: (rs2 ++ gs2.flatten) := by simp
    have hap := differ_apart (by rw [← hsplit]; exact hdf)
    have hother : ∀ r' ∈ (gs1 ++ (rs1 ++ r :: rs2) :: gs2).flatten, r' ≠ r → (t.firstOf r).apart (t.firstOf r') = true := by
      intro r' hr' hne
      rw [hsplit] at hr'
      apply hap
      simp only [List.mem_append, List.mem_cons] at hr' ⊢
      rcases hr' with h | h | h
      · exact .inl h
      · exact absurd h hne
      · exact .inr h
    have hgs : ∃ r' nd0 st0 st1, r' ∈ (gs1 ++ (rs1 ++ r :: rs2) :: gs2).flatten ∧ nds' = [inner .choice b st1 [nd0]] ∧
        Derives env (.one r') flag' l' [nd0] u' st0 := by
      generalize gs1 ++ (rs1 ++ r :: rs2) :: gs2 = gs at h'
      cases h' with
      | terminal htm _ => cases htm
      | choice h' f' hf' => exact ⟨_, _, _, _, by simp, rfl, h'⟩
    obtain ⟨r', nd0, st0, st1, hmem', rfl, hx⟩ := hgs
    by_cases he : r' = r
    · subst he
      rcases ih hv ht (by simp [goalOk, decidesLL_mem hd hmem, blanklessLL_mem hbl hmem]) hx hv' ht' hl with h | h | h
      · refine .inl ⟨?_, h.2⟩
        exact bareL_one (by rw [bare_inner, bare_inner, h.1])
      · exact .inr (.inl (moreLL_mem hmem h))
      · exact .inr (.inr (moreLL_mem hmem h))
    · exfalso
      have h1 := begins_left w (begins_of_one hD (decidesLL_mem hd hmem) (differ_mem hdf hmem) h hv ht)
      have h2 := begins_of_one hD (decidesLL_mem hd hmem') (differ_mem hdf hmem') hx hv' ht'
      rw [begins_joined hl, Shape.begins_apart (hother r' hmem' he) h1] at h2
      cases h2
  | @concat b rs flag l nds u st h ih =>
    intro hv ht hok flag' l' nds' u' st' w h' hv' ht' hl
    cases h' with
    | terminal htm _ => cases htm
    | concat h' =>
      refine (ih hv ht hok h' hv' ht' hl).imp_left fun h => ⟨?_, h.2⟩
      exact bareL_one (by rw [bare_inner, bare_inner, h.1])
  | @rep b r mn mx flag l nds u st last h hmn hmx hlast ih =>
    intro hv ht hok flag' l' nds' u' st' w h' hv' ht' hl
    cases h' with
    | terminal htm _ => cases htm
    | rep h' _ _ _ =>
      refine (ih hv ht hok h' hv' ht' hl).imp_left fun h => ⟨?_, h.2⟩
      exact bareL_one (by rw [bare_inner, bare_inner, h.1])
  | @ref b name r flag l nd u st hr h ih =>
    intro hv ht hok flag' l' nds' u' st' w h' hv' ht' hl
    cases h' with
    | terminal htm _ => cases htm
    | ref hr' h' =>
      rw [hr] at hr'
      cases hr'
      obtain ⟨_, _, h3, h4⟩ := hD _ _ hr
      rcases ih hv ht (by simp [goalOk, h4, hB _ _ hr]) h' hv' ht' hl with h | h | h
      · refine .inl ⟨?_, h.2⟩
        have h1 := h.1
        simp only [bareL, List.cons.injEq, and_true] at h1
        exact bareL_one (by rw [bare_flip, bare_flip, h1])
      · exact .inr (.inl (begins_within h3 h))
      · exact .inr (.inr (begins_within h3 h))
  | done =>
    intro hv ht hok flag' l' nds' u' st' w h' hv' ht' hl
    cases h' with
    | done => exact .inl ⟨rfl, by rw [List.drop_zero, List.drop_zero]; exact hl⟩
  | @next r rs flag l nd u st nds v st' h hs ih ihs =>
    intro hv ht hok flag' l' nds' u' st' w h' hv' ht' hl
    simp only [goalOk, Sets.decidesSeq, blanklessL, Bool.and_eq_true] at hok
    obtain ⟨⟨⟨hd, hap⟩, hds⟩, hb, hbs⟩ := hok
    cases h' with
    | next h' hs' =>
      rcases ih hv ht (by simp [goalOk, hd, hb]) h' hv' ht' hl with h | h | h
      · have h1 := h.1
        simp only [bareL, List.cons.injEq, and_true] at h1
        rcases ihs (hv.drop u) (ht.drop u) (by simp [goalOk, hds, hbs]) hs' (hv'.drop _) (ht'.drop _) h.2 with h | h | h
        · rw [List.drop_drop, List.drop_drop] at h
          exact .inl ⟨by simp only [bareL, h1, h.1], h.2⟩
        · rw [List.drop_drop] at h
          exact .inr (.inl (moreSeq_tail h))
        · rw [List.drop_drop] at h
          exact .inr (.inr (moreSeq_tail h))
      · exact .inr (.inl (parts_end_more hD hap hds hs hv ht h))
      · exact .inr (.inr (parts_end hD hap hds hs' hv' ht' h))
  | @stop r flag l =>
    intro hv ht hok flag' l' nds' u' st' w h' hv' ht' hl
    simp only [goalOk, Bool.and_eq_true, Bool.not_eq_true'] at hok
    cases h' with
    | stop => exact .inl ⟨rfl, by rw [List.drop_zero, List.drop_zero]; exact hl⟩
    | again _ h' hs' =>
      have hb := begins_of_one hD hok.1.1.1 hok.1.1.2 h' hv' ht'
      rw [begins_joined hl] at hb
      right; left
      rw [goalMore, Shape.begins_union, List.drop_zero, hb]; simp
  | @again r flag l nd u st nds v st' hne h hs ih ihs =>
    intro hv ht hok flag' l' nds' u' st' w h' hv' ht' hl
    have hok' := hok
    simp only [goalOk, Bool.and_eq_true, Bool.not_eq_true'] at hok
    cases h' with
    | stop =>
      have hb := begins_left w (begins_of_one hD hok.1.1.1 hok.1.1.2 h hv ht)
      rw [← begins_joined hl] at hb
      right; right
      rw [goalMore, Shape.begins_union, List.drop_zero, hb]; simp
    | again _ h' hs' =>
      rcases ih hv ht (by simp [goalOk, hok]) h' hv' ht' hl with h | h | h
      · have h1 := h.1
        simp only [bareL, List.cons.injEq, and_true] at h1
        rcases ihs (hv.drop u) (ht.drop u) hok' hs' (hv'.drop _) (ht'.drop _) h.2 with h | h | h
        · rw [List.drop_drop, List.drop_drop] at h
          exact .inl ⟨by simp only [bareL, h1, h.1], h.2⟩
        · rw [List.drop_drop] at h
          exact .inr (.inl h)
        · rw [List.drop_drop] at h
          exact .inr (.inr h)
      · exact .inr (.inl (rounds_end_more hD hok.1.2 hok.1.1.1 hok.1.1.2 hs hv ht h))
      · exact .inr (.inr (rounds_end hD hok.1.2 hok.1.1.1 hok.1.1.2 hs' hv' ht' h))

/-- A text with the characters of two others, apart from white space, all three read as one root after the other. -/
theorem agree_joined {env : Env} {t : Sets} (hD : Decided t env) (hB : BlanklessEnv false env) {roots : List Rule}
    (hr : t.rootsOk roots = true) (hb : blanklessL false roots = true) {flag l nds} (h : Reads env roots flag l nds) : Valid l → Tidy l →
    ∀ {flag0 w nds0}, Reads env roots flag0 w nds0 → Valid w → Tidy w → ∀ {flag' l' nds'}, Reads env roots flag' l' nds' → Valid l' → Tidy l' →
    solid l' = solid l ++ solid w → bareL nds' = bareL nds ++ bareL nds0 := by
  have hr0 := hr
  simp only [Sets.rootsOk, Bool.and_eq_true, List.all_eq_true] at hr
  obtain ⟨hdec, hdiff⟩ := hr
  have hbeg : ∀ {flag l nds}, Reads env roots flag l nds → Valid l → Tidy l → l = [] ∨ ∃ r ∈ roots, begins (t.firstOf r) l = true := by
    intro flag l nds h hv ht
    cases h with
    | done => exact .inl rfl
    | next hne hmem h _ => exact .inr ⟨_, hmem, begins_of_one hD (hdec _ hmem).1 (differ_mem hdiff hmem) h hv ht⟩
  have hend : ∀ {r} (_ : r ∈ roots) {flag l nds}, Reads env roots flag l nds → Valid l → Tidy l → begins (t.moreOf r) l = false := by
    intro r hmem flag l nds h hv ht
    rcases hbeg h hv ht with rfl | ⟨r', hr', h⟩
    · rfl
    · exact Shape.begins_apart ((hdec r hmem).2 r' hr') h
  induction h with
  | done =>
    intro _ _ flag0 w nds0 h0 hv0 ht0 flag' l' nds' h' hv' ht' hl
    exact agree_reads hD hB hr0 hb h' hv' ht' h0 hv0 ht0 hl
  | @next r flag l nd u st nodes hne hmem h hs ih =>
    intro hv ht flag0 w nds0 h0 hv0 ht0 flag' l' nds' h' hv' ht' hl
    have h1 := begins_left w (begins_of_one hD (hdec _ hmem).1 (differ_mem hdiff hmem) h hv ht)
    cases h' with
    | done =>
      rw [← begins_joined hl] at h1
      cases h1
    | @next r' _ _ nd' u' st' nodes' hne' hmem' h' hs' =>
      have h2 := begins_of_one hD (hdec _ hmem').1 (differ_mem hdiff hmem') h' hv' ht'
      have he : r' = r := by
        refine Classical.byContradiction fun he => ?_
        obtain ⟨rs1, rs2, hroots⟩ := List.append_of_mem hmem
        have hap := differ_apart (by rw [← hroots]; exact hdiff) r' (by
          rw [hroots] at hmem'
          simp only [List.mem_append, List.mem_cons] at hmem' ⊢
          rcases hmem' with h | h | h
          · exact .inl h
          · exact absurd h he
          · exact .inr h)
        rw [begins_joined hl, Shape.begins_apart hap h1] at h2
        cases h2
      subst he
      rcases agree_more hD hB h hv ht (by simp [goalOk, (hdec _ hmem).1, blanklessL_mem hb hmem]) h' hv' ht' hl with h | h | h
      · have h3 := h.1
        simp only [bareL, List.cons.injEq, and_true] at h3
        simp only [bareL, h3, ih (hv.drop u) (ht.drop u) h0 hv0 ht0 hs' (hv'.drop _) (ht'.drop _) h.2, List.cons_append]
      · exfalso
        rw [goalMore] at h
        rcases hbeg hs (hv.drop u) (ht.drop u) with h2 | ⟨r0, hr0, h2⟩
        · rw [h2, List.nil_append, hend hmem h0 hv0 ht0] at h; cases h
        · rw [Shape.begins_apart ((hdec _ hmem).2 r0 hr0) (begins_left w h2)] at h; cases h
      · rw [goalMore, hend hmem hs' (hv'.drop _) (ht'.drop _)] at h; cases h

end Xbnf.Spec.Unspaced
