import Verif.Lemmas.Grow
import Verif.Props.Unspaced
/-
C82: documents one after the other.  What `EvalRaw` makes of a text with the characters of two documents is what it makes of the two; and if
the first ends in a tree that is not sticky, the two put together are accepted.
-/
namespace Xbnf.Props
open Spec Grammar Spec.Unspaced

theorem eofless_env {g : Grammar} (h : EoflessGrammar g) : EoflessEnv g.env := by
  intro n r hr
  simp only [Grammar.env, Option.map_eq_some_iff] at hr
  obtain ⟨rc, h1, rfl⟩ := hr
  exact h rc (List.mem_append_left _ (List.mem_of_find?_eq_some h1))

/-- **C82**, what it means.  If no literal and no range of the grammar contains white space and one character decides: whenever a text consists of
the characters of two documents, white space aside, and all three are accepted, the trees of the text are those of the first document followed by
those of the second, apart from positions and stickiness. -/
theorem C82_same_trees {c : Certificate} {t : Sets} {g : Grammar} (hc : c.ok g = true) (ht : t.ok g = true)
    (hr : c.rootsOk (g.roots.map (·.rule)) = true) (hr' : t.rootsOk (g.roots.map (·.rule)) = true) (hg : BlanklessGrammar false g)
    {d1 d2 l : List Rune} (hv1 : Valid d1) (hv2 : Valid d2) (hv : Valid l) (hw1 : Tidy d1) (hw2 : Tidy d2) (hw : Tidy l) (hne1 : d1 ≠ [])
    (hne2 : d2 ≠ []) (hne : l ≠ []) (hl : solid l = solid d1 ++ solid d2) {fuel1 fuel2 fuel : Nat} {sch1 sch2 sch : Sched} (hf1 : sch1.Fair)
    (hf2 : sch2.Fair) (hf : sch.Fair) {nodes1 nodes2 nodes : List Node} {s1 s2 s : Stream}
    (h1 : g.evalRaw fuel1 sch1 (Stream.ofChars d1) = .ok (.ok nodes1, s1)) (h2 : g.evalRaw fuel2 sch2 (Stream.ofChars d2) = .ok (.ok nodes2, s2))
    (h : g.evalRaw fuel sch (Stream.ofChars l) = .ok (.ok nodes, s)) :
    nodes.map Node.bare = nodes1.map Node.bare ++ nodes2.map Node.bare := by
  have e1 := (C59_document hc ht hr hr' hv1 hw1 hne1).1 _ _ hf1 _ _ h1
  have e2 := (C59_document hc ht hr hr' hv2 hw2 hne2).1 _ _ hf2 _ _ h2
  have e := (C59_document hc ht hr hr' hv hw hne).1 _ _ hf _ _ h
  have := agree_joined (decided ht) (blankless_env hg) hr' (blankless_roots hg) e1 hv1 hw1 e2 hv2 hw2 e hv hw hl
  rwa [bareL_erase, bareL_erase, bareL_erase] at this

/-! ### Which are accepted -/

/-- A tree is marked sticky if its match was reported as sticky. -/
theorem run_sticky {env : Env} {F : Nat} : ∀ {r flag l nd u n st}, Spec.run env F r flag l = .hit nd u n st → nd.sticky = st := by
  induction F with
  | zero => intro r flag l nd u n st h; cases h
  | succ F ih =>
    intro r flag l nd u n st h
    have hone : ∀ {rt b skip p}, oneAt rt b skip p l = .hit nd u n st → nd.sticky = st := by
      intro rt b skip p h
      unfold oneAt at h
      simp only at h
      repeat' split at h
      all_goals first | cases h; done | (simp only [Ans.hit.injEq] at h; obtain ⟨rfl, _, _, rfl⟩ := h; rfl)
    have htext : ∀ {rt b s skip text}, textAt rt b s skip text l = .hit nd u n st → nd.sticky = st := by
      intro rt b s skip text h
      unfold textAt at h
      simp only at h
      repeat' split at h
      all_goals first | cases h; done | (simp only [Ans.hit.injEq] at h; obtain ⟨rfl, _, _, rfl⟩ := h; rfl)
    have hend : ∀ {b mn pos look s nodes}, repEnd b mn pos look s nodes = .hit nd u n st → nd.sticky = st := by
      intro b mn pos look s nodes h
      unfold repEnd at h
      split at h
      · cases h
      · simp only [Ans.hit.injEq] at h; obtain ⟨rfl, _, _, rfl⟩ := h; rfl
    cases r with
    | eof b =>
      simp only [Spec.run, eofAt] at h
      split at h
      · simp only [Ans.hit.injEq] at h; obtain ⟨rfl, _, _, rfl⟩ := h; rfl
      · cases h
    | char b c us =>
      simp only [Spec.run] at h
      split at h
      · cases h
      · exact hone h
    | range b x xu y yu =>
      simp only [Spec.run] at h
      split at h
      · cases h
      · exact hone h
    | chars b s => simp only [Spec.run] at h; exact htext h
    | str b s => simp only [Spec.run] at h; exact htext h
    | group b r =>
      simp only [Spec.run] at h
      cases hr : Spec.run env F r flag l with
      | hit nd0 u0 n0 st0 => simp only [hr, Ans.hit.injEq] at h; obtain ⟨rfl, _, _, rfl⟩ := h; rfl
      | _ => simp [hr] at h
    | option b r =>
      simp only [Spec.run] at h
      cases hr : Spec.run env F r flag l with
      | hit nd0 u0 n0 st0 => simp only [hr, Ans.hit.injEq] at h; obtain ⟨rfl, _, _, rfl⟩ := h; rfl
      | fail n0 st0 => simp only [hr, Ans.hit.injEq] at h; obtain ⟨rfl, _, _, rfl⟩ := h; rfl
      | _ => simp [hr] at h
    | ref b name =>
      simp only [Spec.run] at h
      cases he : env name with
      | none => simp [he] at h
      | some r =>
        cases hr : Spec.run env F r flag l with
        | hit nd0 u0 n0 st0 =>
          simp only [he, hr, Ans.hit.injEq] at h
          obtain ⟨rfl, _, _, rfl⟩ := h
          exact (ih hr : nd0.sticky = _)
        | _ => simp [he, hr] at h
    | choice b gs =>
      simp only [Spec.run] at h
      obtain ⟨_, _, _, _, _, _, _, _, _, _, _, rfl, _⟩ := choiceAt_sticky h
      rfl
    | concat b rs =>
      simp only [Spec.run] at h
      have key : ∀ (rs : List Rule) (pos look : Nat) (sticky : Bool) (flag : Int) (nodes : List Node),
          seqAt (Spec.run env F) b l rs pos look sticky flag nodes = .hit nd u n st → nd.sticky = st := by
        intro rs
        induction rs with
        | nil =>
          intro pos look sticky flag nodes h
          simp only [seqAt, Ans.hit.injEq] at h
          obtain ⟨rfl, _, _, rfl⟩ := h
          rfl
        | cons r rs ihs =>
          intro pos look sticky flag nodes h
          rw [seqAt] at h
          cases hr : Spec.run env F r flag (l.drop pos) with
          | hit nd0 u0 n0 st0 =>
            simp only [hr] at h
            split at h
            · cases h
            · exact ihs _ _ _ _ _ h
          | _ => simp [hr] at h
      exact key _ _ _ _ _ _ h
    | rep b r mn mx =>
      simp only [Spec.run] at h
      have key : ∀ (k pos look : Nat) (sticky : Bool) (nodes : List Node),
          repAt (Spec.run env F) b r mn mx flag l k pos look sticky nodes = .hit nd u n st → nd.sticky = st := by
        intro k
        induction k with
        | zero => intro pos look sticky nodes h; cases h
        | succ k ihk =>
          intro pos look sticky nodes h
          rw [repAt] at h
          split at h
          · exact hend h
          · cases hr : Spec.run env F r flag (l.drop pos) with
            | hit nd0 u0 n0 st0 =>
              simp only [hr] at h
              repeat' split at h
              all_goals first | cases h; done | exact hend h | exact ihk _ _ _ _ h
            | fail n0 st0 => simp only [hr] at h; exact hend h
            | _ => simp [hr] at h
      exact key _ _ _ _ _ h
    | block b o v c e xs =>
      have key : ∀ (k pos look : Nat) (opn : Node) (start : Nat),
          blockAt (Spec.run env F) b v c e xs opn start l k pos look = .hit nd u n st → nd.sticky = st := by
        intro k
        induction k with
        | zero => intro pos look opn start h; cases h
        | succ k ihk =>
          intro pos look opn start h
          rw [blockAt] at h
          simp only at h
          repeat' split at h
          all_goals first | cases h; done | exact ihk _ _ _ _ h | (simp only [Ans.hit.injEq] at h; obtain ⟨rfl, _, _, rfl⟩ := h; rfl)
      simp only [Spec.run] at h
      cases hr : Spec.run env F o flag l with
      | hit nd0 u0 n0 st0 =>
        simp only [hr] at h
        split at h
        · cases h
        · exact key _ _ _ _ _ h
      | _ => simp [hr] at h

/-- A text that can be read, and another after it. -/
theorem reads_grow {c : Certificate} {t : Sets} {g : Grammar} (hc : c.ok g = true) (ht : t.ok g = true) {roots : List Rule}
    (hr : c.rootsOk roots = true) (hr' : t.rootsOk roots = true) (hB : BlanklessEnv false g.env) (hE : EoflessEnv g.env)
    (hb : blanklessL false roots = true) (hef : eoflessL roots = true) {w : List Rune} {nds0 : List Node}
    (h0 : Reads g.env roots SUGGEST_SKIP w nds0) {flag : Int} {l : List Rune} {nodes : List Node} (h : Document g.env roots flag l nodes) :
    flag ∈ [SUGGEST_SKIP, SUGGEST_NOT_SKIP] → ∀ {flag'}, Relax flag flag' → Valid (l ++ w) → Tidy (l ++ w) →
    (nodes = [] → flag = SUGGEST_SKIP) → (∀ nd, nodes.getLast? = some nd → nd.sticky = false) →
    ∃ nds, Reads g.env roots flag' (l ++ w) (nds ++ nds0) ∧ bareL nds = bareL nodes := by
  have hD := decided ht
  simp only [Sets.rootsOk, Bool.and_eq_true, List.all_eq_true] at hr'
  obtain ⟨hdec, hdiff⟩ := hr'
  have hbeg : ∀ {flag l nds}, Reads g.env roots flag l nds → Valid l → Tidy l → l = [] ∨ ∃ r ∈ roots, begins (t.firstOf r) l = true := by
    intro flag l nds h hv ht
    cases h with
    | done => exact .inl rfl
    | next hne hmem h _ => exact .inr ⟨_, hmem, begins_of_one hD (hdec _ hmem).1 (differ_mem hdiff hmem) h hv ht⟩
  induction h with
  | @done flag =>
    intro _ flag' hf hv hw hlast _
    rw [hlast rfl] at hf
    have : flag' = SUGGEST_SKIP := by
      rcases hf with h | ⟨h, _⟩
      · exact h
      · exact absurd h (by decide)
    subst this
    exact ⟨[], h0, rfl⟩
  | @next flag m l nd st nodes hne h hs ih =>
    intro hfl flag' hf hv hw _ hlast
    obtain ⟨rs1, r, rs2, rfl, hm, _⟩ := h
    have hmem : r ∈ rs1 ++ r :: rs2 := by simp
    have left : Valid (m ++ l) := fun c hc => hv c (List.mem_append_left _ hc)
    have left' : Tidy (m ++ l) := fun c hc => hw c (List.mem_append_left _ hc)
    have right : Valid (l ++ w) := fun c hc => hv c (by rw [List.append_assoc]; exact List.mem_append_right _ hc)
    have right' : Tidy (l ++ w) := fun c hc => hw c (by rw [List.append_assoc]; exact List.mem_append_right _ hc)
    have hl : Valid l := fun c hc => right c (List.mem_append_left _ hc)
    have hl' : Tidy l := fun c hc => right' c (List.mem_append_left _ hc)
    have hw0 : Valid w := fun c hc => right c (List.mem_append_right _ hc)
    have hw0' : Tidy w := fun c hc => right' c (List.mem_append_right _ hc)
    have hfl' : flag' ∈ [SUGGEST_SKIP, SUGGEST_NOT_SKIP] := by
      rcases hf with rfl | ⟨_, rfl⟩
      · exact hfl
      · simp
    obtain ⟨F1, h1, h2⟩ := Clean.regular ((certified hc).clean (roots_covered hr hmem hfl) left left')
    obtain ⟨F2, h1', h2'⟩ := Clean.regular ((certified hc).clean (roots_covered hr hmem hfl') hv hw)
    have up : ∀ {F f l}, F ≤ max F1 F2 → Spec.run g.env F r f l ≠ .oof → Spec.run g.env F r f l ≠ .risky →
        Spec.run g.env (max F1 F2) r f l ≠ .oof ∧ Spec.run g.env (max F1 F2) r f l ≠ .risky := by
      intro F f l hF h1 h2
      rcases Spec.run_le g.env F _ hF r f l with e | e
      · exact absurd e h1
      · rw [e]; exact ⟨h1, h2⟩
    obtain ⟨h1, h2⟩ := up (Nat.le_max_left _ _) h1 h2
    obtain ⟨h1', h2'⟩ := up (Nat.le_max_right _ _) h1' h2'
    have hfd := found_of_matches (fuel := max F1 F2) left hm
    cases hx : Spec.run g.env (max F1 F2) r flag (m ++ l) with
    | oof => exact absurd hx h1
    | risky => exact absurd hx h2
    | fail n st => rw [hx] at hfd; exact hfd.elim
    | ambiguous n => rw [hx] at hfd; exact hfd.elim
    | hit nd' u' n st' =>
      rw [hx] at hfd
      obtain ⟨rfl, rfl, rfl⟩ := hfd
      have hmore : begins (t.moreOf r) ((m ++ l).drop m.length ++ w) = false := by
        rw [List.drop_left]
        have key : l ++ w = [] ∨ ∃ x ∈ rs1 ++ r :: rs2, begins (t.firstOf x) (l ++ w) = true := by
          rcases hbeg (reads_of_document hc hr hs (flagNext_mem _) hl hl') hl hl' with rfl | ⟨r', hr', h⟩
          · rw [List.nil_append]; exact hbeg h0 hw0 hw0'
          · exact .inr ⟨r', hr', begins_left w h⟩
        rcases key with e | ⟨r', hr', h⟩
        · rw [e]; rfl
        · exact Shape.begins_apart ((hdec r hmem).2 r' hr') h
      have hgr := run_grow hD hB hE (w := w) (max F1 F2) hf (hdec r hmem).1 (blanklessL_mem hb hmem) (eoflessL_mem hef hmem) hv hw hx hmore
      cases hy : Spec.run g.env (max F1 F2) r flag' (m ++ l ++ w) with
      | oof => exact absurd hy h1'
      | risky => exact absurd hy h2'
      | fail n st => rw [hy] at hgr; exact hgr.elim
      | ambiguous n => rw [hy] at hgr; exact hgr.elim
      | hit nd2 u2 n2 st2 =>
        rw [hy] at hgr
        obtain ⟨e1, rfl, e3⟩ := hgr
        obtain ⟨nds, e4, e5⟩ := ih (flagNext_mem _) (Relax.next e3) right right' (by
          rintro rfl
          have : nd'.sticky = false := hlast nd' rfl
          rw [run_sticky hx] at this
          rw [this]; rfl) (by
          intro x hx
          refine hlast x ?_
          cases nodes with
          | nil => cases hx
          | cons y ys => rw [List.getLast?_cons_cons]; exact hx)
        refine ⟨nd2 :: nds, ?_, by simp only [bareL, e1, e5]⟩
        rw [List.cons_append]
        refine .next (by intro h; exact hne (List.append_eq_nil_iff.1 h).1) hmem (run_derives hv hy) ?_
        rw [List.append_assoc, List.drop_left]
        exact e4

theorem eofless_roots {g : Grammar} (h : EoflessGrammar g) : eoflessL (g.roots.map (·.rule)) = true := by
  have key : ∀ rs : List Record, (∀ rc ∈ rs, eofless rc.rule = true) → eoflessL (rs.map (·.rule)) = true := by
    intro rs
    induction rs with
    | nil => intro _; rfl
    | cons r rs ih =>
      intro hr
      simp only [List.map_cons, eoflessL, Bool.and_eq_true]
      exact ⟨hr r List.mem_cons_self, ih fun x hx => hr x (List.mem_cons_of_mem _ hx)⟩
  exact key _ fun rc hr => h rc (List.mem_append_right _ hr)

/-- `EvalRaw` accepts the text, the maps being visited in some order, with these trees. -/
def Accepts (g : Grammar) (text : List Rune) (nodes : List Node) : Prop :=
  ∃ fuel sch s', sch.Fair ∧ g.evalRaw fuel sch (Stream.ofChars text) = .ok (.ok nodes, s')

/-- **C82**, acceptance, a document and what comes after it.  In a grammar without blocks and `EOF`, no literal and no range of which contains white
space, and in which one character decides: if the last tree of a document is not sticky, the document followed by another is accepted, in whatever
order the maps are visited, and its trees are those of the two, apart from positions and stickiness. -/
theorem C82_together_partial {c : Certificate} {t : Sets} {g : Grammar} (hc : c.ok g = true) (ht : t.ok g = true)
    (hr : c.rootsOk (g.roots.map (·.rule)) = true) (hr' : t.rootsOk (g.roots.map (·.rule)) = true) (hg : BlanklessGrammar false g)
    (he : EoflessGrammar g) {d1 d2 : List Rune} (hv : Valid (d1 ++ d2)) (hw : Tidy (d1 ++ d2)) (hne1 : d1 ≠ []) (hne2 : d2 ≠ [])
    {nodes1 nodes2 : List Node} (h1 : Accepts g d1 nodes1) (h2 : Accepts g d2 nodes2)
    (hlast : ∀ nd, nodes1.getLast? = some nd → nd.sticky = false) :
    (∃ fuel, ∀ sch : Sched, sch.Fair → ∃ y s', g.evalRaw fuel sch (Stream.ofChars (d1 ++ d2)) = .ok (y, s')) ∧
    ∀ fuel sch, sch.Fair → ∀ y s', g.evalRaw fuel sch (Stream.ofChars (d1 ++ d2)) = .ok (y, s') →
      ∃ nodes, y = .ok nodes ∧ nodes.map Node.bare = nodes1.map Node.bare ++ nodes2.map Node.bare ∧
        nodes.getLast?.map Node.erase = nodes2.getLast?.map Node.erase := by
  obtain ⟨fuel1, sch1, s1, hf1, h1⟩ := h1
  obtain ⟨fuel2, sch2, s2, hf2, h2⟩ := h2
  have hv1 : Valid d1 := fun c hc => hv c (List.mem_append_left _ hc)
  have hw1 : Tidy d1 := fun c hc => hw c (List.mem_append_left _ hc)
  have hv2 : Valid d2 := fun c hc => hv c (List.mem_append_right _ hc)
  have hw2 : Tidy d2 := fun c hc => hw c (List.mem_append_right _ hc)
  have e2 := (C59_document hc ht hr hr' hv2 hw2 hne2).1 _ _ hf2 _ _ h2
  have hd := C24_document_partial hf1 (ready_ofChars hv1) (by rw [rem_ofChars]; exact hne1) (by rw [rem_ofChars]; exact C58_orderly hc hr hv1 hw1) h1
  simp only [rem_ofChars] at hd
  obtain ⟨nds, hreads, hbare⟩ := reads_grow hc ht hr hr' (blankless_env hg) (eofless_env he) (blankless_roots hg) (eofless_roots he) e2 hd
    (by simp) (.inl rfl) hv hw (fun _ => rfl) (by
      intro nd hnd
      rw [List.getLast?_map] at hnd
      cases hx : nodes1.getLast? with
      | none => rw [hx] at hnd; cases hnd
      | some x =>
        rw [hx] at hnd
        simp only [Option.map_some, Option.some.injEq] at hnd
        subst hnd
        have := hlast x hx
        obtain ⟨_, _, _, _, _, _, _, _, _⟩ := x
        exact this)
  obtain ⟨h3, h4, _⟩ := (C59_document hc ht hr hr' hv hw (by intro h; exact hne1 (List.append_eq_nil_iff.1 h).1)).2 _ hreads
  have hn2 : nodes2 ≠ [] := by
    rintro rfl
    cases e2
    exact hne2 rfl
  refine ⟨h3, fun fuel sch hf y s' hy => ?_⟩
  obtain ⟨nodes, rfl, e⟩ := h4 fuel sch hf y s' hy
  refine ⟨nodes, rfl, ?_, ?_⟩
  · rw [← bareL_erase, e, bareL_append, hbare, bareL_erase, bareL_erase]
  · rw [← List.getLast?_map, e, List.getLast?_append, List.getLast?_map]
    cases hx : nodes2.getLast? with
    | none => rw [List.getLast?_eq_none_iff] at hx; exact absurd hx hn2
    | some x => rfl

/-- Any number of documents, all but the last of which end in a tree that is not sticky. -/
theorem C82_many_partial {c : Certificate} {t : Sets} {g : Grammar} (hc : c.ok g = true) (ht : t.ok g = true)
    (hr : c.rootsOk (g.roots.map (·.rule)) = true) (hr' : t.rootsOk (g.roots.map (·.rule)) = true) (hg : BlanklessGrammar false g)
    (he : EoflessGrammar g) {ds : List (List Rune × List Node)} : ds ≠ [] →
    (∀ d ∈ ds, Valid d.1 ∧ Tidy d.1 ∧ d.1 ≠ [] ∧ Accepts g d.1 d.2) →
    (∀ d ∈ ds.dropLast, ∀ nd, d.2.getLast? = some nd → nd.sticky = false) →
    ∃ nodes, Accepts g (ds.map (·.1)).flatten nodes ∧ nodes.map Node.bare = (ds.map fun d => d.2.map Node.bare).flatten := by
  induction ds with
  | nil => intro h; exact absurd rfl h
  | cons d ds ih =>
    intro _ hd hlast
    obtain ⟨hv, hw, hne, hacc⟩ := hd d (by simp)
    cases ds with
    | nil => exact ⟨d.2, by simpa using hacc, by simp⟩
    | cons d' ds =>
      have hd' : ∀ x ∈ d' :: ds, Valid x.1 ∧ Tidy x.1 ∧ x.1 ≠ [] ∧ Accepts g x.1 x.2 := fun x hx => hd x (List.mem_cons_of_mem _ hx)
      obtain ⟨nodes, hacc', hn⟩ := ih (by simp) hd' (fun x hx => hlast x (by
        rw [List.dropLast_cons_cons]; exact List.mem_cons_of_mem _ hx))
      have hv' : Valid (d.1 ++ ((d' :: ds).map (·.1)).flatten) := by
        intro c hc
        rcases List.mem_append.1 hc with hc | hc
        · exact hv c hc
        · obtain ⟨m, hm, hc⟩ := List.mem_flatten.1 hc
          obtain ⟨x, hx, rfl⟩ := List.mem_map.1 hm
          exact (hd' x hx).1 c hc
      have hw' : Tidy (d.1 ++ ((d' :: ds).map (·.1)).flatten) := by
        intro c hc
        rcases List.mem_append.1 hc with hc | hc
        · exact hw c hc
        · obtain ⟨m, hm, hc⟩ := List.mem_flatten.1 hc
          obtain ⟨x, hx, rfl⟩ := List.mem_map.1 hm
          exact (hd' x hx).2.1 c hc
      have hne' : ((d' :: ds).map (·.1)).flatten ≠ [] := by
        rw [List.map_cons, List.flatten_cons]
        intro h
        exact (hd' d' (by simp)).2.2.1 (List.append_eq_nil_iff.1 h).1
      obtain ⟨⟨fuel, h1⟩, h2⟩ := C82_together_partial hc ht hr hr' hg he hv' hw' hne hne' hacc hacc' (hlast d (by simp))
      obtain ⟨_, sch, _, hf, _⟩ := hacc
      obtain ⟨y, s', h1⟩ := h1 sch hf
      obtain ⟨nodes', rfl, h3, _⟩ := h2 fuel sch hf y s' h1
      refine ⟨nodes', ⟨fuel, sch, s', hf, by rw [List.map_cons, List.flatten_cons]; exact h1⟩, ?_⟩
      rw [h3, hn, List.map_cons (a := d), List.flatten_cons]

/-! ### Cases -/

/-- `r = "set" 1*{'a' - 'z'} "="  1*{'0' - '9'} ";"`, a record with an end that is not sticky. -/
def recordGrammar : Grammar :=
  let letters : Rule := .rep {} (.range {} 97 false 122 false) 1 0
  let digits : Rule := .rep {} (.range {} 48 false 57 false) 1 0
  let r : Rule := .concat { name := runes "r" } [letters, .str {} (runes "="), digits, .str {} (runes ";")]
  { records := [⟨runes "r", r, 1⟩], roots := [⟨runes "r", r, 1⟩], terminals := [⟨runes "r", r, 1⟩], maxLine := 1 }

theorem recordGrammar_fits : ((certify recordGrammar 4).ok recordGrammar = true ∧ (certify recordGrammar 4).rootsOk (recordGrammar.roots.map (·.rule)) = true) ∧
    ((Sets.infer recordGrammar 4).ok recordGrammar = true ∧ (Sets.infer recordGrammar 4).rootsOk (recordGrammar.roots.map (·.rule)) = true) ∧
    (recordGrammar.records ++ recordGrammar.roots).all (fun rc => blankless false rc.rule && eofless rc.rule) = true := by decide +kernel

/-- What `EvalRaw` does with a text: the names and stickiness of the trees. -/
def rawTrees (g : Grammar) (l : List Rune) : Option (List (List Rune × Bool)) :=
  match g.evalRaw 60 forward (Stream.ofChars l) with
  | .ok (.ok ns, _) => some (ns.map fun n => (n.name, n.sticky))
  | _ => none

/-- Non-vacuity: a record is a document, its tree is not sticky, and two of them with a line end between are one. -/
example : rawTrees recordGrammar (runes "ab = 12;") = some [(runes "r", false)] ∧ rawTrees recordGrammar (runes "\nc=3 ;") = some [(runes "r", false)] ∧
    rawTrees recordGrammar (runes "ab = 12;\nc=3 ;") = some [(runes "r", false), (runes "r", false)] := by decide +kernel

/-- A file of any number of records is accepted. -/
example {ds : List (List Rune × List Node)} (hne : ds ≠ []) (hd : ∀ d ∈ ds, Valid d.1 ∧ Tidy d.1 ∧ d.1 ≠ [] ∧ Accepts recordGrammar d.1 d.2)
    (hlast : ∀ d ∈ ds.dropLast, ∀ nd, d.2.getLast? = some nd → nd.sticky = false) :
    ∃ nodes, Accepts recordGrammar (ds.map (·.1)).flatten nodes ∧ nodes.map Node.bare = (ds.map fun d => d.2.map Node.bare).flatten := by
  obtain ⟨h1, h2, h3⟩ := recordGrammar_fits
  simp only [List.all_eq_true, Bool.and_eq_true] at h3
  exact C82_many_partial h1.1 h2.1 h1.2 h2.2 (fun rc hrc => (h3 rc hrc).1) (fun rc hrc => (h3 rc hrc).2) hne hd hlast

/-- `a = 'x'`, `b = {'y'} ';'` -/
def stickyEnds : Grammar :=
  let a : Rule := .char { name := runes "a" } 120 false
  let b : Rule := .concat { name := runes "b" } [.rep {} (.char {} 121 false) 0 0, .char {} 59 false]
  { records := [⟨runes "a", a, 1⟩, ⟨runes "b", b, 2⟩], roots := [⟨runes "a", a, 1⟩, ⟨runes "b", b, 2⟩],
    terminals := [⟨runes "a", a, 1⟩, ⟨runes "b", b, 2⟩], maxLine := 2 }

theorem stickyEnds_fits : ((certify stickyEnds 4).ok stickyEnds = true ∧ (certify stickyEnds 4).rootsOk (stickyEnds.roots.map (·.rule)) = true) ∧
    ((Sets.infer stickyEnds 4).ok stickyEnds = true ∧ (Sets.infer stickyEnds 4).rootsOk (stickyEnds.roots.map (·.rule)) = true) ∧
    (stickyEnds.records ++ stickyEnds.roots).all (fun rc => blankless false rc.rule && eofless rc.rule) = true := by decide +kernel

/-- After a sticky tree it is otherwise: `x` and `y y;` are documents, `xy y;` is none, and neither is `x` on two lines, though `x` twice on one
line is. -/
theorem C82_counterexample : rawTrees stickyEnds (runes "x") = some [(runes "a", true)] ∧ rawTrees stickyEnds (runes "y y;") = some [(runes "b", true)] ∧
    rawTrees stickyEnds (runes "xy y;") = none ∧ rawTrees stickyEnds (runes "\nx") = some [(runes "a", true)] ∧ rawTrees stickyEnds (runes "x\nx") = none ∧
    rawTrees stickyEnds (runes "xx") = some [(runes "a", true), (runes "a", true)] := by decide +kernel

/-- `a = "x" EOF`: the one rule a document can be read with, and no two documents are one. -/
def oneOnly : Grammar :=
  let a : Rule := .concat { name := runes "a" } [.str {} (runes "x"), .eof {}]
  { records := [⟨runes "a", a, 1⟩], roots := [⟨runes "a", a, 1⟩], terminals := [⟨runes "a", a, 1⟩], maxLine := 1 }

/-- Without the condition on `EOF` the claim is false: `x` is a document, `xx` is none. -/
theorem C82_end_counterexample : (rawTrees oneOnly (runes "x")).isSome = true ∧ rawTrees oneOnly (runes "xx") = none := by decide +kernel

end Xbnf.Props
