import Verif.Spec.Bare
import Verif.Spec.Spacing
import Verif.Lemmas.Language
import Verif.Props.Yield
/-
Two texts with the same characters apart from white space: what can be read as a rule in both is read
the same way in both, unless in one of them it could go on.
-/
namespace Xbnf.Spec.Unspaced
open Props

theorem bareL_eq_map (ns : List Node) : bareL ns = ns.map Node.bare := by
  induction ns with
  | nil => rfl
  | cons n ns ih => rw [bareL, ih, List.map_cons]

theorem bare_inner (rt : RType) (b : RuleBase) (st : Bool) (cs : List Node) : (inner rt b st cs).bare = inner rt b false (bareL cs) := by
  rw [Node.bare.eq_def]; rfl

theorem bare_flip (b : RuleBase) (n : Node) : (flip b n).bare = flip b n.bare := by
  obtain ⟨rt, nm, ch, cs, p, st, v, nd, tk⟩ := n
  rw [flip, Node.bare, Node.bare, flip]

theorem bareL_one {n n' : Node} (h : n.bare = n'.bare) : bareL [n] = bareL [n'] := by
  simp only [bareL, h]

/-- Only the characters that are no white space matter for what a text begins with. -/
theorem begins_solid (s : CharSet) (l : List Rune) : begins s l = match solid l with | [] => false | c :: _ => s.has c := by
  unfold begins
  induction l with
  | nil => rfl
  | cons c l ih =>
    rw [List.dropWhile_cons]
    unfold solid at ih ⊢
    rw [List.filter_cons]
    cases hc : isWhiteSpace c
    · rfl
    · simpa using ih

theorem begins_same {l l' : List Rune} (h : solid l = solid l') (s : CharSet) : begins s l = begins s l' := by
  rw [begins_solid, begins_solid, h]

theorem blanks_solid {l : List Rune} (h : blanks l = l.length) : solid l = [] := by
  have h1 : l.takeWhile isWhiteSpace = l := (List.takeWhile_prefix _).eq_of_length h
  apply solid_white
  intro c hc
  rw [← h1] at hc
  exact List.all_eq_true.1 List.all_takeWhile c hc

/-- How many characters a terminal stands for. -/
def wide : Rule → Nat
  | .char _ _ _ | .range _ _ _ _ _ => 1
  | .chars _ t | .str _ t => t.length
  | _ => 0

/-- Whether a terminal is sticky. -/
def stays : Rule → Bool
  | .str _ _ => false
  | _ => true

/-- The node of a terminal that stands for `w`. -/
def spot (w : List Rune) : Rule → Node
  | .eof b => { ruleType := .eof, name := runes "EOF", chars := [EOFChar], sticky := true, virt := b.virt, nonData := b.nondata, tokenized := b.tokenized }
  | .char b _ _ => leaf .char b true w
  | .range b _ _ _ _ => leaf .chars b true w
  | .chars b _ => leaf .chars b true w
  | .str b _ => leaf .string b false w
  | _ => { ruleType := .eof }

theorem endsBlank_after {a : List Rune} {c : Rune} {rest : List Rune} (h : isWhiteSpace c = false) : endsBlank (a ++ c :: rest) = endsBlank rest := by
  unfold endsBlank
  cases rest with
  | nil => simp [h]
  | cons d rest =>
    rw [List.getLast?_append, List.getLast?_cons_cons]
    generalize he : (d :: rest).getLast? = e
    cases e with
    | none => simp at he
    | some e => rfl

theorem blank_white {skip : Bool} {l : List Rune} : ∀ c ∈ blank skip l, isWhiteSpace c = true := by
  intro c hc
  unfold blank at hc
  split at hc
  · exact List.all_eq_true.1 List.all_takeWhile c hc
  · cases hc

theorem blank_split (skip : Bool) (l : List Rune) : blank skip l ++ l.drop (blank skip l).length = l := by
  unfold blank
  split
  · have : l.takeWhile isWhiteSpace ++ l.dropWhile isWhiteSpace = l := List.takeWhile_append_dropWhile
    rw [← Shape.drop_blanks] at this
    exact this
  · rfl

theorem solid_blank (skip : Bool) (l : List Rune) : solid l = solid (l.drop (blank skip l).length) := by
  have h := congrArg solid (blank_split skip l)
  rw [solid_append, solid_white blank_white, List.nil_append] at h
  exact h.symm

theorem solid_noWhite {w : List Rune} (h : noWhite w = true) : solid w = w := by
  unfold solid
  rw [List.filter_eq_self]
  exact List.all_eq_true.1 h

theorem one_reads {rt : RType} {b : RuleBase} {skip : Bool} {p : Rune → Bool} {l : List Rune} (hp : ∀ c ∈ l, isWhiteSpace c = true → p c = false)
    {nd u n st} (h : oneAt rt b skip p l = .hit nd u n st) :
    ∃ c, solid l = c :: solid (l.drop u) ∧ nd = leaf rt b true [c] ∧ st = true ∧ endsBlank (l.drop u) = endsBlank l := by
  have hs := blank_split skip l
  unfold oneAt at h
  simp only at h
  split at h
  · rename_i i hi
    exfalso
    obtain ⟨hlt, hp1, _⟩ := List.findIdx?_eq_some_iff_getElem.1 hi
    have hm := List.getElem_mem hlt
    generalize (blank skip l)[i] = ci at hm hp1
    rw [hp _ (by rw [← hs]; exact List.mem_append_left _ hm) (blank_white _ hm)] at hp1
    cases hp1
  · split at h
    · cases h
    · rename_i c rest hd
      split at h
      · rename_i hpc
        simp only [Ans.hit.injEq] at h
        obtain ⟨rfl, rfl, _, rfl⟩ := h
        have hw : isWhiteSpace c = false := by
          cases hw : isWhiteSpace c with
          | false => rfl
          | true =>
            rw [hp c (by rw [← hs, hd]; simp) hw] at hpc
            cases hpc
        refine ⟨c, ?_, rfl, rfl, ?_⟩
        · rw [solid_blank skip l, ← List.drop_drop, hd]
          simp [solid, hw]
        · rw [← List.drop_drop, hd]
          have : l = blank skip l ++ c :: rest := by rw [← hd, hs]
          conv => rhs; rw [this]
          rw [endsBlank_after hw]; rfl
      · cases h

theorem text_reads {rt : RType} {b : RuleBase} {skip sticky : Bool} {text l : List Rune} (hw : noWhite text = true) (hne : text ≠ [])
    {nd u n st} (h : textAt rt b sticky skip text l = .hit nd u n st) :
    solid l = text ++ solid (l.drop u) ∧ nd = leaf rt b sticky text ∧ st = sticky ∧ endsBlank (l.drop u) = endsBlank l := by
  unfold textAt at h
  have hlead : (if skip = true then text.takeWhile isWhiteSpace else []) = [] := by
    split
    · cases text with
      | nil => rfl
      | cons c text =>
        simp only [noWhite, List.all_cons, Bool.and_eq_true, Bool.not_eq_true'] at hw
        rw [List.takeWhile_cons, if_neg (by simp [hw.1])]
    · rfl
  simp only [hlead, List.length_nil, List.drop_zero] at h
  split at h
  · cases h
  · split at h
    · split at h
      · rename_i hpre
        simp only [Ans.hit.injEq] at h
        obtain ⟨rfl, rfl, _, rfl⟩ := h
        obtain ⟨z, hz⟩ := List.isPrefixOf_iff_prefix.1 hpre
        refine ⟨?_, rfl, rfl, ?_⟩
        · rw [solid_blank skip l, ← List.drop_drop, ← hz, solid_append, solid_noWhite hw, List.drop_left]
        · have hl : l = (blank skip l ++ text.dropLast) ++ text.getLast hne :: z := by
            conv => lhs; rw [← blank_split skip l, ← hz, ← List.dropLast_concat_getLast hne]
            simp
          have hc : isWhiteSpace (text.getLast hne) = false := by
            have := List.all_eq_true.1 hw _ (List.getLast_mem hne)
            simpa using this
          conv => rhs; rw [hl]
          rw [endsBlank_after hc, ← List.drop_drop, ← hz, List.drop_left]
      · cases h
    · cases h

theorem terminal_reads {env : Env} {r : Rule} {flag : Int} {l : List Rune} (hv : Valid l) (ht : Tidy l) {nd u st}
    (hm : Matches env r flag l nd u st) (htm : terminal r = true) {t : Sets} (hd : t.decides r = true) (hb : blankless false r = true) :
    ∃ w, solid l = w ++ solid (l.drop u) ∧ w.length = wide r ∧ nd = spot w r ∧ st = stays r ∧
      (if wide r = 0 then l.drop u = [] else endsBlank (l.drop u) = endsBlank l) := by
  have hg := found_of_matches (fuel := 1) hv hm
  have hone : ∀ rt b skip p, oneAt rt b skip p l ≠ .oof ∧ oneAt rt b skip p l ≠ .risky := by
    intro rt b skip p
    unfold oneAt
    simp only
    split
    · exact ⟨nofun, nofun⟩
    · split
      · exact ⟨nofun, nofun⟩
      · split <;> exact ⟨nofun, nofun⟩
  have htext : ∀ rt b s skip text, textAt rt b s skip text l ≠ .oof ∧ textAt rt b s skip text l ≠ .risky := by
    intro rt b s skip text
    unfold textAt
    simp only
    repeat' split
    all_goals exact ⟨nofun, nofun⟩
  have found : ∀ {a : Ans}, Found nd u st a → a ≠ .oof ∧ a ≠ .risky → ∃ n, a = .hit nd u n st := by
    intro a ha h
    cases a with
    | oof => exact absurd rfl h.1
    | risky => exact absurd rfl h.2
    | fail n s => exact ha.elim
    | ambiguous n => exact ha.elim
    | hit nd' u' n s => obtain ⟨rfl, rfl, rfl⟩ := ha; exact ⟨n, rfl⟩
  cases r <;> try (cases htm; done)
  · rename_i b
    simp only [Spec.run] at hg
    obtain ⟨n, h⟩ := found hg (by unfold eofAt; simp only; split <;> exact ⟨nofun, nofun⟩)
    unfold eofAt at h
    simp only at h
    split at h
    · rename_i hnil
      simp only [Ans.hit.injEq] at h
      obtain ⟨rfl, rfl, _, rfl⟩ := h
      exact ⟨[], by rw [List.nil_append]; exact solid_blank _ l, rfl, rfl, rfl, hnil⟩
    · cases h
  · rename_i b c us
    simp only [Spec.run] at hg
    simp only [Sets.decides, decide_eq_true_eq] at hd
    rw [if_neg (by intro h; rw [h] at hd; exact absurd hd (by decide))] at hg
    obtain ⟨n, h⟩ := found hg (hone _ _ _ _)
    simp only [blankless, Bool.not_eq_true'] at hb
    obtain ⟨c', h1, rfl, rfl, h2⟩ := one_reads (by
      intro c' _ hw
      rw [beq_eq_false_iff_ne]
      rintro rfl
      rw [hb] at hw; cases hw) h
    exact ⟨[c'], h1, rfl, rfl, rfl, h2⟩
  · rename_i b x xu y yu
    simp only [Spec.run] at hg
    simp only [Sets.decides, decide_eq_true_eq] at hd
    have hwhite : ∀ c ∈ l, isWhiteSpace c = true → between x y c = false := by
      intro c hc hw
      have := ht c hc hw
      unfold between
      rw [decide_eq_false (by unfold Rune at *; omega)]; rfl
    rw [if_neg (by
      rintro (h | h)
      · unfold Rune at *; omega
      · obtain ⟨c, hc, h⟩ := List.any_eq_true.1 h
        have hc' : c ∈ l := by rw [← blank_split (decide (flag = SUGGEST_SKIP)) l]; exact List.mem_append_left _ hc
        rw [hwhite c hc' (blank_white c hc)] at h
        have := ht c hc' (blank_white c hc)
        rw [decide_eq_false (by unfold Rune at *; omega)] at h
        cases h)] at hg
    obtain ⟨n, h⟩ := found hg (hone _ _ _ _)
    obtain ⟨c', h1, rfl, rfl, h2⟩ := one_reads hwhite h
    exact ⟨[c'], h1, rfl, rfl, rfl, h2⟩
  · rename_i b s
    simp only [Spec.run] at hg
    obtain ⟨n, h⟩ := found hg (htext _ _ _ _ _)
    have hne : s ≠ [] := by rintro rfl; cases hd
    obtain ⟨h1, rfl, rfl, h2⟩ := text_reads hb hne h
    exact ⟨s, h1, rfl, rfl, rfl, by rw [if_neg (by simpa [wide] using hne)]; exact h2⟩
  · rename_i b s
    simp only [Spec.run] at hg
    obtain ⟨n, h⟩ := found hg (htext _ _ _ _ _)
    have hne : s ≠ [] := by rintro rfl; cases hd
    obtain ⟨h1, rfl, rfl, h2⟩ := text_reads hb hne h
    exact ⟨s, h1, rfl, rfl, rfl, by rw [if_neg (by simpa [wide] using hne)]; exact h2⟩

/-! ### Two readings -/

/-- With which characters a reading of the goal could go on. -/
def goalMore (t : Sets) : Goal → CharSet
  | .one r => t.moreOf r
  | .parts rs => t.moreSeq rs
  | .rounds r => (t.firstOf r).union (t.moreOf r)

/-- One character decides in the goal, and no white space is written in it. -/
def goalOk (t : Sets) : Goal → Bool
  | .one r => t.decides r && blankless false r
  | .parts rs => t.decidesSeq rs && blanklessL false rs
  | .rounds r => t.decides r && !nulB t.nullable r && (t.firstOf r).apart (t.moreOf r) && blankless false r

/-- The same trees, and the same left over. -/
def Same (nds nds' : List Node) (m m' : List Rune) : Prop := bareL nds = bareL nds' ∧ solid m = solid m'

theorem blanklessL_mem {rs : List Rule} (h : blanklessL false rs = true) {r : Rule} (hr : r ∈ rs) : blankless false r = true := by
  induction rs with
  | nil => cases hr
  | cons r' rs ih =>
    rw [blanklessL, Bool.and_eq_true] at h
    rcases List.mem_cons.1 hr with rfl | hr
    · exact h.1
    · exact ih h.2 hr

theorem blanklessLL_mem {gs : List (List Rule)} (h : blanklessLL false gs = true) {r : Rule} (hr : r ∈ gs.flatten) : blankless false r = true := by
  induction gs with
  | nil => cases hr
  | cons g gs ih =>
    rw [blanklessLL, Bool.and_eq_true] at h
    rw [List.flatten_cons, List.mem_append] at hr
    rcases hr with hr | hr
    · exact blanklessL_mem h.1 hr
    · exact ih h.2 hr

theorem begins_of_one {env : Env} {t : Sets} (hD : Decided t env) {r : Rule} (hd : t.decides r = true) (hn : nulB t.nullable r = false)
    {flag l nds u st} (h : Derives env (.one r) flag l nds u st) (hv : Valid l) (ht : Tidy l) : begins (t.firstOf r) l = true := by
  rcases begins_of_derives hD h hv ht hd with h | h
  · exact h
  · rw [hn] at h; cases h.1

/-- What comes after a part that could go on is nothing. -/
theorem parts_end {env : Env} {t : Sets} (hD : Decided t env) {r : Rule} {rs : List Rule} (hap : (t.firstSeq rs).apart (t.moreOf r) = true)
    (hd : t.decidesSeq rs = true) {flag l nds u v st} (hs : Derives env (.parts rs) flag (l.drop u) nds v st) (hv : Valid l) (ht : Tidy l)
    (hm : begins (t.moreOf r) (l.drop u) = true) : begins (t.moreSeq (r :: rs)) (l.drop (u + v)) = true := by
  rcases begins_of_derives hD hs (hv.drop u) (ht.drop u) hd with h | ⟨h1, rfl | h2⟩
  · rw [Shape.begins_apart hap h] at hm; cases hm
  · rw [Sets.moreSeq, if_pos h1, Shape.begins_union, Nat.add_zero, hm]; rfl
  · rw [Shape.begins_all_blank h2] at hm; cases hm

theorem rounds_end {env : Env} {t : Sets} (hD : Decided t env) {r : Rule} (hap : (t.firstOf r).apart (t.moreOf r) = true)
    (hd : t.decides r = true) (hn : nulB t.nullable r = false) {flag l nds u v st} (hs : Derives env (.rounds r) flag (l.drop u) nds v st)
    (hv : Valid l) (ht : Tidy l) (hm : begins (t.moreOf r) (l.drop u) = true) :
    begins ((t.firstOf r).union (t.moreOf r)) (l.drop (u + v)) = true := by
  rcases begins_of_derives hD hs (hv.drop u) (ht.drop u) hd hn with h | ⟨_, rfl⟩
  · rw [Shape.begins_apart hap h] at hm; cases hm
  · rw [Shape.begins_union, Nat.add_zero, hm]; simp

theorem moreSeq_tail {t : Sets} {r : Rule} {rs : List Rule} {l : List Rune} (h : begins (t.moreSeq rs) l = true) :
    begins (t.moreSeq (r :: rs)) l = true := by
  rw [Sets.moreSeq]
  split
  · rw [Shape.begins_union, h]; simp
  · exact h

/-- Texts with the same characters apart from white space, both read as the goal: the readings are the
same, unless one of them could go on. -/
theorem agree {env : Env} {t : Sets} (hD : Decided t env) (hB : BlanklessEnv false env) {g flag l nds u st}
    (h : Derives env g flag l nds u st) : Valid l → Tidy l → goalOk t g = true → ∀ {flag' l' nds' u' st'},
    Derives env g flag' l' nds' u' st' → Valid l' → Tidy l' → solid l = solid l' →
    Same nds nds' (l.drop u) (l'.drop u') ∨ begins (goalMore t g) (l.drop u) = true ∨ begins (goalMore t g) (l'.drop u') = true := by
  induction h with
  | @terminal r flag l nd u st htm hm =>
    intro hv ht hok flag' l' nds' u' st' h' hv' ht' hl
    simp only [goalOk, Bool.and_eq_true] at hok
    have h'' : ∃ nd', nds' = [nd'] ∧ Matches env r flag' l' nd' u' st' := by
      cases h' <;> first | exact ⟨_, rfl, by assumption⟩ | cases htm
    obtain ⟨nd', rfl, hm'⟩ := h''
    obtain ⟨w, e1, e2, e3, _⟩ := terminal_reads hv ht hm htm hok.1 hok.2
    obtain ⟨w', e1', e2', e3', _⟩ := terminal_reads hv' ht' hm' htm hok.1 hok.2
    rw [e1, e1'] at hl
    obtain ⟨hw, hl⟩ := List.append_inj hl (e2.trans e2'.symm)
    exact .inl ⟨bareL_one (by rw [e3, e3', hw]), hl⟩
  | block hm ho ih =>
    intro hv ht hok
    simp [goalOk, blankless] at hok
  | @group b r flag l nd u st h ih =>
    intro hv ht hok flag' l' nds' u' st' h' hv' ht' hl
    cases h' with
    | terminal htm _ => cases htm
    | group h' =>
      refine (ih hv ht hok h' hv' ht' hl).imp_left fun h => ⟨?_, h.2⟩
      exact bareL_one (by rw [bare_inner, bare_inner, h.1])
  | @present b r flag l nd u st h ih =>
    intro hv ht hok flag' l' nds' u' st' h' hv' ht' hl
    simp only [goalOk, Sets.decides, blankless, Bool.and_eq_true, Bool.not_eq_true'] at hok
    cases h' with
    | terminal htm _ => cases htm
    | present h' =>
      have hmore : ∀ {m}, begins (t.moreOf r) m = true → begins (goalMore t (.one (.option b r))) m = true := by
        intro m hm
        rw [goalMore, Sets.moreOf, Shape.begins_union, hm]; simp
      rcases ih hv ht (by simp [goalOk, hok]) h' hv' ht' hl with h | h | h
      · refine .inl ⟨?_, h.2⟩
        exact bareL_one (by rw [bare_inner, bare_inner, h.1])
      · exact .inr (.inl (hmore h))
      · exact .inr (.inr (hmore h))
    | absent hst =>
      have hb := begins_of_one hD hok.1.1 hok.1.2 h hv ht
      rw [begins_same hl] at hb
      right; right
      rw [goalMore, Sets.moreOf, Shape.begins_union, List.drop_zero, hb]; simp
  | @absent b r flag l st hst =>
    intro hv ht hok flag' l' nds' u' st' h' hv' ht' hl
    simp only [goalOk, Sets.decides, blankless, Bool.and_eq_true, Bool.not_eq_true'] at hok
    cases h' with
    | terminal htm _ => cases htm
    | present h' =>
      have hb := begins_of_one hD hok.1.1 hok.1.2 h' hv' ht'
      rw [← begins_same hl] at hb
      right; left
      rw [goalMore, Sets.moreOf, Shape.begins_union, List.drop_zero, hb]; simp
    | absent hst =>
      refine .inl ⟨?_, by rw [List.drop_zero, List.drop_zero]; exact hl⟩
      exact bareL_one (by rw [bare_inner, bare_inner])
  | @choice b gs1 rs1 r rs2 gs2 flag l nd u st h f hf ih =>
    intro hv ht hok flag' l' nds' u' st' h' hv' ht' hl
    simp only [goalOk, Sets.decides, blankless, Bool.and_eq_true] at hok
    obtain ⟨⟨hd, hdf⟩, hbl⟩ := hok
    have hmem : r ∈ (gs1 ++ (rs1 ++ r :: rs2) :: gs2).flatten := by simp
    have hsplit : (gs1 ++ (rs1 ++ r :: rs2) :: gs2).flatten = (gs1.flatten ++ rs1) ++ r :: (rs2 ++ gs2.flatten) := by simp
    have hap := differ_apart (by rw [← hsplit]; exact hdf)
    have hother : ∀ r' ∈ (gs1 ++ (rs1 ++ r :: rs2) :: gs2).flatten, r' ≠ r → (t.firstOf r).apart (t.firstOf r') = true := by
      intro r' hr' hne
      rw [hsplit] at hr'
      apply hap
      simp only [List.mem_append, List.mem_cons] at hr' ⊢
      rcases hr' with h | h | h
      · exact .inl h
      · exact absurd h hne
      · exact .inr h
    have hgs : ∃ r' nd0 st0 st1, r' ∈ (gs1 ++ (rs1 ++ r :: rs2) :: gs2).flatten ∧ nds' = [inner .choice b st1 [nd0]] ∧
        Derives env (.one r') flag' l' [nd0] u' st0 := by
      generalize gs1 ++ (rs1 ++ r :: rs2) :: gs2 = gs at h'
      cases h' with
      | terminal htm _ => cases htm
      | choice h' f' hf' => exact ⟨_, _, _, _, by simp, rfl, h'⟩
    obtain ⟨r', nd0, st0, st1, hmem', rfl, hx⟩ := hgs
    by_cases he : r' = r
    · subst he
      rcases ih hv ht (by simp [goalOk, decidesLL_mem hd hmem, blanklessLL_mem hbl hmem]) hx hv' ht' hl with h | h | h
      · refine .inl ⟨?_, h.2⟩
        exact bareL_one (by rw [bare_inner, bare_inner, h.1])
      · exact .inr (.inl (moreLL_mem hmem h))
      · exact .inr (.inr (moreLL_mem hmem h))
    · exfalso
      have h1 := begins_of_one hD (decidesLL_mem hd hmem) (differ_mem hdf hmem) h hv ht
      have h2 := begins_of_one hD (decidesLL_mem hd hmem') (differ_mem hdf hmem') hx hv' ht'
      rw [← begins_same hl, Shape.begins_apart (hother r' hmem' he) h1] at h2
      cases h2
  | @concat b rs flag l nds u st h ih =>
    intro hv ht hok flag' l' nds' u' st' h' hv' ht' hl
    cases h' with
    | terminal htm _ => cases htm
    | concat h' =>
      refine (ih hv ht hok h' hv' ht' hl).imp_left fun h => ⟨?_, h.2⟩
      exact bareL_one (by rw [bare_inner, bare_inner, h.1])
  | @rep b r mn mx flag l nds u st last h hmn hmx hlast ih =>
    intro hv ht hok flag' l' nds' u' st' h' hv' ht' hl
    cases h' with
    | terminal htm _ => cases htm
    | rep h' _ _ _ =>
      refine (ih hv ht hok h' hv' ht' hl).imp_left fun h => ⟨?_, h.2⟩
      exact bareL_one (by rw [bare_inner, bare_inner, h.1])
  | @ref b name r flag l nd u st hr h ih =>
    intro hv ht hok flag' l' nds' u' st' h' hv' ht' hl
    cases h' with
    | terminal htm _ => cases htm
    | ref hr' h' =>
      rw [hr] at hr'
      cases hr'
      obtain ⟨_, _, h3, h4⟩ := hD _ _ hr
      rcases ih hv ht (by simp [goalOk, h4, hB _ _ hr]) h' hv' ht' hl with h | h | h
      · refine .inl ⟨?_, h.2⟩
        have h1 := h.1
        simp only [bareL, List.cons.injEq, and_true] at h1
        exact bareL_one (by rw [bare_flip, bare_flip, h1])
      · exact .inr (.inl (begins_within h3 h))
      · exact .inr (.inr (begins_within h3 h))
  | done =>
    intro hv ht hok flag' l' nds' u' st' h' hv' ht' hl
    cases h' with
    | done => exact .inl ⟨rfl, by rw [List.drop_zero, List.drop_zero]; exact hl⟩
  | @next r rs flag l nd u st nds v st' h hs ih ihs =>
    intro hv ht hok flag' l' nds' u' st' h' hv' ht' hl
    simp only [goalOk, Sets.decidesSeq, blanklessL, Bool.and_eq_true] at hok
    obtain ⟨⟨⟨hd, hap⟩, hds⟩, hb, hbs⟩ := hok
    cases h' with
    | next h' hs' =>
      rcases ih hv ht (by simp [goalOk, hd, hb]) h' hv' ht' hl with h | h | h
      · have h1 := h.1
        simp only [bareL, List.cons.injEq, and_true] at h1
        rcases ihs (hv.drop u) (ht.drop u) (by simp [goalOk, hds, hbs]) hs' (hv'.drop _) (ht'.drop _) h.2 with h | h | h
        · rw [List.drop_drop, List.drop_drop] at h
          exact .inl ⟨by simp only [bareL, h1, h.1], h.2⟩
        · rw [List.drop_drop] at h
          exact .inr (.inl (moreSeq_tail h))
        · rw [List.drop_drop] at h
          exact .inr (.inr (moreSeq_tail h))
      · exact .inr (.inl (parts_end hD hap hds hs hv ht h))
      · exact .inr (.inr (parts_end hD hap hds hs' hv' ht' h))
  | @stop r flag l =>
    intro hv ht hok flag' l' nds' u' st' h' hv' ht' hl
    simp only [goalOk, Bool.and_eq_true, Bool.not_eq_true'] at hok
    cases h' with
    | stop => exact .inl ⟨rfl, by rw [List.drop_zero, List.drop_zero]; exact hl⟩
    | again _ h' hs' =>
      have hb := begins_of_one hD hok.1.1.1 hok.1.1.2 h' hv' ht'
      rw [← begins_same hl] at hb
      right; left
      rw [goalMore, Shape.begins_union, List.drop_zero, hb]; simp
  | @again r flag l nd u st nds v st' hne h hs ih ihs =>
    intro hv ht hok flag' l' nds' u' st' h' hv' ht' hl
    have hok' := hok
    simp only [goalOk, Bool.and_eq_true, Bool.not_eq_true'] at hok
    cases h' with
    | stop =>
      have hb := begins_of_one hD hok.1.1.1 hok.1.1.2 h hv ht
      rw [begins_same hl] at hb
      right; right
      rw [goalMore, Shape.begins_union, List.drop_zero, hb]; simp
    | again _ h' hs' =>
      rcases ih hv ht (by simp [goalOk, hok]) h' hv' ht' hl with h | h | h
      · have h1 := h.1
        simp only [bareL, List.cons.injEq, and_true] at h1
        rcases ihs (hv.drop u) (ht.drop u) hok' hs' (hv'.drop _) (ht'.drop _) h.2 with h | h | h
        · rw [List.drop_drop, List.drop_drop] at h
          exact .inl ⟨by simp only [bareL, h1, h.1], h.2⟩
        · rw [List.drop_drop] at h
          exact .inr (.inl h)
        · rw [List.drop_drop] at h
          exact .inr (.inr h)
      · exact .inr (.inl (rounds_end hD hok.1.2 hok.1.1.1 hok.1.1.2 hs hv ht h))
      · exact .inr (.inr (rounds_end hD hok.1.2 hok.1.1.1 hok.1.1.2 hs' hv' ht' h))

/-- The same for whole texts read as one root after the other. -/
theorem agree_reads {env : Env} {t : Sets} (hD : Decided t env) (hB : BlanklessEnv false env) {roots : List Rule}
    (hr : t.rootsOk roots = true) (hb : blanklessL false roots = true) {flag l nds} (h : Reads env roots flag l nds) : Valid l → Tidy l →
    ∀ {flag' l' nds'}, Reads env roots flag' l' nds' → Valid l' → Tidy l' → solid l = solid l' → bareL nds = bareL nds' := by
  simp only [Sets.rootsOk, Bool.and_eq_true, List.all_eq_true] at hr
  obtain ⟨hdec, hdiff⟩ := hr
  have hbeg : ∀ {flag l nds}, Reads env roots flag l nds → Valid l → Tidy l → l = [] ∨ ∃ r ∈ roots, begins (t.firstOf r) l = true := by
    intro flag l nds h hv ht
    cases h with
    | done => exact .inl rfl
    | next hne hmem h _ => exact .inr ⟨_, hmem, begins_of_one hD (hdec _ hmem).1 (differ_mem hdiff hmem) h hv ht⟩
  have hend : ∀ {r} (_ : r ∈ roots) {flag l nds}, Reads env roots flag l nds → Valid l → Tidy l → begins (t.moreOf r) l = false := by
    intro r hmem flag l nds h hv ht
    rcases hbeg h hv ht with rfl | ⟨r', hr', h⟩
    · rfl
    · exact Shape.begins_apart ((hdec r hmem).2 r' hr') h
  induction h with
  | done =>
    intro _ _ flag' l' nds' h' hv' ht' hl
    cases h' with
    | done => rfl
    | next hne hmem h' _ =>
      have := begins_of_one hD (hdec _ hmem).1 (differ_mem hdiff hmem) h' hv' ht'
      rw [← begins_same hl] at this
      cases this
  | @next r flag l nd u st nodes hne hmem h hs ih =>
    intro hv ht flag' l' nds' h' hv' ht' hl
    have h1 := begins_of_one hD (hdec _ hmem).1 (differ_mem hdiff hmem) h hv ht
    cases h' with
    | done =>
      rw [begins_same hl] at h1
      cases h1
    | @next r' _ _ nd' u' st' nodes' hne' hmem' h' hs' =>
      have h2 := begins_of_one hD (hdec _ hmem').1 (differ_mem hdiff hmem') h' hv' ht'
      have he : r' = r := by
        refine Classical.byContradiction fun he => ?_
        obtain ⟨rs1, rs2, hroots⟩ := List.append_of_mem hmem
        have hap := differ_apart (by rw [← hroots]; exact hdiff) r' (by
          rw [hroots] at hmem'
          simp only [List.mem_append, List.mem_cons] at hmem' ⊢
          rcases hmem' with h | h | h
          · exact .inl h
          · exact absurd h he
          · exact .inr h)
        rw [← begins_same hl, Shape.begins_apart hap h1] at h2
        cases h2
      subst he
      rcases agree hD hB h hv ht (by simp [goalOk, (hdec _ hmem).1, blanklessL_mem hb hmem]) h' hv' ht' hl with h | h | h
      · have h3 := h.1
        simp only [bareL, List.cons.injEq, and_true] at h3
        simp only [bareL, h3, ih (hv.drop u) (ht.drop u) hs' (hv'.drop _) (ht'.drop _) h.2]
      · rw [goalMore, hend hmem hs (hv.drop u) (ht.drop u)] at h; cases h
      · rw [goalMore, hend hmem hs' (hv'.drop _) (ht'.drop _)] at h; cases h

end Xbnf.Spec.Unspaced
