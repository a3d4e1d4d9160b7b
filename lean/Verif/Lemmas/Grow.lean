import Verif.Spec.Joined
import Verif.Lemmas.Joined
import Verif.Lemmas.Alike
import Verif.Props.Terminate
/-
What a rule matches in a text it also matches if the text goes on, unless the match could go on too.
-/
namespace Xbnf.Spec.Unspaced
open Props

variable {env : Env}

/-- `EOF` is not written in the rules that can be referred to. -/
def EoflessEnv (env : Env) : Prop := ∀ n r, env n = some r → eofless r = true

theorem eoflessL_mem {rs : List Rule} (h : eoflessL rs = true) {r : Rule} (hr : r ∈ rs) : eofless r = true := by
  induction rs with
  | nil => cases hr
  | cons r' rs ih =>
    rw [eoflessL, Bool.and_eq_true] at h
    rcases List.mem_cons.1 hr with rfl | hr
    · exact h.1
    · exact ih h.2 hr

theorem eoflessLL_mem {gs : List (List Rule)} (h : eoflessLL gs = true) {r : Rule} (hr : r ∈ gs.flatten) : eofless r = true := by
  induction gs with
  | nil => cases hr
  | cons g gs ih =>
    rw [eoflessLL, Bool.and_eq_true] at h
    rw [List.flatten_cons, List.mem_append] at hr
    rcases hr with hr | hr
    · exact eoflessL_mem h.1 hr
    · exact ih h.2 hr

/-! ### Where a rule cannot begin -/

/-- What is the same where a rule cannot begin in either text, the second of which is not empty unless the first is: no match both times, or a
match of nothing; sticky the second time only if the first time. -/
def Ebb : Ans → Ans → Prop
  | .oof, _ | _, .oof | .risky, _ | _, .risky => True
  | .fail _ st, .fail _ st' => st' = true → st = true
  | .hit nd u _ st, .hit nd' u' _ st' => u = 0 ∧ u' = 0 ∧ nd.bare = nd'.bare ∧ (st' = true → st = true)
  | _, _ => False

/-- No matches, sticky the second time only if the first time. -/
def Ebb0 : Ans → Ans → Prop
  | .oof, _ | _, .oof | .risky, _ | _, .risky => True
  | .fail _ st, .fail _ st' => st' = true → st = true
  | _, _ => False

theorem ebb_l {a a' : Ans} (h : a = .oof ∨ a = .risky) : Ebb a a' := by
  rcases h with rfl | rfl <;> cases a' <;> trivial
theorem ebb_r {a a' : Ans} (h : a' = .oof ∨ a' = .risky) : Ebb a a' := by
  rcases h with rfl | rfl <;> cases a <;> trivial
theorem ebb0_l {a a' : Ans} (h : a = .oof ∨ a = .risky) : Ebb0 a a' := by
  rcases h with rfl | rfl <;> cases a' <;> trivial
theorem ebb0_r {a a' : Ans} (h : a' = .oof ∨ a' = .risky) : Ebb0 a a' := by
  rcases h with rfl | rfl <;> cases a <;> trivial

theorem ebb0_of_ebb {a a' : Ans} (h : Ebb a a') (h1 : ∀ nd u n st, a ≠ .hit nd u n st) : Ebb0 a a' := by
  cases a <;> cases a' <;> first | exact h | trivial | exact absurd rfl (h1 _ _ _ _) | skip

theorem ebb_of_ebb0 {a a' : Ans} (h : Ebb0 a a') : Ebb a a' := by
  cases a <;> cases a' <;> first | exact h | trivial | exact h.elim

theorem altsAt_ebb {run : Runner} {flag flag' : Int} {l l' : List Rune} {rs : List Rule} (h : ∀ r ∈ rs, Ebb0 (run r flag l) (run r flag' l')) :
    ∀ {look look' sticky sticky'}, (sticky' = true → sticky = true) →
      altsAt run flag l rs look sticky = .oof ∨ altsAt run flag l rs look sticky = .risky ∨
      altsAt run flag' l' rs look' sticky' = .oof ∨ altsAt run flag' l' rs look' sticky' = .risky ∨
      ∃ k k' s s', altsAt run flag l rs look sticky = .ok [] k s ∧ altsAt run flag' l' rs look' sticky' = .ok [] k' s' ∧ (s' = true → s = true) := by
  induction rs with
  | nil => intro look look' sticky sticky' hs; exact .inr (.inr (.inr (.inr ⟨_, _, _, _, rfl, rfl, hs⟩)))
  | cons r rs ih =>
    intro look look' sticky sticky' hs
    have ih := @ih (fun r' hr' => h r' (List.mem_cons_of_mem _ hr'))
    have hr := h r (by simp)
    rw [altsAt, altsAt]
    generalize run r flag l = a at hr
    generalize run r flag' l' = a' at hr
    cases a <;> cases a' <;> first | exact hr.elim | simp only [true_or, or_true] | skip
    have hr : _ → _ := hr
    refine ih ?_
    simp only [Bool.and_eq_true]
    exact fun h => ⟨hs h.1, hr h.2⟩

theorem choiceAt_ebb {run : Runner} {b : RuleBase} {flag flag' : Int} {l l' : List Rune} {gs : List (List Rule)}
    (h : ∀ r ∈ gs.flatten, Ebb0 (run r flag l) (run r flag' l')) :
    ∀ {look look' sticky sticky'}, (sticky' = true → sticky = true) →
      Ebb0 (choiceAt run b flag l gs look sticky) (choiceAt run b flag' l' gs look' sticky') := by
  induction gs with
  | nil => intro look look' sticky sticky' hs; exact hs
  | cons g gs ih =>
    intro look look' sticky sticky' hs
    have ih := @ih (fun r hr => h r (by simp only [List.flatten_cons, List.mem_append]; exact .inr hr))
    rw [choiceAt, choiceAt]
    rcases @altsAt_ebb run flag flag' l l' g (fun r hr => h r (by simp only [List.flatten_cons, List.mem_append]; exact .inl hr)) look look' sticky sticky' hs with
      h | h | h | h | ⟨k, k', s, s', h, h', hs'⟩
    · exact ebb0_l (.inl (by rw [h]))
    · exact ebb0_l (.inr (by rw [h]))
    · exact ebb0_r (.inl (by rw [h]))
    · exact ebb0_r (.inr (by rw [h]))
    · rw [h, h']
      have hb : best [] = .none := rfl
      simp only [hb]
      exact ih hs'

theorem bareL_append (a b : List Node) : bareL (a ++ b) = bareL a ++ bareL b := by
  rw [bareL_eq_map, bareL_eq_map, bareL_eq_map, List.map_append]

theorem seqAt_ebb {t : Sets} {F : Nat} (hrun : ∀ r flag flag' l l', t.decides r = true → blankless false r = true → eofless r = true →
      Valid l → Valid l' → Tidy l → Tidy l' → (l' = [] → l = []) → begins (t.firstOf r) l = false → begins (t.firstOf r) l' = false →
      Ebb (Spec.run env F r flag l) (Spec.run env F r flag' l'))
    (hnul : ∀ r flag l nd n st, t.decides r = true → Valid l → Tidy l → begins (t.firstOf r) l = false →
      Spec.run env F r flag l = .hit nd 0 n st → nulB t.nullable r = true)
    {b : RuleBase} {L L' : List Rune} (hv : Valid L) (hv' : Valid L') (ht : Tidy L) (ht' : Tidy L') (hne : L' = [] → L = []) {rs : List Rule} :
    ∀ {look look' : Nat} {sticky sticky' : Bool} {flag flag' : Int} {nodes nodes' : List Node}, t.decidesSeq rs = true → blanklessL false rs = true →
      eoflessL rs = true → begins (t.firstSeq rs) L = false → begins (t.firstSeq rs) L' = false → (sticky' = true → sticky = true) →
      bareL nodes = bareL nodes' →
      Ebb (seqAt (Spec.run env F) b L rs 0 look sticky flag nodes) (seqAt (Spec.run env F) b L' rs 0 look' sticky' flag' nodes') := by
  induction rs with
  | nil =>
    intro look look' sticky sticky' flag flag' nodes nodes' _ _ _ _ _ hs hn
    exact ⟨rfl, rfl, by rw [bare_inner, bare_inner, hn], hs⟩
  | cons r rs ih =>
    intro look look' sticky sticky' flag flag' nodes nodes' hd hbl hef hb hb' hs hn
    simp only [Sets.decidesSeq, blanklessL, eoflessL, Bool.and_eq_true] at hd hbl hef
    have front : ∀ {m}, begins (t.firstSeq (r :: rs)) m = false → begins (t.firstOf r) m = false := by
      intro m hb
      rw [Sets.firstSeq] at hb
      split at hb
      · rw [Shape.begins_union, Bool.or_eq_false_iff] at hb; exact hb.1
      · exact hb
    have hr := hrun r flag flag' _ _ hd.1.1 hbl.1 hef.1 hv hv' ht ht' hne (front hb) (front hb')
    rw [seqAt, seqAt]
    simp only [List.drop_zero]
    cases ha : Spec.run env F r flag L <;> cases ha' : Spec.run env F r flag' L' <;> rw [ha, ha'] at hr <;>
      first
      | exact hr.elim
      | exact ebb_l (.inl rfl)
      | exact ebb_l (.inr rfl)
      | exact ebb_r (.inl rfl)
      | exact ebb_r (.inr rfl)
      | skip
    · have hr : _ → _ := hr
      show _ → _
      simp only [Bool.and_eq_true]
      exact fun h => ⟨hs h.1, hr h.2⟩
    · rename_i nd u n st nd' u' n' st'
      obtain ⟨rfl, rfl, hr, hst⟩ := hr
      have hn0 := hnul r flag L _ _ _ hd.1.1 hv ht (front hb) ha
      rw [Sets.firstSeq, if_pos hn0, Shape.begins_union, Bool.or_eq_false_iff] at hb hb'
      simp only
      split
      · exact ebb_l (.inr rfl)
      · split
        · exact ebb_r (.inr rfl)
        · refine ih hd.2 hbl.2 hef.2 hb.2 hb'.2 ?_ ?_
          · simp only [Bool.and_eq_true]
            exact fun h => ⟨hs h.1, hst h.2⟩
          · rw [bareL_append, bareL_append, hn, bareL_one hr]

/-- Where a rule can begin in neither text, it does much the same on both. -/
theorem run_ebb {t : Sets} (hD : Decided t env) (hB : BlanklessEnv false env) (hE : EoflessEnv env) (F : Nat) : ∀ r flag flag' l l',
    t.decides r = true → blankless false r = true → eofless r = true → Valid l → Valid l' → Tidy l → Tidy l' → (l' = [] → l = []) →
    begins (t.firstOf r) l = false → begins (t.firstOf r) l' = false → Ebb (Spec.run env F r flag l) (Spec.run env F r flag' l') := by
  induction F with
  | zero => intros; trivial
  | succ F ih =>
    intro r flag flag' l l' hd hbl hef hv hv' ht ht' hne hb hb'
    have hterm : terminal r = true → nulB t.nullable r = false → Ebb (Spec.run env (F + 1) r flag l) (Spec.run env (F + 1) r flag' l') := by
      intro htm hn
      have h1 := terminal_fails (env := env) htm (F + 1) flag l
      have h2 := terminal_fails (env := env) htm (F + 1) flag' l'
      have h3 := no_hit hD hd hn hv ht hb (F := F + 1) (flag := flag)
      have h4 := no_hit hD hd hn hv' ht' hb' (F := F + 1) (flag := flag')
      generalize Spec.run env (F + 1) r flag l = a at h1 h3
      generalize Spec.run env (F + 1) r flag' l' = a' at h2 h4
      cases a <;> cases a' <;>
        first
        | exact ebb_l (.inl rfl)
        | exact ebb_l (.inr rfl)
        | exact ebb_r (.inl rfl)
        | exact ebb_r (.inr rfl)
        | exact h1.elim
        | exact h2.elim
        | exact absurd rfl (h3 _ _ _ _)
        | exact absurd rfl (h4 _ _ _ _)
        | exact fun h => by rw [(h1 : _ = _), ← (h2 : _ = _)]; exact h
    cases r with
    | eof b => cases hef
    | char b c us => exact hterm rfl rfl
    | range b x xu y yu => exact hterm rfl rfl
    | chars b s => exact hterm rfl (by cases s with | nil => cases hd | cons c s => rfl)
    | str b s => exact hterm rfl (by cases s with | nil => cases hd | cons c s => rfl)
    | group b r =>
      have h := ih r flag flag' l l' hd hbl hef hv hv' ht ht' hne hb hb'
      simp only [Spec.run]
      generalize Spec.run env F r flag l = a at h
      generalize Spec.run env F r flag' l' = a' at h
      cases a <;> cases a' <;>
        first
        | exact h.elim
        | exact ebb_l (.inl rfl)
        | exact ebb_l (.inr rfl)
        | exact ebb_r (.inl rfl)
        | exact ebb_r (.inr rfl)
        | exact h
        | skip
      obtain ⟨rfl, rfl, h, hs⟩ := h
      exact ⟨rfl, rfl, by rw [bare_inner, bare_inner, bareL_one h], hs⟩
    | option b r =>
      simp only [Sets.decides, Bool.and_eq_true] at hd
      have h := ih r flag flag' l l' hd.1 hbl hef hv hv' ht ht' hne hb hb'
      simp only [Spec.run]
      generalize Spec.run env F r flag l = a at h
      generalize Spec.run env F r flag' l' = a' at h
      cases a <;> cases a' <;>
        first
        | exact h.elim
        | exact ebb_l (.inl rfl)
        | exact ebb_l (.inr rfl)
        | exact ebb_r (.inl rfl)
        | exact ebb_r (.inr rfl)
        | skip
      · exact ⟨rfl, rfl, by rw [bare_inner, bare_inner], h⟩
      · obtain ⟨rfl, rfl, h, hs⟩ := h
        exact ⟨rfl, rfl, by rw [bare_inner, bare_inner, bareL_one h], hs⟩
    | rep b r mn mx =>
      simp only [Sets.decides, Bool.and_eq_true, Bool.not_eq_true'] at hd
      have h := ebb0_of_ebb (ih r flag flag' l l' hd.1.1 hbl hef hv hv' ht ht' hne hb hb') (no_hit hD hd.1.1 hd.1.2 hv ht hb)
      have h' := no_hit hD hd.1.1 hd.1.2 hv' ht' hb' (F := F) (flag := flag')
      simp only [Spec.run]
      cases F with
      | zero => exact ebb_l (.inl rfl)
      | succ F =>
        have hend : ∀ look look' s s', (s' = true → s = true) → Ebb (repEnd b mn 0 look s []) (repEnd b mn 0 look' s' []) := by
          intro look look' s s' hs
          unfold repEnd
          split
          · exact hs
          · exact ⟨rfl, rfl, by rw [bare_inner, bare_inner], hs⟩
        rw [repAt, repAt]
        simp only [List.drop_zero]
        by_cases hl' : l' = []
        · rw [if_pos (hne hl'), if_pos hl']
          exact hend _ _ _ _ id
        · rw [if_neg hl']
          by_cases hl : l = []
          · rw [if_pos hl]
            generalize Spec.run env (F + 1) r flag l = a at h
            generalize Spec.run env (F + 1) r flag' l' = a' at h h'
            cases a' with
            | oof => exact ebb_r (.inl rfl)
            | risky => exact ebb_r (.inr rfl)
            | ambiguous n => exact ebb_r (.inr rfl)
            | hit nd u n st => exact absurd rfl (h' _ _ _ _)
            | fail n st => exact hend _ _ _ _ fun _ => rfl
          · rw [if_neg hl]
            generalize Spec.run env (F + 1) r flag l = a at h
            generalize Spec.run env (F + 1) r flag' l' = a' at h h'
            cases a <;> cases a' <;>
              first
              | exact h.elim
              | exact ebb_l (.inl rfl)
              | exact ebb_l (.inr rfl)
              | exact ebb_r (.inl rfl)
              | exact ebb_r (.inr rfl)
              | skip
            have h : _ → _ := h
            exact hend _ _ _ _ (by simpa using h)
    | choice b gs =>
      simp only [Sets.decides, Bool.and_eq_true] at hd
      simp only [Spec.run]
      refine ebb_of_ebb0 (choiceAt_ebb (fun r hr => ?_) id)
      have hbr : ∀ {m}, begins (t.firstOf (.choice b gs)) m = false → begins (t.firstOf r) m = false := by
        intro m hb
        cases hx : begins (t.firstOf r) m with
        | false => rfl
        | true => rw [Sets.firstOf, firstLL_mem hr hx] at hb; cases hb
      exact ebb0_of_ebb (ih r flag flag' l l' (decidesLL_mem hd.1 hr) (blanklessLL_mem hbl hr) (eoflessLL_mem hef hr) hv hv' ht ht' hne (hbr hb) (hbr hb'))
        (no_hit hD (decidesLL_mem hd.1 hr) (differ_mem hd.2 hr) hv ht (hbr hb))
    | concat b rs =>
      simp only [Spec.run]
      refine seqAt_ebb ih ?_ hv hv' ht ht' hne hd hbl hef hb hb' id rfl
      intro r flag l nd n st hd hv ht hb h
      rcases begins_of_derives hD (run_derives hv h) hv ht hd with h | h
      · rw [hb] at h; cases h
      · exact h.1
    | block b o v c e xs => simp [blankless] at hbl
    | ref b name =>
      simp only [Spec.run]
      cases he : env name with
      | none => exact id
      | some r =>
        obtain ⟨_, h2, _, h4⟩ := hD _ _ he
        have hbr : ∀ {m}, begins (t.firstOf (.ref b name)) m = false → begins (t.firstOf r) m = false := by
          intro m hb
          cases hx : begins (t.firstOf r) m with
          | false => rfl
          | true => rw [Sets.firstOf, begins_within h2 hx] at hb; cases hb
        have h := ih r flag flag' l l' h4 (hB _ _ he) (hE _ _ he) hv hv' ht ht' hne (hbr hb) (hbr hb')
        simp only
        generalize Spec.run env F r flag l = a at h
        generalize Spec.run env F r flag' l' = a' at h
        cases a <;> cases a' <;>
          first
          | exact h.elim
          | exact ebb_l (.inl rfl)
          | exact ebb_l (.inr rfl)
          | exact ebb_r (.inl rfl)
          | exact ebb_r (.inr rfl)
          | exact h
          | skip
        obtain ⟨rfl, rfl, h, hs⟩ := h
        exact ⟨rfl, rfl, by rw [bare_flip, bare_flip, h], hs⟩

/-! ### Terminals -/

theorem takeWhile_run {p : Rune → Bool} {ws rest : List Rune} {c : Rune} (h : ∀ x ∈ ws, p x = true) (hc : p c = false) :
    (ws ++ c :: rest).takeWhile p = ws := by
  induction ws with
  | nil => rw [List.nil_append, List.takeWhile_cons, if_neg (by simp [hc])]
  | cons x ws ih =>
    rw [List.cons_append, List.takeWhile_cons, if_pos (h x (by simp)), ih fun y hy => h y (List.mem_cons_of_mem _ hy)]

theorem blank_run {skip : Bool} {ws rest : List Rune} {c : Rune} (h : ∀ x ∈ ws, isWhiteSpace x = true) (hc : isWhiteSpace c = false)
    (hs : skip = false → ws = []) : blank skip (ws ++ c :: rest) = ws := by
  unfold blank
  cases skip with
  | true => rw [if_pos rfl, takeWhile_run h hc]
  | false => rw [if_neg (by simp), hs rfl]

/-- One character: the match is the same if the text goes on and if white space may be skipped that is not there. -/
theorem oneAt_grow {rt : RType} {b : RuleBase} {skip skip' : Bool} {p : Rune → Bool} {l w : List Rune}
    (hp : ∀ c ∈ l, isWhiteSpace c = true → p c = false) (hs : skip = true → skip' = true) {nd u n st}
    (h : oneAt rt b skip p l = .hit nd u n st) : ∃ n', oneAt rt b skip' p (l ++ w) = .hit nd u n' st := by
  have hsp := blank_split skip l
  have hbw : ∀ x ∈ blank skip l, isWhiteSpace x = true := blank_white
  have hb0 : skip = false → blank skip l = [] := by rintro rfl; rfl
  have hpw : ∀ x ∈ blank skip l, p x = false := fun x hx => hp x (by rw [← hsp]; exact List.mem_append_left _ hx) (hbw x hx)
  unfold oneAt at h
  simp only at h
  generalize hws : blank skip l = ws at h hsp hbw hb0 hpw
  have hnone : ws.findIdx? p = none := by
    rw [List.findIdx?_eq_none_iff]
    exact fun x hx => by simpa using hpw x hx
  rw [hnone] at h
  simp only at h
  split at h
  · cases h
  · rename_i c rest hd
    split at h
    · rename_i hpc
      simp only [Ans.hit.injEq] at h
      obtain ⟨rfl, rfl, _, rfl⟩ := h
      have hl : l = ws ++ c :: rest := by rw [← hd, hsp]
      have hw : isWhiteSpace c = false := by
        cases hw : isWhiteSpace c with
        | false => rfl
        | true => rw [hp c (by rw [hl]; simp) hw] at hpc; cases hpc
      have hblank : blank skip' (l ++ w) = ws := by
        rw [hl, List.append_assoc]
        refine blank_run hbw hw fun h => hb0 ?_
        cases skip with
        | false => rfl
        | true => rw [hs rfl] at h; cases h
      unfold oneAt
      simp only [hblank, hnone]
      rw [hl, List.append_assoc, List.drop_left]
      simp only [List.cons_append, hpc, if_true]
      exact ⟨_, rfl⟩
    · cases h

/-- The same for a literal. -/
theorem textAt_grow {rt : RType} {b : RuleBase} {skip skip' sticky : Bool} {text l w : List Rune} (hw : noWhite text = true) (hne : text ≠ [])
    (hs : skip = true → skip' = true) {nd u n st} (h : textAt rt b sticky skip text l = .hit nd u n st) :
    ∃ n', textAt rt b sticky skip' text (l ++ w) = .hit nd u n' st := by
  have hlead : ∀ s : Bool, (if s = true then text.takeWhile isWhiteSpace else []) = [] := by
    intro s
    split
    · cases text with
      | nil => rfl
      | cons c text =>
        simp only [noWhite, List.all_cons, Bool.and_eq_true, Bool.not_eq_true'] at hw
        rw [List.takeWhile_cons, if_neg (by simp [hw.1])]
    · rfl
  have hsp := blank_split skip l
  have hbw : ∀ x ∈ blank skip l, isWhiteSpace x = true := blank_white
  have hb0 : skip = false → blank skip l = [] := by rintro rfl; rfl
  unfold textAt at h ⊢
  simp only [hlead, List.length_nil, List.drop_zero] at h ⊢
  generalize hws : blank skip l = ws at h hsp hbw hb0
  split at h
  · cases h
  · rename_i hl0
    split at h
    · split at h
      · rename_i hpre
        simp only [Ans.hit.injEq] at h
        obtain ⟨rfl, rfl, _, rfl⟩ := h
        obtain ⟨z, hz⟩ := List.isPrefixOf_iff_prefix.1 hpre
        have hl : l = ws ++ (text ++ z) := by rw [hz, hsp]
        have hblank : blank skip' (l ++ w) = ws := by
          cases text with
          | nil => exact absurd rfl hne
          | cons c text =>
            simp only [noWhite, List.all_cons, Bool.and_eq_true, Bool.not_eq_true'] at hw
            rw [hl, List.append_assoc]
            refine blank_run hbw hw.1 fun h => hb0 ?_
            cases skip with
            | false => rfl
            | true => rw [hs rfl] at h; cases h
        rw [hblank, if_neg (by simp [hl0])]
        have hsuf : List.isSuffixOf [] ws = true := by simp
        rw [if_pos hsuf, hl, List.append_assoc, List.drop_left, List.append_assoc, if_pos (by simp [List.isPrefixOf_iff_prefix])]
        exact ⟨_, rfl⟩
      · cases h
    · cases h

/-! ### Matches -/

/-- White space may be skipped where it could be skipped before. -/
def Relax (f f' : Int) : Prop := f' = f ∨ (f = SUGGEST_NOT_SKIP ∧ f' = SUGGEST_SKIP)

theorem Relax.skip {f f' : Int} (h : Relax f f') : decide (f = SUGGEST_SKIP) = true → decide (f' = SUGGEST_SKIP) = true := by
  rcases h with rfl | ⟨rfl, rfl⟩
  · exact id
  · intro _; rfl

theorem Relax.next {st st' : Bool} (h : st' = true → st = true) : Relax (flagNext st) (flagNext st') := by
  cases st with
  | true => cases st' with
    | true => exact .inl rfl
    | false => exact .inr ⟨rfl, rfl⟩
  | false => cases st' with
    | true => cases h rfl
    | false => exact .inl rfl

theorem Relax.after {f f' : Int} (hf : Relax f f') {nd nd' : Node} (hn : nd.bare = nd'.bare) {st st' : Bool} (h : st' = true → st = true) :
    Relax (flagAfter f nd st) (flagAfter f' nd' st') := by
  obtain ⟨rt, nm, ch, cs, p, s, v, d, tk⟩ := nd
  obtain ⟨rt', nm', ch', cs', p', s', v', d', tk'⟩ := nd'
  simp only [Node.bare, Node.mk.injEq] at hn
  obtain ⟨rfl, rfl, rfl, hcs, _⟩ := hn
  have hlen : cs = [] ↔ cs' = [] := by
    rw [bareL_eq_map, bareL_eq_map] at hcs
    constructor
    · rintro rfl; simpa using hcs.symm
    · rintro rfl; simpa using hcs
  unfold flagAfter
  simp only [hlen]
  split
  · exact hf
  · exact Relax.next h

/-- The same match, sticky only if it was, or no answer. -/
def Grown (nd : Node) (u : Nat) (st : Bool) : Ans → Prop
  | .oof | .risky => True
  | .hit nd' u' _ st' => nd.bare = nd'.bare ∧ u' = u ∧ (st' = true → st = true)
  | _ => False

theorem grown_hit {nd nd' : Node} {u u' n : Nat} {st st' : Bool} (h : nd.bare = nd'.bare) (hu : u' = u) (hs : st' = true → st = true) :
    Grown nd u st (.hit nd' u' n st') := ⟨h, hu, hs⟩

/-- No match, if any answer, and sticky only if `b`. -/
def Quiet (b : Bool) : Ans → Prop
  | .oof | .risky => True
  | .fail _ st => st = true → b = true
  | _ => False

theorem altsAt_quiet {run : Runner} {flag : Int} {l : List Rune} {f : Rule → Bool} {rs : List Rule} (h : ∀ r ∈ rs, Quiet (f r) (run r flag l)) :
    ∀ {look sticky}, altsAt run flag l rs look sticky = .oof ∨ altsAt run flag l rs look sticky = .risky ∨
      ∃ k s, altsAt run flag l rs look sticky = .ok [] k s ∧ (s = true → sticky = true ∧ rs.all f = true) := by
  induction rs with
  | nil => intro look sticky; exact .inr (.inr ⟨_, _, rfl, fun h => ⟨h, rfl⟩⟩)
  | cons r rs ih =>
    intro look sticky
    have ih := @ih (fun r' hr' => h r' (List.mem_cons_of_mem _ hr'))
    have hr := h r (by simp)
    rw [altsAt]
    generalize run r flag l = a at hr
    cases a with
    | oof => exact .inl rfl
    | risky => exact .inr (.inl rfl)
    | ambiguous n => exact hr.elim
    | hit nd u n st => exact hr.elim
    | fail n st =>
      have hr : _ → _ := hr
      rcases @ih (max look n) (sticky && st) with h | h | ⟨k, s, h, hs⟩
      · exact .inl h
      · exact .inr (.inl h)
      · refine .inr (.inr ⟨k, s, h, fun e => ?_⟩)
        have := hs e
        simp only [Bool.and_eq_true] at this
        exact ⟨this.1.1, by rw [List.all_cons, Bool.and_eq_true]; exact ⟨hr this.1.2, this.2⟩⟩

theorem altsAt_alone {run : Runner} {flag : Int} {l : List Rune} {f : Rule → Bool} {rs1 rs2 : List Rule} {r : Rule}
    (h : ∀ x ∈ rs1 ++ rs2, Quiet (f x) (run x flag l)) {nd u n st} (hr : run r flag l = .hit nd u n st) :
    ∀ {look sticky}, altsAt run flag l (rs1 ++ r :: rs2) look sticky = .oof ∨ altsAt run flag l (rs1 ++ r :: rs2) look sticky = .risky ∨
      ∃ k s, altsAt run flag l (rs1 ++ r :: rs2) look sticky = .ok [(nd, u, st)] k s ∧
        (s = true → sticky = true ∧ st = true ∧ (rs1 ++ rs2).all f = true) := by
  induction rs1 with
  | nil =>
    intro look sticky
    rw [List.nil_append, altsAt, hr]
    simp only
    rcases @altsAt_quiet run flag l f rs2 h (max look n) (sticky && st) with e | e | ⟨k, s, e, hs⟩
    · rw [e]; exact .inl rfl
    · rw [e]; exact .inr (.inl rfl)
    · rw [e]
      refine .inr (.inr ⟨k, s, rfl, fun h => ?_⟩)
      have := hs h
      simp only [Bool.and_eq_true] at this
      exact ⟨this.1.1, this.1.2, this.2⟩
  | cons x rs1 ih =>
    intro look sticky
    have ih := @ih (fun r' hr' => h r' (List.mem_cons_of_mem _ hr'))
    have hx := h x (by simp)
    rw [List.cons_append, altsAt]
    generalize run x flag l = a at hx
    cases a with
    | oof => exact .inl rfl
    | risky => exact .inr (.inl rfl)
    | ambiguous n => exact hx.elim
    | hit nd u n st => exact hx.elim
    | fail n' st' =>
      have hx : _ → _ := hx
      rcases @ih (max look n') (sticky && st') with h | h | ⟨k, s, h, hs⟩
      · exact .inl h
      · exact .inr (.inl h)
      · refine .inr (.inr ⟨k, s, h, fun e => ?_⟩)
        have := hs e
        simp only [Bool.and_eq_true] at this
        exact ⟨this.1.1, this.2.1, by rw [List.cons_append, List.all_cons, Bool.and_eq_true]; exact ⟨hx this.1.2, this.2.2⟩⟩

theorem best_alone (nd : Node) (u : Nat) (st : Bool) : best [(nd, u, st)] = .one nd u st := by
  simp [best, longest, runningTie]

theorem choiceAt_alone {run : Runner} {b : RuleBase} {flag : Int} {l : List Rune} {f : Rule → Bool} {gs1 gs2 : List (List Rule)} {rs1 rs2 : List Rule}
    {r : Rule} (h : ∀ x ∈ gs1.flatten ++ rs1 ++ rs2, Quiet (f x) (run x flag l)) {nd u n st} (hr : run r flag l = .hit nd u n st) :
    ∀ {look sticky}, choiceAt run b flag l (gs1 ++ (rs1 ++ r :: rs2) :: gs2) look sticky = .oof ∨
      choiceAt run b flag l (gs1 ++ (rs1 ++ r :: rs2) :: gs2) look sticky = .risky ∨
      ∃ k s, choiceAt run b flag l (gs1 ++ (rs1 ++ r :: rs2) :: gs2) look sticky = .hit (inner .choice b s [nd]) u k s ∧
        (s = true → sticky = true ∧ st = true ∧ (gs1.flatten ++ rs1 ++ rs2).all f = true) := by
  induction gs1 with
  | nil =>
    intro look sticky
    rw [List.nil_append, choiceAt]
    rcases @altsAt_alone run flag l f rs1 rs2 r h nd u n st hr look sticky with e | e | ⟨k, s, e, hs⟩
    · rw [e]; exact .inl rfl
    · rw [e]; exact .inr (.inl rfl)
    · rw [e]
      simp only [best_alone]
      exact .inr (.inr ⟨k, s, rfl, hs⟩)
  | cons g gs1 ih =>
    intro look sticky
    have ih := @ih (fun x hx => h x (by
      simp only [List.flatten_cons, List.mem_append] at hx ⊢
      rcases hx with (h | h) | h <;> simp [h]))
    rw [List.cons_append, choiceAt]
    rcases @altsAt_quiet run flag l f g (fun x hx => h x (by simp [hx])) look sticky with e | e | ⟨k, s, e, hs⟩
    · rw [e]; exact .inl rfl
    · rw [e]; exact .inr (.inl rfl)
    · rw [e]
      have hb : best [] = .none := rfl
      simp only [hb]
      rcases @ih k s with e | e | ⟨k', s', e, hs'⟩
      · exact .inl e
      · exact .inr (.inl e)
      · refine .inr (.inr ⟨k', s', e, fun h => ?_⟩)
        obtain ⟨h1, h2, h3⟩ := hs' h
        obtain ⟨h4, h5⟩ := hs h1
        refine ⟨h4, h2, ?_⟩
        rw [List.flatten_cons, List.append_assoc, List.append_assoc, List.all_append, h5, Bool.true_and, ← List.append_assoc]
        exact h3

theorem altsAt_stuck {run : Runner} {flag : Int} {l : List Rune} {f : Rule → Bool} {rs1 rs2 : List Rule} {r : Rule}
    (h : ∀ x ∈ rs1, Quiet (f x) (run x flag l)) (hr : run r flag l = .oof ∨ run r flag l = .risky) :
    ∀ {look sticky}, altsAt run flag l (rs1 ++ r :: rs2) look sticky = .oof ∨ altsAt run flag l (rs1 ++ r :: rs2) look sticky = .risky := by
  induction rs1 with
  | nil =>
    intro look sticky
    rw [List.nil_append, altsAt]
    rcases hr with hr | hr <;> rw [hr]
    · exact .inl rfl
    · exact .inr rfl
  | cons x rs1 ih =>
    intro look sticky
    have ih := @ih (fun r' hr' => h r' (List.mem_cons_of_mem _ hr'))
    have hx := h x (by simp)
    rw [List.cons_append, altsAt]
    generalize run x flag l = a at hx
    cases a with
    | oof => exact .inl rfl
    | risky => exact .inr rfl
    | ambiguous n => exact hx.elim
    | hit nd u n st => exact hx.elim
    | fail n' st' => exact ih

theorem choiceAt_stuck {run : Runner} {b : RuleBase} {flag : Int} {l : List Rune} {f : Rule → Bool} {gs1 gs2 : List (List Rule)} {rs1 rs2 : List Rule}
    {r : Rule} (h : ∀ x ∈ gs1.flatten ++ rs1, Quiet (f x) (run x flag l)) (hr : run r flag l = .oof ∨ run r flag l = .risky) :
    ∀ {look sticky}, choiceAt run b flag l (gs1 ++ (rs1 ++ r :: rs2) :: gs2) look sticky = .oof ∨
      choiceAt run b flag l (gs1 ++ (rs1 ++ r :: rs2) :: gs2) look sticky = .risky := by
  induction gs1 with
  | nil =>
    intro look sticky
    rw [List.nil_append, choiceAt]
    rcases @altsAt_stuck run flag l f rs1 rs2 r h hr look sticky with e | e <;> rw [e]
    · exact .inl rfl
    · exact .inr rfl
  | cons g gs1 ih =>
    intro look sticky
    have ih := @ih (fun x hx => h x (by
      simp only [List.flatten_cons, List.mem_append] at hx ⊢
      rcases hx with h | h <;> simp [h]))
    rw [List.cons_append, choiceAt]
    rcases @altsAt_quiet run flag l f g (fun x hx => h x (by simp [hx])) look sticky with e | e | ⟨k, s, e, _⟩
    · rw [e]; exact .inl rfl
    · rw [e]; exact .inr rfl
    · rw [e]
      have hb : best [] = .none := rfl
      simp only [hb]
      exact ih

/-- Where the parts of a concatenation begin. -/
theorem seqAt_front {t : Sets} (hD : Decided t env) {F : Nat} {b : RuleBase} {L : List Rune} (hv : Valid L) (ht : Tidy L) {rs : List Rule} :
    ∀ {pos look sticky flag nodes nd u n st}, t.decidesSeq rs = true → seqAt (Spec.run env F) b L rs pos look sticky flag nodes = .hit nd u n st →
      begins (t.firstSeq rs) (L.drop pos) = true ∨ (nulAll t.nullable rs = true ∧ (u = pos ∨ (pos ≤ u ∧ solid (L.drop pos) = []))) := by
  induction rs with
  | nil =>
    intro pos look sticky flag nodes nd u n st _ h
    simp only [seqAt, Ans.hit.injEq] at h
    exact .inr ⟨rfl, .inl h.2.1.symm⟩
  | cons r rs ih =>
    intro pos look sticky flag nodes nd u n st hd h
    simp only [Sets.decidesSeq, Bool.and_eq_true] at hd
    rw [seqAt] at h
    cases hr : Spec.run env F r flag (L.drop pos) with
    | hit nd0 u0 n0 st0 =>
      simp only [hr] at h
      split at h
      · cases h
      · have ih := ih hd.2 h
        rw [Sets.firstSeq]
        rcases begins_of_derives hD (run_derives (hv.drop pos) hr) (hv.drop pos) (ht.drop pos) hd.1.1 with h1 | ⟨hn, h1⟩
        · left
          split
          · rw [Shape.begins_union, h1]; rfl
          · exact h1
        · rw [if_pos hn, Shape.begins_union]
          rcases h1 with rfl | h1
          · rw [Nat.add_zero] at ih
            rcases ih with h2 | ⟨h2, h3⟩
            · left; rw [h2]; simp
            · exact .inr ⟨by rw [nulAll, hn, h2]; rfl, h3⟩
          · have hsol := blanks_solid h1
            rcases ih with h2 | ⟨h2, h3⟩
            · exfalso
              rw [← List.drop_drop, begins_solid, solid_drop_nil hsol u0] at h2
              cases h2
            · refine .inr ⟨by rw [nulAll, hn, h2]; rfl, .inr ⟨?_, hsol⟩⟩
              rcases h3 with h3 | h3 <;> omega
    | _ => simp [hr] at h

/-- After a part that cannot go on at the end, it cannot go on in the middle. -/
theorem seqAt_more {t : Sets} (hD : Decided t env) {F : Nat} {b : RuleBase} {L w : List Rune} (hv : Valid L) (ht : Tidy L) {r : Rule} {rs : List Rule}
    (hap : (t.firstSeq rs).apart (t.moreOf r) = true) {pos look sticky flag nodes nd u n st} (hd : t.decidesSeq rs = true)
    (h : seqAt (Spec.run env F) b L rs pos look sticky flag nodes = .hit nd u n st)
    (he : begins (t.moreSeq (r :: rs)) (L.drop u ++ w) = false) : begins (t.moreOf r) (L.drop pos ++ w) = false := by
  cases hm : begins (t.moreOf r) (L.drop pos ++ w) with
  | false => rfl
  | true =>
    rcases seqAt_front hD hv ht hd h with h1 | ⟨h1, h2⟩
    · rw [Shape.begins_apart hap (begins_left w h1)] at hm; cases hm
    · rw [Sets.moreSeq, if_pos h1, Shape.begins_union, Bool.or_eq_false_iff] at he
      rcases h2 with rfl | ⟨h2, h3⟩
      · rw [he.1] at hm; cases hm
      · obtain ⟨k, rfl⟩ := Nat.exists_eq_add_of_le h2
        rw [begins_blank h3] at hm
        rw [← List.drop_drop, begins_blank (solid_drop_nil h3 k), hm] at he
        cases he.1

theorem repAt_front {t : Sets} (hD : Decided t env) {F : Nat} {b : RuleBase} {L : List Rune} (hv : Valid L) (ht : Tidy L) {r : Rule} {mn mx : Nat}
    {flag : Int} (hd : t.decides r = true) (hn : nulB t.nullable r = false) {k pos look sticky nodes nd u n st}
    (h : repAt (Spec.run env F) b r mn mx flag L k pos look sticky nodes = .hit nd u n st) :
    u = pos ∨ begins (t.firstOf r) (L.drop pos) = true := by
  have hend : ∀ {pos look s nodes}, repEnd b mn pos look s nodes = .hit nd u n st → u = pos := by
    intro pos look s nodes h
    unfold repEnd at h
    split at h
    · cases h
    · simp only [Ans.hit.injEq] at h; exact h.2.1.symm
  cases k with
  | zero => cases h
  | succ k =>
    rw [repAt] at h
    split at h
    · exact .inl (hend h)
    · cases hr : Spec.run env F r flag (L.drop pos) with
      | hit nd0 u0 n0 st0 => exact .inr (hit_begins hD hd hn (hv.drop pos) (ht.drop pos) hr)
      | fail n0 st0 => simp only [hr] at h; exact .inl (hend h)
      | _ => simp [hr] at h

theorem repAt_more {t : Sets} (hD : Decided t env) {F : Nat} {b : RuleBase} {L w : List Rune} (hv : Valid L) (ht : Tidy L) {r : Rule} {mn mx : Nat}
    {flag : Int} (hd : t.decides r = true) (hn : nulB t.nullable r = false) (hap : (t.firstOf r).apart (t.moreOf r) = true)
    {k pos look sticky nodes nd u n st} (h : repAt (Spec.run env F) b r mn mx flag L k pos look sticky nodes = .hit nd u n st)
    (he : begins ((t.firstOf r).union (t.moreOf r)) (L.drop u ++ w) = false) : begins (t.moreOf r) (L.drop pos ++ w) = false := by
  rcases repAt_front hD hv ht hd hn h with rfl | h1
  · rw [Shape.begins_union, Bool.or_eq_false_iff] at he; exact he.2
  · exact Shape.begins_apart hap (begins_left w h1)

theorem begins_right {s : CharSet} {l w : List Rune} (h : begins s (l ++ w) = false) : begins s l = false := by
  cases hb : begins s l with
  | false => rfl
  | true => rw [begins_left w hb] at h; cases h

theorem quiet_of_ebb {a a' : Ans} {b : Bool} (h : Ebb0 a a') (h1 : a ≠ .oof) (h2 : a ≠ .risky) (hb : stickyOf a = b) : Quiet b a' := by
  cases a <;> cases a' <;> first | exact absurd rfl h1 | exact absurd rfl h2 | trivial | exact h.elim | skip
  simp only [stickyOf] at hb
  subst hb
  exact h

/-- What a rule matches it also matches if the text goes on, the tree and the characters used being the same, unless the match could go on too. -/
theorem run_grow {t : Sets} (hD : Decided t env) (hB : BlanklessEnv false env) (hE : EoflessEnv env) {w : List Rune} (F : Nat) :
    ∀ {r flag flag' l nd u n st}, Relax flag flag' → t.decides r = true → blankless false r = true → eofless r = true →
    Valid (l ++ w) → Tidy (l ++ w) → Spec.run env F r flag l = .hit nd u n st → begins (t.moreOf r) (l.drop u ++ w) = false →
    Grown nd u st (Spec.run env F r flag' (l ++ w)) := by
  have left : ∀ {l : List Rune}, Valid (l ++ w) → Valid l := fun h c hc => h c (List.mem_append_left _ hc)
  have left' : ∀ {l : List Rune}, Tidy (l ++ w) → Tidy l := fun h c hc => h c (List.mem_append_left _ hc)
  induction F with
  | zero => intro r flag flag' l nd u n st _ _ _ _ _ _ h; cases h
  | succ F ih =>
    intro r flag flag' l nd u n st hf hd hbl hef hv ht h he
    have hv0 := left hv
    have ht0 := left' ht
    have hone : ∀ {rt b p nd u n st}, (∀ c ∈ l, isWhiteSpace c = true → p c = false) → oneAt rt b (decide (flag = SUGGEST_SKIP)) p l = .hit nd u n st →
        Grown nd u st (oneAt rt b (decide (flag' = SUGGEST_SKIP)) p (l ++ w)) := by
      intro rt b p nd u n st hp h
      obtain ⟨n', e⟩ := oneAt_grow (w := w) hp hf.skip h
      rw [e]
      exact ⟨rfl, rfl, id⟩
    have htext : ∀ {rt b s text skip skip' nd u n st}, noWhite text = true → text ≠ [] → (skip = true → skip' = true) →
        textAt rt b s skip text l = .hit nd u n st → Grown nd u st (textAt rt b s skip' text (l ++ w)) := by
      intro rt b s text skip skip' nd u n st hw hne hs h
      obtain ⟨n', e⟩ := textAt_grow (w := w) hw hne hs h
      rw [e]
      exact ⟨rfl, rfl, id⟩
    cases r with
    | eof b => cases hef
    | char b c us =>
      simp only [Spec.run] at h ⊢
      split at h
      · cases h
      · rename_i hc
        rw [if_neg hc]
        simp only [blankless, Bool.not_eq_true'] at hbl
        refine hone ?_ h
        intro c' _ hw
        rw [beq_eq_false_iff_ne]
        rintro rfl
        rw [hbl] at hw; cases hw
    | range b x xu y yu =>
      simp only [Spec.run] at h ⊢
      split at h
      · cases h
      · split
        · trivial
        · refine hone ?_ h
          intro c hc hw
          simp only [Sets.decides, decide_eq_true_eq] at hd
          have := ht0 c hc hw
          unfold between
          rw [decide_eq_false (by unfold Rune at *; omega)]; rfl
    | chars b s =>
      simp only [Spec.run] at h ⊢
      exact htext hbl (by rintro rfl; cases hd) hf.skip h
    | str b s =>
      simp only [Spec.run] at h ⊢
      refine htext hbl (by rintro rfl; cases hd) ?_ h
      simp only [decide_eq_true_eq]
      rcases hf with rfl | ⟨rfl, rfl⟩
      · exact id
      · exact fun _ => .inl rfl
    | group b r =>
      simp only [Spec.run] at h ⊢
      cases hr : Spec.run env F r flag l with
      | hit nd0 u0 n0 st0 =>
        simp only [hr, Ans.hit.injEq] at h
        obtain ⟨rfl, rfl, rfl, rfl⟩ := h
        have hg := ih (r := r) hf hd hbl hef hv ht hr he
        generalize Spec.run env F r flag' (l ++ w) = a at hg
        cases a with
        | oof => trivial
        | risky => trivial
        | fail _ _ => exact hg.elim
        | ambiguous _ => exact hg.elim
        | hit nd' u' n' st' =>
          obtain ⟨h1, h2, h3⟩ := hg
          exact ⟨by rw [bare_inner, bare_inner, bareL_one h1], h2, h3⟩
      | _ => simp [hr] at h
    | option b r =>
      simp only [Sets.decides, Bool.and_eq_true, Bool.not_eq_true'] at hd
      rw [Sets.moreOf, Shape.begins_union, Bool.or_eq_false_iff] at he
      simp only [Spec.run] at h ⊢
      cases hr : Spec.run env F r flag l with
      | hit nd0 u0 n0 st0 =>
        simp only [hr, Ans.hit.injEq] at h
        obtain ⟨rfl, rfl, rfl, rfl⟩ := h
        have hg := ih hf hd.1 hbl hef hv ht hr he.2
        generalize Spec.run env F r flag' (l ++ w) = a at hg
        cases a with
        | oof => trivial
        | risky => trivial
        | fail _ _ => exact hg.elim
        | ambiguous _ => exact hg.elim
        | hit nd' u' n' st' =>
          obtain ⟨h1, h2, h3⟩ := hg
          exact ⟨by rw [bare_inner, bare_inner, bareL_one h1], h2, h3⟩
      | fail n0 st0 =>
        simp only [hr, Ans.hit.injEq] at h
        obtain ⟨rfl, rfl, rfl, rfl⟩ := h
        rw [List.drop_zero] at he
        have hg := run_ebb hD hB hE F r flag flag' l (l ++ w) hd.1 hbl hef hv0 hv ht0 ht (fun h => (List.append_eq_nil_iff.1 h).1) (begins_right he.1) he.1
        rw [hr] at hg
        generalize Spec.run env F r flag' (l ++ w) = a at hg
        cases a with
        | oof => trivial
        | risky => trivial
        | fail _ _ => exact ⟨by rw [bare_inner, bare_inner], rfl, hg⟩
        | ambiguous _ => exact hg.elim
        | hit nd' u' n' st' => exact hg.elim
      | _ => simp [hr] at h
    | ref b name =>
      simp only [Spec.run] at h ⊢
      cases hn : env name with
      | none => simp [hn] at h
      | some r =>
        obtain ⟨_, _, h3, h4⟩ := hD _ _ hn
        have he' : begins (t.moreOf r) (l.drop u ++ w) = false := by
          cases hx : begins (t.moreOf r) (l.drop u ++ w) with
          | false => rfl
          | true => rw [Sets.moreOf, begins_within h3 hx] at he; cases he
        cases hr : Spec.run env F r flag l with
        | hit nd0 u0 n0 st0 =>
          simp only [hn, hr, Ans.hit.injEq] at h
          obtain ⟨rfl, rfl, rfl, rfl⟩ := h
          have hg := ih hf h4 (hB _ _ hn) (hE _ _ hn) hv ht hr he'
          simp only
          generalize Spec.run env F r flag' (l ++ w) = a at hg
          cases a with
          | oof => trivial
          | risky => trivial
          | fail _ _ => exact hg.elim
          | ambiguous _ => exact hg.elim
          | hit nd' u' n' st' =>
            obtain ⟨h1, h2, h3⟩ := hg
            exact ⟨by rw [bare_flip, bare_flip, h1], h2, h3⟩
        | _ => simp [hn, hr] at h
    | block b o v c e xs => simp [blankless] at hbl
    | choice b gs =>
      simp only [Sets.decides, Bool.and_eq_true] at hd
      simp only [Spec.run] at h ⊢
      obtain ⟨gs1, rs1, r, rs2, gs2, nd0, n0, st0, rfl, e2, e3, rfl, e5⟩ := choiceAt_sticky h
      rw [Bool.true_and] at e3
      have hmem : r ∈ (gs1 ++ (rs1 ++ r :: rs2) :: gs2).flatten := by simp
      have hbeg := begins_left w (hit_begins hD (decidesLL_mem hd.1 hmem) (differ_mem hd.2 hmem) hv0 ht0 e2)
      have hap := differ_apart (r := r) (as := gs1.flatten ++ rs1) (bs := rs2 ++ gs2.flatten) (by simpa using hd.2)
      have hg := ih hf (decidesLL_mem hd.1 hmem) (blanklessLL_mem hbl hmem) (eoflessLL_mem hef hmem) hv ht e2 (by
        cases hx : begins (t.moreOf r) (l.drop u ++ w) with
        | false => rfl
        | true => rw [Sets.moreOf, moreLL_mem hmem hx] at he; cases he)
      have hq : ∀ x ∈ gs1.flatten ++ rs1 ++ rs2, Quiet (stickyOf (Spec.run env F x flag l)) (Spec.run env F x flag' (l ++ w)) := by
        intro x hx
        have hx1 : x ∈ (gs1.flatten ++ rs1) ++ (rs2 ++ gs2.flatten) := by
          simp only [List.mem_append] at hx ⊢
          rcases hx with (h | h) | h <;> simp [h]
        have hx2 : x ∈ (gs1 ++ (rs1 ++ r :: rs2) :: gs2).flatten := by
          simp only [List.mem_append] at hx
          simp only [List.flatten_append, List.flatten_cons, List.mem_append, List.mem_cons]
          rcases hx with (h | h) | h <;> simp [h]
        have hb := Shape.begins_apart (hap x hx1) hbeg
        exact quiet_of_ebb (ebb0_of_ebb (run_ebb hD hB hE F x flag flag' l (l ++ w) (decidesLL_mem hd.1 hx2) (blanklessLL_mem hbl hx2)
          (eoflessLL_mem hef hx2) hv0 hv ht0 ht (fun h => (List.append_eq_nil_iff.1 h).1) (begins_right hb) hb)
          (no_hit hD (decidesLL_mem hd.1 hx2) (differ_mem hd.2 hx2) hv0 ht0 (begins_right hb))) (e5 x hx).1 (e5 x hx).2 rfl
      have hx : ∀ a, Spec.run env F r flag' (l ++ w) = a → a = .oof ∨ a = .risky →
          choiceAt (Spec.run env F) b flag' (l ++ w) (gs1 ++ (rs1 ++ r :: rs2) :: gs2) 0 true = .oof ∨
          choiceAt (Spec.run env F) b flag' (l ++ w) (gs1 ++ (rs1 ++ r :: rs2) :: gs2) 0 true = .risky := by
        rintro a rfl ha
        exact choiceAt_stuck (fun x hx => hq x (List.mem_append_left _ hx)) ha
      cases ha : Spec.run env F r flag' (l ++ w) with
      | oof => rcases hx _ ha (.inl rfl) with e | e <;> rw [e] <;> trivial
      | risky => rcases hx _ ha (.inr rfl) with e | e <;> rw [e] <;> trivial
      | fail _ _ => rw [ha] at hg; exact hg.elim
      | ambiguous _ => rw [ha] at hg; exact hg.elim
      | hit nd' u' n' st' =>
        rw [ha] at hg
        obtain ⟨h1, rfl, h3⟩ := hg
        rcases @choiceAt_alone _ b flag' (l ++ w) _ gs1 gs2 rs1 rs2 r hq nd' u' n' st' ha 0 true with e | e | ⟨k, s, e, hs⟩
        · rw [e]; trivial
        · rw [e]; trivial
        · rw [e]
          refine ⟨by rw [bare_inner, bare_inner, bareL_one h1], rfl, fun h => ?_⟩
          obtain ⟨_, h4, h5⟩ := hs h
          rw [e3, h3 h4, h5]; rfl
    | concat b rs =>
      simp only [Spec.run] at h ⊢
      have key : ∀ (rs : List Rule) (pos look look' : Nat) (sticky sticky' : Bool) (flag flag' : Int) (nodes nodes' : List Node), Relax flag flag' →
          t.decidesSeq rs = true → blanklessL false rs = true → eoflessL rs = true → pos ≤ l.length → (sticky' = true → sticky = true) →
          bareL nodes = bareL nodes' → begins (t.moreSeq rs) (l.drop u ++ w) = false →
          seqAt (Spec.run env F) b l rs pos look sticky flag nodes = .hit nd u n st →
          Grown nd u st (seqAt (Spec.run env F) b (l ++ w) rs pos look' sticky' flag' nodes') := by
        intro rs
        induction rs with
        | nil =>
          intro pos look look' sticky sticky' flag flag' nodes nodes' _ _ _ _ _ hs hn _ h
          simp only [seqAt, Ans.hit.injEq] at h ⊢
          obtain ⟨rfl, rfl, rfl, rfl⟩ := h
          exact ⟨by rw [bare_inner, bare_inner, hn], rfl, hs⟩
        | cons r rs ihs =>
          intro pos look look' sticky sticky' flag flag' nodes nodes' hf hd hbl hef hp hs hn he h
          have hd' := hd
          simp only [Sets.decidesSeq, blanklessL, eoflessL, Bool.and_eq_true] at hd hbl hef
          rw [seqAt] at h ⊢
          rw [List.drop_append_of_le_length hp]
          cases hr : Spec.run env F r flag (l.drop pos) with
          | hit nd0 u0 n0 st0 =>
            simp only [hr] at h
            split at h
            · cases h
            · have hvd : Valid (l.drop pos ++ w) := by rw [← List.drop_append_of_le_length hp]; exact hv.drop pos
              have htd : Tidy (l.drop pos ++ w) := by rw [← List.drop_append_of_le_length hp]; exact ht.drop pos
              have hg := ih hf hd.1.1 hbl.1 hef.1 hvd htd hr (by
                rw [List.drop_drop]
                exact seqAt_more hD hv0 ht0 hd.1.2 hd.2 h he)
              have hu := run_used_le (hv0.drop pos) hr
              rw [List.length_drop] at hu
              generalize Spec.run env F r flag' (l.drop pos ++ w) = a at hg
              cases a with
              | oof => trivial
              | risky => trivial
              | fail _ _ => exact hg.elim
              | ambiguous _ => exact hg.elim
              | hit nd' u' n' st' =>
                obtain ⟨h1, rfl, h3⟩ := hg
                simp only
                split
                · trivial
                · refine ihs _ _ _ _ _ _ _ _ _ (hf.after h1 h3) hd.2 hbl.2 hef.2 (by omega) ?_ ?_ ?_ h
                  · simp only [Bool.and_eq_true]
                    exact fun h => ⟨hs h.1, h3 h.2⟩
                  · rw [bareL_append, bareL_append, hn, bareL_one h1]
                  · cases hx : begins (t.moreSeq rs) (l.drop u ++ w) with
                    | false => rfl
                    | true => rw [moreSeq_tail hx] at he; cases he
          | _ => simp [hr] at h
      exact key rs 0 0 0 true true flag flag' [] [] hf hd hbl hef (Nat.zero_le _) id rfl he h
    | rep b r mn mx =>
      simp only [Sets.decides, Bool.and_eq_true, Bool.not_eq_true'] at hd
      simp only [Spec.run] at h ⊢
      rw [Sets.moreOf] at he
      have he' := he
      rw [Shape.begins_union, Bool.or_eq_false_iff] at he'
      have hend : ∀ {pos look look' : Nat} {s s' : Bool} {nodes nodes' : List Node}, (s' = true → s = true) → bareL nodes = bareL nodes' →
          repEnd b mn pos look s nodes = .hit nd u n st → Grown nd u st (repEnd b mn pos look' s' nodes') := by
        intro pos look look' s s' nodes nodes' hs hn h
        have hlen : nodes'.length = nodes.length := by
          have := congrArg List.length hn
          rw [bareL_eq_map, bareL_eq_map, List.length_map, List.length_map] at this
          exact this.symm
        unfold repEnd at h ⊢
        rw [hlen]
        split at h
        · cases h
        · rename_i hmn
          rw [if_neg hmn]
          simp only [Ans.hit.injEq] at h
          obtain ⟨rfl, rfl, rfl, rfl⟩ := h
          exact ⟨by rw [bare_inner, bare_inner, hn], rfl, hs⟩
      have key : ∀ (k pos look look' : Nat) (sticky sticky' : Bool) (nodes nodes' : List Node), pos ≤ l.length → (sticky' = true → sticky = true) →
          bareL nodes = bareL nodes' → repAt (Spec.run env F) b r mn mx flag l k pos look sticky nodes = .hit nd u n st →
          Grown nd u st (repAt (Spec.run env F) b r mn mx flag' (l ++ w) k pos look' sticky' nodes') := by
        intro k
        induction k with
        | zero => intro pos look look' sticky sticky' nodes nodes' _ _ _ h; cases h
        | succ k ihk =>
          intro pos look look' sticky sticky' nodes nodes' hp hs hn h
          have hlen : nodes'.length = nodes.length := by
            have := congrArg List.length hn
            rw [bareL_eq_map, bareL_eq_map, List.length_map, List.length_map] at this
            exact this.symm
          have hvd : Valid (l.drop pos ++ w) := by rw [← List.drop_append_of_le_length hp]; exact hv.drop pos
          have htd : Tidy (l.drop pos ++ w) := by rw [← List.drop_append_of_le_length hp]; exact ht.drop pos
          rw [repAt] at h ⊢
          rw [List.drop_append_of_le_length hp]
          by_cases hl : l.drop pos = []
          · rw [if_pos hl] at h
            have hu : u = pos := by
              unfold repEnd at h
              split at h
              · cases h
              · simp only [Ans.hit.injEq] at h; exact h.2.1.symm
            split
            · exact hend hs hn h
            · have hb : begins (t.firstOf r) (l.drop pos ++ w) = false := by rw [← hu]; exact he'.1
              have hno := no_hit hD hd.1.1 hd.1.2 hvd htd hb (F := F) (flag := flag')
              generalize Spec.run env F r flag' (l.drop pos ++ w) = a at hno
              cases a with
              | oof => trivial
              | risky => trivial
              | ambiguous _ => trivial
              | hit nd' u' n' st' => exact absurd rfl (hno _ _ _ _)
              | fail n' st' =>
                refine hend ?_ hn h
                simp only [Bool.and_eq_true]
                exact fun h => hs h.1
          · rw [if_neg hl] at h
            rw [if_neg (by simp [hl])]
            cases hr : Spec.run env F r flag (l.drop pos) with
            | oof => simp [hr] at h
            | risky => simp [hr] at h
            | ambiguous n0 => simp [hr] at h
            | fail n0 st0 =>
              simp only [hr] at h
              have hu : u = pos := by
                unfold repEnd at h
                split at h
                · cases h
                · simp only [Ans.hit.injEq] at h; exact h.2.1.symm
              have hb : begins (t.firstOf r) (l.drop pos ++ w) = false := by rw [← hu]; exact he'.1
              have hg := run_ebb hD hB hE F r flag flag' (l.drop pos) (l.drop pos ++ w) hd.1.1 hbl hef (hv0.drop pos) hvd (ht0.drop pos) htd
                (fun h => (List.append_eq_nil_iff.1 h).1) (begins_right hb) hb
              rw [hr] at hg
              generalize Spec.run env F r flag' (l.drop pos ++ w) = a at hg
              cases a with
              | oof => trivial
              | risky => trivial
              | ambiguous _ => trivial
              | hit nd' u' n' st' => exact hg.elim
              | fail n' st' =>
                have hg : _ → _ := hg
                refine hend ?_ hn h
                simp only [Bool.and_eq_true]
                exact fun h => ⟨hs h.1, hg h.2⟩
            | hit nd0 u0 n0 st0 =>
              simp only [hr] at h
              have hu0 := run_used_le (hv0.drop pos) hr
              rw [List.length_drop] at hu0
              have hmore : begins (t.moreOf r) (l.drop (pos + u0) ++ w) = false := by
                split at h
                · split at h
                  · cases h
                  · have hu : u = pos + u0 := by
                      unfold repEnd at h
                      split at h
                      · cases h
                      · simp only [Ans.hit.injEq] at h; exact h.2.1.symm
                    rw [← hu]; exact he'.2
                · split at h
                  · cases h
                  · exact repAt_more hD hv0 ht0 hd.1.1 hd.1.2 hd.2 h he
              have hg := ih hf hd.1.1 hbl hef hvd htd hr (by rw [List.drop_drop]; exact hmore)
              generalize Spec.run env F r flag' (l.drop pos ++ w) = a at hg
              cases a with
              | oof => trivial
              | risky => trivial
              | fail _ _ => exact hg.elim
              | ambiguous _ => exact hg.elim
              | hit nd' u' n' st' =>
                obtain ⟨h1, rfl, h3⟩ := hg
                have hs' : (sticky' && st') = true → (sticky && st0) = true := by
                  simp only [Bool.and_eq_true]
                  exact fun h => ⟨hs h.1, h3 h.2⟩
                have hn' : bareL (nodes ++ [nd0]) = bareL (nodes' ++ [nd']) := by rw [bareL_append, bareL_append, hn, bareL_one h1]
                simp only [hlen]
                split at h
                · rename_i hmax
                  rw [if_pos hmax]
                  split at h
                  · cases h
                  · split
                    · trivial
                    · exact hend hs' hn' h
                · rename_i hmax
                  rw [if_neg hmax]
                  split at h
                  · cases h
                  · split
                    · trivial
                    · exact ihk _ _ _ _ _ _ _ (by omega) hs' hn' h
      exact key F 0 0 0 true true [] [] (Nat.zero_le _) id rfl h

end Xbnf.Spec.Unspaced
