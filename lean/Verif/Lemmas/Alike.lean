import Verif.Lemmas.Unspaced
import Verif.Lemmas.RunFuel
/-
Stickiness, for texts with the same characters apart from white space: it is the same too if the texts
both end in white space or both do not.
-/
namespace Xbnf.Spec.Unspaced
open Props

variable {env : Env}

/-- No white space is written in the goal, and no block. -/
def goalBlankless : Goal → Bool
  | .one r => blankless false r
  | .parts rs => blanklessL false rs
  | .rounds r => blankless false r

/-- The rule was tried here, without a match. -/
def Tried (env : Env) (r : Rule) (flag : Int) (l : List Rune) (st : Bool) : Prop :=
  ∃ F, (∃ n, Spec.run env F r flag l = .fail n st) ∨ (st = false ∧ ∃ n, Spec.run env F r flag l = .ambiguous n)

/-- `Derives`, with a record of what was tried without a match. -/
inductive Traced (env : Env) : Goal → Int → List Rune → List Node → Nat → Bool → Prop
  | terminal {r flag l nd u st} (ht : terminal r = true) (h : Matches env r flag l nd u st) : Traced env (.one r) flag l [nd] u st
  | block {b o v c e xs flag l nd u st} (h : Matches env (.block b o v c e xs) flag l nd u st) :
      Traced env (.one (.block b o v c e xs)) flag l [nd] u st
  | group {b r flag l nd u st} (h : Traced env (.one r) flag l [nd] u st) :
      Traced env (.one (.group b r)) flag l [inner .group b st [nd]] u st
  | present {b r flag l nd u st} (h : Traced env (.one r) flag l [nd] u st) :
      Traced env (.one (.option b r)) flag l [inner .option b st [nd]] u st
  | absent {b r flag l st} (h : Tried env r flag l st) : Traced env (.one (.option b r)) flag l [inner .option b st []] 0 st
  | choice {b gs1 rs1 r rs2 gs2 flag l nd u st} (h : Traced env (.one r) flag l [nd] u st) (f : Rule → Bool)
      (hf : ∀ r' ∈ gs1.flatten ++ rs1 ++ rs2, Tried env r' flag l (f r') ∨ ∃ F nd u n st, Spec.run env F r' flag l = .hit nd u n st) :
      Traced env (.one (.choice b (gs1 ++ (rs1 ++ r :: rs2) :: gs2))) flag l
        [inner .choice b (st && (gs1.flatten ++ rs1 ++ rs2).all f) [nd]] u (st && (gs1.flatten ++ rs1 ++ rs2).all f)
  | concat {b rs flag l nds u st} (h : Traced env (.parts rs) flag l nds u st) :
      Traced env (.one (.concat b rs)) flag l [inner .concatenate b st nds] u st
  | rep {b r mn mx flag l nds u st last} (h : Traced env (.rounds r) flag l nds u st) (hmn : mn ≤ nds.length)
      (hmx : mx = 0 ∨ nds.length ≤ mx)
      (hlast : if (0 < mx ∧ nds.length = mx) ∨ l.drop u = [] then last = true else Tried env r flag (l.drop u) last) :
      Traced env (.one (.rep b r mn mx)) flag l [inner .repetition b (st && last) nds] u (st && last)
  | ref {b name r flag l nd u st} (hr : env name = some r) (h : Traced env (.one r) flag l [nd] u st) :
      Traced env (.one (.ref b name)) flag l [flip b nd] u st
  | done {flag l} : Traced env (.parts []) flag l [] 0 true
  | next {r rs flag l nd u st nds v st'} (h : Traced env (.one r) flag l [nd] u st)
      (hs : Traced env (.parts rs) (flagAfter flag nd st) (l.drop u) nds v st') :
      Traced env (.parts (r :: rs)) flag l (nd :: nds) (u + v) (st && st')
  | stop {r flag l} : Traced env (.rounds r) flag l [] 0 true
  | again {r flag l nd u st nds v st'} (hl : l ≠ []) (h : Traced env (.one r) flag l [nd] u st)
      (hs : Traced env (.rounds r) flag (l.drop u) nds v st') : Traced env (.rounds r) flag l (nd :: nds) (u + v) (st && st')

/-- Every match of the reference semantics is traced. -/
theorem run_traced {fuel : Nat} : ∀ {r flag l nd u n st}, Valid l → Spec.run env fuel r flag l = .hit nd u n st →
    Traced env (.one r) flag l [nd] u st := by
  induction fuel with
  | zero => intro r flag l nd u n st _ h; cases h
  | succ fuel ih =>
    intro r flag l nd u n st hv h
    have hm := matches_of_run hv h
    cases r with
    | eof b => exact .terminal rfl hm
    | char b t x => exact .terminal rfl hm
    | range b x xu y yu => exact .terminal rfl hm
    | chars b t => exact .terminal rfl hm
    | str b t => exact .terminal rfl hm
    | group b r =>
      rw [Spec.run] at h
      cases hr : Spec.run env fuel r flag l with
      | hit nd0 u0 n0 st0 =>
        simp only [hr, Ans.hit.injEq] at h
        obtain ⟨rfl, rfl, rfl, rfl⟩ := h
        exact .group (ih hv hr)
      | _ => simp [hr] at h
    | option b r =>
      rw [Spec.run] at h
      cases hr : Spec.run env fuel r flag l with
      | hit nd0 u0 n0 st0 =>
        simp only [hr, Ans.hit.injEq] at h
        obtain ⟨rfl, rfl, rfl, rfl⟩ := h
        exact .present (ih hv hr)
      | fail n0 st0 =>
        simp only [hr, Ans.hit.injEq] at h
        obtain ⟨rfl, rfl, rfl, rfl⟩ := h
        exact .absent ⟨fuel, .inl ⟨_, hr⟩⟩
      | _ => simp [hr] at h
    | ref b name =>
      rw [Spec.run] at h
      cases he : env name with
      | none => simp [he] at h
      | some r =>
        cases hr : Spec.run env fuel r flag l with
        | hit nd0 u0 n0 st0 =>
          simp only [he, hr, Ans.hit.injEq] at h
          obtain ⟨rfl, rfl, rfl, rfl⟩ := h
          exact .ref he (ih hv hr)
        | _ => simp [he, hr] at h
    | block b o v c e xs =>
      exact .block hm
    | choice b gs =>
      rw [Spec.run] at h
      obtain ⟨gs1, rs1, r, rs2, gs2, nd0, n0, st0, rfl, e2, e3, rfl, e5⟩ := choiceAt_sticky h
      rw [Bool.true_and] at e3
      subst e3
      refine .choice (ih hv e2) _ ?_
      intro r' hr'
      obtain ⟨h1, h2⟩ := e5 r' hr'
      cases hx : Spec.run env fuel r' flag l with
      | oof => exact absurd hx h1
      | risky => exact absurd hx h2
      | fail n st => exact .inl ⟨fuel, .inl ⟨_, hx⟩⟩
      | ambiguous n => exact .inl ⟨fuel, .inr ⟨rfl, _, hx⟩⟩
      | hit nd u n st => exact .inr ⟨fuel, _, _, _, _, hx⟩
    | concat b rs =>
      rw [Spec.run] at h
      have key : ∀ (rs : List Rule) (pos look : Nat) (sticky : Bool) (flag : Int) (nodes : List Node),
          seqAt (Spec.run env fuel) b l rs pos look sticky flag nodes = .hit nd u n st →
          ∃ nds v st', Traced env (.parts rs) flag (l.drop pos) nds v st' ∧ u = pos + v ∧ st = (sticky && st') ∧
            nd = inner .concatenate b st (nodes ++ nds) := by
        intro rs
        induction rs with
        | nil =>
          intro pos look sticky flag nodes h
          simp only [seqAt, Ans.hit.injEq] at h
          obtain ⟨rfl, rfl, rfl, rfl⟩ := h
          exact ⟨[], 0, true, .done, rfl, by simp, by simp⟩
        | cons r rs ihs =>
          intro pos look sticky flag nodes h
          rw [seqAt] at h
          cases hr : Spec.run env fuel r flag (l.drop pos) with
          | hit nd0 u0 n0 st0 =>
            simp only [hr] at h
            split at h
            · cases h
            · obtain ⟨nds, v, st', e1, e2, e3, e4⟩ := ihs _ _ _ _ _ h
              rw [← List.drop_drop] at e1
              exact ⟨nd0 :: nds, u0 + v, st0 && st', .next (ih (hv.drop pos) hr) e1, by omega,
                by rw [e3, Bool.and_assoc], by rw [e4]; simp⟩
          | _ => simp [hr] at h
      obtain ⟨nds, v, st', e1, e2, e3, e4⟩ := key rs _ _ _ _ _ h
      rw [Nat.zero_add] at e2
      rw [Bool.true_and] at e3
      subst e2 e3 e4
      exact .concat e1
    | rep b r mn mx =>
      rw [Spec.run] at h
      have key : ∀ (k pos look : Nat) (sticky : Bool) (nodes : List Node), (mx = 0 ∨ nodes.length < mx) →
          repAt (Spec.run env fuel) b r mn mx flag l k pos look sticky nodes = .hit nd u n st →
          ∃ nds v st' last, Traced env (.rounds r) flag (l.drop pos) nds v st' ∧ u = pos + v ∧
            mn ≤ nodes.length + nds.length ∧ (mx = 0 ∨ nodes.length + nds.length ≤ mx) ∧
            (if (0 < mx ∧ nodes.length + nds.length = mx) ∨ l.drop u = [] then last = true
               else Tried env r flag (l.drop u) last) ∧
            st = (sticky && (st' && last)) ∧ nd = inner .repetition b st (nodes ++ nds) := by
        intro k
        induction k with
        | zero => intro pos look sticky nodes _ h; cases h
        | succ k ihk =>
          intro pos look sticky nodes hmx h
          rw [repAt] at h
          split at h
          · rename_i hnil
            unfold repEnd at h
            split at h
            · cases h
            · simp only [Ans.hit.injEq] at h
              obtain ⟨rfl, rfl, rfl, rfl⟩ := h
              exact ⟨[], 0, true, true, .stop, rfl, by simp; omega, by simp; omega,
                by rw [if_pos (.inr hnil)], by simp, by simp⟩
          · rename_i hne
            cases hr : Spec.run env fuel r flag (l.drop pos) with
            | oof => simp [hr] at h
            | risky => simp [hr] at h
            | ambiguous n0 => simp [hr] at h
            | fail n0 st0 =>
              simp only [hr] at h
              unfold repEnd at h
              split at h
              · cases h
              · simp only [Ans.hit.injEq] at h
                obtain ⟨rfl, rfl, rfl, rfl⟩ := h
                refine ⟨[], 0, true, st0, .stop, rfl, by simp; omega, by simp; omega, ?_, by simp, by simp⟩
                rw [if_neg]
                · exact ⟨fuel, .inl ⟨_, hr⟩⟩
                · rintro (⟨h1, h2⟩ | h)
                  · simp at h2; omega
                  · exact hne h
            | hit nd0 u0 n0 st0 =>
              simp only [hr] at h
              split at h
              · rename_i hmax
                split at h
                · cases h
                · unfold repEnd at h
                  split at h
                  · cases h
                  · simp only [Ans.hit.injEq] at h
                    obtain ⟨rfl, rfl, rfl, rfl⟩ := h
                    rename_i hmn
                    simp only [List.length_append, List.length_cons, List.length_nil] at hmn
                    refine ⟨[nd0], u0 + 0, st0 && true, true, .again hne (ih (hv.drop pos) hr) .stop, by omega,
                      by simp; omega, by simp; omega, ?_, by simp, by simp⟩
                    rw [if_pos (.inl ⟨hmax.1, by simpa using hmax.2⟩)]
              · rename_i hmax
                split at h
                · cases h
                · obtain ⟨nds, v, st', last, e1, e2, e3, e4, e5, e6, e7⟩ := ihk _ _ _ _ (by
                    simp only [List.length_append, List.length_cons, List.length_nil]
                    by_cases h0 : mx = 0
                    · exact .inl h0
                    · right
                      have : ¬ (nodes.length + 1 = mx) := fun he => hmax ⟨by omega, he⟩
                      omega) h
                  simp only [List.length_append, List.length_cons, List.length_nil] at e3 e4 e5
                  rw [← List.drop_drop] at e1
                  refine ⟨nd0 :: nds, u0 + v, st0 && st', last, .again hne (ih (hv.drop pos) hr) e1, by omega,
                    by simp; omega, by simp; omega, ?_, by rw [e6]; simp [Bool.and_assoc], by rw [e7]; simp⟩
                  simpa [Nat.add_assoc, Nat.add_comm 1] using e5
      obtain ⟨nds, v, st', last, e1, e2, e3, e4, e5, e6, e7⟩ := key _ _ _ _ _ (by simp; omega) h
      simp only [List.length_nil, Nat.zero_add, List.nil_append, Bool.true_and] at e2 e3 e4 e5 e6 e7
      subst e2 e6 e7
      exact .rep e1 e3 e4 e5


theorem tried_misses {r : Rule} {flag : Int} {l : List Rune} (hv : Valid l) {st} (h : Tried env r flag l st) : Misses env r flag l st := by
  obtain ⟨F, ⟨n, h⟩ | ⟨rfl, n, h⟩⟩ := h
  · exact misses_of_run hv h
  · exact misses_of_ambiguous hv h

/-- What is traced, without blocks, is in the language. -/
theorem derives_of_traced (hB : BlanklessEnv false env) {g flag l nds u st} (h : Traced env g flag l nds u st) :
    goalBlankless g = true → Valid l → Derives env g flag l nds u st := by
  induction h with
  | terminal ht h => exact fun _ _ => .terminal ht h
  | block h => intro hb; simp [goalBlankless, blankless] at hb
  | group h ih => exact fun hb hv => .group (ih hb hv)
  | present h ih => exact fun hb hv => .present (ih hb hv)
  | absent h => exact fun _ hv => .absent fun st' hst => misses_det (tried_misses hv h) hst
  | choice h f hf ih =>
    intro hb hv
    refine .choice (ih (blanklessLL_mem hb (by simp)) hv) f fun r' hr' st' hst => ?_
    rcases hf r' hr' with h | ⟨F, nd, u, n, st, h⟩
    · exact misses_det (tried_misses hv h) hst
    · exact (matches_not_fails (matches_of_run hv h) (misses_fails hst)).elim
  | concat h ih => exact fun hb hv => .concat (ih hb hv)
  | rep h hmn hmx hlast ih =>
    intro hb hv
    refine .rep (ih hb hv) hmn hmx ?_
    split
    · rename_i hc; rwa [if_pos hc] at hlast
    · rename_i hc
      rw [if_neg hc] at hlast
      exact fun st' hst => misses_det (tried_misses (hv.drop _) hlast) hst
  | ref hr h ih => exact fun _ hv => .ref hr (ih (hB _ _ hr) hv)
  | done => exact fun _ _ => .done
  | next h hs ih ihs =>
    intro hb hv
    simp only [goalBlankless, blanklessL, Bool.and_eq_true] at hb
    exact .next (ih hb.1 hv) (ihs hb.2 (hv.drop _))
  | stop => exact fun _ _ => .stop
  | again hl h hs ih ihs => exact fun hb hv => .again hl (ih hb hv) (ihs hb (hv.drop _))

/-! ### Rules tried where they cannot begin -/

/-- The same characters apart from white space, and white space at the end in both or in neither. -/
structure Twin (l l' : List Rune) : Prop where
  solid : Spec.solid l = Spec.solid l'
  ends : endsBlank l = endsBlank l'

theorem solid_nil {l : List Rune} (h : solid l = []) : ∀ c ∈ l, isWhiteSpace c = true := by
  intro c hc
  unfold solid at h
  have := List.filter_eq_nil_iff.1 h c hc
  simpa using this

theorem endsBlank_nil {l : List Rune} (h : solid l = []) (he : endsBlank l = false) : l = [] := by
  unfold endsBlank at he
  cases hg : l.getLast? with
  | none => simpa using hg
  | some c =>
    rw [hg] at he
    have := solid_nil h c (List.mem_of_getLast? hg)
    rw [Option.map_some, Option.getD_some, this] at he
    cases he

theorem Twin.symm {l l' : List Rune} (h : Twin l l') : Twin l' l := ⟨h.solid.symm, h.ends.symm⟩

theorem Twin.nil {l l' : List Rune} (h : Twin l l') (hl : l = []) : l' = [] := by
  subst hl
  exact endsBlank_nil h.solid.symm h.ends.symm

theorem Twin.nil_iff {l l' : List Rune} (h : Twin l l') : l = [] ↔ l' = [] := ⟨h.nil, h.symm.nil⟩

theorem Twin.of_nil : Twin [] [] := ⟨rfl, rfl⟩

theorem solid_of_blank {l : List Rune} : l.drop (blank true l).length = [] ↔ solid l = [] := by
  constructor
  · intro h
    rw [solid_blank true l, h]; rfl
  · intro h
    have : blank true l = l := by
      unfold blank
      rw [if_pos rfl]
      have key : ∀ m : List Rune, (∀ c ∈ m, isWhiteSpace c = true) → m.takeWhile isWhiteSpace = m := by
        intro m hm
        induction m with
        | nil => rfl
        | cons c m ih => rw [List.takeWhile_cons, if_pos (hm c (by simp)), ih fun c hc => hm c (List.mem_cons_of_mem _ hc)]
      exact key l (solid_nil h)
    rw [this, List.drop_length]

theorem Twin.blank {l l' : List Rune} (h : Twin l l') (skip : Bool) :
    l.drop (Spec.blank skip l).length = [] ↔ l'.drop (Spec.blank skip l').length = [] := by
  cases skip with
  | false => simpa [Spec.blank] using h.nil_iff
  | true => rw [solid_of_blank, solid_of_blank, h.solid]

/-- What is the same where a rule cannot begin: no match both times, with the same stickiness, or the same match of nothing. -/
def Dull (l l' : List Rune) : Ans → Ans → Prop
  | .oof, _ | _, .oof | .risky, _ | _, .risky => True
  | .fail _ st, .fail _ st' => st = st'
  | .hit nd u _ st, .hit nd' u' _ st' => nd = nd' ∧ st = st' ∧ Twin (l.drop u) (l'.drop u')
  | _, _ => False

/-- Two answers that are no matches, with the same stickiness. -/
def Nil : Ans → Ans → Prop
  | .oof, _ | _, .oof | .risky, _ | _, .risky => True
  | .fail _ st, .fail _ st' => st = st'
  | _, _ => False

theorem nil_l {a a' : Ans} (h : a = .oof ∨ a = .risky) : Nil a a' := by
  rcases h with rfl | rfl <;> cases a' <;> trivial
theorem nil_r {a a' : Ans} (h : a' = .oof ∨ a' = .risky) : Nil a a' := by
  rcases h with rfl | rfl <;> cases a <;> trivial
theorem dull_l {l l' : List Rune} {a a' : Ans} (h : a = .oof ∨ a = .risky) : Dull l l' a a' := by
  rcases h with rfl | rfl <;> cases a' <;> trivial
theorem dull_r {l l' : List Rune} {a a' : Ans} (h : a' = .oof ∨ a' = .risky) : Dull l l' a a' := by
  rcases h with rfl | rfl <;> cases a <;> trivial

theorem nil_of_dull {l l' : List Rune} {a a' : Ans} (h : Dull l l' a a') (h1 : ∀ nd u n st, a ≠ .hit nd u n st) : Nil a a' := by
  cases a <;> cases a' <;> first | exact h | trivial | exact absurd rfl (h1 _ _ _ _) | skip

theorem dull_of_nil {l l' : List Rune} {a a' : Ans} (h : Nil a a') : Dull l l' a a' := by
  cases a <;> cases a' <;> first | exact h | trivial | exact h.elim

/-- No match, if any answer, and then with the stickiness `s`. -/
def Misfit (s : Bool) : Ans → Prop
  | .fail _ st => st = s
  | .ambiguous _ => False
  | _ => True

theorem terminal_fails {r : Rule} (ht : terminal r = true) (F : Nat) (flag : Int) (l : List Rune) :
    Misfit (stays r) (Spec.run env F r flag l) := by
  have hone : ∀ rt b skip p, Misfit true (oneAt rt b skip p l) := by
    intro rt b skip p
    unfold oneAt
    simp only
    repeat' split
    all_goals first | trivial | exact rfl
  have htext : ∀ rt b s skip text, Misfit s (textAt rt b s skip text l) := by
    intro rt b s skip text
    unfold textAt
    simp only
    repeat' split
    all_goals first | trivial | exact rfl
  cases F with
  | zero => trivial
  | succ F =>
    cases r <;> try (cases ht; done)
    · simp only [Spec.run, eofAt]
      split <;> first | trivial | exact rfl
    · simp only [Spec.run]
      split
      · trivial
      · exact hone _ _ _ _
    · simp only [Spec.run]
      split
      · trivial
      · exact hone _ _ _ _
    · simp only [Spec.run]; exact htext _ _ _ _ _
    · simp only [Spec.run]; exact htext _ _ _ _ _

theorem altsAt_dull {run : Runner} {flag : Int} {l l' : List Rune} {rs : List Rule} (h : ∀ r ∈ rs, Nil (run r flag l) (run r flag l')) :
    ∀ {look look' sticky}, altsAt run flag l rs look sticky = .oof ∨ altsAt run flag l rs look sticky = .risky ∨
      altsAt run flag l' rs look' sticky = .oof ∨ altsAt run flag l' rs look' sticky = .risky ∨
      ∃ k k' s, altsAt run flag l rs look sticky = .ok [] k s ∧ altsAt run flag l' rs look' sticky = .ok [] k' s := by
  induction rs with
  | nil => intro look look' sticky; exact .inr (.inr (.inr (.inr ⟨_, _, _, rfl, rfl⟩)))
  | cons r rs ih =>
    intro look look' sticky
    have ih := @ih (fun r' hr' => h r' (List.mem_cons_of_mem _ hr'))
    have hr := h r (by simp)
    rw [altsAt, altsAt]
    generalize run r flag l = a at hr
    generalize run r flag l' = a' at hr
    cases a <;> cases a' <;> first | exact hr.elim | simp only [true_or, or_true] | skip
    have hr : _ = _ := hr
    subst hr
    exact ih

theorem choiceAt_dull {run : Runner} {b : RuleBase} {flag : Int} {l l' : List Rune} {gs : List (List Rule)}
    (h : ∀ r ∈ gs.flatten, Nil (run r flag l) (run r flag l')) :
    ∀ {look look' sticky}, Nil (choiceAt run b flag l gs look sticky) (choiceAt run b flag l' gs look' sticky) := by
  induction gs with
  | nil => intro look look' sticky; exact rfl
  | cons g gs ih =>
    intro look look' sticky
    have ih := @ih (fun r hr => h r (by simp only [List.flatten_cons, List.mem_append]; exact .inr hr))
    rw [choiceAt, choiceAt]
    rcases @altsAt_dull run flag l l' g (fun r hr => h r (by simp only [List.flatten_cons, List.mem_append]; exact .inl hr)) look look' sticky with
      h | h | h | h | ⟨k, k', s, h, h'⟩
    · exact nil_l (.inl (by rw [h]))
    · exact nil_l (.inr (by rw [h]))
    · exact nil_r (.inl (by rw [h]))
    · exact nil_r (.inr (by rw [h]))
    · rw [h, h']
      have hb : best [] = .none := rfl
      simp only [hb]
      exact ih

theorem no_hit {t : Sets} (hD : Decided t env) {r : Rule} (hd : t.decides r = true) (hn : nulB t.nullable r = false) {l : List Rune} (hv : Valid l)
    (ht : Tidy l) (hb : begins (t.firstOf r) l = false) {F : Nat} {flag : Int} : ∀ nd u n st, Spec.run env F r flag l ≠ .hit nd u n st := by
  intro nd u n st h
  rw [hit_begins hD hd hn hv ht h] at hb
  cases hb

theorem begins_mono {t : Sets} {rs : List Rule} {r : Rule} (h : r ∈ rs) {l : List Rune} (hb : begins (t.firstL rs) l = false) :
    begins (t.firstOf r) l = false := by
  cases hx : begins (t.firstOf r) l with
  | false => rfl
  | true => rw [firstL_mem h hx] at hb; cases hb

theorem seqAt_dull {t : Sets} (hD : Decided t env) {F : Nat} (hrun : ∀ r flag l l', t.decides r = true → blankless false r = true → Valid l → Valid l' →
      Tidy l → Tidy l' → Twin l l' → begins (t.firstOf r) l = false → Dull l l' (Spec.run env F r flag l) (Spec.run env F r flag l'))
    {b : RuleBase} {L L' : List Rune} (hv : Valid L) (hv' : Valid L') (ht : Tidy L) (ht' : Tidy L') {rs : List Rule} :
    ∀ {pos pos' look look' : Nat} {sticky : Bool} {flag : Int} {nodes : List Node}, t.decidesSeq rs = true → blanklessL false rs = true →
      Twin (L.drop pos) (L'.drop pos') → begins (t.firstSeq rs) (L.drop pos) = false →
      Dull L L' (seqAt (Spec.run env F) b L rs pos look sticky flag nodes) (seqAt (Spec.run env F) b L' rs pos' look' sticky flag nodes) := by
  induction rs with
  | nil => intro pos pos' look look' sticky flag nodes _ _ htw _; exact ⟨rfl, rfl, htw⟩
  | cons r rs ih =>
    intro pos pos' look look' sticky flag nodes hd hbl htw hb
    simp only [Sets.decidesSeq, blanklessL, Bool.and_eq_true] at hd hbl
    have hb1 : begins (t.firstOf r) (L.drop pos) = false := by
      rw [Sets.firstSeq] at hb
      split at hb
      · rw [Shape.begins_union, Bool.or_eq_false_iff] at hb; exact hb.1
      · exact hb
    have hr := hrun r flag _ _ hd.1.1 hbl.1 (hv.drop pos) (hv'.drop pos') (ht.drop pos) (ht'.drop pos') htw hb1
    rw [seqAt, seqAt]
    cases ha : Spec.run env F r flag (L.drop pos) <;> cases ha' : Spec.run env F r flag (L'.drop pos') <;> rw [ha, ha'] at hr <;>
      first
      | exact hr.elim
      | exact dull_l (.inl rfl)
      | exact dull_l (.inr rfl)
      | exact dull_r (.inl rfl)
      | exact dull_r (.inr rfl)
      | skip
    · have hr : _ = _ := hr
      subst hr
      exact rfl
    · rename_i nd u n st nd' u' n' st'
      obtain ⟨rfl, rfl, hr⟩ := hr
      simp only
      split
      · exact dull_l (.inr rfl)
      · split
        · exact dull_r (.inr rfl)
        · rw [List.drop_drop, List.drop_drop] at hr
          refine ih hd.2 hbl.2 hr ?_
          rcases begins_of_derives hD (run_derives (hv.drop pos) ha) (hv.drop pos) (ht.drop pos) hd.1.1 with h | ⟨hn, rfl | h⟩
          · rw [hb1] at h; cases h
          · rw [Sets.firstSeq, if_pos hn, Shape.begins_union, Bool.or_eq_false_iff] at hb
            exact hb.2
          · rw [← List.drop_drop]
            exact Shape.begins_all_blank (blanks_drop h u)

/-- Where a rule cannot begin, it does the same on both texts. -/
theorem run_dull {t : Sets} (hD : Decided t env) (hB : BlanklessEnv false env) (F : Nat) : ∀ r flag l l', t.decides r = true →
    blankless false r = true → Valid l → Valid l' → Tidy l → Tidy l' → Twin l l' → begins (t.firstOf r) l = false →
    Dull l l' (Spec.run env F r flag l) (Spec.run env F r flag l') := by
  induction F with
  | zero => intros; trivial
  | succ F ih =>
    intro r flag l l' hd hbl hv hv' ht ht' htw hb
    have hb' : begins (t.firstOf r) l' = false := by rw [← begins_same htw.solid]; exact hb
    have hterm : terminal r = true → nulB t.nullable r = false → Dull l l' (Spec.run env (F + 1) r flag l) (Spec.run env (F + 1) r flag l') := by
      intro htm hn
      have h1 := terminal_fails (env := env) htm (F + 1) flag l
      have h2 := terminal_fails (env := env) htm (F + 1) flag l'
      have h3 := no_hit hD hd hn hv ht hb (F := F + 1) (flag := flag)
      have h4 := no_hit hD hd hn hv' ht' hb' (F := F + 1) (flag := flag)
      generalize Spec.run env (F + 1) r flag l = a at h1 h3
      generalize Spec.run env (F + 1) r flag l' = a' at h2 h4
      cases a <;> cases a' <;>
        first
        | exact dull_l (.inl rfl)
        | exact dull_l (.inr rfl)
        | exact dull_r (.inl rfl)
        | exact dull_r (.inr rfl)
        | exact h1.elim
        | exact h2.elim
        | exact absurd rfl (h3 _ _ _ _)
        | exact absurd rfl (h4 _ _ _ _)
        | exact Eq.trans (h1 : _ = _) (Eq.symm h2)
    cases r with
    | eof b =>
      simp only [Spec.run, eofAt]
      split
      · rename_i h
        rw [if_pos ((htw.blank _).1 h)]
        refine ⟨rfl, rfl, ?_⟩
        rw [h, (htw.blank _).1 h]
        exact .of_nil
      · rename_i h
        rw [if_neg fun h' => h ((htw.blank _).2 h')]
        exact rfl
    | char b c us => exact hterm rfl rfl
    | range b x xu y yu => exact hterm rfl rfl
    | chars b s => exact hterm rfl (by cases s with | nil => cases hd | cons c s => rfl)
    | str b s => exact hterm rfl (by cases s with | nil => cases hd | cons c s => rfl)
    | group b r =>
      have h := ih r flag l l' hd hbl hv hv' ht ht' htw hb
      simp only [Spec.run]
      generalize Spec.run env F r flag l = a at h
      generalize Spec.run env F r flag l' = a' at h
      cases a <;> cases a' <;>
        first
        | exact h.elim
        | exact dull_l (.inl rfl)
        | exact dull_l (.inr rfl)
        | exact dull_r (.inl rfl)
        | exact dull_r (.inr rfl)
        | exact h
        | skip
      obtain ⟨rfl, rfl, h⟩ := h
      exact ⟨rfl, rfl, h⟩
    | option b r =>
      simp only [Sets.decides, Bool.and_eq_true] at hd
      have h := ih r flag l l' hd.1 hbl hv hv' ht ht' htw hb
      simp only [Spec.run]
      generalize Spec.run env F r flag l = a at h
      generalize Spec.run env F r flag l' = a' at h
      cases a <;> cases a' <;>
        first
        | exact h.elim
        | exact dull_l (.inl rfl)
        | exact dull_l (.inr rfl)
        | exact dull_r (.inl rfl)
        | exact dull_r (.inr rfl)
        | skip
      · have h : _ = _ := h
        subst h
        exact ⟨rfl, rfl, by rw [List.drop_zero, List.drop_zero]; exact htw⟩
      · obtain ⟨rfl, rfl, h⟩ := h
        exact ⟨rfl, rfl, h⟩
    | rep b r mn mx =>
      simp only [Sets.decides, Bool.and_eq_true, Bool.not_eq_true'] at hd
      have h := nil_of_dull (ih r flag l l' hd.1.1 hbl hv hv' ht ht' htw hb) (no_hit hD hd.1.1 hd.1.2 hv ht hb)
      simp only [Spec.run]
      cases F with
      | zero => exact dull_l (.inl rfl)
      | succ F =>
        have hend : ∀ look look' s, Dull l l' (repEnd b mn 0 look s []) (repEnd b mn 0 look' s []) := by
          intro look look' s
          unfold repEnd
          split
          · exact rfl
          · exact ⟨rfl, rfl, by rw [List.drop_zero, List.drop_zero]; exact htw⟩
        rw [repAt, repAt]
        simp only [List.drop_zero]
        by_cases hl : l = []
        · rw [if_pos hl, if_pos (htw.nil hl)]
          exact hend _ _ _
        · rw [if_neg hl, if_neg fun h => hl (htw.symm.nil h)]
          generalize Spec.run env (F + 1) r flag l = a at h
          generalize Spec.run env (F + 1) r flag l' = a' at h
          cases a <;> cases a' <;>
            first
            | exact h.elim
            | exact dull_l (.inl rfl)
            | exact dull_l (.inr rfl)
            | exact dull_r (.inl rfl)
            | exact dull_r (.inr rfl)
            | skip
          have h : _ = _ := h
          subst h
          exact hend _ _ _
    | choice b gs =>
      simp only [Sets.decides, Bool.and_eq_true] at hd
      simp only [Spec.run]
      refine dull_of_nil (choiceAt_dull fun r hr => ?_)
      have hbr : begins (t.firstOf r) l = false := by
        cases hx : begins (t.firstOf r) l with
        | false => rfl
        | true => rw [Sets.firstOf, firstLL_mem hr hx] at hb; cases hb
      exact nil_of_dull (ih r flag l l' (decidesLL_mem hd.1 hr) (blanklessLL_mem hbl hr) hv hv' ht ht' htw hbr)
        (no_hit hD (decidesLL_mem hd.1 hr) (differ_mem hd.2 hr) hv ht hbr)
    | concat b rs =>
      simp only [Spec.run]
      exact seqAt_dull hD ih hv hv' ht ht' hd hbl (by rw [List.drop_zero, List.drop_zero]; exact htw) (by rw [List.drop_zero]; exact hb)
    | block b o v c e xs => simp [blankless] at hbl
    | ref b name =>
      simp only [Spec.run]
      cases he : env name with
      | none => exact rfl
      | some r =>
        obtain ⟨_, h2, _, h4⟩ := hD _ _ he
        have hbr : begins (t.firstOf r) l = false := by
          cases hx : begins (t.firstOf r) l with
          | false => rfl
          | true => rw [Sets.firstOf, begins_within h2 hx] at hb; cases hb
        have h := ih r flag l l' h4 (hB _ _ he) hv hv' ht ht' htw hbr
        simp only
        generalize Spec.run env F r flag l = a at h
        generalize Spec.run env F r flag l' = a' at h
        cases a <;> cases a' <;>
          first
          | exact h.elim
          | exact dull_l (.inl rfl)
          | exact dull_l (.inr rfl)
          | exact dull_r (.inl rfl)
          | exact dull_r (.inr rfl)
          | exact h
          | skip
        obtain ⟨rfl, rfl, h⟩ := h
        exact ⟨rfl, rfl, h⟩

/-- So the stickiness reported is the same. -/
theorem tried_same {t : Sets} (hD : Decided t env) (hB : BlanklessEnv false env) {r : Rule} {flag : Int} {l l' : List Rune} (hd : t.decides r = true)
    (hbl : blankless false r = true) (hv : Valid l) (hv' : Valid l') (ht : Tidy l) (ht' : Tidy l') (htw : Twin l l')
    (hb : begins (t.firstOf r) l = false) {st st' : Bool} (h : Tried env r flag l st) (h' : Tried env r flag l' st') : st = st' := by
  obtain ⟨F, h⟩ := h
  obtain ⟨F', h'⟩ := h'
  have hx := run_dull hD hB (max F F') r flag l l' hd hbl hv hv' ht ht' htw hb
  have up : ∀ {G : Nat} {m : List Rune} {s : Bool}, G ≤ max F F' →
      ((∃ n, Spec.run env G r flag m = .fail n s) ∨ (s = false ∧ ∃ n, Spec.run env G r flag m = .ambiguous n)) →
      (∃ n, Spec.run env (max F F') r flag m = .fail n s) ∨ (s = false ∧ ∃ n, Spec.run env (max F F') r flag m = .ambiguous n) := by
    intro G m s hG h
    rcases h with ⟨n, h⟩ | ⟨hs, n, h⟩ <;> rcases run_le env G _ hG r flag m with e | e
    · rw [h] at e; cases e
    · exact .inl ⟨n, by rw [e, h]⟩
    · rw [h] at e; cases e
    · exact .inr ⟨hs, n, by rw [e, h]⟩
  rcases up (Nat.le_max_left _ _) h with ⟨n, e⟩ | ⟨hs, n, e⟩ <;> rcases up (Nat.le_max_right _ _) h' with ⟨n', e'⟩ | ⟨hs', n', e'⟩ <;>
    rw [e, e'] at hx
  · exact hx
  · exact hx.elim
  · exact hx.elim
  · exact hx.elim

/-! ### Two readings -/

theorem split_one {rs1 rs1' rs2 rs2' : List Rule} {r : Rule} (h : rs1 ++ r :: rs2 = rs1' ++ r :: rs2') (h1 : r ∉ rs1) (h1' : r ∉ rs1') :
    rs1 = rs1' ∧ rs2 = rs2' := by
  induction rs1 generalizing rs1' with
  | nil =>
    cases rs1' with
    | nil => exact ⟨rfl, by simpa using h⟩
    | cons a rs1' =>
      simp only [List.nil_append, List.cons_append, List.cons.injEq] at h
      exact absurd (by rw [← h.1]; simp) h1'
  | cons a rs1 ih =>
    cases rs1' with
    | nil =>
      simp only [List.nil_append, List.cons_append, List.cons.injEq] at h
      exact absurd (by rw [h.1]; simp) h1
    | cons a' rs1' =>
      simp only [List.cons_append, List.cons.injEq] at h
      obtain ⟨rfl, rfl⟩ := ih h.2 (fun hm => h1 (List.mem_cons_of_mem _ hm)) (fun hm => h1' (List.mem_cons_of_mem _ hm))
      exact ⟨by rw [h.1], rfl⟩

theorem split_groups {gs1 gs1' gs2 gs2' : List (List Rule)} {rs1 rs1' rs2 rs2' : List Rule} {r : Rule}
    (h : gs1 ++ (rs1 ++ r :: rs2) :: gs2 = gs1' ++ (rs1' ++ r :: rs2') :: gs2') (h1 : r ∉ gs1.flatten ++ rs1) (h1' : r ∉ gs1'.flatten ++ rs1') :
    gs1 = gs1' ∧ rs1 = rs1' ∧ rs2 = rs2' := by
  induction gs1 generalizing gs1' with
  | nil =>
    cases gs1' with
    | nil =>
      simp only [List.nil_append, List.cons.injEq] at h
      obtain ⟨rfl, rfl⟩ := split_one h.1 (fun hm => h1 (by simpa using hm)) (fun hm => h1' (by simpa using hm))
      exact ⟨rfl, rfl, rfl⟩
    | cons g gs1' =>
      simp only [List.nil_append, List.cons_append, List.cons.injEq] at h
      exact absurd (by rw [← h.1]; simp) h1'
  | cons g gs1 ih =>
    cases gs1' with
    | nil =>
      simp only [List.nil_append, List.cons_append, List.cons.injEq] at h
      exact absurd (by rw [h.1]; simp) h1
    | cons g' gs1' =>
      simp only [List.cons_append, List.cons.injEq] at h
      obtain ⟨rfl, rfl, rfl⟩ := ih h.2 (fun hm => h1 (by
        simp only [List.flatten_cons, List.mem_append] at hm ⊢
        rcases hm with h | h <;> simp [h])) (fun hm => h1' (by
        simp only [List.flatten_cons, List.mem_append] at hm ⊢
        rcases hm with h | h <;> simp [h]))
      exact ⟨by rw [h.1], rfl, rfl⟩

/-- Nothing is different. -/
structure Equal (nds nds' : List Node) (st st' : Bool) (m m' : List Rune) : Prop where
  nodes : nds = nds'
  sticky : st = st'
  rest : Twin m m'

/-- The readings of two such texts are the same, stickiness included, unless one of them could go on. -/
theorem agree_exact {t : Sets} (hD : Decided t env) (hB : BlanklessEnv false env) {g flag l nds u st}
    (h : Traced env g flag l nds u st) : Valid l → Tidy l → goalOk t g = true → ∀ {l' nds' u' st'},
    Traced env g flag l' nds' u' st' → Valid l' → Tidy l' → Twin l l' →
    Equal nds nds' st st' (l.drop u) (l'.drop u') ∨ begins (goalMore t g) (l.drop u) = true ∨ begins (goalMore t g) (l'.drop u') = true := by
  have first : ∀ {r flag l nds u st}, t.decides r = true → blankless false r = true → nulB t.nullable r = false →
      Traced env (.one r) flag l nds u st → Valid l → Tidy l → begins (t.firstOf r) l = true := fun hd hb hn h hv ht =>
    begins_of_one hD hd hn (derives_of_traced hB h hb hv) hv ht
  induction h with
  | @terminal r flag l nd u st htm hm =>
    intro hv ht hok l' nds' u' st' h' hv' ht' hl
    simp only [goalOk, Bool.and_eq_true] at hok
    have h'' : ∃ nd', nds' = [nd'] ∧ Matches env r flag l' nd' u' st' := by
      cases h' <;> first | exact ⟨_, rfl, by assumption⟩ | cases htm
    obtain ⟨nd', rfl, hm'⟩ := h''
    obtain ⟨w, e1, e2, e3, e4, e5⟩ := terminal_reads hv ht hm htm hok.1 hok.2
    obtain ⟨w', e1', e2', e3', e4', e5'⟩ := terminal_reads hv' ht' hm' htm hok.1 hok.2
    have hs := hl.solid
    rw [e1, e1'] at hs
    obtain ⟨hw, hs⟩ := List.append_inj hs (e2.trans e2'.symm)
    refine .inl ⟨by rw [e3, e3', hw], by rw [e4, e4'], ?_⟩
    by_cases h0 : wide r = 0
    · rw [if_pos h0] at e5 e5'
      rw [e5, e5']
      exact .of_nil
    · rw [if_neg h0] at e5 e5'
      exact ⟨hs, by rw [e5, e5', hl.ends]⟩
  | block hm =>
    intro hv ht hok
    simp [goalOk, blankless] at hok
  | @group b r flag l nd u st h ih =>
    intro hv ht hok l' nds' u' st' h' hv' ht' hl
    cases h' with
    | terminal htm _ => cases htm
    | group h' =>
      refine (ih hv ht hok h' hv' ht' hl).imp_left fun h => ?_
      obtain ⟨h1, rfl, h3⟩ := h
      exact ⟨by rw [h1], rfl, h3⟩
  | @present b r flag l nd u st h ih =>
    intro hv ht hok l' nds' u' st' h' hv' ht' hl
    simp only [goalOk, Sets.decides, blankless, Bool.and_eq_true, Bool.not_eq_true'] at hok
    cases h' with
    | terminal htm _ => cases htm
    | present h' =>
      have hmore : ∀ {m}, begins (t.moreOf r) m = true → begins (goalMore t (.one (.option b r))) m = true := by
        intro m hm
        rw [goalMore, Sets.moreOf, Shape.begins_union, hm]; simp
      rcases ih hv ht (by simp [goalOk, hok]) h' hv' ht' hl with h | h | h
      · obtain ⟨h1, rfl, h3⟩ := h
        exact .inl ⟨by rw [h1], rfl, h3⟩
      · exact .inr (.inl (hmore h))
      · exact .inr (.inr (hmore h))
    | absent hst =>
      have hb := first hok.1.1 hok.2 hok.1.2 h hv ht
      rw [begins_same hl.solid] at hb
      right; right
      rw [goalMore, Sets.moreOf, Shape.begins_union, List.drop_zero, hb]; simp
  | @absent b r flag l st hst =>
    intro hv ht hok l' nds' u' st' h' hv' ht' hl
    simp only [goalOk, Sets.decides, blankless, Bool.and_eq_true, Bool.not_eq_true'] at hok
    have hmore : begins (t.firstOf r) l = true → begins (goalMore t (.one (.option b r))) (l.drop 0) = true := by
      intro hb
      rw [goalMore, Sets.moreOf, Shape.begins_union, List.drop_zero, hb]; simp
    cases h' with
    | terminal htm _ => cases htm
    | present h' =>
      have hb := first hok.1.1 hok.2 hok.1.2 h' hv' ht'
      rw [← begins_same hl.solid] at hb
      exact .inr (.inl (hmore hb))
    | absent hst' =>
      cases hb : begins (t.firstOf r) l with
      | true => exact .inr (.inl (hmore hb))
      | false =>
        have := tried_same hD hB hok.1.1 hok.2 hv hv' ht ht' hl hb hst hst'
        subst this
        exact .inl ⟨rfl, rfl, by rw [List.drop_zero, List.drop_zero]; exact hl⟩
  | @choice b gs1 rs1 r rs2 gs2 flag l nd u st h f hf ih =>
    intro hv ht hok l' nds' u' st' h' hv' ht' hl
    simp only [goalOk, Sets.decides, blankless, Bool.and_eq_true] at hok
    obtain ⟨⟨hd, hdf⟩, hbl⟩ := hok
    have hmem : r ∈ (gs1 ++ (rs1 ++ r :: rs2) :: gs2).flatten := by simp
    have hbeg := first (decidesLL_mem hd hmem) (blanklessLL_mem hbl hmem) (differ_mem hdf hmem) h hv ht
    generalize hgs : gs1 ++ (rs1 ++ r :: rs2) :: gs2 = gs at h' hd hdf hbl hmem
    cases h' with
    | terminal htm _ => cases htm
    | @choice _ gs1' rs1' r' rs2' gs2' _ _ nd' _ st0' h' f' hf' =>
      have hmem' : r' ∈ (gs1' ++ (rs1' ++ r' :: rs2') :: gs2').flatten := by simp
      have hbeg' := first (decidesLL_mem hd hmem') (blanklessLL_mem hbl hmem') (differ_mem hdf hmem') h' hv' ht'
      have hap' := differ_apart (r := r') (as := gs1'.flatten ++ rs1') (bs := rs2' ++ gs2'.flatten) (by simpa using hdf)
      have hap := differ_apart (r := r) (as := gs1.flatten ++ rs1) (bs := rs2 ++ gs2.flatten) (by rw [← hgs] at hdf; simpa using hdf)
      have hself : ∀ {x : Rule} {m : List Rune}, begins (t.firstOf x) m = true → (t.firstOf x).apart (t.firstOf x) = true → False := by
        intro x m h1 h2
        have := Shape.begins_apart h2 h1
        rw [h1] at this; cases this
      have he : r' = r := by
        refine Classical.byContradiction fun he => ?_
        rw [begins_same hl.solid] at hbeg
        have hm : r ∈ (gs1'.flatten ++ rs1') ++ (rs2' ++ gs2'.flatten) := by
          simp only [List.flatten_append, List.flatten_cons, List.append_assoc, List.mem_append, List.mem_cons, List.cons_append] at hmem ⊢
          rcases hmem with h | h | h | h | h
          · exact .inl h
          · exact .inr (.inl h)
          · exact absurd h.symm he
          · exact .inr (.inr (.inl h))
          · exact .inr (.inr (.inr h))
        rw [Shape.begins_apart (hap' r hm) hbeg'] at hbeg
        cases hbeg
      subst he
      have hnot : r' ∉ gs1.flatten ++ rs1 := fun hm => hself hbeg (hap r' (List.mem_append_left _ hm))
      have hnot' : r' ∉ gs1'.flatten ++ rs1' := fun hm => hself hbeg' (hap' r' (List.mem_append_left _ hm))
      obtain ⟨rfl, rfl, rfl⟩ := split_groups hgs hnot hnot'
      rcases ih hv ht (by simp [goalOk, decidesLL_mem hd hmem, blanklessLL_mem hbl hmem]) h' hv' ht' hl with h | h | h
      · obtain ⟨h1, rfl, h3⟩ := h
        have hall : (gs1.flatten ++ rs1 ++ rs2).all f = (gs1.flatten ++ rs1 ++ rs2).all f' := by
          have key : ∀ x ∈ gs1.flatten ++ rs1 ++ rs2, f x = f' x := by
            intro x hx
            have hx1 : x ∈ (gs1.flatten ++ rs1) ++ (rs2 ++ gs2'.flatten) := by
              simp only [List.mem_append] at hx ⊢
              rcases hx with (h | h) | h <;> simp [h]
            have hx2 : x ∈ (gs1 ++ (rs1 ++ r' :: rs2) :: gs2').flatten := by
              simp only [List.mem_append] at hx
              simp only [List.flatten_append, List.flatten_cons, List.mem_append, List.mem_cons]
              rcases hx with (h | h) | h <;> simp [h]
            have hb := Shape.begins_apart (hap' x hx1) hbeg'
            have hb0 : begins (t.firstOf x) l = false := by rw [begins_same hl.solid]; exact hb
            have n1 := fun F => no_hit (F := F) (env := env) hD (decidesLL_mem hd hx2) (differ_mem hdf hx2) hv ht hb0 (flag := flag)
            have n2 := fun F => no_hit (F := F) (env := env) hD (decidesLL_mem hd hx2) (differ_mem hdf hx2) hv' ht' hb (flag := flag)
            rcases hf x hx with h | ⟨F, nd, u, n, st, h⟩
            · rcases hf' x hx with h' | ⟨F, nd, u, n, st, h'⟩
              · exact tried_same hD hB (decidesLL_mem hd hx2) (blanklessLL_mem hbl hx2) hv hv' ht ht' hl hb0 h h'
              · exact absurd h' (n2 _ _ _ _ _)
            · exact absurd h (n1 _ _ _ _ _)
          rw [Bool.eq_iff_iff, List.all_eq_true, List.all_eq_true]
          exact ⟨fun h x hx => by rw [← key x hx]; exact h x hx, fun h x hx => by rw [key x hx]; exact h x hx⟩
        exact .inl ⟨by rw [h1, hall], by rw [hall], h3⟩
      · exact .inr (.inl (moreLL_mem hmem h))
      · exact .inr (.inr (moreLL_mem hmem h))
  | @concat b rs flag l nds u st h ih =>
    intro hv ht hok l' nds' u' st' h' hv' ht' hl
    cases h' with
    | terminal htm _ => cases htm
    | concat h' =>
      refine (ih hv ht hok h' hv' ht' hl).imp_left fun h => ?_
      obtain ⟨rfl, rfl, h3⟩ := h
      exact ⟨rfl, rfl, h3⟩
  | @rep b r mn mx flag l nds u st last h hmn hmx hlast ih =>
    intro hv ht hok l' nds' u' st' h' hv' ht' hl
    have hok' := hok
    simp only [goalOk, Sets.decides, blankless, Bool.and_eq_true, Bool.not_eq_true'] at hok
    cases h' with
    | terminal htm _ => cases htm
    | @rep _ _ _ _ _ _ nds' _ st0' last' h' _ _ hlast' =>
      rcases ih hv ht hok' h' hv' ht' hl with h | h
      · obtain ⟨rfl, rfl, h3⟩ := h
        by_cases hc : (0 < mx ∧ nds.length = mx) ∨ l.drop u = []
        · have hc' : (0 < mx ∧ nds.length = mx) ∨ l'.drop u' = [] := hc.imp_right h3.nil
          rw [if_pos hc] at hlast
          rw [if_pos hc'] at hlast'
          subst hlast hlast'
          exact .inl ⟨rfl, rfl, h3⟩
        · have hc' : ¬ ((0 < mx ∧ nds.length = mx) ∨ l'.drop u' = []) := fun h => hc (h.imp_right h3.symm.nil)
          rw [if_neg hc] at hlast
          rw [if_neg hc'] at hlast'
          cases hb : begins (t.firstOf r) (l.drop u) with
          | true =>
            right; left
            rw [goalMore, Sets.moreOf, Shape.begins_union, hb]; simp
          | false =>
            have := tried_same hD hB hok.1.1.1 hok.2 (hv.drop u) (hv'.drop u') (ht.drop u) (ht'.drop u') h3 hb hlast hlast'
            subst this
            exact .inl ⟨rfl, rfl, h3⟩
      · exact .inr h
  | @ref b name r flag l nd u st hr h ih =>
    intro hv ht hok l' nds' u' st' h' hv' ht' hl
    cases h' with
    | terminal htm _ => cases htm
    | ref hr' h' =>
      rw [hr] at hr'
      cases hr'
      obtain ⟨_, _, h3, h4⟩ := hD _ _ hr
      rcases ih hv ht (by simp [goalOk, h4, hB _ _ hr]) h' hv' ht' hl with h | h | h
      · obtain ⟨h1, rfl, h3⟩ := h
        simp only [List.cons.injEq, and_true] at h1
        exact .inl ⟨by rw [h1], rfl, h3⟩
      · exact .inr (.inl (begins_within h3 h))
      · exact .inr (.inr (begins_within h3 h))
  | done =>
    intro hv ht hok l' nds' u' st' h' hv' ht' hl
    cases h' with
    | done => exact .inl ⟨rfl, rfl, by rw [List.drop_zero, List.drop_zero]; exact hl⟩
  | @next r rs flag l nd u st nds v st' h hs ih ihs =>
    intro hv ht hok l' nds' u' st0 h' hv' ht' hl
    simp only [goalOk, Sets.decidesSeq, blanklessL, Bool.and_eq_true] at hok
    obtain ⟨⟨⟨hd, hap⟩, hds⟩, hb, hbs⟩ := hok
    cases h' with
    | next h' hs' =>
      rcases ih hv ht (by simp [goalOk, hd, hb]) h' hv' ht' hl with h | h | h
      · obtain ⟨h1, rfl, h3⟩ := h
        simp only [List.cons.injEq, and_true] at h1
        subst h1
        rcases ihs (hv.drop u) (ht.drop u) (by simp [goalOk, hds, hbs]) hs' (hv'.drop _) (ht'.drop _) h3 with h | h | h
        · obtain ⟨rfl, rfl, h3⟩ := h
          rw [List.drop_drop, List.drop_drop] at h3
          exact .inl ⟨rfl, rfl, h3⟩
        · rw [List.drop_drop] at h
          exact .inr (.inl (moreSeq_tail h))
        · rw [List.drop_drop] at h
          exact .inr (.inr (moreSeq_tail h))
      · exact .inr (.inl (parts_end hD hap hds (derives_of_traced hB hs hbs (hv.drop u)) hv ht h))
      · exact .inr (.inr (parts_end hD hap hds (derives_of_traced hB hs' hbs (hv'.drop _)) hv' ht' h))
  | @stop r flag l =>
    intro hv ht hok l' nds' u' st' h' hv' ht' hl
    simp only [goalOk, Bool.and_eq_true, Bool.not_eq_true'] at hok
    cases h' with
    | stop => exact .inl ⟨rfl, rfl, by rw [List.drop_zero, List.drop_zero]; exact hl⟩
    | again _ h' hs' =>
      have hb := first hok.1.1.1 hok.2 hok.1.1.2 h' hv' ht'
      rw [← begins_same hl.solid] at hb
      right; left
      rw [goalMore, Shape.begins_union, List.drop_zero, hb]; simp
  | @again r flag l nd u st nds v st' hne h hs ih ihs =>
    intro hv ht hok l' nds' u' st0 h' hv' ht' hl
    have hok' := hok
    simp only [goalOk, Bool.and_eq_true, Bool.not_eq_true'] at hok
    cases h' with
    | stop =>
      have hb := first hok.1.1.1 hok.2 hok.1.1.2 h hv ht
      rw [begins_same hl.solid] at hb
      right; right
      rw [goalMore, Shape.begins_union, List.drop_zero, hb]; simp
    | again _ h' hs' =>
      rcases ih hv ht (by simp [goalOk, hok]) h' hv' ht' hl with h | h | h
      · obtain ⟨h1, rfl, h3⟩ := h
        simp only [List.cons.injEq, and_true] at h1
        subst h1
        rcases ihs (hv.drop u) (ht.drop u) hok' hs' (hv'.drop _) (ht'.drop _) h3 with h | h | h
        · obtain ⟨rfl, rfl, h3⟩ := h
          rw [List.drop_drop, List.drop_drop] at h3
          exact .inl ⟨rfl, rfl, h3⟩
        · rw [List.drop_drop] at h
          exact .inr (.inl h)
        · rw [List.drop_drop] at h
          exact .inr (.inr h)
      · exact .inr (.inl (rounds_end hD hok.1.2 hok.1.1.1 hok.1.1.2 (derives_of_traced hB hs hok.2 (hv.drop u)) hv ht h))
      · exact .inr (.inr (rounds_end hD hok.1.2 hok.1.1.1 hok.1.1.2 (derives_of_traced hB hs' hok.2 (hv'.drop _)) hv' ht' h))

/-! ### Documents -/

/-- The whole text is read as one root after the other, each traced. -/
inductive TracedReads (env : Env) (roots : List Rule) : Int → List Rune → List Node → Prop
  | done {flag} : TracedReads env roots flag [] []
  | next {r flag l nd u st nodes} (hne : l ≠ []) (hr : r ∈ roots) (h : Traced env (.one r) flag l [nd] u st)
      (hs : TracedReads env roots (flagNext st) (l.drop u) nodes) : TracedReads env roots flag l (nd :: nodes)

theorem agree_documents {t : Sets} (hD : Decided t env) (hB : BlanklessEnv false env) {roots : List Rule}
    (hr : t.rootsOk roots = true) (hb : blanklessL false roots = true) {flag l nds} (h : TracedReads env roots flag l nds) : Valid l → Tidy l →
    ∀ {l' nds'}, TracedReads env roots flag l' nds' → Valid l' → Tidy l' → Twin l l' → nds = nds' := by
  simp only [Sets.rootsOk, Bool.and_eq_true, List.all_eq_true] at hr
  obtain ⟨hdec, hdiff⟩ := hr
  have first : ∀ {r flag l nds u st}, r ∈ roots → Traced env (.one r) flag l nds u st → Valid l → Tidy l → begins (t.firstOf r) l = true :=
    fun hmem h hv ht => begins_of_one hD (hdec _ hmem).1 (differ_mem hdiff hmem)
      (derives_of_traced hB h (blanklessL_mem hb hmem) hv) hv ht
  have hend : ∀ {r} (_ : r ∈ roots) {flag l nds}, TracedReads env roots flag l nds → Valid l → Tidy l → begins (t.moreOf r) l = false := by
    intro r hmem flag l nds h hv ht
    cases h with
    | done => rfl
    | next _ hr' h _ => exact Shape.begins_apart ((hdec r hmem).2 _ hr') (first hr' h hv ht)
  induction h with
  | done =>
    intro _ _ l' nds' h' hv' ht' hl
    cases h' with
    | done => rfl
    | next hne _ _ _ => exact absurd (hl.nil rfl) hne
  | @next r flag l nd u st nodes hne hmem h hs ih =>
    intro hv ht l' nds' h' hv' ht' hl
    cases h' with
    | done => exact absurd (hl.symm.nil rfl) hne
    | @next r' _ _ nd' u' st' nodes' hne' hmem' h' hs' =>
      have h1 := first hmem h hv ht
      have h2 := first hmem' h' hv' ht'
      have he : r' = r := by
        refine Classical.byContradiction fun he => ?_
        obtain ⟨rs1, rs2, hroots⟩ := List.append_of_mem hmem
        have hap := differ_apart (by rw [← hroots]; exact hdiff) r' (by
          rw [hroots] at hmem'
          simp only [List.mem_append, List.mem_cons] at hmem' ⊢
          rcases hmem' with h | h | h
          · exact .inl h
          · exact absurd h he
          · exact .inr h)
        rw [← begins_same hl.solid, Shape.begins_apart hap h1] at h2
        cases h2
      subst he
      rcases agree_exact hD hB h hv ht (by simp [goalOk, (hdec _ hmem).1, blanklessL_mem hb hmem]) h' hv' ht' hl with h | h | h
      · obtain ⟨h3, rfl, h4⟩ := h
        simp only [List.cons.injEq, and_true] at h3
        rw [h3, ih (hv.drop u) (ht.drop u) hs' (hv'.drop _) (ht'.drop _) h4]
      · rw [goalMore, hend hmem hs (hv.drop u) (ht.drop u)] at h; cases h
      · rw [goalMore, hend hmem hs' (hv'.drop _) (ht'.drop _)] at h; cases h

end Xbnf.Spec.Unspaced
