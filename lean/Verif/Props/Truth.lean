import Verif.Props.Kinds
import Verif.Props.Terminals
import Verif.Props.Messages
import Verif.Lemmas.Places
/-
C57, continued: what an error says is so in the text.
-/
namespace Xbnf.Props
open Spec

variable {env : Env}

theorem holds_mono {text : List Rune} {e : Err} {i j : Int} (h : Holds text i e) (hij : i ≤ j) (hj : j ≤ text.length) :
    Holds text j e := by
  induction e with
  | missing r p => obtain ⟨k, h1, h2⟩ := h; exact ⟨k, by omega, h2⟩
  | missingAtEOF r => simp only [Holds] at h ⊢; omega
  | missingClose r => simp only [Holds] at h ⊢; omega
  | missingEOF => obtain ⟨k, h1, h2⟩ := h; exact ⟨k, by omega, h2⟩
  | inConcat r e ih => exact ih h
  | inChoice r e ih => exact ih h
  | nil => trivial
  | undefined => trivial
  | tooFew => exact h
  | ambiguity => trivial
  | ambiguousExcludes => trivial
  | excluded => exact h

/-- The error of a result holds, and its index is not after the cursor. -/
def Right (text : List Rune) (x : Res × Stream) : Prop :=
  ∀ e, x.1.error = some e → Holds text x.1.errIdx e ∧ x.1.errIdx ≤ x.2.cursor

def EvTrue (run : Runner) (ev : Evaluator) : Prop :=
  ∀ r flag text i s, Valid text → Here text i s → run r flag (text.drop i) ≠ .oof → run r flag (text.drop i) ≠ .risky →
    ∀ x, ev r flag s = .ok x → Right text x

/-- What is known of every answer. -/
theorem know_adv {l : List Rune} {s : Stream} {a : Ans} {x : Exec (Res × Stream)} (h : Know l s a x) (h1 : a ≠ .oof) (h2 : a ≠ .risky) :
    ∃ n res s', x = .ok (res, s') ∧ Adv n s s' ∧ ((∃ nd u n st, a = .hit nd u n st) ↔ res.node ≠ none) := by
  cases a with
  | oof => exact absurd rfl h1
  | risky => exact absurd rfl h2
  | fail n st => obtain ⟨_, res, s', g1, g2, g3, _⟩ := h; exact ⟨n, res, s', g1, g2, by simp [g3]⟩
  | ambiguous n => obtain ⟨_, res, s', g1, g2, g3, _⟩ := h; exact ⟨n, res, s', g1, g2, by simp [g3]⟩
  | hit nd u n st => obtain ⟨_, _, res, s', nd', g1, g2, g3, _⟩ := h; exact ⟨n, res, s', g1, g2, by simp [g3]⟩

theorem at_eof {text : List Rune} {i : Nat} {s : Stream} (hv : Valid text) (h : Here text i s) (hp : s.peek = EOFChar) :
    s.cursor = text.length := by
  rw [L.peek_eq h.wf, h.rem, L.peek_eof (hv.drop _), List.drop_eq_nil_iff] at hp
  have := h.le
  rw [h.cursor]
  omega

/-! ### Terminals -/

theorem evalEOF_true {text : List Rune} {i : Nat} {s : Stream} (hv : Valid text) (h : Here text i s) (b : RuleBase) (flag : Int) :
    Right text (evalEOF b flag s) := by
  obtain ⟨h1, h2⟩ := skip_spec flag h.wf
  intro e he
  unfold evalEOF at he ⊢
  generalize hsk : (if flag = SUGGEST_SKIP then s.skipSpaces else ([], s)) = sk at *
  rw [h.rem] at h1 h2
  have hh := h.adv h2
  simp only at he ⊢
  split at he
  · cases he
  rename_i hp
  rw [if_neg hp]
  simp only [Option.some.injEq] at he
  subst he
  refine ⟨?_, Int.le_refl _⟩
  refine ⟨_, Int.le_of_eq hh.cursor.symm, ?_⟩
  rw [L.peek_eq hh.wf, hh.rem, L.peek_eof (hv.drop _), List.drop_eq_nil_iff] at hp
  omega

theorem oneAt_absent {rt : RType} {b : RuleBase} {skip : Bool} {p : Rune → Bool} {l : List Rune} {c : Rune}
    (h : ¬ ∃ nd u n st, oneAt rt b skip p l = .hit nd u n st) (hc : l.head? = some c) : p c = false := by
  cases l with
  | nil => cases hc
  | cons d l =>
    cases hc
    cases hp : p c with
    | false => rfl
    | true =>
      exfalso
      apply h
      unfold oneAt
      simp only
      cases hb : blank skip (c :: l) with
      | nil => simp [hp]
      | cons x xs =>
        have : x = c := by
          have := L.blank_prefix skip (c :: l)
          rw [hb] at this
          obtain ⟨t, ht⟩ := this
          cases ht; rfl
        subst this
        simp [List.findIdx?_cons, hp]

theorem head_drop {text : List Rune} {i : Nat} : (text.drop i).head? = text[i]? := List.head?_drop

theorem evalChar_true {text : List Rune} {i : Nat} {s : Stream} (hv : Valid text) (h : Here text i s) (b : RuleBase) (t : Rune) (u : Bool)
    (flag : Int) {fuel : Nat} (h1 : Spec.run env (fuel + 1) (.char b t u) flag (text.drop i) ≠ .oof)
    (h2 : Spec.run env (fuel + 1) (.char b t u) flag (text.drop i) ≠ .risky) : Right text (evalChar b t flag s) := by
  have hkn := know_of (eval_sim env (fuel + 1)) (L.eval_ref env (fuel + 1)) (.char b t u) flag s _ h.wf h.rem (hv.drop _)
  obtain ⟨n, res, s', g1, g2, g3⟩ := know_adv hkn h1 h2
  simp only [eval, Exec.ok.injEq] at g1
  have hcur := (h.adv g2).cursor
  have habs : res.node = none → text[i]? ≠ some t := by
    intro hn hc
    have : ¬ ∃ nd u' n st, Spec.run env (fuel + 1) (.char b t u) flag (text.drop i) = .hit nd u' n st := fun hx => g3.1 hx hn
    simp only [Spec.run] at this h2
    split at h2
    · exact absurd rfl h2
    rename_i ht
    rw [if_neg ht] at this
    have := oneAt_absent this (head_drop.trans hc)
    simp at this
  intro e he
  rw [g1] at he ⊢
  simp only at he ⊢
  unfold evalChar at g1
  split at g1
  · rename_i hp
    cases g1
    cases he
    exact ⟨at_eof hv h hp, Int.le_refl _⟩
  · simp only at g1
    generalize (if flag = SUGGEST_SKIP then s.position.2.skipSpaces else ([], s.position.2)) = sk at g1
    split at g1
    · split at g1
      · cases g1; cases he
      · cases g1; cases he
        exact ⟨⟨i, Int.le_trans (by omega) (Int.le_of_eq hcur.symm), h.position, habs rfl⟩, Int.le_refl _⟩
    · split at g1
      · cases g1; cases he
        exact ⟨⟨i, Int.le_trans (by omega) (Int.le_of_eq hcur.symm), h.position, habs rfl⟩, Int.le_refl _⟩
      · cases g1; cases he

theorem evalRange_true {text : List Rune} {i : Nat} {s : Stream} (hv : Valid text) (h : Here text i s) (b : RuleBase) (x y : Rune)
    (flag : Int) : Right text (evalRange b x y flag s) := by
  obtain ⟨h1, h2⟩ := skip_spec flag h.wf
  intro e he
  unfold evalRange at he ⊢
  split at he
  · rename_i hp
    rw [if_pos hp]
    cases he
    exact ⟨at_eof hv h hp, Int.le_refl _⟩
  rename_i hpk
  rw [if_neg hpk]
  simp only at he ⊢
  generalize hsk : (if flag = SUGGEST_SKIP then s.skipSpaces else ([], s)) = sk at *
  rw [h.rem] at h1 h2
  have hh := h.adv h2
  cases hf : sk.1.findIdx? (fun c => decide (x ≤ c) && decide (c ≥ y)) with
  | some k => rw [hf] at he; cases he
  | none =>
    rw [hf] at he
    simp only at he ⊢
    split at he
    · cases he
    · rename_i hn
      rw [if_neg hn]
      cases he
      refine ⟨⟨_, Int.le_of_eq hh.pos.cursor.symm, hh.position, ?_⟩, Int.le_refl _⟩
      intro c hc hcc
      rw [L.peek_eq hh.pos.wf, hh.pos.rem] at hn
      apply hn
      have : L.peek (text.drop (i + (L.spaces (decide (flag = SUGGEST_SKIP)) (text.drop i)).length)) = c := by
        unfold L.peek
        rw [List.headD_eq_head?_getD, List.head?_drop, hc]
        rfl
      rw [this]
      exact hcc

theorem textAt_absent {rt : RType} {b : RuleBase} {st skip : Bool} {t l : List Rune}
    (h : ¬ ∃ nd u n sy, textAt rt b st skip t l = .hit nd u n sy) (ht : ∃ c ∈ t, isWhiteSpace c = false) : ¬ t <+: l := by
  rintro ⟨rest, rfl⟩
  apply h
  obtain ⟨c, hc, hw⟩ := ht
  have : Comes skip t (t ++ rest) [] := by
    refine ⟨?_, rest, rfl, by simp, fun _ => rfl, ?_⟩
    · intro hn
      rw [(List.append_eq_nil_iff.1 hn).1] at hc
      cases hc
    · intro _ hall
      rw [hall c hc] at hw
      cases hw
  exact ⟨_, _, _, _, textAt_comes this⟩

theorem evalChars_true {text : List Rune} {i : Nat} {s : Stream} (hv : Valid text) (h : Here text i s) (b : RuleBase) (t : List Rune)
    (flag : Int) {fuel : Nat} (h1 : Spec.run env (fuel + 1) (.chars b t) flag (text.drop i) ≠ .oof)
    (h2 : Spec.run env (fuel + 1) (.chars b t) flag (text.drop i) ≠ .risky) : Right text (evalChars b t flag s) := by
  have hkn := know_of (eval_sim env (fuel + 1)) (L.eval_ref env (fuel + 1)) (.chars b t) flag s _ h.wf h.rem (hv.drop _)
  obtain ⟨n, res, s', g1, g2, g3⟩ := know_adv hkn h1 h2
  simp only [eval, Exec.ok.injEq] at g1
  have hcur := (h.adv g2).cursor
  have habs : res.node = none → Absent text i (.chars b t) := by
    intro hn
    have : ¬ ∃ nd u' n st, Spec.run env (fuel + 1) (.chars b t) flag (text.drop i) = .hit nd u' n st := fun hx => g3.1 hx hn
    simp only [Spec.run] at this
    exact textAt_absent this
  intro e he
  rw [g1] at he ⊢
  simp only at he ⊢
  unfold evalChars at g1
  split at g1
  · rename_i hp
    cases g1
    cases he
    exact ⟨at_eof hv h hp, Int.le_refl _⟩
  · simp only at g1
    split at g1
    · cases g1; cases he
    · cases g1; cases he
      exact ⟨⟨i, Int.le_trans (by omega) (Int.le_of_eq hcur.symm), h.position, habs rfl⟩, Int.le_refl _⟩

theorem evalString_true {text : List Rune} {i : Nat} {s : Stream} (hv : Valid text) (h : Here text i s) (b : RuleBase) (t : List Rune)
    (flag : Int) {fuel : Nat} (h1 : Spec.run env (fuel + 1) (.str b t) flag (text.drop i) ≠ .oof)
    (h2 : Spec.run env (fuel + 1) (.str b t) flag (text.drop i) ≠ .risky) : Right text (evalString b t flag s) := by
  have hkn := know_of (eval_sim env (fuel + 1)) (L.eval_ref env (fuel + 1)) (.str b t) flag s _ h.wf h.rem (hv.drop _)
  obtain ⟨n, res, s', g1, g2, g3⟩ := know_adv hkn h1 h2
  simp only [eval, Exec.ok.injEq] at g1
  have hcur := (h.adv g2).cursor
  have habs : res.node = none → Absent text i (.str b t) := by
    intro hn
    have : ¬ ∃ nd u' n st, Spec.run env (fuel + 1) (.str b t) flag (text.drop i) = .hit nd u' n st := fun hx => g3.1 hx hn
    simp only [Spec.run] at this
    exact textAt_absent this
  intro e he
  rw [g1] at he ⊢
  simp only at he ⊢
  unfold evalString at g1
  split at g1
  · rename_i hp
    cases g1
    cases he
    exact ⟨at_eof hv h hp, Int.le_refl _⟩
  · simp only at g1
    split at g1
    · cases g1; cases he
    · cases g1; cases he
      exact ⟨⟨i, Int.le_trans (by omega) (Int.le_of_eq hcur.symm), h.position, habs rfl⟩, Int.le_refl _⟩

/-! ### Loops -/

theorem popBack_cursor {s : Stream} (h : s.WF) (p : List Rune) : s.cursor ≤ (s.popBack p).cursor := by
  unfold Stream.popBack
  split
  · exact Int.le_refl _
  · cases s with
    | base b => exact Int.le_refl _
    | pre q c u =>
      have := h.1
      simp only [Stream.under, Stream.cursor]
      omega

theorem popBack_wf {s : Stream} (h : s.WF) (p : List Rune) : (s.popBack p).WF := by
  unfold Stream.popBack
  split
  · exact h
  · cases s with
    | base b => exact h
    | pre q c u => exact h.2

theorem nil_right {text : List Rune} {o : Option Err} {i : Int} (h : ∀ e, o = some e → Holds text i e) : Holds text i (o.getD .nil) := by
  cases o with
  | none => trivial
  | some e => exact h e rfl

/-- Where a loop evaluates its next rule. -/
theorem at_here {text : List Rune} {i pos look : Nat} {st : SeqState} (h : L.At (text.drop i) pos look st) {s : Stream}
    (hs : Here text (i + look) s) : Here text (i + pos) (s.pushBack st.unused) := by
  have h1 := h.le
  refine hs.push (a := i + pos) (by omega) ?_
  rw [h.unused]
  unfold L.sl
  rw [List.take_drop, List.drop_drop]

theorem concatLoop_true {run : Runner} {ev : Evaluator} (hk : EvKnow run ev) (hl : EvLaid run ev) (ht : EvTrue run ev)
    (hn : ∀ r flag s x, ev r flag s = .ok x → x.1.node = none → x.1.error ≠ none) (sf : Rule) (b : RuleBase) {text : List Rune}
    {i : Nat} (hv : Valid text) (rs : List Rule) (pos look : Nat) (st : SeqState) (h : L.At (text.drop i) pos look st) (s : Stream)
    (hs : Here text (i + look) s)
    (h1 : seqAt run b (text.drop i) rs pos look st.sticky st.flag (eraseL st.nodes) ≠ .oof)
    (h2 : seqAt run b (text.drop i) rs pos look st.sticky st.flag (eraseL st.nodes) ≠ .risky)
    {res : Res} {s' : Stream} (he : concatLoop ev sf rs st s = .ok (res, s')) {e : Err} (hee : res.error = some e) :
    Holds text res.errIdx e ∧ res.errIdx ≤ s'.cursor ∧ s'.WF := by
  induction rs generalizing pos look st s res s' with
  | nil =>
    simp only [concatLoop, Exec.ok.injEq, Prod.mk.injEq] at he
    obtain ⟨rfl, _⟩ := he
    cases hee
  | cons r rs ih =>
    have hin := at_here h hs
    have hd : (text.drop i).drop pos = text.drop (i + pos) := List.drop_drop
    have hkn := hk r st.flag _ _ hin.wf hin.rem (hv.drop _)
    have failed : run r st.flag (text.drop (i + pos)) ≠ .oof → run r st.flag (text.drop (i + pos)) ≠ .risky →
        (¬ ∃ nd u n st', run r st.flag (text.drop (i + pos)) = .hit nd u n st') → Holds text res.errIdx e ∧ res.errIdx ≤ s'.cursor ∧ s'.WF := by
      intro q1 q2 q3
      obtain ⟨n, res1, cs, g1, g2, g3⟩ := know_adv hkn q1 q2
      have hno : res1.node = none := Classical.byContradiction (fun hx => q3 (g3.2 hx))
      have hr := ht r st.flag text _ _ hv hin q1 q2 _ g1
      have htold := hn _ _ _ _ g1 hno
      unfold concatLoop at he
      rw [g1, Exec.ok_bind] at he
      simp only at he
      obtain ⟨⟨rd, un⟩, _, he⟩ := Exec.of_bind he
      simp only [hno, Exec.ok.injEq, Prod.mk.injEq] at he
      obtain ⟨rfl, rfl⟩ := he
      simp only [Option.some.injEq] at hee
      subst hee
      have hw := (hin.adv g2).wf
      cases hq : res1.error with
      | none => exact absurd hq htold
      | some e1 =>
        obtain ⟨p1, p2⟩ := hr e1 hq
        exact ⟨p1, Int.le_trans p2 (popBack_cursor hw _), popBack_wf hw _⟩
    simp only [seqAt] at h1 h2
    rw [hd] at h1 h2
    cases hrr : run r st.flag (text.drop (i + pos)) with
    | oof => rw [hrr] at h1; exact absurd rfl h1
    | risky => rw [hrr] at h2; exact absurd rfl h2
    | fail n1 st1 => rw [hrr] at failed; exact failed (by simp) (by simp) (by simp)
    | ambiguous n1 => rw [hrr] at failed; exact failed (by simp) (by simp) (by simp)
    | hit nd1 u1 n1 st1 =>
      rw [hrr] at h1 h2
      simp only at h1 h2
      split at h1
      · rename_i hrisk; rw [if_pos hrisk] at h2; exact absurd rfl h2
      rename_i hrisk
      rw [if_neg hrisk] at h2
      obtain ⟨g0, g1, res1, cs, nd1', un, g2, g3, g3', g4, g5, g6, g7, g8, g9⟩ := step_laid hk hl hv h hs (hd ▸ hrr)
      unfold concatLoop at he
      rw [g2, Exec.ok_bind] at he
      simp only at he
      rw [g8, Exec.ok_bind] at he
      simp only [g4] at he
      have hun := g9 (fun hc => hrisk ⟨hc.1, .inr hc.2⟩)
      subst hun
      have hfl : nextFlag st.flag nd1' res1.sticky = flagAfter st.flag nd1 st1 := by
        rw [← L.flagAfter_eq, ← nextFlag_erase, g5, g6]
      have hle := h.le
      have hnodes : eraseL (st.nodes ++ [nd1']) = eraseL st.nodes ++ [nd1] := by
        rw [eraseL_append]; simp [eraseL, g5]
      obtain ⟨⟨out, cs'⟩, hq, he⟩ := Exec.of_bind he
      simp only [Exec.ok.injEq, Prod.mk.injEq] at he
      obtain ⟨rfl, rfl⟩ := he
      by_cases hlt : pos + n1 < look
      · have hrs : rs = [] := Classical.byContradiction (fun hc => hrisk ⟨hlt, .inl hc⟩)
        subst hrs
        simp only [concatLoop, Exec.ok.injEq, Prod.mk.injEq] at hq
        obtain ⟨rfl, _⟩ := hq
        cases hee
      · have hm : max look (pos + n1) = pos + n1 := by omega
        rw [hm] at h1 h2 hq
        rw [Nat.add_assoc] at g3
        obtain ⟨p1, p2, p3⟩ := ih (pos + u1) (pos + n1) _ ⟨by omega, g1, rfl, rfl⟩ cs g3
          (by simp only [hnodes, hfl]; rw [g6]; exact h1) (by simp only [hnodes, hfl]; rw [g6]; exact h2) hq hee
        exact ⟨p1, Int.le_trans p2 (popBack_cursor p3 _), popBack_wf p3 _⟩

theorem repLoop_true {run : Runner} {ev : Evaluator} (hk : EvKnow run ev) (hl : EvLaid run ev) (ht : EvTrue run ev) (b : RuleBase)
    (r : Rule) (mn mx : Nat) {text : List Rune} {i : Nat} (hv : Valid text) (fuel pos look : Nat) (st : SeqState)
    (h : L.At (text.drop i) pos look st) (s : Stream) (hs : Here text (i + look) s)
    (h1 : repAt run b r mn mx st.flag (text.drop i) fuel pos look st.sticky (eraseL st.nodes) ≠ .oof)
    (h2 : repAt run b r mn mx st.flag (text.drop i) fuel pos look st.sticky (eraseL st.nodes) ≠ .risky)
    {st' : SeqState} {w : Res} {s' : Stream} (he : repLoop ev r mx fuel st s = .ok (st', some w, s')) {e : Err} (hee : w.error = some e) :
    Holds text w.errIdx e ∧ w.errIdx ≤ s'.cursor ∧ s'.WF := by
  induction fuel generalizing pos look st s st' s' with
  | zero => exact absurd rfl h1
  | succ fuel ih =>
    have hle := h.le
    have hin := at_here h hs
    have hd : (text.drop i).drop pos = text.drop (i + pos) := List.drop_drop
    have hkn := hk r st.flag _ _ hin.wf hin.rem (hv.drop _)
    have hpk : (s.pushBack st.unused).peek = EOFChar ↔ (text.drop i).drop pos = [] := by
      rw [L.peek_eq hin.wf, hin.rem, hd]
      exact L.peek_eof (hv.drop _)
    simp only [repAt] at h1 h2
    unfold repLoop at he
    simp only at he
    by_cases hnil : (text.drop i).drop pos = []
    · rw [if_pos (hpk.2 hnil)] at he
      simp at he
    rw [if_neg hnil] at h1 h2
    rw [if_neg (fun e => hnil (hpk.1 e))] at he
    rw [hd] at h1 h2
    cases hrr : run r st.flag (text.drop (i + pos)) with
    | oof => rw [hrr] at h1; exact absurd rfl h1
    | risky => rw [hrr] at h2; exact absurd rfl h2
    | ambiguous => rw [hrr] at h2; exact absurd rfl h2
    | fail n1 st1 =>
      have hr := ht r st.flag text _ _ hv hin (by rw [hrr]; simp) (by rw [hrr]; simp)
      rw [hrr] at hkn
      obtain ⟨k1, res, cs, k2, k3, k4, k5, k6⟩ := hkn
      rw [k2, Exec.ok_bind] at he
      simp only [k4] at he
      obtain ⟨⟨rd, un⟩, _, he⟩ := Exec.of_bind he
      simp only [Exec.ok.injEq, Prod.mk.injEq, Option.some.injEq] at he
      obtain ⟨_, rfl, rfl⟩ := he
      have hw := (hin.adv k3).wf
      obtain ⟨p1, p2⟩ := hr _ k2 e hee
      exact ⟨p1, Int.le_trans p2 (popBack_cursor hw _), popBack_wf hw _⟩
    | hit nd1 u1 n1 st1 =>
      rw [hrr] at h1 h2
      simp only at h1 h2
      obtain ⟨g0, g1, res1, cs, nd1', un, g2, g3, g3', g4, g5, g6, g7, g8, g9⟩ := step_laid hk hl hv h hs (hd ▸ hrr)
      rw [g2, Exec.ok_bind] at he
      simp only at he
      rw [g8, Exec.ok_bind] at he
      simp only [g4, List.length_append, List.length_singleton] at he
      have hnodes : eraseL (st.nodes ++ [nd1']) = eraseL st.nodes ++ [nd1] := by
        rw [eraseL_append]; simp [eraseL, g5]
      have hlen : (eraseL st.nodes).length = st.nodes.length := by rw [eraseL_eq_map, List.length_map]
      rw [hlen] at h1 h2
      by_cases hmax : mx > 0 ∧ st.nodes.length + 1 = mx
      · rw [if_pos hmax] at he
        simp at he
      · rw [if_neg hmax] at h1 h2 he
        split at h1
        · rename_i hrisk; rw [if_pos hrisk] at h2; exact absurd rfl h2
        rename_i hrisk
        rw [if_neg hrisk] at h2
        have hun := g9 (fun hc => hrisk hc.1)
        subst hun
        have hm : max look (pos + n1) = pos + n1 := by omega
        rw [hm] at h1 h2 he
        obtain ⟨⟨o1, o2, o3⟩, hq, he⟩ := Exec.of_bind he
        simp only [Exec.ok.injEq, Prod.mk.injEq] at he
        obtain ⟨rfl, rfl, rfl⟩ := he
        rw [Nat.add_assoc] at g3
        obtain ⟨p1, p2, p3⟩ := ih (pos + u1) (pos + n1) _ ⟨by omega, g1, rfl, rfl⟩ cs g3
          (by simp only [hnodes, g6]; exact h1) (by simp only [hnodes, g6]; exact h2) hq
        exact ⟨p1, Int.le_trans p2 (popBack_cursor p3 _), popBack_wf p3 _⟩

theorem repFinish_true {text : List Rune} {b : RuleBase} {r : Rule} {mn mx : Nat} {st : SeqState} {why : Option Res} {s : Stream}
    (hs : s.cursor ≤ text.length)
    (h : ∀ w e, why = some w → w.error = some e → Holds text w.errIdx e ∧ w.errIdx ≤ s.cursor) :
    Right text (repFinish (.rep b r mn mx) mn st why s, s) := by
  intro e he
  unfold repFinish at he ⊢
  simp only at he ⊢
  cases hw : why with
  | none =>
    rw [hw] at he
    simp only [Option.bind_none] at he ⊢
    split at he
    · rename_i hlt
      rw [if_pos hlt]
      simp only [Option.getD_none, Option.some.injEq] at he
      subst he
      exact ⟨hlt, by simp⟩
    · cases he
  | some w =>
    rw [hw] at he
    simp only [Option.bind_some] at he ⊢
    split at he
    · rename_i hlt
      rw [if_pos hlt]
      simp only [Option.some.injEq] at he
      have hidx : (if w.error.isSome = true then if (some w).isSome = true then s.cursor else 0 else s.cursor) = s.cursor := by
        split <;> simp
      show Holds text (if w.error.isSome = true then if (some w).isSome = true then s.cursor else 0 else s.cursor) e ∧
        (if w.error.isSome = true then if (some w).isSome = true then s.cursor else 0 else s.cursor) ≤ s.cursor
      rw [hidx]
      refine ⟨?_, Int.le_refl _⟩
      cases hq : w.error with
      | none =>
        rw [hq] at he
        simp only [Option.getD_none] at he
        subst he
        exact hlt
      | some e1 =>
        rw [hq] at he
        simp only [Option.getD_some] at he
        subst he
        obtain ⟨p1, p2⟩ := h w _ hw hq
        exact holds_mono p1 p2 hs
    · rename_i hlt
      rw [if_neg hlt]
      obtain ⟨p1, p2⟩ := h w _ hw he
      simp only [Option.isSome_some, if_true]
      exact ⟨holds_mono p1 p2 hs, Int.le_refl _⟩

theorem choiceGroup_true {run : Runner} {ev : Evaluator} (hk : EvKnow run ev) (ht : EvTrue run ev)
    (hn : ∀ r flag s x, ev r flag s = .ok x → x.1.node = none → x.1.error ≠ none) (flag : Int) {text : List Rune} {i : Nat}
    (hv : Valid text) (rs : List Rule) (look : Nat) (hle : look ≤ (text.drop i).length) (st : ChoiceState) (hst : st.read = (text.drop i).take look)
    (s : Stream) (hs : Here text (i + look) s) {sy : Bool} {hits : List (Node × Nat × Bool)} {look' : Nat} {sy' : Bool}
    (hr : altsAt run flag (text.drop i) rs look sy = .ok hits look' sy')
    (hi : (∀ e, st.maxErr = some e → Holds text st.maxErrCursor e) ∧ st.maxErrCursor ≤ (i + look : Nat))
    {ms : List Res} {st' : ChoiceState} {s' : Stream} (he : choiceGroup ev flag rs st s = .ok (ms, st', s')) :
    (∀ e, st'.maxErr = some e → Holds text st'.maxErrCursor e) ∧ st'.maxErrCursor ≤ (i + look' : Nat) := by
  induction rs generalizing look st s sy hits look' sy' ms st' s' with
  | nil =>
    simp only [altsAt, Alts.ok.injEq] at hr
    obtain ⟨rfl, rfl, rfl⟩ := hr
    cases he
    exact hi
  | cons r rs ih =>
    have hsl : (text.drop i).take look = L.sl text i (i + look) := L.take_drop_sl _ _ _
    have hin := hs.push (a := i) (by omega) (hst.trans hsl)
    have hkn := hk r flag _ _ hin.wf hin.rem (hv.drop _)
    have hlen : st.read.length = look := by rw [hst, List.length_take]; omega
    simp only [altsAt] at hr
    have hread : ∀ n, n ≤ (text.drop i).length → ∀ rd, rd = (text.drop i).take n →
        (if st.read.length < rd.length then rd else st.read) = (text.drop i).take (max look n) := by
      rintro n hn rd rfl
      rw [hlen, List.length_take, Nat.min_eq_left hn]
      split
      · congr 1; omega
      · rw [hst]; congr 1; omega
    have hpop : ∀ n cs, Adv n (s.pushBack st.read) cs → Here text (i + max look n) (cs.popBack st.read) := by
      intro n cs hadv
      have := hs.adv hadv.popBack
      rw [hlen] at this
      have e : i + look + (n - look) = i + max look n := by omega
      rwa [e] at this
    have more : ∀ n, st.maxErrCursor ≤ ((i + max look n : Nat) : Int) := by
      intro n; have := hi.2; omega
    have tried := ht r flag text i _ hv hin
    unfold choiceGroup at he
    cases hrr : run r flag (text.drop i) with
    | oof => rw [hrr] at hr; cases hr
    | risky => rw [hrr] at hr; cases hr
    | fail n st1 =>
      rw [hrr] at hr hkn
      obtain ⟨k1, res, cs, k2, k3, k4, k5, k6⟩ := hkn
      have tried := tried (by rw [hrr]; simp) (by rw [hrr]; simp) _ k2
      rw [k2, Exec.ok_bind] at he
      simp only [k4] at he
      split at he
      · refine ih (max look n) (by omega) _ (hread n k1 _ k5) _ (hpop n cs k3) hr ⟨fun e h => (tried e h).1, ?_⟩ he
        cases hq : res.error with
        | none => exact absurd hq (hn _ _ _ _ k2 k4)
        | some e =>
          have h1 := (tried e hq).2
          have h2 := (hin.adv k3).cursor
          simp only at h1 ⊢
          omega
      · exact ih (max look n) (by omega)
          ⟨if st.read.length < res.read.length then res.read else st.read, st.sticky && res.sticky, st.maxErr, st.maxErrCursor⟩
          (hread n k1 _ k5) _ (hpop n cs k3) hr ⟨hi.1, more n⟩ he
    | ambiguous n =>
      rw [hrr] at hr hkn
      obtain ⟨k1, res, cs, k2, k3, k4, k5, k6⟩ := hkn
      have tried := tried (by rw [hrr]; simp) (by rw [hrr]; simp) _ k2
      rw [k2, Exec.ok_bind] at he
      simp only [k4] at he
      split at he
      · refine ih (max look n) (by omega) _ (hread n k1 _ k5) _ (hpop n cs k3) hr ⟨fun e h => (tried e h).1, ?_⟩ he
        cases hq : res.error with
        | none => exact absurd hq (hn _ _ _ _ k2 k4)
        | some e =>
          have h1 := (tried e hq).2
          have h2 := (hin.adv k3).cursor
          simp only at h1 ⊢
          omega
      · exact ih (max look n) (by omega)
          ⟨if st.read.length < res.read.length then res.read else st.read, st.sticky && res.sticky, st.maxErr, st.maxErrCursor⟩
          (hread n k1 _ k5) _ (hpop n cs k3) hr ⟨hi.1, more n⟩ he
    | hit nd u n st1 =>
      rw [hrr] at hr hkn
      obtain ⟨k0, k1, res, cs, nd', k2, k3, k4, k5, k6, k7, k8⟩ := hkn
      simp only at hr
      split at hr
      · rename_i hits1 look1 sy1 hrs
        simp only [Alts.ok.injEq] at hr
        obtain ⟨rfl, rfl, rfl⟩ := hr
        rw [k2, Exec.ok_bind] at he
        simp only [k4] at he
        obtain ⟨⟨ms1, st1', s1⟩, hq, he⟩ := Exec.of_bind he
        cases he
        exact ih (max look n) (by omega)
          ⟨if st.read.length < res.read.length then res.read else st.read, st.sticky && res.sticky, st.maxErr, st.maxErrCursor⟩
          (hread n k1 _ k6) _ (hpop n cs k3) hrs ⟨hi.1, more n⟩ hq
      · rename_i hne
        exact absurd hr (hne _ _ _)

theorem choiceLoop_true {run : Runner} {ev : Evaluator} (hk : EvKnow run ev) (hl : EvLaid run ev) (ht : EvTrue run ev)
    (hn : ∀ r flag s x, ev r flag s = .ok x → x.1.node = none → x.1.error ≠ none) (sf : Rule) (b : RuleBase) (flag : Int)
    {text : List Rune} {i : Nat} (hv : Valid text) (gs : List (List Rule)) (look : Nat) (hle : look ≤ (text.drop i).length)
    (st : ChoiceState) (hst : st.read = (text.drop i).take look) (s : Stream) (hs : Here text (i + look) s) {sy0 : Bool}
    (h1 : choiceAt run b flag (text.drop i) gs look sy0 ≠ .oof) (h2 : choiceAt run b flag (text.drop i) gs look sy0 ≠ .risky)
    (hi : (∀ e, st.maxErr = some e → Holds text st.maxErrCursor e) ∧ st.maxErrCursor ≤ (i + look : Nat))
    {x : Res × Stream} (he : choiceLoop ev sf flag gs st s = .ok x) : Right text x := by
  induction gs generalizing look st s sy0 with
  | nil =>
    simp only [choiceLoop, Exec.ok.injEq] at he
    subst he
    intro e he
    cases he
    refine ⟨nil_right hi.1, ?_⟩
    simp only [hs.cursor]
    exact hi.2
  | cons g gs ih =>
    simp only [choiceAt] at h1 h2
    unfold choiceLoop at he
    cases ha : altsAt run flag (text.drop i) g look sy0 with
    | oof => rw [ha] at h1; exact absurd rfl h1
    | risky => rw [ha] at h2; exact absurd rfl h2
    | ok hits look1 sy1 =>
      rw [ha] at h1 h2
      obtain ⟨q1, ms, st1, s1, q2, q3, q4, q5, q6⟩ := choiceGroup_laid hk hl flag hv g look hle st hst s hs ha
      have hi1 := choiceGroup_true hk ht hn flag hv g look hle st hst s hs ha hi q2
      rw [q2, Exec.ok_bind] at he
      simp only at he h1 h2
      have hpb := L.pick_best q5
      rw [pick_core] at hpb
      cases hp : pick ms with
      | none =>
        rw [hp] at he hpb
        simp only at he
        have hb : best hits = .none := by
          cases hb : best hits with
          | none => rfl
          | tie => rw [hb] at hpb; obtain ⟨_, _, hx⟩ := hpb; cases hx
          | order => rw [hb] at h2; exact absurd rfl h2
          | one => rw [hb] at hpb; obtain ⟨_, _, hx, _⟩ := hpb; cases hx
        rw [hb] at h1 h2
        exact ih look1 q1 st1 q3 s1 q4 h1 h2 hi1 he
      | ambiguous y z =>
        rw [hp] at he
        simp only [Exec.ok.injEq] at he
        subst he
        intro e he
        cases he
        refine ⟨trivial, ?_⟩
        simp only [q4.cursor]
        omega
      | found y =>
        rw [hp] at he
        simp only at he
        obtain ⟨un, _, he⟩ := Exec.of_bind he
        cases he
        intro e he
        cases he

/-! ### Blocks -/

theorem evalBlock_true {fuel : Nat} (ih : EvTrue (Spec.run env fuel) (eval env fuel)) {b : RuleBase} {o c : Rule} {v : Bool} {esc : Option Rule}
    {xs : List Rule} {flag : Int} {text : List Rune} {i : Nat} {s : Stream} (hv : Valid text) (hs : Here text i s)
    (h1 : Spec.run env (fuel + 1) (.block b o v c esc xs) flag (text.drop i) ≠ .oof)
    (h2 : Spec.run env (fuel + 1) (.block b o v c esc xs) flag (text.drop i) ≠ .risky)
    {x : Res × Stream} (he : eval env (fuel + 1) (.block b o v c esc xs) flag s = .ok x) : Right text x := by
  intro e hee
  have hreg : Regular env (.block b o v c esc xs) flag s.rem := ⟨fuel + 1, by rw [hs.rem]; exact h1, by rw [hs.rem]; exact h2⟩
  have hready : Ready s := ⟨hs.wf, by rw [hs.rem]; exact hv.drop _, hs.lines⟩
  have hx := he
  simp only [eval, evalBlock] at he
  simp only [Spec.run] at h1 h2
  obtain ⟨⟨ro, s1⟩, hro, he⟩ := Exec.of_bind he
  simp only at he
  cases hon : ro.node with
  | none =>
    simp only [hon, Exec.ok.injEq] at he
    subst he
    have hro1 : Spec.run env fuel o flag (text.drop i) ≠ .oof := by
      intro hc; rw [hc] at h1; exact h1 rfl
    have hro2 : Spec.run env fuel o flag (text.drop i) ≠ .risky := by
      intro hc; rw [hc] at h2; exact h2 rfl
    have hr := ih o flag text i s hv hs hro1 hro2 _ hro
    obtain ⟨n, res1, cs, g1, g2, g3⟩ := know_adv (know_of (eval_sim env fuel) (L.eval_ref env fuel) o flag s _ hs.wf hs.rem (hv.drop _)) hro1 hro2
    rw [hro] at g1
    cases g1
    obtain ⟨p1, p2⟩ := hr e hee
    have hh := hs.adv g2
    refine ⟨holds_mono p1 p2 ?_, Int.le_refl _⟩
    have := hh.le
    simp only [hh.cursor]
    omega
  | some n =>
    simp only [hon] at he
    obtain ⟨used, _, he⟩ := Exec.of_bind he
    obtain ⟨⟨be, cs⟩, _, he⟩ := Exec.of_bind he
    have hnone : x.1.node = none := by
      simp only at he
      cases be with
      | excluded => cases he; rfl
      | eof => cases he; rfl
      | closed => cases he; cases hee
    obtain ⟨res, s'⟩ := x
    obtain ⟨g1, g2⟩ := C51_block_partial hready hreg hx hnone
    refine ⟨?_, Int.le_of_eq g1⟩
    rcases g2 with ⟨F, y, q1, q2, _⟩ | ⟨on, u, sto, q, q1, q2, q3⟩
    · have := eval_det q1 hro
      cases this
      rw [hon] at q2
      cases q2
    · rcases q3 with ⟨x, hx, nd, ux, st, q3, q4⟩ | ⟨q3, q4, _⟩
      · simp only at hee
        rw [hee] at q4
        cases q4
        show (s.rem.drop q).take ux <:+: text
        rw [hs.rem]
        exact (List.take_prefix _ _).isInfix.trans ((List.drop_suffix _ _).isInfix.trans (List.drop_suffix _ _).isInfix)
      · simp only at hee
        rw [hee] at q3
        cases q3
        show res.errIdx = text.length
        rw [g1]
        obtain ⟨F, k, _, _, _, hadv, _⟩ := regular_eval hready hreg hx
        have hh := hs.adv hadv
        have hle := hh.le
        rw [hh.rem, List.drop_eq_nil_iff] at q4
        rw [hh.cursor]
        omega

theorem eval_true (env : Env) (fuel : Nat) : EvTrue (Spec.run env fuel) (eval env fuel) := by
  induction fuel with
  | zero => intro _ _ _ _ _ _ _ h; exact absurd rfl h
  | succ fuel ih =>
    intro rule flag text i s hv hs h1 h2 x he
    have hk := know_of (eval_sim env fuel) (L.eval_ref env fuel)
    have hl := eval_laid env fuel
    have hn : ∀ r flag s x, eval env fuel r flag s = .ok x → x.1.node = none → x.1.error ≠ none := by
      intro r flag s x hx
      have := eval_told env fuel r flag s
      rw [hx] at this
      exact this.1
    have hend := know_adv (know_of (eval_sim env (fuel + 1)) (L.eval_ref env (fuel + 1)) rule flag s _ hs.wf hs.rem (hv.drop _)) h1 h2
    cases rule with
    | eof b => simp only [eval, Exec.ok.injEq] at he; subst he; exact evalEOF_true hv hs b flag
    | char b t u => simp only [eval, Exec.ok.injEq] at he; subst he; exact evalChar_true hv hs b t u flag h1 h2
    | range b x y xu yu => simp only [eval, Exec.ok.injEq] at he; subst he; exact evalRange_true hv hs b _ _ flag
    | chars b t => simp only [eval, Exec.ok.injEq] at he; subst he; exact evalChars_true hv hs b t flag h1 h2
    | str b t => simp only [eval, Exec.ok.injEq] at he; subst he; exact evalString_true hv hs b t flag h1 h2
    | group b r =>
      simp only [eval] at he
      obtain ⟨⟨res1, s1⟩, hq, he⟩ := Exec.of_bind he
      cases he
      simp only [Spec.run] at h1 h2
      have := ih r flag text i s hv hs (fun hc => h1 (by rw [hc])) (fun hc => h2 (by rw [hc])) _ hq
      intro e hee
      unfold groupRes at hee ⊢
      cases hnd : res1.node with
      | none => simp only [hnd] at hee ⊢; exact this e hee
      | some n => simp only [hnd] at hee ⊢; exact this e hee
    | option b r =>
      simp only [eval] at he
      obtain ⟨⟨res1, s1⟩, hq, he⟩ := Exec.of_bind he
      cases he
      simp only [Spec.run] at h1 h2
      have := ih r flag text i s hv hs (fun hc => h1 (by rw [hc])) (fun hc => h2 (by rw [hc])) _ hq
      intro e hee
      unfold optionRes at hee ⊢
      cases hnd : res1.node with
      | none => simp only [hnd] at hee ⊢; exact this e hee
      | some n => simp only [hnd] at hee ⊢; exact this e hee
    | rep b r mn mx =>
      obtain ⟨n, res, s', g1, g2, _⟩ := hend
      rw [he] at g1
      cases g1
      have hh := hs.adv g2
      simp only [eval, evalRep] at he
      obtain ⟨⟨st1, why, s1⟩, hq, he⟩ := Exec.of_bind he
      cases he
      have hle := hh.le
      refine repFinish_true (by rw [hh.cursor]; omega) ?_
      intro w e hw hwe
      subst hw
      obtain ⟨p1, p2, _⟩ := repLoop_true hk hl ih b r mn mx hv fuel 0 0 { flag := flag } (L.at_zero _ _) s hs h1 h2 hq hwe
      exact ⟨p1, p2⟩
    | choice b gs =>
      refine choiceLoop_true hk hl ih hn _ b flag hv gs 0 (Nat.zero_le _) {} rfl s hs h1 h2 ⟨(fun e h => by cases h), ?_⟩ he
      simp
    | concat b rs =>
      intro e hee
      obtain ⟨res, s'⟩ := x
      obtain ⟨p1, p2, _⟩ := concatLoop_true hk hl ih hn _ b hv rs 0 0 { flag := flag } (L.at_zero _ _) s hs h1 h2 he hee
      exact ⟨p1, p2⟩
    | block b o v c e xs => exact evalBlock_true ih hv hs h1 h2 he
    | ref b name =>
      simp only [eval, Spec.run] at he h1 h2
      cases hx : env name with
      | none =>
        rw [hx] at he
        cases he
        intro e hee
        cases hee
        refine ⟨trivial, ?_⟩
        simp only [hs.cursor]
        omega
      | some r =>
        rw [hx] at h1 h2 he
        simp only at h1 h2 he
        obtain ⟨⟨res1, s1⟩, hq, he⟩ := Exec.of_bind he
        cases he
        have := ih r flag text i s hv hs (fun hc => h1 (by rw [hc])) (fun hc => h2 (by rw [hc])) _ hq
        intro e hee
        unfold refRes at hee ⊢
        cases hnd : res1.node with
        | none => simp only [hnd] at hee ⊢; exact this e hee
        | some n => simp only [hnd] at hee ⊢; exact this e hee

/-! ## C57: the theorem -/

/-- What the error of an evaluation says is so in the text, whether the evaluation matched or not, and
its index is not after the place the stream is left at.  Missing for the full claim: evaluations that
are not regular (`C57_true_counterexample`), literals of white space only
(`C57_space_counterexample`), and the wrong positions of C07, which `Reported` allows for. -/
theorem C57_true_partial {fuel : Nat} {r : Rule} {flag : Int} {text : List Rune} (hv : Valid text) (hr : Regular env r flag text)
    {res : Res} {s' : Stream} (h : eval env fuel r flag (Stream.ofChars text) = .ok (res, s')) {e : Err} (he : res.error = some e) :
    Holds text res.errIdx e ∧ res.errIdx ≤ s'.cursor := by
  obtain ⟨F, h1, h2⟩ := hr
  obtain ⟨n, res1, s1, g1, _⟩ := know_adv (know_of (eval_sim env F) (L.eval_ref env F) r flag _ _ (here_ofChars text).wf
    (here_ofChars text).rem (hv.drop 0)) h1 h2
  cases eval_det h g1
  exact eval_true env F r flag text 0 _ hv (here_ofChars text) h1 h2 _ g1 e he

/-- The same for `EvalRule`. -/
theorem C57_true_evalRule_partial {g : Grammar} {fuel : Nat} {name : Name} {sample : List Rune} {rc : Record}
    (hrc : g.getRecord name = some rc) (hv : Valid sample) (hr : Regular g.env rc.rule SUGGEST_SKIP sample)
    {res : Res} (h : g.evalRule fuel name sample = .ok res) {e : Err} (he : res.error = some e) : Holds sample res.errIdx e := by
  unfold Grammar.evalRule at h
  rw [hrc] at h
  obtain ⟨⟨x, s'⟩, hx, h⟩ := Exec.of_bind h
  cases h
  exact (C57_true_partial hv hr hx he).1

/-- The error of an evaluation, its index, and where the stream is left. -/
def faulted (x : Exec (Res × Stream)) : Option (Err × Int × Int) :=
  match x with
  | .ok (res, s) => res.error.map (fun e => (e, res.errIdx, s.cursor))
  | _ => none

/-- Non-vacuity: the digit is missing on the second line. -/
example : Regular noRules (.concat {} [lit "a", .range {} 48 false 57 false]) SUGGEST_SKIP (runes "\na x") :=
  regular_of (fuel := 9) (by decide +kernel)
example : faulted (eval noRules 9 (.concat {} [lit "a", .range {} 48 false 57 false]) SUGGEST_SKIP (Stream.ofChars (runes "\na x"))) =
    some (.inConcat (.concat {} [lit "a", .range {} 48 false 57 false]) (.missing (.range {} 48 false 57 false) (some ⟨2, 2⟩)), 2, 2) := by
  decide +kernel

/-- Without regularity the claim is false: `('a' | 'abcX') 'b' 'a'` on "abcd" says that 'a' is missing at
line 1, column 1, where it is. -/
theorem C57_true_counterexample :
    faulted (eval noRules 30 (.concat {} [.choice {} [[lit "a", lit "abcX"]], lit "b", lit "a"]) SUGGEST_SKIP
        (Stream.ofChars (runes "abcd"))) =
      some (.inConcat (.concat {} [.choice {} [[lit "a", lit "abcX"]], lit "b", lit "a"]) (.missing (lit "a") (some ⟨1, 1⟩)), 1, 4) ∧
    posOf (runes "abcd") 0 = ⟨1, 1⟩ ∧ runes "a" <+: runes "abcd" := ⟨by decide +kernel, by decide +kernel, by decide +kernel⟩

/-- A literal of white space is reported missing where the text begins with it. -/
theorem C57_space_counterexample :
    faulted (eval noRules 9 (.str {} (runes " \n")) SUGGEST_SKIP (Stream.ofChars (runes " \n  x"))) =
      some (.missing (.str {} (runes " \n")) (some ⟨1, 1⟩), 4, 4) ∧
    posOf (runes " \n  x") 0 = ⟨1, 1⟩ ∧ runes " \n" <+: runes " \n  x" := ⟨by decide +kernel, by decide +kernel, by decide +kernel⟩

end Xbnf.Props
