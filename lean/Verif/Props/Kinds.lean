import Verif.Props.Blame
/-
C51, continued: which kind of error terminals, repetitions and blocks report.
-/
namespace Xbnf.Props
open Spec Grammar

variable {env : Env}

/-! ### Terminals -/

/-- An error without positions, read from the error. -/
theorem erase_inv {x : Option Err} {e : Err} (hm : (∀ r p, e ≠ .missing r p) ∧ (∀ r e', e ≠ .inConcat r e') ∧ ∀ r e', e ≠ .inChoice r e')
    (h : x.map Err.erase = some e) : x = some e := by
  cases x with
  | none => cases h
  | some x =>
    simp only [Option.map_some, Option.some.injEq] at h
    cases x <;> simp only [Err.erase] at h <;> subst h <;> first | rfl | exact absurd rfl (hm.1 _ _) | exact absurd rfl (hm.2.1 _ _) | exact absurd rfl (hm.2.2 _ _)

/-- A terminal other than the end of the text that does not match names itself and says whether there
was any text left, and its index is where the stream stands. -/
theorem C51_terminal {fuel : Nat} {r : Rule} {flag : Int} {s s' : Stream} {res : Res} (h : Ready s)
    (hr : OfText r)
    (he : eval env fuel r flag s = .ok (res, s')) (hn : res.node = none) :
    res.errIdx = s'.cursor ∧ (s.rem = [] → res.error = some (.missingAtEOF (asNamed r))) ∧
      (s.rem ≠ [] → ∃ p, res.error = some (.missing (asNamed r) p)) := by
  have hpk : s.peek = EOFChar ↔ s.rem = [] := by rw [L.peek_eq h.wf]; exact L.peek_eof h.valid
  have key : LeafErr s (res, s') (.missingAtEOF (asNamed r)) (.missing (asNamed r) none) := by
    cases fuel with
    | zero => cases he
    | succ fuel =>
      cases r <;> (try exact hr.elim) <;> (simp only [eval, Exec.ok.injEq] at he; rw [← he])
      · exact evalChar_err ..
      · exact evalRange_err ..
      · exact evalChars_err ..
      · exact evalString_err ..
  unfold LeafErr at key
  simp only [hn, Option.isSome_none, Bool.false_eq_true, if_false] at key
  refine ⟨key.1, fun hs => ?_, fun hs => ?_⟩
  · have := key.2
    rw [if_pos (hpk.2 hs)] at this
    exact erase_inv (by simp) this
  · have := key.2
    rw [if_neg (fun hc => hs (hpk.1 hc))] at this
    cases he' : res.error with
    | none => rw [he'] at this; cases this
    | some e =>
      rw [he'] at this
      cases e <;> simp only [Option.map_some, Err.erase, Option.some.injEq, reduceCtorEq, Err.missing.injEq] at this
      exact ⟨_, by rw [this.1]⟩

/-- The end of the text, where there is more, is reported as such. -/
theorem C51_eof {fuel : Nat} {b : RuleBase} {flag : Int} {s s' : Stream} {res : Res}
    (he : eval env fuel (.eof b) flag s = .ok (res, s')) (hn : res.node = none) :
    res.errIdx = s'.cursor ∧ res.error = some .missingEOF := by
  cases fuel with
  | zero => cases he
  | succ fuel =>
    simp only [eval, Exec.ok.injEq] at he
    have key := evalEOF_err b flag s
    rw [he] at key
    unfold LeafErr at key
    simp only [hn, Option.isSome_none, Bool.false_eq_true, if_false] at key
    refine ⟨key.1, ?_⟩
    exact erase_inv (e := .missingEOF) (by simp) (by rw [key.2]; split <;> rfl)

/-- A terminal that matches reports no error. -/
theorem C51_terminal_ok {fuel : Nat} {r : Rule} {flag : Int} {s s' : Stream} {res : Res} (hr : OfText r)
    (he : eval env fuel r flag s = .ok (res, s')) (hn : res.node ≠ none) : res.error = none ∧ res.errIdx = 0 := by
  have hs : res.node.isSome = true := by cases h : res.node with
    | none => exact absurd h hn
    | some _ => rfl
  have key : ∃ e e', LeafErr s (res, s') e e' := by
    cases fuel with
    | zero => cases he
    | succ fuel =>
      cases r <;> (try exact hr.elim) <;> (simp only [eval, Exec.ok.injEq] at he; rw [← he])
      · exact ⟨_, _, evalChar_err ..⟩
      · exact ⟨_, _, evalRange_err ..⟩
      · exact ⟨_, _, evalChars_err ..⟩
      · exact ⟨_, _, evalString_err ..⟩
  obtain ⟨e, e', key⟩ := key
  unfold LeafErr at key
  simpa [hs] using key

/-! ### Groups, options and references -/

/-- Groups, options and references of defined rules report what their rule reports, whether they
match or not. -/
theorem C51_passed {fuel : Nat} {q r : Rule} {flag : Int} {s s' : Stream} {res : Res}
    (hr : (∃ b, q = .group b r) ∨ (∃ b, q = .option b r) ∨ ∃ b n, q = .ref b n ∧ env n = some r)
    (he : eval env fuel q flag s = .ok (res, s')) :
    ∃ F x, eval env F r flag s = .ok (x, s') ∧ res.error = x.error ∧ res.errIdx = x.errIdx := by
  cases fuel with
  | zero => cases he
  | succ fuel =>
    rcases hr with ⟨b, rfl⟩ | ⟨b, rfl⟩ | ⟨b, n, rfl, hn⟩
    · simp only [eval] at he
      obtain ⟨⟨x, t⟩, hx, he⟩ := Exec.of_bind he
      simp only [Exec.ok.injEq, Prod.mk.injEq] at he
      obtain ⟨rfl, rfl⟩ := he
      refine ⟨fuel, x, hx, ?_⟩
      unfold groupRes
      split <;> exact ⟨rfl, rfl⟩
    · simp only [eval] at he
      obtain ⟨⟨x, t⟩, hx, he⟩ := Exec.of_bind he
      simp only [Exec.ok.injEq, Prod.mk.injEq] at he
      obtain ⟨rfl, rfl⟩ := he
      refine ⟨fuel, x, hx, ?_⟩
      unfold optionRes
      split <;> exact ⟨rfl, rfl⟩
    · simp only [eval, hn] at he
      obtain ⟨⟨x, t⟩, hx, he⟩ := Exec.of_bind he
      simp only [Exec.ok.injEq, Prod.mk.injEq] at he
      obtain ⟨rfl, rfl⟩ := he
      refine ⟨fuel, x, hx, ?_⟩
      unfold refRes
      split <;> exact ⟨rfl, rfl⟩

/-- A reference to a rule that is not defined says so and reads nothing. -/
theorem C51_undefined {fuel : Nat} {b : RuleBase} {n : Name} {flag : Int} {s s' : Stream} {res : Res} (hn : env n = none)
    (he : eval env fuel (.ref b n) flag s = .ok (res, s')) : res.node = none ∧ res.error = some (.undefined b n) ∧ s' = s := by
  cases fuel with
  | zero => cases he
  | succ fuel =>
    simp only [eval, hn, Exec.ok.injEq, Prod.mk.injEq] at he
    obtain ⟨rfl, rfl⟩ := he
    exact ⟨rfl, rfl, rfl⟩

/-! ### Blocks -/

theorem blockLoop_kind {F : Nat} (b : RuleBase) (v : Bool) (close : Rule) (escape : Option Rule) (excludes : List Rule)
    (opn : Node) (start : Nat) (l : List Rune) (hv : Valid l) (fuel pos look : Nat) (hp : pos ≤ l.length)
    (bs : BlockState) (hbs : escape = none → bs.unused = []) {m st}
    (ha : blockAt (Spec.run env F) b v close escape excludes opn start l fuel pos look = .fail m st) {e K}
    (he : L.blockLoop (L.eval env F) close escape excludes fuel bs (l.drop pos) = .ok (e, K)) :
    ∃ q, Content env close escape excludes l pos q ∧
      ((∃ rd, ∃ x ∈ excludes, ∃ nd u st, Matches env x NOT_SKIP (l.drop q) nd u st ∧ e = .excluded ((l.drop q).take u) rd) ∨
       ((∃ a c, e = .eof a c) ∧ m = l.length ∧ q = l.length ∧ (∀ x ∈ excludes, Fails env x NOT_SKIP (l.drop q)) ∧
          Fails env close NOT_SKIP (l.drop q))) := by
  have hev := L.eval_ref env F
  induction fuel generalizing pos look bs m st e K with
  | zero => cases ha
  | succ fuel ih =>
    have hvd : Valid (l.drop pos) := hv.drop _
    have hc0 : Content env close escape excludes l pos pos := ⟨Nat.le_refl _, hp, fun i h1 h2 => by omega⟩
    simp only [blockAt] at ha
    cases hee : escapeAt (Spec.run env F) escape excludes.isEmpty (l.drop pos) with
    | oof => rw [hee] at ha; cases ha
    | risky => rw [hee] at ha; cases ha
    | ambiguous => rw [hee] at ha; cases ha
    | hit => rw [hee] at ha; cases ha
    | fail ne ste =>
      rw [hee] at ha
      simp only at ha
      obtain ⟨e1, e2, e3⟩ := L.blockEscape_ref hev escape excludes.isEmpty bs hbs _ hvd hee
      have hx := L.blockExclude_ref hev excludes (l.drop pos) hvd
      have heq : (l.drop pos).take ne ++ (l.drop pos).drop ne = l.drop pos := List.take_append_drop _ _
      cases hex : excludeAt (Spec.run env F) excludes (l.drop pos) with
      | oof => rw [hex] at ha; cases ha
      | risky => rw [hex] at ha; cases ha
      | ambiguous => rw [hex] at ha; cases ha
      | hit xnd xu nx xst =>
        rw [hex] at hx ha
        obtain ⟨x1, x2, x3⟩ := hx
        unfold L.blockLoop at he
        rw [e3, Exec.ok_bind] at he
        simp only [heq] at he
        rw [x3, Exec.ok_bind] at he
        simp only [Option.bind_some, Option.map_some] at he
        rw [Res.charsUsed_eq (by simp), Exec.ok_bind] at he
        simp only [Bool.false_eq_true, if_false, Exec.ok.injEq, Prod.mk.injEq] at he
        obtain ⟨r, hr, hm⟩ := excludeAt_hit hvd hex
        refine ⟨pos, hc0, .inl ?_⟩
        rw [← he.1]
        refine ⟨bs.used ++ bs.content ++ (l.drop pos).take nx, r, hr, xnd, xu, xst, hm, ?_⟩
        congr 1
        simp only [Res.used, List.length_take, List.length_drop, List.take_take]
        congr 1
        rw [List.length_drop] at x2
        omega
      | fail nx xst =>
        rw [hex] at hx ha
        obtain ⟨x1, rx, x2, x3, x4⟩ := hx
        have x4 := x4 ne e2
        have hcl := hev close NOT_SKIP (l.drop pos) hvd
        have heq2 : (l.drop pos).take nx ++ (l.drop pos).drop nx = l.drop pos := List.take_append_drop _ _
        have hxf := excludeAt_fail hvd hex
        simp only at ha
        cases hr : Spec.run env F close NOT_SKIP (l.drop pos) with
        | oof => rw [hr] at ha; cases ha
        | risky => rw [hr] at ha; cases ha
        | ambiguous => rw [hr] at ha; cases ha
        | hit cnd u n cst => rw [hr] at ha; simp only at ha; split at ha <;> cases ha
        | fail n cst =>
          have hcf := fails_of_run hvd (.inl ⟨_, _, hr⟩)
          rw [hr] at hcl ha
          obtain ⟨c1, c2⟩ := hcl
          simp only at ha
          have heq3 : (l.drop pos).take n ++ (l.drop pos).drop n = l.drop pos := List.take_append_drop _ _
          unfold L.blockLoop at he
          rw [e3, Exec.ok_bind] at he
          simp only [heq] at he
          rw [x2, Exec.ok_bind] at he
          simp only [x3, x4, heq2] at he
          rw [c2, Exec.ok_bind] at he
          simp only [heq3] at he
          by_cases hd : l.drop pos = []
          · rw [if_pos ((L.peek_eof hvd).2 hd)] at he
            simp only [Exec.ok.injEq, Prod.mk.injEq] at he
            have := congrArg List.length hd
            simp only [List.length_drop, List.length_nil] at this
            rw [if_pos hd] at ha
            cases ha
            exact ⟨pos, hc0, .inr ⟨⟨_, _, he.1.symm⟩, rfl, by omega, hxf, hcf⟩⟩
          · rw [if_neg (fun h => hd ((L.peek_eof hvd).1 h))] at he
            rw [if_neg hd] at ha
            have hone : L.one (l.drop pos) = 1 := if_neg hd
            have hlt : pos + 1 ≤ l.length := by
              rcases Nat.lt_or_ge pos l.length with h | h
              · omega
              · exact absurd (List.drop_eq_nil_of_le h) hd
            rw [hone, List.drop_drop] at he
            obtain ⟨⟨out, k4⟩, hq, he⟩ := Exec.of_bind he
            simp only [Exec.ok.injEq, Prod.mk.injEq] at he
            obtain ⟨rfl, _⟩ := he
            obtain ⟨q, ⟨g1, g2, g3⟩, g⟩ := ih _ _ hlt _ (fun _ => rfl) ha hq
            refine ⟨q, ⟨by omega, g2, fun i h1 h2 => ?_⟩, g⟩
            rcases Nat.lt_or_ge pos i with h | h
            · exact g3 i h h2
            · have : i = pos := by omega
              subst this
              exact ⟨escapeAt_fail hvd hee, hxf, hcf⟩

/-- A block that does not match says why: the error of its open rule, an excluded text, or the text
ended before the close.  Its index is where the stream stands. -/
theorem C51_block_partial {fuel : Nat} {b : RuleBase} {o c : Rule} {v : Bool} {e : Option Rule} {xs : List Rule}
    {flag : Int} {s s' : Stream} {res : Res} (h : Ready s) (hr : Regular env (.block b o v c e xs) flag s.rem)
    (he : eval env fuel (.block b o v c e xs) flag s = .ok (res, s')) (hn : res.node = none) :
    res.errIdx = s'.cursor ∧
    ((∃ F x, eval env F o flag s = .ok (x, s') ∧ x.node = none ∧ res.error = x.error) ∨
     ∃ on u sto q, Matches env o flag s.rem on u sto ∧ Content env c e xs s.rem u q ∧
      ((∃ x ∈ xs, ∃ nd ux st, Matches env x NOT_SKIP (s.rem.drop q) nd ux st ∧ res.error = some (.excluded ((s.rem.drop q).take ux))) ∨
       (res.error = some (.missingClose c) ∧ s'.rem = [] ∧ q = s.rem.length ∧ (∀ x ∈ xs, Fails env x NOT_SKIP (s.rem.drop q)) ∧
          Fails env c NOT_SKIP (s.rem.drop q)))) := by
  obtain ⟨F, k, h1, h2, h3, h4, href⟩ := regular_eval h hr he
  cases F with
  | zero => cases h3
  | succ F =>
    simp only [Spec.run] at h1 h2 href
    simp only [eval] at h3
    have hkn := know_of (eval_sim env F) (L.eval_ref env F) o flag s _ h.wf rfl h.valid
    unfold evalBlock at h3
    have opened : ∀ {res1 cs}, eval env F o flag s = .ok (res1, cs) → res1.node = none →
        res.errIdx = s'.cursor ∧ ∃ F x, eval env F o flag s = .ok (x, s') ∧ x.node = none ∧ res.error = x.error := by
      intro res1 cs k2 k4
      rw [k2, Exec.ok_bind] at h3
      simp only [k4, Exec.ok.injEq, Prod.mk.injEq] at h3
      obtain ⟨rfl, rfl⟩ := h3
      exact ⟨rfl, F, res1, k2, k4, rfl⟩
    cases ho : Spec.run env F o flag s.rem with
    | oof => rw [ho] at h1; exact absurd rfl h1
    | risky => rw [ho] at h2; exact absurd rfl h2
    | fail m st =>
      rw [ho] at hkn
      obtain ⟨k1, res1, cs, k2, k3, k4, k5, k6⟩ := hkn
      exact ⟨(opened k2 k4).1, .inl (opened k2 k4).2⟩
    | ambiguous m =>
      rw [ho] at hkn
      obtain ⟨k1, res1, cs, k2, k3, k4, k5, k6⟩ := hkn
      exact ⟨(opened k2 k4).1, .inl (opened k2 k4).2⟩
    | hit on u n st =>
      rw [ho] at hkn h1 h2 href
      obtain ⟨k0, k1, ro, s1, nd', k2, k3, k4, k5, k6, k7, k8⟩ := hkn
      simp only at h1 h2 href
      split at h1
      · rename_i hc; rw [if_pos hc] at h2; exact absurd rfl h2
      rename_i hc
      rw [if_neg hc] at h2 href
      cases hb : blockAt (Spec.run env F) b v c e xs on u s.rem F u n with
      | oof => exact absurd hb h1
      | risky => exact absurd hb h2
      | ambiguous m =>
        obtain ⟨q, _, _, c3⟩ := blockAt_spec (env := env) h.valid (by omega) ⟨h1, h2⟩
        rw [hb] at c3; exact c3.elim
      | hit nd u' m' st' =>
        rw [hb] at href
        obtain ⟨g1, _⟩ := ref_hit href
        rw [hn] at g1; cases g1
      | fail m st' =>
        rw [k2, Exec.ok_bind] at h3
        simp only [k4] at h3
        obtain ⟨used, _, h3⟩ := Exec.of_bind h3
        obtain ⟨⟨be, cs⟩, hq, h3⟩ := Exec.of_bind h3
        have hw : (s1.pushBack ro.unused).WF := Stream.wf_pushBack k3.wf.2 _
        have hpa := Stream.position_adv hw
        have hsim := blockLoop_sim (eval_sim env F) c e xs F { used := used, unused := ro.unused } _ hpa.wf.2
        rw [hq, Stream.position_rem hw, Stream.rem_pushBack, k3.rem, k7] at hsim
        have hstr : (s.rem.take n).drop u ++ s.rem.drop n = s.rem.drop u := L.sl_append_drop k0
        rw [hstr] at hsim
        cases hL : L.blockLoop (L.eval env F) c e xs F { used := used, unused := (s.rem.take n).drop u } (s.rem.drop u) with
        | panic => rw [hL] at hsim; exact hsim.elim
        | oof => rw [hL] at hsim; exact hsim.elim
        | ok y =>
          rw [hL] at hsim
          obtain ⟨y1, y2⟩ := y
          obtain ⟨g1, _⟩ := hsim
          simp only at g1
          obtain ⟨q, q1, q2⟩ := blockLoop_kind (env := env) b v c e xs on u s.rem h.valid F u n (by omega)
            { used := used, unused := (s.rem.take n).drop u } (fun hcc => by
              have : ¬ u < n := fun hlt => hc ⟨hlt, hcc⟩
              apply List.eq_nil_of_length_eq_zero
              simp only [List.length_drop, List.length_take]; omega) hb hL
          have hm := matches_of_run h.valid ho
          rcases q2 with ⟨rd, x, hx, nd, ux, st, q2, rfl⟩ | ⟨⟨a, c', rfl⟩, qm, q2⟩
          · cases be with
            | excluded t' rd' =>
              cases g1
              simp only [Exec.ok.injEq, Prod.mk.injEq] at h3
              obtain ⟨rfl, rfl⟩ := h3
              exact ⟨rfl, .inr ⟨on, u, _, q, hm, q1, .inl ⟨x, hx, nd, ux, st, q2, rfl⟩⟩⟩
            | eof => cases g1
            | closed => cases g1
          · cases be with
            | excluded => cases g1
            | closed => cases g1
            | eof =>
              simp only [Exec.ok.injEq, Prod.mk.injEq] at h3
              obtain ⟨rfl, rfl⟩ := h3
              refine ⟨rfl, .inr ⟨on, u, st, q, hm, q1, .inr ⟨rfl, ?_, q2⟩⟩⟩
              rw [hb] at href
              have hk := (ref_fail href).2.2.2.2
              rw [h4.rem, hk, qm, List.drop_length]

/-! ### Repetitions -/

theorem failed_told {fuel : Nat} {r : Rule} {flag : Int} {s s' : Stream} {res : Res}
    (he : eval env fuel r flag s = .ok (res, s')) (hn : res.node = none) : ∃ e, res.error = some e := by
  have := eval_told env fuel r flag s
  rw [he] at this
  cases h : res.error with
  | none => exact absurd h (this.1 hn)
  | some e => exact ⟨e, rfl⟩

theorem repLoop_kind {F : Nat} (b : RuleBase) (r : Rule) (mn mx : Nat) {l : List Rune} {c : Int} (hv : Valid l) (fuel : Nat) :
    ∀ (pos look : Nat) (st : SeqState) (_ : L.At l pos look st) (s : Stream), s.WF → s.rem = l.drop look → s.cursor = c + look →
    ∀ {nodes : List Node}, nodes.length = st.nodes.length →
    repAt (Spec.run env F) b r mn mx st.flag l fuel pos look st.sticky nodes ≠ .oof →
    repAt (Spec.run env F) b r mn mx st.flag l fuel pos look st.sticky nodes ≠ .risky →
    ∀ {st' why s'}, repLoop (eval env F) r mx fuel st s = .ok (st', why, s') →
    ∃ nds q, Repeats env r st.flag l pos nds q ∧ st'.nodes.length = st.nodes.length + nds.length ∧
      ((why = none ∧ (l.drop q = [] ∨ (mx > 0 ∧ st'.nodes.length = mx))) ∨
       (l.drop q ≠ [] ∧ ∃ w e, why = some w ∧ w.error = some e ∧ ∀ t : Stream, t.WF → t.rem = l.drop q → t.cursor = c + q →
          ∃ x t', eval env F r st.flag t = .ok (x, t') ∧ x.node = none ∧ SameErr x.error w.error)) := by
  induction fuel with
  | zero => intro pos look st _ s _ _ _ nodes _ ho; exact absurd rfl ho
  | succ fuel ih =>
    intro pos look st h s hw hrem hcur nodes hlen ho hk st' why s' he
    have h1 := h.le
    have h2 := h.len
    have hwp := Stream.wf_pushBack hw st.unused
    have hremp : (s.pushBack st.unused).rem = l.drop pos := by
      rw [Stream.rem_pushBack, hrem, h.unused, L.sl_append_drop h1]
    have hul : st.unused.length = look - pos := by rw [h.unused, L.sl_length h2]
    have hcurp : (s.pushBack st.unused).cursor = c + pos := by rw [cursor_pushBack, hcur, hul]; omega
    have hkn := know_of (eval_sim env F) (L.eval_ref env F) r st.flag _ _ hwp hremp (hv.drop _)
    have hpk : (s.pushBack st.unused).peek = EOFChar ↔ l.drop pos = [] := by
      rw [L.peek_eq hwp, hremp]; exact L.peek_eof (hv.drop _)
    simp only [repAt] at ho hk
    simp only [repLoop] at he
    by_cases hnil : l.drop pos = []
    · rw [if_pos (hpk.2 hnil)] at he
      simp only [Exec.ok.injEq, Prod.mk.injEq] at he
      obtain ⟨rfl, rfl, _⟩ := he
      exact ⟨[], pos, .nil, by simp, .inl ⟨rfl, .inl hnil⟩⟩
    rw [if_neg (fun hc => hnil (hpk.1 hc))] at he
    rw [if_neg hnil] at ho hk
    cases hrr : Spec.run env F r st.flag (l.drop pos) with
    | oof => rw [hrr] at ho; exact absurd rfl ho
    | risky => rw [hrr] at hk; exact absurd rfl hk
    | ambiguous n1 => rw [hrr] at hk; exact absurd rfl hk
    | fail n1 st1 =>
      rw [hrr] at hkn
      obtain ⟨k1, res1, cs, k2, k3, k4, k5, k6⟩ := hkn
      rw [k2, Exec.ok_bind] at he
      obtain ⟨⟨rd, un⟩, _, he⟩ := Exec.of_bind he
      simp only [k4, Exec.ok.injEq, Prod.mk.injEq] at he
      obtain ⟨rfl, rfl, _⟩ := he
      obtain ⟨e, hee⟩ := failed_told k2 k4
      refine ⟨[], pos, .nil, by simp, .inr ⟨hnil, res1, e, rfl, hee, fun t ht1 ht2 ht3 => ?_⟩⟩
      have htwin := eval_twin env F r st.flag t (s.pushBack st.unused) ⟨ht1, hwp, by rw [ht2, hremp], by rw [ht3, hcurp]⟩
      rw [k2] at htwin
      cases hq : eval env F r st.flag t with
      | panic => rw [hq] at htwin; exact htwin.elim
      | oof => rw [hq] at htwin; exact htwin.elim
      | ok x =>
        rw [hq] at htwin
        obtain ⟨hsame, _⟩ := htwin
        refine ⟨x.1, x.2, rfl, ?_, hsame.2.1⟩
        have := hsame.isSome
        simp only [k4] at this
        cases hxn : x.1.node with
        | none => rfl
        | some _ => rw [hxn] at this; cases this
    | hit nd u n1 st1 =>
      rw [hrr] at hkn ho hk
      obtain ⟨k0, k1, res1, cs, nd', k2, k3, k4, k5, k6, k7, k8⟩ := hkn
      rw [List.length_drop] at k1
      obtain ⟨un, e1, e2⟩ := L.account_ref (l := l) (n := n1) (u := u) (pos := pos) (look := look) (r := res1)
        h1 h2 (by omega) k0 k6 k7
      rw [← h.read, ← h.unused] at e1
      rw [k2, Exec.ok_bind] at he
      simp only at he
      rw [e1, Exec.ok_bind] at he
      simp only [k4, List.length_append, List.length_singleton] at he
      simp only at ho hk
      have hmt := matches_of_run (hv.drop pos) hrr
      rw [hlen] at ho hk
      by_cases hmx : mx > 0 ∧ st.nodes.length + 1 = mx
      · rw [if_pos hmx] at he
        simp only [Exec.ok.injEq, Prod.mk.injEq] at he
        obtain ⟨rfl, rfl, _⟩ := he
        exact ⟨[nd], pos + u, .cons hnil hmt .nil, by simp, .inl ⟨rfl, .inr ⟨hmx.1, by simp [hmx.2]⟩⟩⟩
      · rw [if_neg hmx] at he ho hk
        obtain ⟨⟨out, why', cs'⟩, hq, he⟩ := Exec.of_bind he
        simp only [Exec.ok.injEq, Prod.mk.injEq] at he
        obtain ⟨rfl, rfl, _⟩ := he
        by_cases hlt : pos + n1 < look
        · rw [if_pos hlt] at hk; exact absurd rfl hk
        rw [if_neg hlt] at ho hk
        have hun := e2 (fun hc => hlt hc.1)
        subst hun
        have hm : max look (pos + n1) = pos + n1 := by omega
        rw [hm] at hq ho hk
        obtain ⟨nds, q, g1, g2, g3⟩ := ih (pos + u) (pos + n1) _ ⟨by omega, by omega, rfl, rfl⟩ cs k3.wf.2
          (by rw [k3.rem, hremp, List.drop_drop]) (by rw [k3.cursor, hcurp]; omega) (nodes := nodes ++ [nd]) (by simp [hlen])
          (by rw [k8]; exact ho) (by rw [k8]; exact hk) hq
        refine ⟨nd :: nds, q, .cons hnil hmt g1, ?_, g3⟩
        rw [g2]; simp; omega

/-- A repetition takes what matches and then stops: at the end of the text or at its maximum, and then
says how many there are if these are too few; or because its rule does not match, and then it gives the error of that
(apart from positions), even if there are enough.  If there are not, its index is where the stream stands. -/
theorem C51_repetition_partial {fuel : Nat} {b : RuleBase} {r : Rule} {mn mx : Nat} {flag : Int} {s s' : Stream} {res : Res}
    (h : Ready s) (hr : Regular env (.rep b r mn mx) flag s.rem) (he : eval env fuel (.rep b r mn mx) flag s = .ok (res, s')) :
    ∃ nds q, Repeats env r flag s.rem 0 nds q ∧ (res.node = none ↔ nds.length < mn) ∧
      (res.node = none → res.errIdx = s'.cursor) ∧
      (((s.rem.drop q = [] ∨ (mx > 0 ∧ nds.length = mx)) ∧ res.error = if nds.length < mn then some (.tooFew (.rep b r mn mx) nds.length) else none) ∨
       (s.rem.drop q ≠ [] ∧ res.errIdx = s'.cursor ∧ ∀ t, Ready t → t.rem = s.rem.drop q → t.cursor = s.cursor + q →
          ∃ F x t', eval env F r flag t = .ok (x, t') ∧ x.node = none ∧ SameErr res.error x.error)) := by
  obtain ⟨F, k, h1, h2, h3, h4, h5⟩ := regular_eval h hr he
  cases F with
  | zero => cases h3
  | succ F =>
    simp only [Spec.run] at h1 h2
    simp only [eval, evalRep] at h3
    obtain ⟨⟨st', why, cs⟩, hq, h3⟩ := Exec.of_bind h3
    simp only [Exec.ok.injEq, Prod.mk.injEq] at h3
    obtain ⟨rfl, rfl⟩ := h3
    obtain ⟨nds, q, g1, g2, g3⟩ := repLoop_kind (c := s.cursor) b r mn mx h.valid F 0 0 { flag := flag }
      ⟨Nat.le_refl _, Nat.zero_le _, rfl, by simp [L.sl]⟩ s h.wf (by rw [List.drop_zero]) (by omega) (nodes := []) rfl
      h1 h2 hq
    have hl : st'.nodes.length = nds.length := by simpa using g2
    rw [hl] at g3
    have hnode : (repFinish (.rep b r mn mx) mn st' why cs).node = none ↔ nds.length < mn := by
      unfold repFinish
      rw [hl]
      by_cases hlt : nds.length < mn
      · rw [if_pos hlt]; exact ⟨fun _ => hlt, fun _ => rfl⟩
      · rw [if_neg hlt]; exact ⟨(fun hc => by cases hc), fun hc => absurd hc hlt⟩
    refine ⟨nds, q, g1, hnode, ?_, ?_⟩
    · intro hn
      have hlt := hnode.1 hn
      unfold repFinish
      rw [hl, if_pos hlt]
      simp only
      split
      · rename_i hw
        cases why with
        | none => simp at hw
        | some w => rfl
      · rfl
    · rcases g3 with ⟨rfl, g3⟩ | ⟨g3, w, e, rfl, hwe, g5⟩
      · refine .inl ⟨g3, ?_⟩
        unfold repFinish
        rw [hl]
        by_cases hlt : nds.length < mn
        · rw [if_pos hlt, if_pos hlt, ← hl]; rfl
        · rw [if_neg hlt, if_neg hlt]; rfl
      · have hes : (repFinish (.rep b r mn mx) mn st' (some w) cs).error = some e ∧ (repFinish (.rep b r mn mx) mn st' (some w) cs).errIdx = cs.cursor := by
          unfold repFinish
          rw [hl]
          simp only [Option.bind_some, hwe, Option.isSome_some, Option.getD_some, if_true]
          split <;> exact ⟨rfl, rfl⟩
        refine .inr ⟨g3, hes.2, fun t t1 t2 t3 => ?_⟩
        obtain ⟨x, t', g6, g7, g8⟩ := g5 t t1.wf t2 t3
        exact ⟨F, x, t', g6, g7, by rw [hes.1, ← hwe]; exact g8.symm⟩

/-- `a`, of the grammar `a = { 'b' }<2,0>`, `< '(' ')' >` and so on: what a failed evaluation reports. -/
def blames (r : Rule) (text : String) : Option (Option Err × Int) :=
  match eval noRules 30 r SUGGEST_SKIP (Stream.ofChars (runes text)) with
  | .ok (res, _) => if res.node.isNone then some (res.error.map Err.erase, res.errIdx) else none
  | _ => none

/-- Non-vacuity: 'ab' on "ac" and on "". -/
example : blames (lit "ab") "ac" = some (some (.missing (lit "ab") none), 2) ∧
    blames (lit "ab") "" = some (some (.missingAtEOF (lit "ab")), 0) := by
  decide +kernel
/-- Non-vacuity: EOF on "x". -/
example : blames (.eof {}) "x" = some (some .missingEOF, 0) := by decide +kernel
/-- Non-vacuity: ( 'ab' ) on "ac" and a name that is not defined. -/
example : blames (.group {} (lit "ab")) "ac" = some (some (.missing (lit "ab") none), 2) ∧
    blames (.ref {} (runes "n")) "ac" = some (some (.undefined {} (runes "n")), 0) := by decide +kernel
/-- Non-vacuity: `< '(' ')' >` on "x", on "(a" and, excluding 'b', on "(ab)". -/
example : blames (.block {} (.char {} 40 false) false (.char {} 41 false) none []) "x" = some (some (.missing (.char {} 40 false) none), 0) ∧
    blames (.block {} (.char {} 40 false) false (.char {} 41 false) none []) "(a" = some (some (.missingClose (.char {} 41 false)), 2) ∧
    blames (.block {} (.char {} 40 false) false (.char {} 41 false) none [lit "b"]) "(ab)" = some (some (.excluded (runes "b")), 3) := by
  decide +kernel
example : Regular noRules (.block {} (.char {} 40 false) false (.char {} 41 false) none [lit "b"]) SUGGEST_SKIP (runes "(ab)") :=
  regular_of (fuel := 12) (by decide +kernel)
example : Regular noRules (.block {} (.char {} 40 false) false (.char {} 41 false) none []) SUGGEST_SKIP (runes "(a") :=
  regular_of (fuel := 12) (by decide +kernel)
/-- Non-vacuity: `{ 'b' }<2,0>` on "b" and on "bc". -/
example : blames (.rep {} (lit "b") 2 0) "b" = some (some (.tooFew (.rep {} (lit "b") 2 0) 1), 1) ∧
    blames (.rep {} (lit "b") 2 0) "bc" = some (some (.missing (lit "b") none), 2) := by decide +kernel
example : Regular noRules (.rep {} (lit "b") 2 0) SUGGEST_SKIP (runes "bc") := regular_of (fuel := 12) (by decide +kernel)

end Xbnf.Props
