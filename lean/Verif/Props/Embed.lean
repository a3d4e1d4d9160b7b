import Verif.Spec.Document
import Verif.Props.Rules
/-
C23: `EvalEmbed`.

Full statement: for every grammar, rule and sample, the children of the node `EvalEmbed` returns are
the matches and the text between them, and account for the whole sample.  That is false when the
rule is ambiguous at some place (`C23_counterexample`: the characters are dropped), and there is no
result at all for a rule that matches without using a character (`C23_endless`).
-/
namespace Xbnf.Props
open Spec Grammar

variable {env : Env}

/-- What an evaluation gives where the reference is plain. -/
theorem clean_eval {fuel : Nat} {r : Rule} {flag : Int} {s s' : Stream} {res : Res} (hw : s.WF)
    (hv : Valid s.rem) (hc : Clean env r flag s.rem) (he : eval env fuel r flag s = .ok (res, s')) :
    s'.WF ∧ ((res.node = none ∧ Fails env r flag s.rem ∧ (s'.pushBack res.unused).rem = s.rem) ∨
      ∃ n m l st, res.node = some n ∧ s.rem = m ++ l ∧ Matches env r flag s.rem n.erase m.length st ∧
        (s'.pushBack res.unused).rem = l) := by
  obtain ⟨F, hF⟩ := hc
  obtain ⟨res2, s2, k, e1, e2, e3⟩ := run_eval' (env := env) (fuel := F) (r := r) (flag := flag) hw hv
    (by intro h; rw [h] at hF; cases hF) (by intro h; rw [h] at hF; cases hF)
  have := eval_det he e1
  simp only [Prod.mk.injEq] at this
  obtain ⟨rfl, rfl⟩ := this
  refine ⟨e2.wf.2, ?_⟩
  cases ha : Spec.run env F r flag s.rem with
  | oof => rw [ha] at hF; cases hF
  | risky => rw [ha] at hF; cases hF
  | ambiguous => rw [ha] at hF; cases hF
  | fail n st =>
    rw [ha] at e3
    obtain ⟨g1, g2, g3, g4, g5⟩ := ref_fail e3
    refine .inl ⟨g1, fails_of_run hv (.inl ⟨n, st, ha⟩), ?_⟩
    rw [Stream.rem_pushBack, g3, e2.rem, g5, List.take_append_drop]
  | hit nd u n st =>
    have hm := matches_of_run hv ha
    rw [ha] at e3
    obtain ⟨g1, g2, g3, g4, g5, g6, g7⟩ := ref_hit e3
    cases hn : res.node with
    | none => rw [hn] at g1; cases g1
    | some x =>
      rw [hn] at g1
      simp only [Option.map_some, Option.some.injEq] at g1
      refine .inr ⟨x, s.rem.take u, s.rem.drop u, st, rfl, (List.take_append_drop _ _).symm, ?_, ?_⟩
      · rw [g1, List.length_take, Nat.min_eq_left (by omega)]
        exact hm
      · rw [Stream.rem_pushBack, g4, e2.rem, g7, ← List.drop_append_of_le_length (by rw [List.length_take]; omega), List.take_append_drop]

theorem textNodes_eq (t : List Rune) : textNodes t = gapNodes t := by
  unfold textNodes gapNodes
  cases t <;> simp

theorem textNodes_erase (t : List Rune) : (textNodes t).map Node.erase = gapNodes t := by
  unfold textNodes gapNodes
  cases t <;> simp [Node.erase, eraseL]

/-- The rest of the loop, when `text` is waiting to become a text node. -/
def EmbedRest (env : Env) (r : Rule) (text l : List Rune) (kids : List Node) : Prop :=
  (kids = gapNodes (text ++ l) ∧ ∀ i ≤ l.length, Fails env r NOT_SKIP (l.drop i)) ∨
  ∃ t m l' nd st ks, l = t ++ m ++ l' ∧ (∀ i < t.length, Fails env r NOT_SKIP (l.drop i)) ∧
    Matches env r NOT_SKIP (m ++ l') nd m.length st ∧ m ≠ [] ∧ Embedded env r l' ks ∧
    kids = gapNodes (text ++ t) ++ nd :: ks

theorem EmbedRest.embedded {r : Rule} {l : List Rune} {kids : List Node} (h : EmbedRest env r [] l kids) :
    Embedded env r l kids := by
  rcases h with ⟨rfl, h⟩ | ⟨t, m, l', nd, st, ks, rfl, h1, h2, h3, h4, rfl⟩
  · exact .last h
  · exact .hit h1 h2 h3 h4

/-- A match without characters is found again and again. -/
theorem embedLoop_stuck {r : Rule} {fuel : Nat} (n : Nat) : ∀ (kids : List Node) (text : List Rune)
    (s : Stream), s.WF → Valid s.rem → Clean env r NOT_SKIP s.rem →
    (∃ nd st, Matches env r NOT_SKIP s.rem nd 0 st) → embedLoop env fuel r n kids text s = .oof := by
  induction n with
  | zero => intro _ _ _ _ _ _ _; rfl
  | succ n ih =>
    intro kids text s hw hv hc ⟨nd, st, hm⟩
    simp only [embedLoop]
    cases he : eval env fuel r NOT_SKIP s with
    | panic => exact absurd he (C19_eval_never_panics _ _ _ _ _ hw)
    | oof => rfl
    | ok y =>
      obtain ⟨res, s'⟩ := y
      rw [Exec.ok_bind]
      obtain ⟨hw', h⟩ := clean_eval hw hv hc he
      rcases h with ⟨_, h2, _⟩ | ⟨x, m, l, st', h1, h2, h3, h4⟩
      · exact absurd h2 (fun h => matches_not_fails hm h)
      · obtain ⟨_, hlen, _⟩ := matches_det hm h3
        have hmn : m = [] := List.length_eq_zero_iff.1 hlen.symm
        subst hmn
        have hrem : (s'.pushBack res.unused).rem = s.rem := by rw [h4, h2]; rfl
        simp only [h1]
        exact ih _ _ _ (Stream.wf_pushBack hw' _) (by rw [hrem]; exact hv) (by rw [hrem]; exact hc)
          ⟨nd, st, by rw [hrem]; exact hm⟩

theorem embedLoop_spec {r : Rule} {fuel : Nat} (n : Nat) : ∀ (kids : List Node) (text : List Rune)
    (s : Stream) (out : List Node), s.WF → Valid s.rem →
    (∀ i ≤ s.rem.length, Clean env r NOT_SKIP (s.rem.drop i)) →
    embedLoop env fuel r n kids text s = .ok out →
    ∃ more, out = kids ++ more ∧ EmbedRest env r text s.rem (more.map Node.erase) := by
  induction n with
  | zero => intro _ _ _ _ _ _ _ h; cases h
  | succ n ih =>
    intro kids text s out hw hv hc h
    have hc0 := hc 0 (Nat.zero_le _)
    rw [List.drop_zero] at hc0
    have hstuck := embedLoop_stuck (env := env) (r := r) (fuel := fuel) (n + 1) kids text s hw hv hc0
    rw [h] at hstuck
    simp only [embedLoop] at h
    cases he : eval env fuel r NOT_SKIP s with
    | panic => rw [he] at h; cases h
    | oof => rw [he] at h; cases h
    | ok y =>
      obtain ⟨res, s'⟩ := y
      rw [he, Exec.ok_bind] at h
      obtain ⟨hw', hcase⟩ := clean_eval hw hv hc0 he
      have hwp := Stream.wf_pushBack hw' res.unused
      rcases hcase with ⟨h1, h2, h3⟩ | ⟨x, m, l, st, h1, h2, h3, h4⟩
      · simp only [h1] at h
        cases hrem : s.rem with
        | nil =>
          have hn := Stream.next_nil hwp (h3.trans hrem)
          rw [if_pos hn.1] at h
          cases h
          refine ⟨textNodes text, rfl, .inl ⟨by rw [List.append_nil, textNodes_erase], ?_⟩⟩
          intro i _
          rw [List.drop_nil]
          rw [hrem] at h2; exact h2
        | cons c l =>
          obtain ⟨n1, n2⟩ := Stream.next_spec hwp
          have hcv : Valid (c :: l) := by rw [← hrem]; exact hv
          have e1 : (s'.pushBack res.unused).next.1 = c := by rw [n1, h3, hrem]; rfl
          have e2 : (s'.pushBack res.unused).next.2.rem = l := by
            rw [n2.rem, h3, hrem]; rfl
          rw [if_neg (by rw [e1]; intro e; rw [e] at hcv; exact absurd (hcv EOFChar List.mem_cons_self) (by decide)), e1] at h
          obtain ⟨more, g1, g2⟩ := ih _ _ _ _ n2.wf.2 (by rw [e2]; exact fun x hx => hcv x (List.mem_cons_of_mem _ hx))
            (by
              rw [e2]
              intro i hi
              have := hc (i + 1) (by rw [hrem]; simp only [List.length_cons]; omega)
              rwa [hrem, List.drop_succ_cons] at this) h
          refine ⟨more, g1, ?_⟩
          rw [hrem] at h2
          rw [e2] at g2
          have hfail : ∀ (P : Nat → Prop), (∀ i, P i → Fails env r NOT_SKIP (l.drop i)) → ∀ i, (i = 0 ∨ ∃ j, i = j + 1 ∧ P j) →
              Fails env r NOT_SKIP ((c :: l).drop i) := by
            rintro P hP i (rfl | ⟨j, rfl, hj⟩)
            · exact h2
            · rw [List.drop_succ_cons]; exact hP j hj
          rcases g2 with ⟨e, hf⟩ | ⟨t, m, l', nd, st, ks, e, hf, q1, q2, q3, q4⟩
          · refine .inl ⟨by rw [e]; simp, fun i hi => hfail _ hf i ?_⟩
            cases i with
            | zero => exact .inl rfl
            | succ j => exact .inr ⟨j, rfl, by simpa using hi⟩
          · refine .inr ⟨c :: t, m, l', nd, st, ks, by rw [e]; rfl, fun i hi => hfail _ hf i ?_, q1, q2, q3, by rw [q4]; simp⟩
            cases i with
            | zero => exact .inl rfl
            | succ j => exact .inr ⟨j, rfl, by simpa using hi⟩
      · simp only [h1] at h
        have hm : m ≠ [] := by
          intro e
          subst e
          have := hstuck ⟨_, _, h3⟩
          cases this
        obtain ⟨more, g1, g2⟩ := ih _ _ _ _ hwp (by rw [h4]; intro c hc; exact hv c (by rw [h2]; exact List.mem_append_right _ hc))
          (by
            rw [h4]
            intro i hi
            have := hc (m.length + i) (by rw [h2, List.length_append]; omega)
            rwa [h2, List.drop_length_add_append] at this) h
        rw [h4] at g2
        refine ⟨textNodes text ++ x :: more, by rw [g1]; simp, ?_⟩
        rw [List.map_append, textNodes_erase, List.map_cons]
        refine .inr ⟨[], m, l, x.erase, st, more.map Node.erase, by rw [h2]; rfl, fun i hi => (by cases hi), ?_, hm,
          g2.embedded, by rw [List.append_nil]⟩
        rw [← h2]; exact h3

/-- Where the rule is unambiguous everywhere in the sample, the children of the node are the matches
from left to right, each as early as possible, and the text between them; nothing is lost.  (Missing
from the full claim: samples with a place at which the reference semantics finds an ambiguity or is
silent.) -/
theorem C23_embed_partial {g : Grammar} {fuel : Nat} {name : Name} {rec : Record} {sample : List Rune}
    {res : Res} (hrec : g.getRecord name = some rec) (hv : Valid sample)
    (hc : ∀ i ≤ sample.length, Clean g.env rec.rule NOT_SKIP (sample.drop i))
    (h : g.evalEmbed fuel name sample = .ok res) :
    ∃ n, res.node = some n ∧ n.ruleType = .embed ∧ n.name = name ∧ n.chars = [] ∧
      Embedded g.env rec.rule sample (n.children.map Node.erase) := by
  unfold evalEmbed at h
  simp only [hrec] at h
  have hr := ready_ofChars hv
  have hl := rem_ofChars sample
  cases he : embedLoop g.env fuel rec.rule fuel [] [] (Stream.ofChars sample) with
  | panic => rw [he] at h; cases h
  | oof => rw [he] at h; cases h
  | ok kids =>
    rw [he, Exec.ok_bind] at h
    cases h
    obtain ⟨more, e, hm⟩ := embedLoop_spec fuel [] [] _ kids hr.wf hr.valid (by rw [hl]; exact hc) he
    rw [hl] at hm
    subst e
    exact ⟨_, rfl, rfl, rfl, rfl, hm.embedded⟩

/-- The texts an embedding is made of. -/
theorem Embedded.cover {r : Rule} {l : List Rune} {kids : List Node} (h : Embedded env r l kids) :
    ∃ pieces : List (Node × List Rune), pieces.map Prod.fst = kids ∧
      (pieces.map Prod.snd).flatten = l ∧
      ∀ p ∈ pieces, p.2 ≠ [] ∧ ((p.1.ruleType = .text ∧ p.1.chars = p.2) ∨
        ∃ rest st, Matches env r NOT_SKIP (p.2 ++ rest) p.1 p.2.length st) := by
  have gap : ∀ t : List Rune, ∃ pieces : List (Node × List Rune), pieces.map Prod.fst = gapNodes t ∧
      (pieces.map Prod.snd).flatten = t ∧ ∀ p ∈ pieces, p.2 ≠ [] ∧ p.1.ruleType = .text ∧ p.1.chars = p.2 := by
    intro t
    by_cases ht : t = []
    · exact ⟨[], by rw [gapNodes, if_pos ht]; rfl, by rw [ht]; rfl, fun p hp => (by cases hp)⟩
    · refine ⟨[({ ruleType := .text, name := runes "_", chars := t }, t)], by rw [gapNodes, if_neg ht]; rfl, by simp, ?_⟩
      intro p hp
      rw [List.mem_singleton] at hp
      subst hp
      exact ⟨ht, rfl, rfl⟩
  induction h with
  | @last t h =>
    obtain ⟨ps, h1, h2, h3⟩ := gap t
    exact ⟨ps, h1, h2, fun p hp => ⟨(h3 p hp).1, .inl (h3 p hp).2⟩⟩
  | @hit t m l nd st kids h hm hpos hs ih =>
    obtain ⟨ps, h1, h2, h3⟩ := gap t
    obtain ⟨qs, g1, g2, g3⟩ := ih
    refine ⟨ps ++ (nd, m) :: qs, by simp [h1, g1], by simp [h2, g2], ?_⟩
    intro p hp
    rcases List.mem_append.1 hp with hp | hp
    · exact ⟨(h3 p hp).1, .inl (h3 p hp).2⟩
    · rcases List.mem_cons.1 hp with rfl | hp
      · exact ⟨hpos, .inr ⟨l, st, hm⟩⟩
      · exact g3 p hp

/-- The children cut the sample into non-empty pieces: each is a text node with that very piece, or
the match of the rule on that piece. -/
theorem C23_nothing_lost_partial {g : Grammar} {fuel : Nat} {name : Name} {rec : Record}
    {sample : List Rune} {res : Res} (hrec : g.getRecord name = some rec) (hv : Valid sample)
    (hc : ∀ i ≤ sample.length, Clean g.env rec.rule NOT_SKIP (sample.drop i))
    (h : g.evalEmbed fuel name sample = .ok res) :
    ∃ n, res.node = some n ∧ ∃ pieces : List (Node × List Rune),
      pieces.map Prod.fst = n.children.map Node.erase ∧ (pieces.map Prod.snd).flatten = sample ∧
      ∀ p ∈ pieces, p.2 ≠ [] ∧ ((p.1.ruleType = .text ∧ p.1.chars = p.2) ∨
        ∃ rest st, Matches g.env rec.rule NOT_SKIP (p.2 ++ rest) p.1 p.2.length st) := by
  obtain ⟨n, h1, _, _, _, h2⟩ := C23_embed_partial hrec hv hc h
  exact ⟨n, h1, Embedded.cover h2⟩

theorem embedLoop_total {r : Rule} (k : Nat) : ∀ (kids : List Node) (text : List Rune) (s : Stream),
    s.WF → Valid s.rem → s.rem.length ≤ k →
    (∀ i ≤ s.rem.length, Clean env r NOT_SKIP (s.rem.drop i)) →
    (∀ i ≤ s.rem.length, ∀ nd st, ¬ Matches env r NOT_SKIP (s.rem.drop i) nd 0 st) →
    ∃ F n out, embedLoop env F r n kids text s = .ok out := by
  induction k with
  | zero =>
    intro kids text s hw hv hk hc hz
    have hrem : s.rem = [] := List.length_eq_zero_iff.1 (by omega)
    have hc0 := hc 0 (Nat.zero_le _)
    have hz0 := hz 0 (Nat.zero_le _)
    rw [List.drop_zero] at hc0 hz0
    obtain ⟨F, hF⟩ := id hc0
    obtain ⟨res, s', k, e1, _, _⟩ := run_eval' (env := env) (fuel := F) (r := r) (flag := NOT_SKIP) hw hv
      (by intro h; rw [h] at hF; cases hF) (by intro h; rw [h] at hF; cases hF)
    obtain ⟨hw', hcase⟩ := clean_eval hw hv hc0 e1
    rcases hcase with ⟨h1, h2, h3⟩ | ⟨x, m, l, st, h1, h2, h3, h4⟩
    · refine ⟨F, 1, kids ++ textNodes text, ?_⟩
      simp only [embedLoop]
      rw [e1, Exec.ok_bind]
      simp only [h1]
      rw [if_pos (Stream.next_nil (Stream.wf_pushBack hw' res.unused) (h3.trans hrem)).1]
    · rw [hrem] at h2
      have hm : m = [] := (List.append_eq_nil_iff.1 h2.symm).1
      subst hm
      exact absurd h3 (hz0 _ _)
  | succ k ih =>
    intro kids text s hw hv hk hc hz
    have hc0 := hc 0 (Nat.zero_le _)
    have hz0 := hz 0 (Nat.zero_le _)
    rw [List.drop_zero] at hc0 hz0
    obtain ⟨F, hF⟩ := id hc0
    obtain ⟨res, s', _, e1, _, _⟩ := run_eval' (env := env) (fuel := F) (r := r) (flag := NOT_SKIP) hw hv
      (by intro h; rw [h] at hF; cases hF) (by intro h; rw [h] at hF; cases hF)
    obtain ⟨hw', hcase⟩ := clean_eval hw hv hc0 e1
    have hwp := Stream.wf_pushBack hw' res.unused
    rcases hcase with ⟨h1, h2, h3⟩ | ⟨x, m, l, st, h1, h2, h3, h4⟩
    · cases hrem : s.rem with
      | nil =>
        refine ⟨F, 1, kids ++ textNodes text, ?_⟩
        simp only [embedLoop]
        rw [e1, Exec.ok_bind]
        simp only [h1]
        rw [if_pos (Stream.next_nil hwp (h3.trans hrem)).1]
      | cons c l =>
        obtain ⟨n1, n2⟩ := Stream.next_spec hwp
        have hcv : Valid (c :: l) := by rw [← hrem]; exact hv
        have q1 : (s'.pushBack res.unused).next.1 = c := by rw [n1, h3, hrem]; rfl
        have q2 : (s'.pushBack res.unused).next.2.rem = l := by rw [n2.rem, h3, hrem]; rfl
        obtain ⟨F', n, out, ho⟩ := ih kids (text ++ [c]) (s'.pushBack res.unused).next.2 n2.wf.2
          (by rw [q2]; exact fun x hx => hcv x (List.mem_cons_of_mem _ hx))
          (by rw [q2]; rw [hrem] at hk; simpa using hk)
          (by
            rw [q2]
            intro i hi
            have := hc (i + 1) (by rw [hrem]; simp only [List.length_cons]; omega)
            rwa [hrem, List.drop_succ_cons] at this)
          (by
            rw [q2]
            intro i hi
            have := hz (i + 1) (by rw [hrem]; simp only [List.length_cons]; omega)
            rwa [hrem, List.drop_succ_cons] at this)
        refine ⟨max F F', n + 1, out, ?_⟩
        simp only [embedLoop]
        rw [eval_mono (Nat.le_max_left F F') e1, Exec.ok_bind]
        simp only [h1]
        rw [if_neg (by rw [q1]; intro e; rw [e] at hcv; exact absurd (hcv EOFChar List.mem_cons_self) (by decide)), q1]
        exact (embedLoop_le env (Nat.le_max_right F F') r (Nat.le_refl n) _ _ _).of_ok ho
    · have hm : m ≠ [] := by
        intro e
        subst e
        exact absurd h3 (hz0 _ _)
      have hml : 0 < m.length := List.length_pos_iff.2 hm
      have hsl : s.rem.length = m.length + l.length := by rw [h2, List.length_append]
      obtain ⟨F', n, out, ho⟩ := ih (kids ++ textNodes text ++ [x]) [] (s'.pushBack res.unused) hwp
        (by rw [h4]; intro c hc; exact hv c (by rw [h2]; exact List.mem_append_right _ hc))
        (by rw [h4]; omega)
        (by
          rw [h4]
          intro i hi
          have := hc (m.length + i) (by omega)
          rwa [h2, List.drop_length_add_append] at this)
        (by
          rw [h4]
          intro i hi
          have := hz (m.length + i) (by omega)
          rwa [h2, List.drop_length_add_append] at this)
      refine ⟨max F F', n + 1, out, ?_⟩
      simp only [embedLoop]
      rw [eval_mono (Nat.le_max_left F F') e1, Exec.ok_bind]
      simp only [h1]
      exact (embedLoop_le env (Nat.le_max_right F F') r (Nat.le_refl n) _ _ _).of_ok ho

/-- If moreover the rule never matches without using a character, `EvalEmbed` does return. -/
theorem C23_returns_partial {g : Grammar} {name : Name} {rec : Record} {sample : List Rune}
    (hrec : g.getRecord name = some rec) (hv : Valid sample)
    (hc : ∀ i ≤ sample.length, Clean g.env rec.rule NOT_SKIP (sample.drop i))
    (hz : ∀ i ≤ sample.length, ∀ nd st, ¬ Matches g.env rec.rule NOT_SKIP (sample.drop i) nd 0 st) :
    ∃ fuel res, g.evalEmbed fuel name sample = .ok res := by
  have hr := ready_ofChars hv
  have hl := rem_ofChars sample
  obtain ⟨F, n, out, h⟩ := embedLoop_total (env := g.env) (r := rec.rule) sample.length [] [] (Stream.ofChars sample)
    hr.wf hr.valid (by rw [hl]; exact Nat.le_refl _) (by rw [hl]; exact hc) (by rw [hl]; exact hz)
  refine ⟨max F n, { node := some { ruleType := .embed, name := name, children := out } }, ?_⟩
  unfold evalEmbed
  simp only [hrec]
  rw [(embedLoop_le g.env (Nat.le_max_left F n) rec.rule (Nat.le_max_right F n) _ _ _).of_ok h, Exec.ok_bind]

/-! ### Without conditions -/

theorem Conforms.not_text {env : Rules} {inR : Rune → Rune → Rune → Prop} {r : Rule} {n : Node}
    (h : Conforms env inR r n) : n.ruleType ≠ .text := by
  induction h with
  | eof h => rw [h]; decide
  | ref _ _ hf ih => rw [hf.ruleType]; exact ih
  | _ hm => rw [hm.ruleType]; decide

/-- A list of children in which text nodes are not empty and never adjacent, and all others satisfy
`P`; if `first`, it does not begin with a text node. -/
inductive Alternating (P : Node → Prop) : Bool → List Node → Prop
  | nil {first} : Alternating P first []
  | text {t kids} (ht : t ≠ []) (h : Alternating P true kids) :
      Alternating P false ({ ruleType := .text, name := runes "_", chars := t } :: kids)
  | node {first n kids} (hn : P n) (h : Alternating P false kids) : Alternating P first (n :: kids)

/-- The characters a range may match: those between its ends, and white space above both (C17). -/
def ranged (first last c : Rune) : Prop := first ≤ c ∧ (c ≤ last ∨ isWhiteSpace c = true)

theorem textNodes_alternating {P : Node → Prop} (t : List Rune) {kids : List Node}
    (h : Alternating P true kids) : Alternating P false (textNodes t ++ kids) := by
  rw [textNodes_eq, gapNodes]
  split
  · rw [List.nil_append]
    cases h with
    | nil => exact .nil
    | node h1 h2 => exact .node h1 h2
  · exact .text (by assumption) h

theorem embedLoop_shape {r : Rule} {fuel : Nat} (n : Nat) :
    ∀ (kids : List Node) (text : List Rune) (s : Stream) (out : List Node), s.WF →
    embedLoop env fuel r n kids text s = .ok out →
    ∃ more, out = kids ++ more ∧ Alternating (Conforms env ranged r) false more := by
  induction n with
  | zero => intro _ _ _ _ _ h; cases h
  | succ n ih =>
    intro kids text s out hw h
    simp only [embedLoop] at h
    cases he : eval env fuel r NOT_SKIP s with
    | panic => rw [he] at h; cases h
    | oof => rw [he] at h; cases h
    | ok y =>
      obtain ⟨res, s'⟩ := y
      rw [he, Exec.ok_bind] at h
      obtain ⟨k, hl, hadv⟩ := eval_list hw he
      have hwp := Stream.wf_pushBack hadv.wf.2 res.unused
      cases hn : res.node with
      | none =>
        simp only [hn] at h
        split at h
        · cases h
          refine ⟨textNodes text, rfl, ?_⟩
          have := textNodes_alternating (P := Conforms env ranged r) text .nil
          rwa [List.append_nil] at this
        · exact ih _ _ _ _ (Stream.next_spec hwp).2.wf.2 h
      | some x =>
        simp only [hn] at h
        obtain ⟨more, e, hm⟩ := ih _ _ _ _ hwp h
        refine ⟨textNodes text ++ x :: more, by rw [e]; simp, textNodes_alternating _ (.node ?_ hm)⟩
        exact node_conforms (S := fun _ => True) hw (fun _ _ => trivial) trivial
          (fun _ _ _ h1 h2 => ⟨h1, .inl h2⟩) (fun _ _ _ _ h1 h2 _ => ⟨h2, .inr h1⟩) he hn

/-- Whatever the grammar and the sample: each child is a text node, never empty and never next to
another one, or a tree of the rule. -/
theorem C23_children {g : Grammar} {fuel : Nat} {name : Name} {rec : Record} {sample : List Rune}
    {res : Res} (hrec : g.getRecord name = some rec) (h : g.evalEmbed fuel name sample = .ok res) :
    ∃ n, res.node = some n ∧ Alternating (Conforms g.env ranged rec.rule) false n.children := by
  unfold evalEmbed at h
  simp only [hrec] at h
  cases he : embedLoop g.env fuel rec.rule fuel [] [] (Stream.ofChars sample) with
  | panic => rw [he] at h; cases h
  | oof => rw [he] at h; cases h
  | ok kids =>
    rw [he, Exec.ok_bind] at h
    cases h
    obtain ⟨more, e, hm⟩ := embedLoop_shape fuel [] [] _ kids (Nat.zero_le _) he
    subst e
    exact ⟨_, rfl, hm⟩

/-- An unknown rule is reported. -/
theorem C23_unknown {g : Grammar} {fuel : Nat} {name : Name} {sample : List Rune}
    (hrec : g.getRecord name = none) :
    ∃ res, g.evalEmbed fuel name sample = .ok res ∧ res.node = none ∧ res.error = some (.undefined {} name) := by
  refine ⟨{ error := some (.undefined {} name) }, ?_, rfl, rfl⟩
  unfold evalEmbed
  simp only [hrec]

/-! ### Cases -/

/-- A grammar with one rule. -/
def oneRuleGrammar (r : Rule) : Grammar := { records := [{ name := runes "r", rule := r, line := 1 }] }

/-- The texts and types of the children. -/
def childTexts (x : Exec Res) : Option (List (RType × List Rune)) :=
  match x with
  | .ok r => r.node.map (fun n => n.children.map (fun c => (c.ruleType, c.text)))
  | _ => none

/-- Non-vacuity: `'ab' | 'abc'` is plain everywhere in "xaabcyab", and never matches without a
character. -/
example :
    let g := oneRuleGrammar (.choice {} [[lit "ab", lit "abc"]])
    childTexts (g.evalEmbed 20 (runes "r") (runes "xaabcyab")) =
        some [(.text, runes "xa"), (.choice, runes "abc"), (.text, runes "y"), (.choice, runes "ab")] ∧
      ∀ i ≤ (runes "xaabcyab").length, Clean g.env (.choice {} [[lit "ab", lit "abc"]]) NOT_SKIP
        ((runes "xaabcyab").drop i) := by
  refine ⟨by decide +kernel, fun i hi => ⟨9, ?_⟩⟩
  revert i
  decide +kernel

/-- The full claim is false: with `r = 'a' | 'a'`, "ab" comes back as the text "b" alone. -/
theorem C23_counterexample :
    childTexts ((oneRuleGrammar (.choice {} [[lit "a", lit "a"]])).evalEmbed 20 (runes "r") (runes "ab")) =
      some [(.text, runes "b")] := by decide +kernel

theorem embedLoop_endless {r : Rule} (hr : NeverFails env r) {fuel : Nat} (n : Nat) :
    ∀ (kids : List Node) (text : List Rune) (s : Stream), s.WF →
    embedLoop env fuel r n kids text s = .oof := by
  induction n with
  | zero => intro _ _ _ _; rfl
  | succ n ih =>
    intro kids text s hw
    simp only [embedLoop]
    cases he : eval env fuel r NOT_SKIP s with
    | panic => exact absurd he (C19_eval_never_panics _ _ _ _ _ hw)
    | oof => rfl
    | ok y =>
      obtain ⟨res, s'⟩ := y
      rw [Exec.ok_bind]
      obtain ⟨k, hl, ha⟩ := eval_list hw he
      have hs := never_list hr _ _ _ _ hl
      simp only [Res.core, Option.isSome_map] at hs
      cases hn : res.node with
      | none => rw [hn] at hs; cases hs
      | some x =>
        exact ih _ _ _ (Stream.wf_pushBack ha.wf.2 _)

/-- A rule that matches whatever comes makes `EvalEmbed` loop forever, on every sample. -/
theorem C23_endless {g : Grammar} {fuel : Nat} {name : Name} {rec : Record} {sample : List Rune}
    (hrec : g.getRecord name = some rec) (hr : NeverFails g.env rec.rule) :
    g.evalEmbed fuel name sample = .oof := by
  unfold evalEmbed
  simp only [hrec]
  rw [embedLoop_endless hr fuel [] [] _ (Nat.zero_le _)]
  rfl

example : (oneRuleGrammar (.option {} (lit "a"))).getRecord (runes "r") =
      some ⟨runes "r", .option {} (lit "a"), 1⟩ ∧
    NeverFails (oneRuleGrammar (.option {} (lit "a"))).env (.option {} (lit "a")) :=
  ⟨by rfl, .option⟩

end Xbnf.Props
