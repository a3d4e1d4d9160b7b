import Verif.Props.Work
import Verif.Lemmas.DocLinear
import Verif.Props.Document
/-
C76: the work for whole texts, documents and embedded rules.
-/
namespace Xbnf.Props
open Spec Grammar

/-! ### The number of calls belongs to the evaluation -/

theorem C76_raw_fuel {g : Grammar} {fuel fuel' : Nat} (hf : fuel ≤ fuel') {sch : Sched} {s : Stream} {x}
    (h : g.evalRaw fuel sch s = .ok x) : g.workRaw fuel' sch s = g.workRaw fuel sch s := by
  unfold evalRaw at h
  unfold Grammar.workRaw
  split
  · rfl
  · rename_i hp
    rw [if_neg hp] at h
    exact workRawLoop_steady hf g.roots sch fuel hf (by rw [h]; simp)

theorem C76_raw_det {g : Grammar} {fuel fuel' : Nat} {sch : Sched} {s : Stream} {x y}
    (h : g.evalRaw fuel sch s = .ok x) (h' : g.evalRaw fuel' sch s = .ok y) : g.workRaw fuel' sch s = g.workRaw fuel sch s := by
  rw [← C76_raw_fuel (Nat.le_max_left fuel fuel') h, ← C76_raw_fuel (Nat.le_max_right fuel fuel') h']

theorem C76_embed_fuel {g : Grammar} {fuel fuel' : Nat} (hf : fuel ≤ fuel') {name : Name} {sample : List Rune} {res : Res}
    (h : g.evalEmbed fuel name sample = .ok res) : g.workEmbed fuel' name sample = g.workEmbed fuel name sample := by
  unfold evalEmbed at h
  unfold Grammar.workEmbed
  cases hr : g.getRecord name with
  | none => rfl
  | some rc =>
    rw [hr] at h
    obtain ⟨x, he, _⟩ := Exec.of_bind h
    exact workEmbedLoop_steady hf rc.rule fuel hf (by rw [he]; simp)

theorem C76_embed_det {g : Grammar} {fuel fuel' : Nat} {name : Name} {sample : List Rune} {res res' : Res}
    (h : g.evalEmbed fuel name sample = .ok res) (h' : g.evalEmbed fuel' name sample = .ok res') :
    g.workEmbed fuel' name sample = g.workEmbed fuel name sample := by
  rw [← C76_embed_fuel (Nat.le_max_left fuel fuel') h, ← C76_embed_fuel (Nat.le_max_right fuel fuel') h']

/-- The order in which the roots are tried does not change the number of calls, for documents in which
nothing goes astray (C24). -/
theorem C76_order {g : Grammar} {fuel fuel' : Nat} {sch sch' : Sched} (hfair : sch.Fair) (hfair' : sch'.Fair) {s : Stream}
    (hs : Ready s) (ho : Orderly g.env (g.roots.map (·.rule)) s.rem) {x y}
    (h : g.evalRaw fuel sch s = .ok x) (h' : g.evalRaw fuel' sch' s = .ok y) :
    g.workRaw fuel sch s = g.workRaw fuel' sch' s := by
  by_cases hne : s.rem = []
  · have : s.peek = EOFChar := by rw [L.peek_eq hs.wf, L.peek_eof hs.valid]; exact hne
    simp only [Grammar.workRaw, if_pos this]
  · obtain ⟨F, z, hz⟩ := orderly_outcome ho
    obtain ⟨_, _, e1, _⟩ := evalRaw_ref hfair hs.wf hs.valid hne hz
    obtain ⟨_, _, e2, _⟩ := evalRaw_ref hfair' hs.wf hs.valid hne hz
    rw [C76_raw_det e1 h, C76_raw_det e2 h', workRaw_eq hfair hs.wf hs.valid hne hz, workRaw_eq hfair' hs.wf hs.valid hne hz]

/-! ### Documents -/

/-- The numbers for a grammar that passes the check, and rules that are used besides its own. -/
theorem fixed_of {c : Certificate} {g : Grammar} (hcert : Certified c g) (rs : List Rule) :
    ∃ (U : List Rule) (M B : Nat), (∀ r ∈ rs, r ∈ U) ∧ Shape.Fixed g.env hcert.left U M B := by
  have hnamed : ∀ name r, g.env name = some r → r ∈ g.records.map (·.rule) := by
    intro name r h
    simp only [Grammar.env, Option.map_eq_some_iff] at h
    obtain ⟨rc, hrc, rfl⟩ := h
    exact List.mem_map_of_mem (List.mem_of_find?_eq_some hrc)
  obtain ⟨U, hU1, hU2⟩ := Shape.closed_env hnamed rs
  obtain ⟨M, B, hfix⟩ := Shape.fixed hcert.left hU2
  exact ⟨U, M, B, hU1, hfix⟩

/-- Parsing a document of a predictive grammar, one character telling which root comes next, takes a number
of calls of `Eval` at most proportional to its length: `K` is chosen before the document, the stream it
comes from and the order in which the roots are tried.  Whether the document is accepted does not matter. -/
theorem C76_document {c : Certificate} {g : Grammar} (hc : c.ok g = true) (hr : c.rootsOk (g.roots.map (·.rule)) = true) :
    ∃ K, ∀ (s : Stream), Ready s → Tidy s.rem → ∀ sch : Sched, sch.Fair → ∀ fuel x, g.evalRaw fuel sch s = .ok x →
      g.workRaw fuel sch s ≤ K * (s.rem.length + 1) := by
  have hcert := certified hc
  obtain ⟨U, M, B, hU, hfix⟩ := fixed_of hcert (g.roots.map (·.rule))
  refine ⟨(g.roots.map (·.rule)).length * M + B, fun s hs ht sch hfair fuel x h => ?_⟩
  by_cases hne : s.rem = []
  · have : s.peek = EOFChar := by rw [L.peek_eq hs.wf, L.peek_eof hs.valid]; exact hne
    simp only [Grammar.workRaw, if_pos this]
    exact Nat.zero_le _
  · obtain ⟨F, z, hz⟩ := orderly_outcome (C58_orderly hc hr hs.valid ht)
    obtain ⟨_, _, e1, _⟩ := evalRaw_ref hfair hs.wf hs.valid hne hz
    rw [C76_raw_det e1 h, workRaw_eq hfair hs.wf hs.valid hne hz]
    simp only [Certificate.rootsOk, Bool.and_eq_true, decide_eq_true_eq, List.all_eq_true] at hr
    obtain ⟨_, hr⟩ := hr
    cases ha : shapesL c.get (g.roots.map (·.rule)) SUGGEST_SKIP with
    | none => rw [ha] at hr; cases hr
    | some as =>
      cases hb : shapesL c.get (g.roots.map (·.rule)) SUGGEST_NOT_SKIP with
      | none => rw [ha, hb] at hr; cases hr
      | some bs =>
        rw [ha, hb] at hr
        simp only [Bool.and_eq_true, List.all_eq_true] at hr
        obtain ⟨⟨hea, heb⟩, hap⟩ := hr
        have hne' : ¬ SUGGEST_NOT_SKIP = SUGGEST_SKIP := by decide
        have hd := Shape.docTries_le hcert.shapes (fuel := F) (cnt := tries g.env F) (roots := g.roots.map (·.rule)) (M := M) (B := B)
          (fun r hr flag a m hs hm hst => Nat.le_trans (Shape.still_le hcert.shapes hcert.left F r flag a m hs hm hst) (hfix.small r (hU r hr)))
          (fun r hr flag a m hs hm hn => by
            have h1 := Shape.linear hcert.shapes hcert.left hfix F r (hU r hr) flag a m hs hm hn
            have h2 := hfix.big r (hU r hr)
            omega)
          (as := fun flag => if flag = SUGGEST_SKIP then as else bs)
          (fun flag hf => by
            rcases List.mem_cons.1 hf with rfl | hf
            · rw [if_pos rfl]; exact each_mem ha fun _ _ _ h => h
            · rw [List.mem_singleton] at hf; subst hf
              rw [if_neg hne']; exact each_mem hb fun _ _ _ h => h)
          (fun flag hf => by
            rcases List.mem_cons.1 hf with rfl | hf
            · rw [if_pos rfl]; exact hea
            · rw [List.mem_singleton] at hf; subst hf
              rw [if_neg hne']; exact heb)
          (fun flag _ flag' _ a ha b hb => by
            refine hap a ?_ b ?_
            · split at ha <;> simp [ha]
            · split at hb <;> simp [hb])
          F (flag := SUGGEST_SKIP) (pending := 0) (l := s.rem) (by simp) ht
        rw [Nat.mul_succ]
        omega

/-- Documents of values, and of expressions. -/
example : ∃ K, ∀ (text : List Rune), Valid text → Tidy text → ∀ sch : Sched, sch.Fair → ∀ fuel x,
    json.evalRaw fuel sch (Stream.ofChars text) = .ok x →
      json.workRaw fuel sch (Stream.ofChars text) ≤ K * (text.length + 1) := by
  obtain ⟨K, h⟩ := C76_document json_checks.1.1 json_checks.1.2
  refine ⟨K, fun text hv ht sch hf fuel x hx => ?_⟩
  have := h _ (ready_ofChars hv) (by rw [rem_ofChars]; exact ht) sch hf fuel x hx
  rwa [rem_ofChars] at this

/-! ### Embedded rules -/

/-- Looking for a rule of a predictive grammar in a text takes a number of calls at most proportional to
the square of the length of the text. -/
theorem C76_embed_quadratic {g : Grammar} (hg : Predictive g) :
    ∃ K, ∀ (name : Name) (sample : List Rune), Valid sample → Tidy sample → ∀ (fuel : Nat) (res : Res),
      g.evalEmbed fuel name sample = .ok res → g.workEmbed fuel name sample ≤ K * (sample.length + 1) * (sample.length + 1) := by
  obtain ⟨c, hc⟩ := hg
  have hcert := certified hc
  obtain ⟨U, M, B, hU, hfix⟩ := fixed_of hcert (g.records.map (·.rule))
  refine ⟨M + B, fun name sample hv ht fuel res h => ?_⟩
  cases hrc : g.getRecord name with
  | none => simp [Grammar.workEmbed, hrc]
  | some rc =>
    have hcov := hcert.covers hrc (flag := NOT_SKIP) (by decide)
    simp only [Certificate.covers, Bool.and_eq_true, Option.isSome_iff_exists] at hcov
    obtain ⟨⟨s, hs⟩, hreps⟩ := hcov
    obtain ⟨F, hF⟩ := hcert.ends hreps sample.length
    have h2 := (evalEmbed_le g (Nat.le_max_left fuel F) name sample).of_ok h
    rw [← C76_embed_fuel (Nat.le_max_left fuel F) h]
    simp only [evalEmbed, hrc] at h2
    obtain ⟨kids, hk, _⟩ := Exec.of_bind h2
    have hr := ready_ofChars hv
    have hl := rem_ofChars sample
    simp only [Grammar.workEmbed, hrc]
    have := workEmbedLoop_le (env := g.env) (C := (M + B) * (sample.length + 1)) (max fuel F) hr.wf hr.valid
      (by
        rw [hl]
        exact fun i hi => (hF _ (Nat.le_max_right fuel F) NOT_SKIP s hs _ (hv.drop i) (ht.drop i) (by rw [List.length_drop]; omega)).2)
      (by
        rw [hl]
        intro i hi
        refine Nat.le_trans (Shape.tries_le hcert.shapes hcert.left hfix _
          (hU _ (List.mem_map_of_mem (List.mem_of_find?_eq_some hrc))) hs (ht.drop i)) ?_
        exact Nat.mul_le_mul_left _ (by rw [List.length_drop]; omega)) hk
    rw [hl] at this
    exact this

/-- Any number of `x`, then a `y`. -/
def trailing : Grammar :=
  match Grammar.fromString 1000 (runes "s = {'x'} 'y'") with
  | .ok g _ => g
  | _ => {}

/-- Its rule. -/
def trailingRule : Rule := .concat { name := runes "s" } [.rep {} (.char {} 120 false) 0 0, .char {} 121 false]

theorem trailing_record : (trailing.getRecord (runes "s")).map (·.rule) = some trailingRule := by
  decide +kernel

theorem drop_xs (n i : Nat) : (xs n).drop i = xs (n - i) := by
  simp [xs]

/-- The repetition reads all of it. -/
theorem rep_xs (env : Env) (k m : Nat) (flag : Int) (f : Nat) : ∀ {pos st nodes count}, pos ≤ m → m - pos < f →
    (∃ nd st', repAt (Spec.run env (k + 1)) {} (.char {} 120 false) 0 0 flag (xs m) f pos pos st nodes = .hit nd m m st') ∧
      m - pos ≤ repTries (Spec.run env (k + 1)) (tries env (k + 1)) (.char {} 120 false) 0 flag (xs m) f pos count := by
  induction f with
  | zero => intro _ _ _ _ _ h; omega
  | succ f ih =>
    intro pos st nodes count hp hf
    rw [repAt, repTries, drop_xs]
    rcases Nat.eq_or_lt_of_le hp with rfl | hlt
    · rw [Nat.sub_self]
      refine ⟨?_, Nat.zero_le _⟩
      rw [if_pos (show xs 0 = [] from rfl)]
      exact ⟨_, _, rfl⟩
    · obtain ⟨d, hd⟩ : ∃ d, m - pos = d + 1 := ⟨m - pos - 1, by omega⟩
      rw [hd]
      have hne : ¬ xs (d + 1) = [] := by simp [xs]
      rw [if_neg hne, if_neg hne, char_x]
      simp only [gt_iff_lt, Nat.lt_irrefl, false_and, if_false]
      rw [if_neg (by omega), show max pos (pos + 1) = pos + 1 by omega]
      obtain ⟨h1, h2⟩ := ih (pos := pos + 1) (st := st && true) (nodes := nodes ++ [leaf .char {} true [120]]) (count := count + 1) (by omega) (by omega)
      refine ⟨h1, ?_⟩
      refine Nat.le_trans ?_ (Nat.add_le_add (show 1 ≤ tries env (k + 1) (.char {} 120 false) flag (xs (d + 1)) from Nat.le_refl 1) h2)
      omega

/-- The rule reads all of it and fails. -/
theorem trailing_xs (k m : Nat) (flag : Int) (hk : m + 3 ≤ k) :
    (∃ n st, Spec.run trailing.env k trailingRule flag (xs m) = .fail n st) ∧ m ≤ tries trailing.env k trailingRule flag (xs m) := by
  obtain ⟨k, rfl⟩ : ∃ k', k = k' + 3 := ⟨k - 3, by omega⟩
  obtain ⟨⟨nd, st', h1⟩, h2⟩ := rep_xs trailing.env k m flag (k + 1) (pos := 0) (st := true) (nodes := []) (count := 0) (Nat.zero_le _) (by omega)
  have hrep : Spec.run trailing.env (k + 2) (.rep {} (.char {} 120 false) 0 0) flag (xs m) = .hit nd m m st' := h1
  refine ⟨?_, ?_⟩
  · simp only [trailingRule, Spec.run.eq_def _ (k + 3), seqAt, List.drop_zero, hrep]
    rw [if_neg (fun h => absurd h.1 (by omega)), drop_xs, char_not_x _ _ 121 (by decide) (by decide)]
    exact ⟨_, _, rfl⟩
  · simp only [trailingRule, tries.eq_def _ (k + 3), seqTries, List.drop_zero]
    have h3 : tries trailing.env (k + 2) (.rep {} (.char {} 120 false) 0 0) flag (xs m) =
        1 + repTries (Spec.run trailing.env (k + 1)) (tries trailing.env (k + 1)) (.char {} 120 false) 0 flag (xs m) (k + 1) 0 0 := rfl
    rw [h3]
    rw [Nat.sub_zero] at h2
    exact (fun (a b : Nat) (h : m ≤ a) => show m ≤ 1 + (1 + a + b) by omega) _ _ h2

theorem embed_xs (k m : Nat) (hk : m + 3 ≤ k) (n : Nat) : ∀ i ≤ m, i < n →
    i * i ≤ 2 * embedTries (Spec.run trailing.env k) (tries trailing.env k) trailingRule n (xs i) := by
  induction n with
  | zero => intro i _ h; omega
  | succ n ih =>
    intro i hi hn
    obtain ⟨⟨a, st, h1⟩, h2⟩ := trailing_xs k i NOT_SKIP (by omega)
    rw [embedTries, h1]
    simp only
    cases i with
    | zero => exact Nat.zero_le _
    | succ i =>
      have hne : ¬ xs (i + 1) = [] := by simp [xs]
      have hrec := ih i (by omega) (by omega)
      rw [if_neg hne, drop_xs, Nat.add_sub_cancel, show (i + 1) * (i + 1) = i * i + 2 * i + 1 by rw [Nat.succ_mul, Nat.mul_succ]; omega]
      omega

/-- It can take that many: with the rule `s = {'x'} 'y'`, which passes the check of C58, looking for it in `n`
times `x` returns, and takes at least `n * n / 2` calls. -/
theorem C76_embed_counterexample (n : Nat) :
    Predictive trailing ∧ (∃ fuel res, trailing.evalEmbed fuel (runes "s") (xs n) = .ok res) ∧
    ∀ fuel res, trailing.evalEmbed fuel (runes "s") (xs n) = .ok res → n * n ≤ 2 * trailing.workEmbed fuel (runes "s") (xs n) := by
  have hv : Valid (xs n) := by
    intro c hc
    rw [List.eq_of_mem_replicate hc]
    decide
  obtain ⟨rc, hrc, hrule⟩ := Option.map_eq_some_iff.1 trailing_record
  have hlen : (xs n).length = n := by simp [xs]
  have hrun : ∀ k, n + 3 ≤ k → ∀ i, ∃ a st, Spec.run trailing.env k rc.rule NOT_SKIP ((xs n).drop i) = .fail a st := by
    intro k hk i
    rw [drop_xs, hrule]
    exact (trailing_xs k (n - i) NOT_SKIP (by omega)).1
  refine ⟨⟨certify trailing 4, by decide +kernel⟩, ?_, fun fuel res h => ?_⟩
  · refine C23_returns_partial hrc hv (fun i _ => ⟨n + 3, ?_⟩) (fun i _ nd st hm => ?_)
    · obtain ⟨a, st, h⟩ := hrun _ (Nat.le_refl _) i
      rw [h]; rfl
    · obtain ⟨a, st, h⟩ := hrun _ (Nat.le_refl _) i
      exact matches_not_fails hm (fails_of_run (hv.drop i) (.inl ⟨a, st, h⟩))
  · rw [← C76_embed_fuel (Nat.le_max_left fuel (n + 3)) h]
    have hr := ready_ofChars hv
    have hl := rem_ofChars (xs n)
    have hk := Nat.le_max_right fuel (n + 3)
    simp only [Grammar.workEmbed, hrc]
    rw [workEmbedLoop_eq _ hr.wf hr.valid (by
      rw [hl]
      intro i _
      obtain ⟨a, st, h⟩ := hrun _ hk i
      rw [h]; rfl), hl, hrule]
    exact embed_xs _ n hk _ n (Nat.le_refl _) (by omega)

end Xbnf.Props
