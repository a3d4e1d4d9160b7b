import Verif.Props.WorkBound
import Verif.Props.WorkText
import Verif.Props.Terminate
import Verif.Lemmas.RunFuel
/-
C76, for all grammars without left recursion: documents and embedded rules take at most exponentially many calls.
-/
namespace Xbnf.Props
open Spec Grammar

/-- One number for all rules of a grammar, and others that are used with it. -/
theorem bound_of {g : Grammar} (hl : NoLeftRecursion g.env) (hs : ∀ name r, g.env name = some r → SoundReps g.env r) (rs : List Rule) :
    ∃ K, 2 ≤ K ∧ ∀ r ∈ rs, SoundReps g.env r → ∀ fuel flag l, Valid l → tries g.env fuel r flag l ≤ K ^ (l.length + 1) := by
  have hnamed : ∀ name r, g.env name = some r → r ∈ g.records.map (·.rule) := by
    intro name r h
    simp only [Grammar.env, Option.map_eq_some_iff] at h
    obtain ⟨rc, hrc, rfl⟩ := h
    exact List.mem_map_of_mem (List.mem_of_find?_eq_some hrc)
  obtain ⟨U, hU1, hU2⟩ := Shape.closed_env hnamed rs
  obtain ⟨N, W, hroom⟩ := roomy hl hU2
  refine ⟨4 * (N + 1) * (N + 4) ^ W + 2, by omega, fun r hr hrs fuel flag l hv => ?_⟩
  have hmem := hU1 r hr
  refine Nat.le_trans (tries_bound hl hs hroom rfl rfl rfl fuel r hmem hrs flag l hv) ?_
  rw [Nat.pow_succ (m := l.length), Nat.mul_comm]
  refine Nat.mul_le_mul_left _ (Nat.le_trans (Nat.pow_le_pow_right (by omega) (hroom.tall _ hmem)) ?_)
  have : 1 * (N + 4) ^ W ≤ 4 * (N + 1) * (N + 4) ^ W := Nat.mul_le_mul_right _ (by omega)
  omega

theorem succ_le_two_pow (n : Nat) : n + 1 ≤ 2 ^ (n + 1) := Nat.le_of_lt Nat.lt_two_pow_self

/-- A number of steps that is enough at every place. -/
theorem plain_all {env : Env} {r : Rule} {flag : Int} {text : List Rune} (h : ∀ i ≤ text.length, Clean env r flag (text.drop i)) :
    ∃ F, ∀ F', F ≤ F' → ∀ i ≤ text.length, plain (Spec.run env F' r flag (text.drop i)) = true := by
  have : ∀ n ≤ text.length, ∃ F, ∀ F', F ≤ F' → ∀ i ≤ n, plain (Spec.run env F' r flag (text.drop i)) = true := by
    intro n
    induction n with
    | zero =>
      intro hn
      obtain ⟨F, hF⟩ := h 0 hn
      refine ⟨F, fun F' hle i hi => ?_⟩
      obtain rfl : i = 0 := by omega
      rcases Spec.run_le env F F' hle r flag (text.drop 0) with e | e
      · rw [e] at hF; cases hF
      · rw [e]; exact hF
    | succ n ih =>
      intro hn
      obtain ⟨F1, h1⟩ := ih (by omega)
      obtain ⟨F, hF⟩ := h (n + 1) hn
      refine ⟨max F1 F, fun F' hle i hi => ?_⟩
      rcases Nat.lt_or_ge i (n + 1) with hlt | hge
      · exact h1 F' (by omega) i (by omega)
      · obtain rfl : i = n + 1 := by omega
        rcases Spec.run_le env F F' (by omega) r flag (text.drop (n + 1)) with e | e
        · rw [e] at hF; cases hF
        · rw [e]; exact hF
  exact this _ (Nat.le_refl _)

/-- Looking for a rule in a text takes at most exponentially many calls, in any grammar without left recursion and without repetition of a
rule that can match nothing.  (Missing from the full claim of C76, which is false: a bound proportional to the length.) -/
theorem C76_embed_bound_partial {g : Grammar} (hl : NoLeftRecursion g.env) (hs : ∀ name r, g.env name = some r → SoundReps g.env r) :
    ∃ K, ∀ (name : Name) (rc : Record) (sample : List Rune), g.getRecord name = some rc → Valid sample →
      (∀ i ≤ sample.length, Clean g.env rc.rule NOT_SKIP (sample.drop i)) → ∀ (fuel : Nat) (res : Res),
      g.evalEmbed fuel name sample = .ok res → g.workEmbed fuel name sample ≤ K ^ (sample.length + 1) := by
  obtain ⟨K, hK2, hK⟩ := bound_of hl hs (g.records.map (·.rule))
  refine ⟨2 * K, fun name rc sample hrc hv hc fuel res h => ?_⟩
  obtain ⟨F, hF⟩ := plain_all hc
  have h2 := (evalEmbed_le g (Nat.le_max_left fuel F) name sample).of_ok h
  rw [← C76_embed_fuel (Nat.le_max_left fuel F) h]
  simp only [evalEmbed, hrc] at h2
  obtain ⟨kids, hk, _⟩ := Exec.of_bind h2
  have hr := ready_ofChars hv
  have hle := rem_ofChars sample
  simp only [Grammar.workEmbed, hrc]
  have := workEmbedLoop_le (env := g.env) (C := K ^ (sample.length + 1)) (max fuel F) hr.wf hr.valid
    (by rw [hle]; exact fun i hi => hF _ (Nat.le_max_right fuel F) i hi)
    (by
      rw [hle]
      intro i hi
      refine Nat.le_trans (hK _ (List.mem_map_of_mem (List.mem_of_find?_eq_some hrc)) (hs name rc.rule (by simp [Grammar.env, hrc])) _ _ _ (hv.drop i)) ?_
      exact Nat.pow_le_pow_right (by omega) (by rw [List.length_drop]; omega)) hk
  rw [hle] at this
  refine Nat.le_trans this ?_
  rw [Nat.mul_pow, Nat.mul_comm]
  exact Nat.mul_le_mul_right _ (succ_le_two_pow _)

/-! ### Documents -/

theorem allTries_le {cnt : Tries} {flag : Int} {l : List Rune} {C : Nat} (rs : List Rule) (h : ∀ r ∈ rs, cnt r flag l ≤ C) :
    allTries cnt flag l rs ≤ rs.length * C := by
  unfold allTries
  induction rs with
  | nil => simp
  | cons r rs ih =>
    have h1 := h r List.mem_cons_self
    have h2 := ih fun x hx => h x (List.mem_cons_of_mem _ hx)
    simp only [List.map_cons, List.sum_cons, List.length_cons, Nat.succ_mul]
    omega

/-- All roots at each of the places, each of which is behind the one before. -/
theorem docTries_max {run : Runner} {cnt : Tries} {roots : List Rule} {text : List Rune} {C : Nat}
    (hC : ∀ r ∈ roots, ∀ flag i, cnt r flag (text.drop i) ≤ C)
    (h0 : ∀ r ∈ roots, ∀ flag l nd n st, run r flag l ≠ .hit nd 0 n st) (n : Nat) :
    ∀ flag pending i, docTries run cnt roots n flag pending (text.drop i) ≤ roots.length * C * (text.length - i) := by
  induction n with
  | zero => intros; exact Nat.zero_le _
  | succ n ih =>
    intro flag pending i
    rw [docTries]
    split
    · exact Nat.zero_le _
    rename_i hne
    have hi : i < text.length := by
      rcases Nat.lt_or_ge i text.length with h | h
      · exact h
      · exact absurd (List.drop_eq_nil_of_le h) hne
    have ha := allTries_le roots (cnt := cnt) (flag := flag) (l := text.drop i) (C := C) fun r hr => hC r hr flag i
    obtain ⟨d, hd⟩ : ∃ d, text.length - i = d + 1 := ⟨text.length - i - 1, by omega⟩
    rw [hd, Nat.mul_succ]
    cases hr : roundAt run roots flag pending (text.drop i) with
    | step nd u left st =>
      obtain ⟨r, hr', k, he⟩ := Shape.step_root hr
      have hu : u ≠ 0 := by rintro rfl; exact h0 r hr' _ _ _ _ _ he
      simp only
      rw [List.drop_drop]
      have := ih (flagNext st) left (i + u)
      have h3 : roots.length * C * (text.length - (i + u)) ≤ roots.length * C * d := Nat.mul_le_mul_left _ (by omega)
      omega
    | _ => simp only; omega

/-- Parsing a document takes at most exponentially many calls, in any grammar without left recursion and without repetition of a rule that can
match nothing, whose roots cannot match nothing; for documents in which nothing goes astray (C24). -/
theorem C76_document_bound_partial {g : Grammar} (hl : NoLeftRecursion g.env) (hs : ∀ name r, g.env name = some r → SoundReps g.env r)
    (hroots : ∀ rc ∈ g.roots, SoundReps g.env rc.rule ∧ ¬ Nullable g.env rc.rule) :
    ∃ K, ∀ (s : Stream), Ready s → Orderly g.env (g.roots.map (·.rule)) s.rem → ∀ sch : Sched, sch.Fair → ∀ fuel x,
      g.evalRaw fuel sch s = .ok x → g.workRaw fuel sch s ≤ K ^ (s.rem.length + 1) := by
  obtain ⟨K, hK2, hK⟩ := bound_of hl hs (g.roots.map (·.rule))
  refine ⟨2 * (g.roots.length + 1) * K, fun s hr ho sch hfair fuel x h => ?_⟩
  by_cases hne : s.rem = []
  · have : s.peek = EOFChar := by rw [L.peek_eq hr.wf, L.peek_eof hr.valid]; exact hne
    simp only [Grammar.workRaw, if_pos this]
    exact Nat.zero_le _
  · obtain ⟨F, z, hz⟩ := orderly_outcome ho
    obtain ⟨_, _, e1, _⟩ := evalRaw_ref hfair hr.wf hr.valid hne hz
    rw [C76_raw_det e1 h, workRaw_eq hfair hr.wf hr.valid hne hz]
    have hd := docTries_max (run := Spec.run g.env F) (cnt := tries g.env F) (roots := g.roots.map (·.rule)) (text := s.rem)
      (C := K ^ (s.rem.length + 1))
      (fun r hr' flag i => by
        obtain ⟨rc, hrc, rfl⟩ := List.mem_map.1 hr'
        refine Nat.le_trans (hK _ hr' (hroots rc hrc).1 _ _ _ (hr.valid.drop i)) ?_
        exact Nat.pow_le_pow_right (by omega) (by rw [List.length_drop]; omega))
      (fun r hr' flag l nd n st hit => by
        obtain ⟨rc, hrc, rfl⟩ := List.mem_map.1 hr'
        exact (hroots rc hrc).2 (run_nullable hit)) F SUGGEST_SKIP 0 0
    rw [List.drop_zero, Nat.sub_zero, List.length_map] at hd
    refine Nat.le_trans hd ?_
    rw [Nat.mul_pow, Nat.mul_pow, Nat.mul_right_comm]
    refine Nat.mul_le_mul_right _ ?_
    rw [Nat.mul_comm]
    refine Nat.mul_le_mul (Nat.le_trans (Nat.le_succ _) (succ_le_two_pow _)) ?_
    exact Nat.le_trans (Nat.le_succ _) (Nat.le_self_pow (by omega) _)

/-- The check of `no_left_recursion` for roots. -/
theorem roots_sound {g : Grammar} {N : List Name}
    (h1 : g.records.all (fun r => !nulB N r.rule || N.contains r.name) = true)
    (h2 : g.roots.all (fun r => !nulB N r.rule && repsOk N r.rule) = true) :
    ∀ rc ∈ g.roots, SoundReps g.env rc.rule ∧ ¬ Nullable g.env rc.rule := by
  have hnul : ∀ name r, g.env name = some r → nulB N r = true → N.contains name = true := by
    intro name r hr hn
    simp only [Grammar.env, Option.map_eq_some_iff] at hr
    obtain ⟨rc, hrc, rfl⟩ := hr
    have := List.all_eq_true.1 h1 rc (List.mem_of_find?_eq_some hrc)
    obtain rfl : rc.name = name := by simpa using List.find?_some hrc
    simpa [hn] using this
  intro rc hrc
  have := List.all_eq_true.1 h2 rc hrc
  rw [Bool.and_eq_true] at this
  refine ⟨soundReps_of hnul this.2, fun hn => ?_⟩
  rw [nulB_of hnul hn] at this
  exact absurd this.1 (by decide)

/-- Non-vacuity: the grammar that takes exponentially many calls (C75) takes no more. -/
example : doubling.roots.length = 1 ∧ ∃ K, ∀ text, Valid text → Orderly doubling.env (doubling.roots.map (·.rule)) text → ∀ sch : Sched, sch.Fair →
    ∀ fuel x, doubling.evalRaw fuel sch (Stream.ofChars text) = .ok x → doubling.workRaw fuel sch (Stream.ofChars text) ≤ K ^ (text.length + 1) := by
  refine ⟨by decide +kernel, ?_⟩
  obtain ⟨K, hK⟩ := C76_document_bound_partial doubling_sound.1 doubling_sound.2
    (roots_sound (N := []) (by decide +kernel) (by decide +kernel))
  refine ⟨K, fun text hv ho sch hf fuel x h => ?_⟩
  have := hK _ (ready_ofChars hv) (by rw [rem_ofChars]; exact ho) sch hf fuel x h
  rwa [rem_ofChars] at this

example : Orderly doubling.env (doubling.roots.map (·.rule)) (xs 1) := orderly_of (fuel := 12) (by decide +kernel)

/-- Non-vacuity: the search of `C76_embed_counterexample`. -/
example : ∃ K, ∀ sample, Valid sample → Tidy sample → ∀ fuel res, trailing.evalEmbed fuel (runes "s") sample = .ok res →
    trailing.workEmbed fuel (runes "s") sample ≤ K ^ (sample.length + 1) := by
  have hp : Predictive trailing := ⟨certify trailing 4, by decide +kernel⟩
  have hs := no_left_recursion (g := trailing) (N := []) (order := [runes "s"]) (by decide +kernel) (by decide +kernel) (by decide +kernel)
  obtain ⟨K, hK⟩ := C76_embed_bound_partial hs.1 hs.2
  obtain ⟨c, hc⟩ := hp
  obtain ⟨rc, hrc, _⟩ := Option.map_eq_some_iff.1 trailing_record
  refine ⟨K, fun sample hv ht fuel res h => hK _ rc sample hrc hv (fun i hi => ?_) fuel res h⟩
  have hcert := certified hc
  have hcov := hcert.covers hrc (flag := NOT_SKIP) (by decide)
  simp only [Certificate.covers, Bool.and_eq_true, Option.isSome_iff_exists] at hcov
  obtain ⟨⟨s, hs⟩, hreps⟩ := hcov
  obtain ⟨F, hF⟩ := hcert.ends hreps sample.length
  exact ⟨F, (hF _ (Nat.le_refl _) NOT_SKIP s hs _ (hv.drop i) (ht.drop i) (by rw [List.length_drop]; omega)).2⟩

end Xbnf.Props
