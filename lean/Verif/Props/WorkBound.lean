import Verif.Lemmas.WorkBound
import Verif.Props.Work
/-
C75, for all grammars without left recursion: the work may grow as fast as an exponential function of the
length of the text, but not faster.
-/
namespace Xbnf.Props
open Spec

/-- In a grammar without left recursion and without repetition of a rule that can match nothing there is a
number `K` such that `EvalRule` makes at most `K ^ (n + 1)` calls on every text of `n` characters.
(Missing from the full claim of C75, which is false: a bound proportional to `n`; and evaluations that
are not regular.) -/
theorem C75_bound_partial {g : Grammar} (hl : NoLeftRecursion g.env) (hs : ∀ name r, g.env name = some r → SoundReps g.env r) :
    ∃ K, ∀ (name : Name) (rc : Record) (sample : List Rune), g.getRecord name = some rc → Valid sample →
      Regular g.env rc.rule SUGGEST_SKIP sample → ∀ (fuel : Nat) (res : Res),
      g.evalRule fuel name sample = .ok res → g.workRule fuel name sample ≤ K ^ (sample.length + 1) := by
  have hnamed : ∀ name r, g.env name = some r → r ∈ g.records.map (·.rule) := by
    intro name r h
    simp only [Grammar.env, Option.map_eq_some_iff] at h
    obtain ⟨rc, hrc, rfl⟩ := h
    exact List.mem_map_of_mem (List.mem_of_find?_eq_some hrc)
  obtain ⟨U, hU1, hU2⟩ := Shape.closed_env hnamed (g.records.map (·.rule))
  obtain ⟨N, W, hroom⟩ := roomy hl hU2
  refine ⟨4 * (N + 1) * (N + 4) ^ W + 2, fun name rc sample hrc hv hreg fuel res h => ?_⟩
  obtain ⟨F, h1, h2⟩ := hreg
  have hr := ready_ofChars hv
  have hle := rem_ofChars sample
  have h1' : Spec.run g.env F rc.rule SUGGEST_SKIP (Stream.ofChars sample).rem ≠ .oof := by rw [hle]; exact h1
  have h2' : Spec.run g.env F rc.rule SUGGEST_SKIP (Stream.ofChars sample).rem ≠ .risky := by rw [hle]; exact h2
  obtain ⟨res', s', j, e, _, _⟩ := run_eval hr h1' h2'
  have hev : g.evalRule F name sample = .ok res' := by
    simp only [Grammar.evalRule, hrc, e]
    rfl
  rw [C75_calls_det hev h]
  simp only [Grammar.workRule, hrc]
  rw [work_eq _ _ _ _ _ hr.wf hr.valid h1' h2', hle]
  have hmem : rc.rule ∈ U := hU1 _ (List.mem_map_of_mem (List.mem_of_find?_eq_some hrc))
  have hb := tries_bound hl hs hroom rfl rfl rfl F rc.rule hmem (hs name rc.rule (by simp [Grammar.env, hrc])) SUGGEST_SKIP sample hv
  refine Nat.le_trans hb ?_
  rw [Nat.pow_succ (m := sample.length), Nat.mul_comm]
  refine Nat.mul_le_mul_left _ (Nat.le_trans (Nat.pow_le_pow_right (by omega) (hroom.tall _ hmem)) ?_)
  have : 1 * (N + 4) ^ W ≤ 4 * (N + 1) * (N + 4) ^ W := Nat.mul_le_mul_right _ (by omega)
  omega

/-- A grammar has no left recursion and repeats nothing that can match nothing, if its rules that can match
nothing are among `N` and each of its rules begins only with rules that come later in `order`. -/
theorem no_left_recursion {g : Grammar} {N order : List Name}
    (h1 : g.records.all (fun r => (!nulB N r.rule || N.contains r.name) && repsOk N r.rule) = true)
    (h2 : g.records.all (fun r => order.contains r.name) = true) (h3 : ordered g N order = true) :
    NoLeftRecursion g.env ∧ ∀ name r, g.env name = some r → SoundReps g.env r := by
  have hrec : ∀ name r, g.env name = some r → ∃ rc ∈ g.records, rc.name = name ∧ rc.rule = r := by
    intro name r hr
    simp only [Grammar.env, Option.map_eq_some_iff] at hr
    obtain ⟨rc, hrc, rfl⟩ := hr
    unfold Grammar.getRecord at hrc
    exact ⟨rc, List.mem_of_find?_eq_some hrc, (by simpa using List.find?_some hrc), rfl⟩
  have hnul : ∀ name r, g.env name = some r → nulB N r = true → N.contains name = true := by
    intro name r hr hn
    obtain ⟨rc, hrc, rfl, rfl⟩ := hrec name r hr
    have := List.all_eq_true.1 h1 rc hrc
    simp only [Bool.and_eq_true, Bool.or_eq_true, Bool.not_eq_true'] at this
    rcases this.1 with h | h
    · rw [hn] at h; cases h
    · exact h
  constructor
  · refine noLeftRecursion_of fun name r hr => ?_
    obtain ⟨rc, hrc, rfl, rfl⟩ := hrec name r hr
    exact acc_of_ordered hnul h3 rc.name (by simpa using List.all_eq_true.1 h2 rc hrc) rc.rule hr
  · intro name r hr
    obtain ⟨rc, hrc, rfl, rfl⟩ := hrec name r hr
    have := List.all_eq_true.1 h1 rc hrc
    rw [Bool.and_eq_true] at this
    exact soundReps_of hnul this.2

theorem doubling_sound : NoLeftRecursion doubling.env ∧ ∀ name r, doubling.env name = some r → SoundReps doubling.env r :=
  no_left_recursion (N := []) (order := [runes "s", runes "a"]) (by decide +kernel) (by decide +kernel) (by decide +kernel)

theorem xs_valid (n : Nat) : Valid (xs n) := by
  intro c hc
  rw [List.eq_of_mem_replicate hc]
  decide

/-- The two bounds meet: on the grammar of `C75_exponential_counterexample` the number of calls lies between
two exponential functions of the length of the text. -/
theorem C75_tight : ∃ K, ∀ n fuel res, doubling.evalRule fuel (runes "a") (xs (n + 1)) = .ok res →
    2 ^ (n + 1) ≤ doubling.workRule fuel (runes "a") (xs (n + 1)) ∧
    doubling.workRule fuel (runes "a") (xs (n + 1)) ≤ K ^ (n + 2) := by
  obtain ⟨K, hK⟩ := C75_bound_partial doubling_sound.1 doubling_sound.2
  refine ⟨K, fun n fuel res h => ⟨(C75_exponential_counterexample n).2 fuel res h, ?_⟩⟩
  obtain ⟨rc, hrc, hrule⟩ := Option.map_eq_some_iff.1 doubling_record
  have hreg : Regular doubling.env rc.rule SUGGEST_SKIP (xs (n + 1)) := by
    obtain ⟨_, h2, _⟩ := doubling_x (n + 1) _ SUGGEST_SKIP (Nat.le_refl _)
    obtain ⟨nd, st, h2⟩ := h2 (by omega)
    exact ⟨_, by rw [hrule, h2]; simp, by rw [hrule, h2]; simp⟩
  have := hK _ rc (xs (n + 1)) hrc (xs_valid _) hreg fuel res h
  simpa [xs] using this

end Xbnf.Props
