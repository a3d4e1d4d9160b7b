import Verif.Model.Grammar
import Verif.Spec.Error
/-
The evaluators ask for the evaluation of the parts of a rule only, hence for the definitions of the names a rule refers to.
-/
namespace Xbnf
open Spec

section
variable {ev ev' : Evaluator}

theorem concatLoop_congr (self : Rule) : ∀ (rs : List Rule), (∀ r ∈ rs, ev r = ev' r) → ∀ (st : SeqState) (s : Stream),
    concatLoop ev self rs st s = concatLoop ev' self rs st s
  | [], _, _, _ => rfl
  | r :: rs, h, st, s => by
    simp only [concatLoop, h r List.mem_cons_self, concatLoop_congr self rs (fun q hq => h q (List.mem_cons_of_mem _ hq))]

theorem repLoop_congr {r : Rule} (h : ev r = ev' r) (max : Nat) : ∀ (fuel : Nat) (st : SeqState) (s : Stream),
    repLoop ev r max fuel st s = repLoop ev' r max fuel st s
  | 0, _, _ => rfl
  | fuel + 1, st, s => by simp only [repLoop, h, repLoop_congr h max fuel]

theorem evalRep_congr {r : Rule} (h : ev r = ev' r) (fuel : Nat) (b : RuleBase) (min max : Nat) (flag : Int) (s : Stream) :
    evalRep ev fuel b r min max flag s = evalRep ev' fuel b r min max flag s := by
  unfold evalRep
  rw [repLoop_congr h]

theorem choiceGroup_congr (flag : Int) : ∀ (rs : List Rule), (∀ r ∈ rs, ev r = ev' r) → ∀ (st : ChoiceState) (s : Stream),
    choiceGroup ev flag rs st s = choiceGroup ev' flag rs st s
  | [], _, _, _ => rfl
  | r :: rs, h, st, s => by
    simp only [choiceGroup, h r List.mem_cons_self, choiceGroup_congr flag rs (fun q hq => h q (List.mem_cons_of_mem _ hq))]

theorem choiceLoop_congr (self : Rule) (flag : Int) : ∀ (gs : List (List Rule)), (∀ g ∈ gs, ∀ r ∈ g, ev r = ev' r) → ∀ (st : ChoiceState) (s : Stream),
    choiceLoop ev self flag gs st s = choiceLoop ev' self flag gs st s
  | [], _, _, _ => rfl
  | g :: gs, h, st, s => by
    simp only [choiceLoop, choiceGroup_congr flag g (h g List.mem_cons_self),
      choiceLoop_congr self flag gs (fun q hq => h q (List.mem_cons_of_mem _ hq))]

theorem greedyLoop_congr (flag : Int) : ∀ (rs : List Rule), (∀ r ∈ rs, ev r = ev' r) → ∀ (m : List Rune) (s : Stream),
    greedyLoop ev flag rs m s = greedyLoop ev' flag rs m s
  | [], _, _, _ => rfl
  | r :: rs, h, m, s => by
    simp only [greedyLoop, h r List.mem_cons_self, greedyLoop_congr flag rs (fun q hq => h q (List.mem_cons_of_mem _ hq))]

theorem mostGreedy_congr (flag : Int) (rs : List Rule) (h : ∀ r ∈ rs, ev r = ev' r) (s : Stream) :
    mostGreedy ev flag rs s = mostGreedy ev' flag rs s := by
  unfold mostGreedy
  rw [greedyLoop_congr flag rs h]

theorem blockLoop_congr {close : Rule} {escape : Option Rule} {excludes : List Rule} (hc : ev close = ev' close)
    (he : ∀ e, escape = some e → ev e = ev' e) (hx : ∀ r ∈ excludes, ev r = ev' r) : ∀ (fuel : Nat) (st : BlockState) (s : Stream),
    blockLoop ev close escape excludes fuel st s = blockLoop ev' close escape excludes fuel st s
  | 0, _, _ => rfl
  | fuel + 1, st, s => by
    cases escape with
    | none => simp only [blockLoop, hc, mostGreedy_congr _ _ hx, blockLoop_congr hc he hx fuel]
    | some e => simp only [blockLoop, hc, he e rfl, mostGreedy_congr _ _ hx, blockLoop_congr hc he hx fuel]

theorem evalBlock_congr {opn close : Rule} {escape : Option Rule} {excludes : List Rule} (ho : ev opn = ev' opn) (hc : ev close = ev' close)
    (he : ∀ e, escape = some e → ev e = ev' e) (hx : ∀ r ∈ excludes, ev r = ev' r) (fuel : Nat) (b : RuleBase) (v : Bool) (flag : Int) (s : Stream) :
    evalBlock ev fuel b opn v close escape excludes flag s = evalBlock ev' fuel b opn v close escape excludes flag s := by
  simp only [evalBlock, ho, blockLoop_congr hc he hx]

end

theorem refs_of_mem {rs : List Rule} {r : Rule} (h : r ∈ rs) : ∀ n ∈ refs r, n ∈ refsL rs := by
  induction rs with
  | nil => cases h
  | cons q qs ih =>
    intro n hn
    simp only [refsL, List.mem_append]
    rcases List.mem_cons.1 h with rfl | h
    · exact .inl hn
    · exact .inr (ih h n hn)

theorem refs_of_mem_mem {gs : List (List Rule)} {g : List Rule} {r : Rule} (hg : g ∈ gs) (h : r ∈ g) : ∀ n ∈ refs r, n ∈ refsLL gs := by
  induction gs with
  | nil => cases hg
  | cons q qs ih =>
    intro n hn
    simp only [refsLL, List.mem_append]
    rcases List.mem_cons.1 hg with rfl | hg
    · exact .inl (refs_of_mem h n hn)
    · exact .inr (ih hg n hn)

theorem RefersTo.mono {env : Env} {r q : Rule} (h : ∀ n ∈ refs r, n ∈ refs q) {n : Name} (hn : RefersTo env r n) : RefersTo env q n := by
  cases hn with
  | direct h' => exact .direct (h _ h')
  | via h' hm h2 => exact .via (h _ h') hm h2

/-- Two environments that say the same about the names a rule refers to evaluate it alike. -/
theorem eval_needed {env env' : Env} : ∀ (fuel : Nat) (r : Rule), (∀ n, RefersTo env r n → env' n = env n) → eval env' fuel r = eval env fuel r
  | 0, _, _ => rfl
  | fuel + 1, r, h => by
    have part : ∀ q : Rule, (∀ n ∈ refs q, n ∈ refs r) → eval env' fuel q = eval env fuel q := fun q hq =>
      eval_needed fuel q (fun n hn => h n (RefersTo.mono hq hn))
    funext flag s
    cases r with
    | eof b => rfl
    | char b t u => rfl
    | range b x xu y yu => rfl
    | chars b t => rfl
    | str b t => rfl
    | group b q => simp only [eval, part q (fun n hn => hn)]
    | option b q => simp only [eval, part q (fun n hn => hn)]
    | rep b q mn mx =>
      simp only [eval]
      exact evalRep_congr (part q (fun n hn => hn)) fuel b mn mx flag s
    | choice b gs =>
      simp only [eval]
      exact choiceLoop_congr _ flag gs (fun g hg q hq => part q (refs_of_mem_mem hg hq)) _ s
    | concat b rs =>
      simp only [eval]
      exact concatLoop_congr _ rs (fun q hq => part q (refs_of_mem hq)) _ s
    | block b o v c e xs =>
      simp only [eval]
      refine evalBlock_congr (part o ?_) (part c ?_) (fun q hq => part q ?_) (fun q hq => part q ?_) fuel b v flag s
      · intro n hn; simp [refs, hn]
      · intro n hn; simp [refs, hn]
      · intro n hn; simp [refs, hq, refsO, hn]
      · intro n hn; simp [refs, refs_of_mem hq n hn]
    | ref b name =>
      have hd : env' name = env name := h name (.direct (by simp [refs]))
      simp only [eval, hd]
      cases hr : env name with
      | none => rfl
      | some q => simp only [eval_needed fuel q (fun n hn => h n (.via (by simp [refs]) hr hn))]

end Xbnf
