import Verif.Spec.Parens
import Verif.Lemmas.Outcome
/-
The reference semantics on a rule and on the rule with parts of it in parentheses.
-/
namespace Xbnf
open Spec

/-- The same node, with related children. -/
def SameNode (n n' : Node) : Prop := ∃ cs', n' = { n with children := cs' } ∧ SameTrees n.children cs'

theorem SameNode.tree {n n' : Node} (h : SameNode n n') : SameTree n n' := by
  obtain ⟨rt, nm, ch, cs, p, st, v, nd, tk⟩ := n
  obtain ⟨cs', rfl, h⟩ := h
  exact .same h

/-- What the rule with parentheses answers when the rule without answers. -/
def AnsRel (R : Node → Node → Prop) : Ans → Ans → Prop
  | .oof, _ => True
  | .risky, _ => True
  | .fail n st, a => a = .fail n st
  | .ambiguous n, a => a = .ambiguous n ∨ a = .fail n false
  | .hit nd u n st, a => ∃ nd', a = .hit nd' u n st ∧ R nd nd'

theorem AnsRel.mono {R R' : Node → Node → Prop} (hR : ∀ n n', R n n' → R' n n') {a a' : Ans} (h : AnsRel R a a') : AnsRel R' a a' := by
  cases a with
  | hit nd u n st => obtain ⟨nd', h1, h2⟩ := h; exact ⟨nd', h1, hR _ _ h2⟩
  | _ => exact h

theorem sameTree_leaf {n : Node} (h : n.children = []) : SameTree n n := by
  obtain ⟨rt, nm, ch, cs, p, st, v, nd, tk⟩ := n
  subst h
  exact .same .nil

theorem _root_.Xbnf.Spec.SameTrees.append {a a' b b' : List Node} (h : SameTrees a a') (h' : SameTrees b b') : SameTrees (a ++ b) (a' ++ b') := by
  induction a generalizing a' with
  | nil => cases h; exact h'
  | cons n ns ih => cases h with | cons h1 h2 => exact .cons h1 (ih h2)

theorem _root_.Xbnf.Spec.SameTrees.length {a a' : List Node} (h : SameTrees a a') : a.length = a'.length := by
  induction a generalizing a' with
  | nil => cases h; rfl
  | cons n ns ih => cases h with | cons h1 h2 => simp [ih h2]

theorem _root_.Xbnf.Spec.SameTrees.one {n n' : Node} (h : SameTree n n') : SameTrees [n] [n'] := .cons h .nil

theorem sameTree_inner {rt : RType} {b : RuleBase} {st : Bool} {cs cs' : List Node} (h : SameTrees cs cs') :
    SameNode (inner rt b st cs) (inner rt b st cs') := ⟨cs', rfl, h⟩

theorem sameTree_sticky {n n' : Node} (h : SameTree n n') : n'.sticky = n.sticky := by cases h <;> rfl

theorem sameTree_flag {n n' : Node} (h : SameTree n n') (flag : Int) (st : Bool) : flagAfter flag n' st = flagAfter flag n st := by
  cases h with
  | same h =>
    have : ∀ {cs cs' : List Node}, SameTrees cs cs' → (cs' = [] ↔ cs = []) := by
      intro cs cs' h
      cases h <;> simp
    simp only [flagAfter, this h]
  | group h ho => simp [flagAfter, ho]

theorem sameNode_flip {n n' : Node} (b : RuleBase) (h : SameNode n n') : SameNode (flip b n) (flip b n') := by
  obtain ⟨cs', rfl, h⟩ := h
  exact ⟨cs', rfl, h⟩

/-- Runs of two interpreters on related rules. -/
def RunRel (env : Env) (run run' : Runner) : Prop := ∀ r r' flag l, Around env r r' → AnsRel SameTree (run r flag l) (run' r' flag l)

theorem seqAt_rel {env : Env} {run run' : Runner} (hr : RunRel env run run') (b : RuleBase) (l : List Rune) :
    ∀ {rs rs' : List Rule}, AroundL env rs rs' → ∀ (pos look : Nat) (st : Bool) (flag : Int) {nodes nodes' : List Node}, SameTrees nodes nodes' →
    AnsRel SameNode (seqAt run b l rs pos look st flag nodes) (seqAt run' b l rs' pos look st flag nodes') := by
  intro rs
  induction rs with
  | nil =>
    intro rs' h pos look st flag nodes nodes' hn
    cases h
    exact ⟨_, rfl, sameTree_inner hn⟩
  | cons r rs ih =>
    intro rs' h pos look st flag nodes nodes' hn
    cases h with
    | @cons _ r' _ rs' h hs =>
      have h1 := hr r r' flag (l.drop pos) h
      simp only [seqAt]
      cases ha : run r flag (l.drop pos) with
      | oof => trivial
      | risky => trivial
      | fail n st' => rw [ha] at h1; rw [show run' r' flag (l.drop pos) = _ from h1]; rfl
      | ambiguous n =>
        rw [ha] at h1
        rcases h1 with h1 | h1
        · rw [h1]; rfl
        · rw [h1]; simp [AnsRel]
      | hit nd u n st' =>
        rw [ha] at h1
        obtain ⟨nd', h1, h2⟩ := h1
        rw [h1]
        have hne : (rs' ≠ []) = (rs ≠ []) := by cases hs <;> simp
        simp only [hne, sameTree_flag h2]
        split
        · trivial
        · exact ih hs _ _ _ _ (hn.append (.one h2))

theorem repEnd_rel (b : RuleBase) (mn pos look : Nat) (st : Bool) {nodes nodes' : List Node} (h : SameTrees nodes nodes') :
    AnsRel SameNode (repEnd b mn pos look st nodes) (repEnd b mn pos look st nodes') := by
  unfold repEnd
  rw [h.length]
  split
  · rfl
  · exact ⟨_, rfl, sameTree_inner h⟩

theorem repAt_rel {env : Env} {run run' : Runner} (hr : RunRel env run run') (b : RuleBase) {r r' : Rule} (h : Around env r r') (mn mx : Nat)
    (flag : Int) (l : List Rune) : ∀ (fuel fuel' : Nat), fuel ≤ fuel' → ∀ (pos look : Nat) (st : Bool) {nodes nodes' : List Node}, SameTrees nodes nodes' →
    AnsRel SameNode (repAt run b r mn mx flag l fuel pos look st nodes) (repAt run' b r' mn mx flag l fuel' pos look st nodes') := by
  intro fuel
  induction fuel with
  | zero => intro fuel' _ pos look st nodes nodes' _; trivial
  | succ fuel ih =>
    intro fuel' hle pos look st nodes nodes' hn
    obtain ⟨f', rfl⟩ : ∃ f', fuel' = f' + 1 := ⟨fuel' - 1, by omega⟩
    simp only [repAt]
    split
    · exact repEnd_rel _ _ _ _ _ hn
    · have h1 := hr r r' flag (l.drop pos) h
      cases ha : run r flag (l.drop pos) with
      | oof => trivial
      | risky => trivial
      | fail n st' =>
        rw [ha] at h1; rw [show run' r' flag (l.drop pos) = _ from h1]
        exact repEnd_rel _ _ _ _ _ hn
      | ambiguous n => trivial
      | hit nd u n st' =>
        rw [ha] at h1
        obtain ⟨nd', h1, h2⟩ := h1
        rw [h1]
        simp only [← hn.length]
        split
        · split
          · trivial
          · exact repEnd_rel _ _ _ _ _ (hn.append (.one h2))
        · split
          · trivial
          · exact ih f' (by omega) _ _ _ (hn.append (.one h2))

/-- The same hits, with related trees. -/
inductive HitsRel : List (Node × Nat × Bool) → List (Node × Nat × Bool) → Prop
  | nil : HitsRel [] []
  | cons {nd nd' u st hs hs'} (h : SameTree nd nd') (ht : HitsRel hs hs') : HitsRel ((nd, u, st) :: hs) ((nd', u, st) :: hs')

def AltsRel : Alts → Alts → Prop
  | .oof, _ => True
  | .risky, _ => True
  | .ok hits look st, a => ∃ hits', a = .ok hits' look st ∧ HitsRel hits hits'

theorem altsAt_rel {env : Env} {run run' : Runner} (hr : RunRel env run run') (flag : Int) (l : List Rune) :
    ∀ {rs rs' : List Rule}, AroundL env rs rs' → ∀ (look : Nat) (st : Bool), AltsRel (altsAt run flag l rs look st) (altsAt run' flag l rs' look st) := by
  intro rs
  induction rs with
  | nil => intro rs' h look st; cases h; exact ⟨[], rfl, .nil⟩
  | cons r rs ih =>
    intro rs' h look st
    cases h with
    | @cons _ r' _ rs' h hs =>
      have h1 := hr r r' flag l h
      simp only [altsAt]
      cases ha : run r flag l with
      | oof => trivial
      | risky => trivial
      | fail n st' => rw [ha] at h1; rw [show run' r' flag l = _ from h1]; exact ih hs _ _
      | ambiguous n =>
        rw [ha] at h1
        rcases h1 with h1 | h1
        · rw [h1]; exact ih hs _ _
        · rw [h1]; simp only [Bool.and_false]; exact ih hs _ _
      | hit nd u n st' =>
        rw [ha] at h1
        obtain ⟨nd', h1, h2⟩ := h1
        rw [h1]
        simp only
        have h3 := ih hs (max look n) (st && st')
        cases hb : altsAt run flag l rs (max look n) (st && st') with
        | oof => trivial
        | risky => trivial
        | ok hits look' st'' =>
          rw [hb] at h3
          obtain ⟨hits', h3, h4⟩ := h3
          rw [h3]
          exact ⟨_, rfl, .cons h2 h4⟩

theorem HitsRel.longest {hs hs' : List (Node × Nat × Bool)} (h : HitsRel hs hs') : Spec.longest hs' = Spec.longest hs := by
  induction h with
  | nil => rfl
  | cons _ _ ih => simp only [Spec.longest, List.foldr_cons] at ih ⊢; rw [ih]

theorem HitsRel.tie {hs hs' : List (Node × Nat × Bool)} (h : HitsRel hs hs') : ∀ m, runningTie m hs' = runningTie m hs := by
  induction h with
  | nil => intro m; rfl
  | cons _ _ ih => intro m; cases m <;> simp [runningTie, ih]

theorem HitsRel.filter {hs hs' : List (Node × Nat × Bool)} (h : HitsRel hs hs') (m : Nat) :
    HitsRel (hs.filter (fun z => z.2.1 == m)) (hs'.filter (fun z => z.2.1 == m)) := by
  induction h with
  | nil => exact .nil
  | @cons nd nd' u st hs hs' h _ ih =>
    by_cases hu : u == m
    · simp only [List.filter_cons, hu, if_true]; exact .cons h ih
    · simp only [List.filter_cons, hu, if_false]; exact ih

def BestRel : Best → Best → Prop
  | .none, b => b = .none
  | .tie, b => b = .tie
  | .order, b => b = .order
  | .one nd u st, b => ∃ nd', b = .one nd' u st ∧ SameTree nd nd'

theorem HitsRel.best {hs hs' : List (Node × Nat × Bool)} (h : HitsRel hs hs') : BestRel (Spec.best hs) (Spec.best hs') := by
  unfold Spec.best
  rw [h.longest, h.tie]
  have hf := h.filter (Spec.longest hs)
  generalize hs.filter (fun z => z.2.1 == Spec.longest hs) = f at hf
  generalize hs'.filter (fun z => z.2.1 == Spec.longest hs) = f' at hf
  cases hf with
  | nil => rfl
  | cons h1 h2 =>
    cases h2 with
    | nil =>
      simp only
      split
      · rfl
      · exact ⟨_, rfl, h1⟩
    | cons h3 h4 => rfl

theorem choiceAt_rel {env : Env} {run run' : Runner} (hr : RunRel env run run') (b : RuleBase) (flag : Int) (l : List Rune) :
    ∀ {gs gs' : List (List Rule)}, AroundLL env gs gs' → ∀ (look : Nat) (st : Bool),
    AnsRel SameNode (choiceAt run b flag l gs look st) (choiceAt run' b flag l gs' look st) := by
  intro gs
  induction gs with
  | nil => intro gs' h look st; cases h; rfl
  | cons g gs ih =>
    intro gs' h look st
    cases h with
    | @cons _ g' _ gs' h hs =>
      have h1 := altsAt_rel hr flag l h look st
      simp only [choiceAt]
      cases ha : altsAt run flag l g look st with
      | oof => trivial
      | risky => trivial
      | ok hits look' st' =>
        rw [ha] at h1
        obtain ⟨hits', h1, h2⟩ := h1
        rw [h1]
        have h3 := h2.best
        simp only
        cases hb : best hits with
        | none => rw [hb] at h3; rw [show best hits' = _ from h3]; exact ih hs _ _
        | tie => rw [hb] at h3; rw [show best hits' = _ from h3]; exact .inl rfl
        | order => trivial
        | one nd u st'' =>
          rw [hb] at h3
          obtain ⟨nd', h3, h4⟩ := h3
          rw [h3]
          exact ⟨_, rfl, sameTree_inner (.one h4)⟩

theorem escapeAt_rel {env : Env} {run run' : Runner} (hr : RunRel env run run') {e e' : Option Rule} (h : AroundO env e e') (no : Bool) (l : List Rune) :
    AnsRel SameTree (escapeAt run e no l) (escapeAt run' e' no l) := by
  cases h with
  | none => rfl
  | @some r r' h =>
    have h1 := hr r r' NOT_SKIP l h
    simp only [escapeAt]
    cases ha : run r NOT_SKIP l with
    | oof => trivial
    | risky => trivial
    | hit nd u n st => trivial
    | fail n st =>
      rw [ha] at h1; rw [show run' r' NOT_SKIP l = _ from h1]
      simp only
      split
      · trivial
      · rfl
    | ambiguous n =>
      rw [ha] at h1
      simp only
      rcases h1 with h1 | h1
      · rw [h1]
        simp only
        split
        · trivial
        · rfl
      · rw [h1]
        simp only
        split
        · trivial
        · rfl

theorem excludeAt_rel {env : Env} {run run' : Runner} (hr : RunRel env run run') {x x' : List Rule} (h : AroundL env x x') (l : List Rune) :
    AnsRel SameTree (excludeAt run x l) (excludeAt run' x' l) := by
  have h1 := altsAt_rel hr NOT_SKIP l h 0 true
  unfold excludeAt
  cases ha : altsAt run NOT_SKIP l x 0 true with
  | oof => trivial
  | risky => trivial
  | ok hits look' st' =>
    rw [ha] at h1
    obtain ⟨hits', h1, h2⟩ := h1
    rw [h1]
    have h3 := h2.best
    simp only
    cases hb : best hits with
    | none => rw [hb] at h3; rw [show best hits' = _ from h3]; rfl
    | tie => trivial
    | order => trivial
    | one nd u st'' =>
      rw [hb] at h3
      obtain ⟨nd', h3, h4⟩ := h3
      rw [h3]
      exact ⟨_, rfl, h4⟩

theorem blockAt_rel {env : Env} {run run' : Runner} (hr : RunRel env run run') (b : RuleBase) (v : Bool) {c c' : Rule} (hc : Around env c c')
    {e e' : Option Rule} (he : AroundO env e e') {x x' : List Rule} (hx : AroundL env x x') {o o' : Node} (ho : SameTree o o') (start : Nat)
    (l : List Rune) : ∀ (fuel fuel' : Nat), fuel ≤ fuel' → ∀ (pos look : Nat),
    AnsRel SameNode (blockAt run b v c e x o start l fuel pos look) (blockAt run' b v c' e' x' o' start l fuel' pos look) := by
  intro fuel
  induction fuel with
  | zero => intro fuel' _ pos look; trivial
  | succ fuel ih =>
    intro fuel' hle pos look
    obtain ⟨f', rfl⟩ : ∃ f', fuel' = f' + 1 := ⟨fuel' - 1, by omega⟩
    have hemp : x'.isEmpty = x.isEmpty := by cases hx <;> rfl
    have h1 := escapeAt_rel hr he x.isEmpty (l.drop pos)
    have h2 := excludeAt_rel hr hx (l.drop pos)
    have h3 := hr c c' NOT_SKIP (l.drop pos) hc
    simp only [blockAt, hemp]
    cases ha : escapeAt run e x.isEmpty (l.drop pos) with
    | oof => trivial
    | risky => trivial
    | ambiguous n => trivial
    | hit nd u n st => trivial
    | fail ne st =>
      rw [ha] at h1; rw [show escapeAt run' e' x.isEmpty (l.drop pos) = _ from h1]
      simp only
      cases hb : excludeAt run x (l.drop pos) with
      | oof => trivial
      | risky => trivial
      | ambiguous n => trivial
      | hit nd u n st =>
        rw [hb] at h2
        obtain ⟨nd', h2, _⟩ := h2
        rw [h2]
        simp only
        split
        · trivial
        · rfl
      | fail nx st =>
        rw [hb] at h2; rw [show excludeAt run' x' (l.drop pos) = _ from h2]
        simp only
        cases hd : run c NOT_SKIP (l.drop pos) with
        | oof => trivial
        | risky => trivial
        | ambiguous n => trivial
        | hit nd u n st =>
          rw [hd] at h3
          obtain ⟨nd', h3, h4⟩ := h3
          rw [h3]
          simp only
          split
          · trivial
          · refine ⟨_, rfl, sameTree_inner (SameTrees.append (.cons ho (.cons (sameTree_leaf rfl) .nil)) ?_)⟩
            split
            · exact .nil
            · exact .one h4
        | fail n st =>
          rw [hd] at h3; rw [show run' c' NOT_SKIP (l.drop pos) = _ from h3]
          simp only
          split
          · rfl
          · exact ih f' (by omega) _ _

theorem AnsRel.leaf {a : Ans} (h : ∀ nd u n st, a = .hit nd u n st → nd.children = []) : AnsRel SameNode a a := by
  cases a with
  | oof => trivial
  | risky => trivial
  | fail n st => rfl
  | ambiguous n => exact .inl rfl
  | hit nd u n st => exact ⟨nd, rfl, nd.children, by cases nd; rfl, by rw [h nd u n st rfl]; exact .nil⟩

theorem run_terminal {env : Env} {fuel : Nat} {r : Rule} (hr : (∃ b, r = .eof b) ∨ (∃ b c u, r = .char b c u) ∨ (∃ b x xu y yu, r = .range b x xu y yu) ∨
    (∃ b t, r = .chars b t) ∨ ∃ b t, r = .str b t) {flag : Int} {l : List Rune} {nd : Node} {u n : Nat} {st : Bool}
    (h : Spec.run env (fuel + 1) r flag l = .hit nd u n st) : nd.children = [] := by
  have one : ∀ {rt b skip p}, oneAt rt b skip p l = .hit nd u n st → nd.children = [] := by
    intro rt b skip p h
    unfold oneAt at h
    simp only at h
    split at h
    · cases h; rfl
    · split at h
      · cases h
      · split at h <;> cases h; rfl
  have text : ∀ {rt b s skip t}, textAt rt b s skip t l = .hit nd u n st → nd.children = [] := by
    intro rt b s skip t h
    unfold textAt at h
    simp only at h
    repeat' split at h
    all_goals first | (cases h; rfl) | cases h
  rcases hr with ⟨b, rfl⟩ | ⟨b, c, u, rfl⟩ | ⟨b, x, xu, y, yu, rfl⟩ | ⟨b, t, rfl⟩ | ⟨b, t, rfl⟩
  · simp only [Spec.run, eofAt] at h
    split at h <;> cases h; rfl
  · simp only [Spec.run] at h
    split at h
    · cases h
    · exact one h
  · simp only [Spec.run] at h
    split at h
    · cases h
    · exact one h
  · exact text h
  · exact text h

theorem inside_rel {env env' : Env} (he : Parenthesised env env') {f f' : Nat} (hff : f ≤ f') (hr : RunRel env (Spec.run env f) (Spec.run env' f'))
    (hin : ∀ r r' flag l, Bracketed env r r' → AnsRel SameNode (Spec.run env f r flag l) (Spec.run env' f' r' flag l))
    {r r' : Rule} (h : Bracketed env r r') (flag : Int) (l : List Rune) :
    AnsRel SameNode (Spec.run env (f + 1) r flag l) (Spec.run env' (f' + 1) r' flag l) := by
  cases h with
  | eof => exact AnsRel.leaf fun nd u n st h => run_terminal (env := env) (fuel := f) (.inl ⟨_, rfl⟩) h
  | char => exact AnsRel.leaf fun nd u n st h => run_terminal (env := env) (fuel := f) (.inr (.inl ⟨_, _, _, rfl⟩)) h
  | range => exact AnsRel.leaf fun nd u n st h => run_terminal (env := env) (fuel := f) (.inr (.inr (.inl ⟨_, _, _, _, _, rfl⟩))) h
  | chars => exact AnsRel.leaf fun nd u n st h => run_terminal (env := env) (fuel := f) (.inr (.inr (.inr (.inl ⟨_, _, rfl⟩)))) h
  | str => exact AnsRel.leaf fun nd u n st h => run_terminal (env := env) (fuel := f) (.inr (.inr (.inr (.inr ⟨_, _, rfl⟩)))) h
  | @group b x x' h =>
    have h1 := hr x x' flag l h
    simp only [Spec.run]
    cases ha : Spec.run env f x flag l with
    | oof => trivial
    | risky => trivial
    | fail n st => rw [ha] at h1; rw [show Spec.run env' f' x' flag l = _ from h1]; rfl
    | ambiguous n =>
      rw [ha] at h1
      rcases h1 with h1 | h1 <;> rw [h1] <;> rfl
    | hit nd u n st =>
      rw [ha] at h1
      obtain ⟨nd', h1, h2⟩ := h1
      rw [h1]
      exact ⟨_, rfl, sameTree_inner (.one h2)⟩
  | @option b x x' h =>
    have h1 := hr x x' flag l h
    simp only [Spec.run]
    cases ha : Spec.run env f x flag l with
    | oof => trivial
    | risky => trivial
    | fail n st => rw [ha] at h1; rw [show Spec.run env' f' x' flag l = _ from h1]; exact ⟨_, rfl, sameTree_inner .nil⟩
    | ambiguous n => trivial
    | hit nd u n st =>
      rw [ha] at h1
      obtain ⟨nd', h1, h2⟩ := h1
      rw [h1]
      exact ⟨_, rfl, sameTree_inner (.one h2)⟩
  | rep h => exact repAt_rel hr _ h _ _ _ _ f f' hff _ _ _ .nil
  | choice h => exact choiceAt_rel hr _ _ _ h _ _
  | concat h => exact seqAt_rel hr _ _ h _ _ _ _ .nil
  | @block b o o' v c c' e e' x x' ho hc hesc hx =>
    have h1 := hr o o' flag l ho
    simp only [Spec.run]
    cases ha : Spec.run env f o flag l with
    | oof => trivial
    | risky => trivial
    | fail n st => rw [ha] at h1; rw [show Spec.run env' f' o' flag l = _ from h1]; rfl
    | ambiguous n =>
      rw [ha] at h1
      rcases h1 with h1 | h1
      · rw [h1]; exact .inl rfl
      · rw [h1]; exact .inr rfl
    | hit nd u n st =>
      rw [ha] at h1
      obtain ⟨nd', h1, h2⟩ := h1
      rw [h1]
      have hnone : (e' = none) = (e = none) := by cases hesc <;> simp
      simp only [hnone]
      split
      · trivial
      · exact blockAt_rel hr _ _ hc hesc hx h2 _ _ f f' hff _ _
  | @ref b n =>
    simp only [Spec.run]
    rcases he n with ⟨h1, h2⟩ | ⟨x, x', h1, h2, hx⟩
    · rw [h1, h2]; rfl
    · rw [h1, h2]
      simp only
      have h3 := hin x x' flag l hx
      cases ha : Spec.run env f x flag l with
      | oof => trivial
      | risky => trivial
      | fail n st => rw [ha] at h3; rw [show Spec.run env' f' x' flag l = _ from h3]; rfl
      | ambiguous n =>
        rw [ha] at h3
        rcases h3 with h3 | h3
        · rw [h3]; exact .inl rfl
        · rw [h3]; exact .inr rfl
      | hit nd u n st =>
        rw [ha] at h3
        obtain ⟨nd', h3, h4⟩ := h3
        rw [h3]
        exact ⟨_, rfl, sameNode_flip b h4⟩

theorem seqAt_node {run : Runner} {b : RuleBase} {l : List Rune} : ∀ {rs : List Rule} {pos look st flag nodes nd u n st'},
    seqAt run b l rs pos look st flag nodes = .hit nd u n st' → nd.ruleType = .concatenate ∧ nd.sticky = st' := by
  intro rs
  induction rs with
  | nil => intro pos look st flag nodes nd u n st' h; simp only [seqAt] at h; cases h; exact ⟨rfl, rfl⟩
  | cons r rs ih =>
    intro pos look st flag nodes nd u n st' h
    simp only [seqAt] at h
    split at h <;> try cases h
    split at h
    · cases h
    · exact ih h

theorem repEnd_node {b : RuleBase} {mn pos look : Nat} {st : Bool} {nodes : List Node} {nd u n st'} (h : repEnd b mn pos look st nodes = .hit nd u n st') :
    nd.ruleType = .repetition ∧ nd.sticky = st' := by
  unfold repEnd at h
  split at h <;> cases h
  exact ⟨rfl, rfl⟩

theorem repAt_node {run : Runner} {b : RuleBase} {r : Rule} {mn mx : Nat} {flag : Int} {l : List Rune} : ∀ {fuel pos look st nodes nd u n st'},
    repAt run b r mn mx flag l fuel pos look st nodes = .hit nd u n st' → nd.ruleType = .repetition ∧ nd.sticky = st' := by
  intro fuel
  induction fuel with
  | zero => intro pos look st nodes nd u n st' h; cases h
  | succ fuel ih =>
    intro pos look st nodes nd u n st' h
    simp only [repAt] at h
    split at h
    · exact repEnd_node h
    · split at h <;> try cases h
      · exact repEnd_node h
      · split at h
        · split at h
          · cases h
          · exact repEnd_node h
        · split at h
          · cases h
          · exact ih h

theorem choiceAt_node {run : Runner} {b : RuleBase} {flag : Int} {l : List Rune} : ∀ {gs : List (List Rule)} {look st nd u n st'},
    choiceAt run b flag l gs look st = .hit nd u n st' → nd.ruleType = .choice ∧ nd.sticky = st' := by
  intro gs
  induction gs with
  | nil => intro look st nd u n st' h; cases h
  | cons g gs ih =>
    intro look st nd u n st' h
    simp only [choiceAt] at h
    split at h <;> try cases h
    split at h <;> try cases h
    · exact ih h
    · exact ⟨rfl, rfl⟩

theorem blockAt_node {run : Runner} {b : RuleBase} {v : Bool} {c : Rule} {e : Option Rule} {x : List Rule} {o : Node} {start : Nat} {l : List Rune} :
    ∀ {fuel pos look nd u n st'}, blockAt run b v c e x o start l fuel pos look = .hit nd u n st' → nd.ruleType = .block ∧ nd.sticky = st' := by
  intro fuel
  induction fuel with
  | zero => intro pos look nd u n st' h; cases h
  | succ fuel ih =>
    intro pos look nd u n st' h
    simp only [blockAt] at h
    split at h <;> try cases h
    split at h <;> try cases h
    · split at h <;> cases h
    · split at h <;> try cases h
      · split at h <;> cases h
        exact ⟨rfl, rfl⟩
      · split at h
        · cases h
        · exact ih h

/-- The node of a hit has the stickiness of the hit, and is that of an option only for an option or a reference. -/
theorem run_node {env : Env} : ∀ {fuel : Nat} {r : Rule} {flag : Int} {l : List Rune} {nd : Node} {u n : Nat} {st : Bool},
    Spec.run env fuel r flag l = .hit nd u n st → nd.sticky = st ∧ ((∀ b x, r ≠ .option b x) → (∀ b m, r ≠ .ref b m) → nd.ruleType ≠ .option) := by
  intro fuel
  induction fuel with
  | zero => intro r flag l nd u n st h; cases h
  | succ fuel ih =>
    intro r flag l nd u n st h
    have one : ∀ {rt b skip p}, rt ≠ .option → oneAt rt b skip p l = .hit nd u n st → nd.sticky = st ∧ nd.ruleType ≠ .option := by
      intro rt b skip p hrt h
      unfold oneAt at h
      simp only at h
      split at h
      · cases h; exact ⟨rfl, hrt⟩
      · split at h
        · cases h
        · split at h <;> cases h; exact ⟨rfl, hrt⟩
    have text : ∀ {rt b s skip t}, rt ≠ .option → textAt rt b s skip t l = .hit nd u n st → nd.sticky = st ∧ nd.ruleType ≠ .option := by
      intro rt b s skip t hrt h
      unfold textAt at h
      simp only at h
      repeat' split at h
      all_goals first | (cases h; exact ⟨rfl, hrt⟩) | cases h
    cases r with
    | eof b =>
      simp only [Spec.run, eofAt] at h
      split at h <;> cases h
      exact ⟨rfl, fun _ _ => by simp⟩
    | char b c q =>
      simp only [Spec.run] at h
      split at h
      · cases h
      · have := one (by decide) h; exact ⟨this.1, fun _ _ => this.2⟩
    | range b x xu y yu =>
      simp only [Spec.run] at h
      split at h
      · cases h
      · have := one (by decide) h; exact ⟨this.1, fun _ _ => this.2⟩
    | chars b t => have := text (by decide) h; exact ⟨this.1, fun _ _ => this.2⟩
    | str b t => have := text (by decide) h; exact ⟨this.1, fun _ _ => this.2⟩
    | group b x =>
      simp only [Spec.run] at h
      split at h
      · cases h
      · cases h; exact ⟨rfl, fun _ _ => by simp [inner]⟩
      · rename_i hx; exact absurd h (hx _ _ _ _)
    | option b x =>
      refine ⟨?_, fun h1 => absurd rfl (h1 b x)⟩
      simp only [Spec.run] at h
      split at h
      · cases h; rfl
      · cases h
      · cases h; rfl
      · rename_i hx; exact absurd h (hx _ _ _ _)
    | rep b x mn mx => have := repAt_node h; exact ⟨this.2, fun _ _ => by rw [this.1]; decide⟩
    | choice b gs => have := choiceAt_node h; exact ⟨this.2, fun _ _ => by rw [this.1]; decide⟩
    | concat b rs => have := seqAt_node h; exact ⟨this.2, fun _ _ => by rw [this.1]; decide⟩
    | block b o v c e x =>
      simp only [Spec.run] at h
      split at h
      · cases h
      · split at h
        · cases h
        · have := blockAt_node h; exact ⟨this.2, fun _ _ => by rw [this.1]; decide⟩
      · rename_i hx; exact absurd h (hx _ _ _ _)
    | ref b m =>
      refine ⟨?_, fun _ h2 => absurd rfl (h2 b m)⟩
      simp only [Spec.run] at h
      split at h
      · cases h
      · split at h
        · rename_i hx
          cases h
          exact (ih hx).1
        · rename_i hx; exact absurd h (hx _ _ _ _)

/-- A hit of a solid rule is not the node of an option. -/
theorem solid_hit {env : Env} {r : Rule} (hs : Solid env r) : ∀ {fuel flag l nd u n st}, Spec.run env fuel r flag l = .hit nd u n st → nd.ruleType ≠ .option := by
  induction hs with
  | @ref b nm _ ih =>
    intro fuel flag l nd u n st h
    cases fuel with
    | zero => cases h
    | succ fuel =>
      simp only [Spec.run] at h
      cases hn : env nm with
      | none => rw [hn] at h; cases h
      | some x =>
        rw [hn] at h
        simp only at h
        split at h
        · rename_i nd' _ _ _ hx
          have := ih x hn hx
          cases h
          exact this
        · rename_i hx; exact absurd h (hx _ _ _ _)
  | @other r h1 h2 =>
    intro fuel flag l nd u n st h
    exact (run_node h).2 h1 h2

theorem run_rel {env env' : Env} (he : Parenthesised env env') : ∀ (f f' : Nat), 2 * f ≤ f' →
    RunRel env (Spec.run env f) (Spec.run env' f') ∧
    ∀ r r' flag l, Bracketed env r r' → AnsRel SameNode (Spec.run env f r flag l) (Spec.run env' f' r' flag l) := by
  intro f
  induction f with
  | zero => intro f' _; exact ⟨fun _ _ _ _ _ => trivial, fun _ _ _ _ _ => trivial⟩
  | succ f ih =>
    intro f' hf
    have key : ∀ f', 2 * f + 1 ≤ f' → ∀ r r' flag l, Bracketed env r r' → AnsRel SameNode (Spec.run env (f + 1) r flag l) (Spec.run env' f' r' flag l) := by
      intro f' hf r r' flag l h
      obtain ⟨k, rfl⟩ : ∃ k, f' = k + 1 := ⟨f' - 1, by omega⟩
      exact inside_rel he (by omega) (ih k (by omega)).1 (ih k (by omega)).2 h flag l
    refine ⟨?_, key f' (by omega)⟩
    intro r r' flag l h
    cases h with
    | same h => exact (key f' (by omega) r r' flag l h).mono fun _ _ => SameNode.tree
    | @parens _ x' h hs =>
      obtain ⟨k, rfl⟩ : ∃ k, f' = k + 1 := ⟨f' - 1, by omega⟩
      have h1 := key k (by omega) r x' flag l h
      have h2 := fun {nd u n st} => solid_hit hs (fuel := f + 1) (flag := flag) (l := l) (nd := nd) (u := u) (n := n) (st := st)
      have h3 := fun {nd u n st} => run_node (env := env) (fuel := f + 1) (r := r) (flag := flag) (l := l) (nd := nd) (u := u) (n := n) (st := st)
      rw [Spec.run.eq_def env' (k + 1)]
      simp only
      cases ha : Spec.run env (f + 1) r flag l with
      | oof => trivial
      | risky => trivial
      | fail n st => rw [ha] at h1; rw [show Spec.run env' k x' flag l = _ from h1]; rfl
      | ambiguous n =>
        rw [ha] at h1
        rcases h1 with h1 | h1
        · rw [h1]; exact .inr rfl
        · rw [h1]; exact .inr rfl
      | hit nd u n st =>
        rw [ha] at h1
        obtain ⟨nd', h1, h4⟩ := h1
        rw [h1]
        refine ⟨_, rfl, ?_⟩
        have := SameTree.group h4.tree (h2 ha)
        rw [(h3 ha).1] at this
        exact this

end Xbnf
