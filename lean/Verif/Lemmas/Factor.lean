import Verif.Spec.Factor
import Verif.Lemmas.Rename
import Verif.Lemmas.Fuel
/-
Evaluation of rules of which parts are replaced by references.
-/
namespace Xbnf
open Spec

/-- Where the first gives something the second gives something related. -/
def Follow {α β : Type} (P : α → β → Prop) (x : Exec α) (y : Exec β) : Prop := ∀ a, x = .ok a → ∃ b, y = .ok b ∧ P a b

theorem Follow.ok {α β : Type} {P : α → β → Prop} {a : α} {b : β} (h : P a b) : Follow P (.ok a) (.ok b) := by
  rintro _ ⟨⟩
  exact ⟨b, rfl, h⟩

theorem Follow.bind {α β γ δ : Type} {P : α → β → Prop} {Q : γ → δ → Prop} {x : Exec α} {y : Exec β}
    {f : α → Exec γ} {g : β → Exec δ} (h : Follow P x y) (hf : ∀ a b, P a b → Follow Q (f a) (g b)) : Follow Q (x >>= f) (y >>= g) := by
  intro c hc
  cases x with
  | ok a =>
    obtain ⟨b, rfl, hp⟩ := h a rfl
    exact hf a b hp c hc
  | panic => cases hc
  | oof => cases hc

theorem Follow.same {α γ δ : Type} {Q : γ → δ → Prop} {x : Exec α} {f : α → Exec γ} {g : α → Exec δ} (hf : ∀ a, Follow Q (f a) (g a)) :
    Follow Q (x >>= f) (x >>= g) := by
  intro c hc
  cases x with
  | ok a => exact hf a c hc
  | panic => cases hc
  | oof => cases hc

theorem Follow.le {α β : Type} {P : α → β → Prop} {x : Exec α} {y y' : Exec β} (h : Follow P x y) (hl : y.Le y') : Follow P x y' := by
  intro a ha
  obtain ⟨b, hb, hp⟩ := h a ha
  exact ⟨b, hl.of_ok hb, hp⟩

variable {S : Name → Bool}

/-- Alike results, and the same stream. -/
def AlikeAt (S : Name → Bool) (x y : Res × Stream) : Prop := Alike S x.1 y.1 ∧ x.2 = y.2

theorem _root_.Xbnf.Spec.Alike.of_rename {x y : Res} (h : x.rename (veil S) = y.rename (veil S)) : Alike S x y where
  node := congrArg Res.node h
  error := by
    have := congrArg (fun r => r.error.isSome) h
    simpa using this
  errIdx := show (x.rename (veil S)).errIdx = _ by rw [h]; rfl
  read := show (x.rename (veil S)).read = _ by rw [h]; rfl
  unused := show (x.rename (veil S)).unused = _ by rw [h]; rfl
  sticky := show (x.rename (veil S)).sticky = _ by rw [h]; rfl

theorem AlikeAt.of_rename {x y x' y' : Res × Stream} (h1 : Ren (veil S) x x') (h2 : Ren (veil S) y y') (h : x' = y') : AlikeAt S x y := by
  subst h
  unfold Ren at h1 h2
  rw [h1] at h2
  simp only [Prod.mk.injEq] at h2
  exact ⟨.of_rename h2.1, h2.2⟩

/-- Nodes that are the same when the names in `S` are taken away. -/
def NodeAlike (S : Name → Bool) (n n' : Node) : Prop := n.rename (veil S) = n'.rename (veil S)

def NodesAlike (S : Name → Bool) (n n' : List Node) : Prop := n.map (Node.rename (veil S)) = n'.map (Node.rename (veil S))

theorem NodeAlike.pos {n n' : Node} (h : NodeAlike S n n') : n.pos = n'.pos := by
  have := congrArg Node.pos h; simpa [rename_pos] using this

theorem NodesAlike.length {n n' : List Node} (h : NodesAlike S n n') : n.length = n'.length := by
  have := congrArg List.length h; simpa using this

theorem NodesAlike.one {n n' : Node} (h : NodeAlike S n n') : NodesAlike S [n] [n'] := by
  unfold NodesAlike NodeAlike at *
  simp [h]

theorem NodesAlike.snoc {ns ns' : List Node} (hs : NodesAlike S ns ns') {n n' : Node} (h : NodeAlike S n n') : NodesAlike S (ns ++ [n]) (ns' ++ [n']) := by
  unfold NodesAlike NodeAlike at *
  simp [hs, h]

theorem NodeAlike.nextFlag {n n' : Node} (h : NodeAlike S n n') (flag : Int) (st : Bool) : nextFlag flag n st = nextFlag flag n' st := by
  rw [← nextFlag_ren (f := veil S), ← nextFlag_ren (f := veil S) flag n', h]

theorem branch_alike {rt : RType} {b b' : RuleBase} (hb : SameBase S b b') {st : Bool} {cs cs' : List Node} (h : NodesAlike S cs cs') (p : Option Position) :
    NodeAlike S (branchNode rt b st cs p) (branchNode rt b' st cs' p) := by
  unfold NodeAlike
  rw [rename_branch, rename_branch, hb, h]

theorem _root_.Xbnf.Spec.Alike.cases {x y : Res} (h : Alike S x y) : (x.node = none ∧ y.node = none) ∨ ∃ n n', x.node = some n ∧ y.node = some n' ∧ NodeAlike S n n' := by
  have := h.node
  cases hx : x.node with
  | none =>
    cases hy : y.node with
    | none => exact .inl ⟨rfl, rfl⟩
    | some n => rw [hx, hy] at this; cases this
  | some n =>
    cases hy : y.node with
    | none => rw [hx, hy] at this; cases this
    | some n' =>
      rw [hx, hy] at this
      simp only [Option.map_some, Option.some.injEq] at this
      exact .inr ⟨n, n', rfl, rfl, this⟩

theorem _root_.Xbnf.Spec.Alike.count {x y : Res} (h : Alike S x y) : x.countUsed = y.countUsed := by simp only [Res.countUsed, h.read, h.unused]

theorem _root_.Xbnf.Spec.Alike.charsUsed {x y : Res} (h : Alike S x y) : x.charsUsed = y.charsUsed := by simp only [Res.charsUsed, h.count, h.read]

theorem _root_.Xbnf.Spec.Alike.account {x y : Res} (h : Alike S x y) (read unused : List Rune) : account read unused x = account read unused y := by
  unfold Xbnf.account
  simp only [h.read, h.unused, h.charsUsed]

theorem evalEOF_alike {b b' : RuleBase} (hb : SameBase S b b') (flag : Int) (s : Stream) : AlikeAt S (evalEOF b flag s) (evalEOF b' flag s) := by
  have h1 := congrArg RuleBase.virt hb
  have h2 := congrArg RuleBase.nondata hb
  have h3 := congrArg RuleBase.tokenized hb
  simp only [RuleBase.rename] at h1 h2 h3
  unfold evalEOF
  simp only [h1, h2, h3]
  split
  · exact ⟨⟨rfl, rfl, rfl, rfl, rfl, rfl⟩, rfl⟩
  · exact ⟨⟨rfl, rfl, rfl, rfl, rfl, rfl⟩, rfl⟩

theorem groupRes_alike {b b' : RuleBase} (hb : SameBase S b b') {x y : Res} (h : Alike S x y) : Alike S (groupRes b x) (groupRes b' y) := by
  unfold groupRes
  rcases h.cases with ⟨h1, h2⟩ | ⟨n, n', h1, h2, h3⟩
  · rw [h1, h2]
    exact ⟨rfl, h.error, h.errIdx, h.read, h.read, h.sticky⟩
  · rw [h1, h2]
    refine ⟨?_, h.error, h.errIdx, h.read, h.unused, h.sticky⟩
    have : NodesAlike S [n] [n'] := .one h3
    simpa [h.sticky, NodeAlike] using branch_alike hb this none

theorem optionRes_alike {b b' : RuleBase} (hb : SameBase S b b') {x y : Res} (h : Alike S x y) : Alike S (optionRes b x) (optionRes b' y) := by
  unfold optionRes
  rcases h.cases with ⟨h1, h2⟩ | ⟨n, n', h1, h2, h3⟩
  · rw [h1, h2]
    refine ⟨?_, h.error, h.errIdx, h.read, h.unused, h.sticky⟩
    have : NodesAlike S [] [] := rfl
    simpa [h.sticky, NodeAlike] using branch_alike hb this none
  · rw [h1, h2]
    refine ⟨?_, h.error, h.errIdx, h.read, h.unused, h.sticky⟩
    have : NodesAlike S [n] [n'] := .one h3
    simpa [h.sticky, h3.pos, NodeAlike] using branch_alike hb this n.pos

theorem refRes_alike {b b' : RuleBase} (hb : SameBase S b b') {x y : Res} (h : Alike S x y) : Alike S (refRes b x) (refRes b' y) := by
  have h1 := congrArg RuleBase.virt hb
  have h2 := congrArg RuleBase.nondata hb
  have h3 := congrArg RuleBase.tokenized hb
  simp only [RuleBase.rename] at h1 h2 h3
  unfold refRes
  rcases h.cases with ⟨k1, k2⟩ | ⟨n, n', k1, k2, k3⟩
  · rw [k1, k2]; exact h
  · rw [k1, k2]
    refine ⟨?_, h.error, h.errIdx, h.read, h.unused, h.sticky⟩
    unfold NodeAlike at k3
    obtain ⟨rt, nm, ch, cs, p, st, v, nd, tk⟩ := n
    obtain ⟨rt', nm', ch', cs', p', st', v', nd', tk'⟩ := n'
    simp only [Node.rename, Node.mk.injEq] at k3
    simp only [Option.map_some, Node.rename, h1, h2, h3]
    simp only [k3]

/-- A reference without a mark adds nothing. -/
theorem refRes_plain {b : RuleBase} (hb : b.virt = false ∧ b.nondata = false ∧ b.tokenized = false) (x : Res) : refRes b x = x := by
  obtain ⟨h1, h2, h3⟩ := hb
  unfold refRes
  cases hx : x.node with
  | none => rfl
  | some n =>
    obtain ⟨nd, er, ei, rd, un, st⟩ := x
    simp only at hx
    subst hx
    cases n
    simp [h1, h2, h3]

/-! ### Loops -/

/-- The second evaluator gives alike results for rules that differ by references. -/
def EvFollow (S : Name → Bool) (env env' : Env) (ev ev' : Evaluator) : Prop :=
  ∀ r r' flag s, Factored S env env' r r' → Follow (AlikeAt S) (ev r flag s) (ev' r' flag s)

structure SeqAlike (S : Name → Bool) (st st' : SeqState) : Prop where
  read : st.read = st'.read
  unused : st.unused = st'.unused
  sticky : st.sticky = st'.sticky
  pos : st.pos = st'.pos
  flag : st.flag = st'.flag
  nodes : NodesAlike S st.nodes st'.nodes

variable {env env' : Env} {ev ev' : Evaluator}

theorem concatLoop_alike (hev : EvFollow S env env' ev ev') {self self' : Rule} (hb : SameBase S self.base self'.base) :
    ∀ {rs rs' : List Rule}, FactoredL S env env' rs rs' → ∀ {st st' : SeqState}, SeqAlike S st st' → ∀ (s : Stream),
    Follow (AlikeAt S) (concatLoop ev self rs st s) (concatLoop ev' self' rs' st' s) := by
  intro rs
  induction rs with
  | nil =>
    intro rs' h st st' hst s
    cases h
    refine .ok ⟨⟨?_, rfl, rfl, hst.read, hst.unused, hst.sticky⟩, rfl⟩
    have := branch_alike (rt := .concatenate) hb (st := st.sticky) hst.nodes st.pos
    simpa [hst.sticky, hst.pos, NodeAlike] using this
  | cons r rs ih =>
    intro rs' h st st' hst s
    cases h with
    | cons h hs =>
    simp only [concatLoop]
    rw [← hst.unused, ← hst.flag, ← hst.read, ← hst.sticky, ← hst.pos]
    refine (hev _ _ st.flag (s.pushBack st.unused) h).bind ?_
    rintro ⟨res, cs⟩ ⟨res', cs'⟩ ⟨ha, hc⟩
    simp only at ha hc
    subst hc
    simp only [← ha.account]
    refine .same (fun x => ?_)
    rcases ha.cases with ⟨h1, h2⟩ | ⟨n, n', h1, h2, h3⟩
    · simp only [h1, h2]
      exact .ok ⟨⟨rfl, rfl, ha.errIdx, rfl, rfl, by simp only [ha.sticky]⟩, rfl⟩
    · simp only [h1, h2]
      refine Follow.bind (ih hs ?_ cs) ?_
      · exact ⟨rfl, rfl, by simp only [ha.sticky], by simp only [h3.pos], by simp only [h3.nextFlag, ha.sticky], hst.nodes.snoc h3⟩
      rintro ⟨out, c⟩ ⟨out', c'⟩ ⟨ho, hc⟩
      simp only at ho hc
      subst hc
      exact .ok ⟨ho, rfl⟩

/-- Alike, if there is something. -/
def WhyAlike (S : Name → Bool) : Option Res → Option Res → Prop
  | none, none => True
  | some x, some y => Alike S x y
  | _, _ => False

theorem repLoop_alike (hev : EvFollow S env env' ev ev') {r r' : Rule} (h : Factored S env env' r r') (mx : Nat) :
    ∀ (fuel fuel' : Nat), fuel ≤ fuel' → ∀ {st st' : SeqState}, SeqAlike S st st' → ∀ (s : Stream),
    Follow (fun x y => SeqAlike S x.1 y.1 ∧ WhyAlike S x.2.1 y.2.1 ∧ x.2.2 = y.2.2) (repLoop ev r mx fuel st s) (repLoop ev' r' mx fuel' st' s) := by
  intro fuel
  induction fuel with
  | zero => intro fuel' _ st st' _ s a ha; cases ha
  | succ fuel ih =>
    intro fuel' hf st st' hst s
    obtain ⟨k, rfl⟩ : ∃ k, fuel' = k + 1 := ⟨fuel' - 1, by omega⟩
    simp only [repLoop]
    rw [← hst.unused, ← hst.flag, ← hst.read, ← hst.sticky, ← hst.pos]
    split
    · exact .ok ⟨hst, trivial, rfl⟩
    refine (hev _ _ st.flag (s.pushBack st.unused) h).bind ?_
    rintro ⟨res, cs⟩ ⟨res', cs'⟩ ⟨ha, hc⟩
    simp only at ha hc
    subst hc
    simp only [← ha.account]
    refine .same (fun x => ?_)
    rcases ha.cases with ⟨h1, h2⟩ | ⟨n, n', h1, h2, h3⟩
    · simp only [h1, h2]
      exact .ok ⟨⟨rfl, rfl, by simp only [ha.sticky], rfl, rfl, hst.nodes⟩, ha, rfl⟩
    · simp only [h1, h2]
      have hn := hst.nodes.snoc h3
      rw [← hn.length]
      have hst' : SeqAlike S { st with read := x.1, unused := x.2, sticky := st.sticky && res.sticky, pos := firstPos st.pos n.pos, nodes := st.nodes ++ [n] }
        { read := x.1, unused := x.2, sticky := st.sticky && res'.sticky, pos := firstPos st.pos n'.pos, flag := st.flag, nodes := st'.nodes ++ [n'] } :=
        ⟨rfl, rfl, by simp only [ha.sticky], by simp only [h3.pos], rfl, hn⟩
      split
      · exact .ok ⟨hst', trivial, rfl⟩
      · refine (ih k (by omega) hst' cs).bind ?_
        rintro ⟨out, why, c⟩ ⟨out', why', c'⟩ ⟨ho, hw, hc⟩
        simp only at ho hw hc
        subst hc
        exact .ok ⟨ho, hw, rfl⟩

theorem repFinish_alike {self self' : Rule} (hb : SameBase S self.base self'.base) (mn : Nat) {st st' : SeqState} (hst : SeqAlike S st st')
    {why why' : Option Res} (hw : WhyAlike S why why') (s : Stream) : Alike S (repFinish self mn st why s) (repFinish self' mn st' why' s) := by
  have he : (why.bind (·.error)).isSome = (why'.bind (·.error)).isSome := by
    match why, why', hw with
    | none, none, _ => rfl
    | some x, some y, h => exact h.error
  have hi : why.isSome = why'.isSome := by
    match why, why', hw with
    | none, none, _ => rfl
    | some x, some y, h => rfl
  unfold repFinish
  simp only
  rw [← hst.nodes.length]
  split
  · exact ⟨rfl, rfl, by simp only [he, hi], hst.read, hst.read, hst.sticky⟩
  · refine ⟨?_, he, by simp only [hi], hst.read, hst.unused, hst.sticky⟩
    have := branch_alike (rt := .repetition) hb (st := st.sticky) hst.nodes st.pos
    simpa [hst.sticky, hst.pos, NodeAlike] using this

theorem evalRep_alike (hev : EvFollow S env env' ev ev') {fuel fuel' : Nat} (hf : fuel ≤ fuel') {b b' : RuleBase} (hb : SameBase S b b') {r r' : Rule}
    (h : Factored S env env' r r') (mn mx : Nat) (flag : Int) (s : Stream) :
    Follow (AlikeAt S) (evalRep ev fuel b r mn mx flag s) (evalRep ev' fuel' b' r' mn mx flag s) := by
  unfold evalRep
  refine (repLoop_alike hev h mx fuel fuel' hf ⟨rfl, rfl, rfl, rfl, rfl, rfl⟩ s).bind ?_
  rintro ⟨st, why, c⟩ ⟨st', why', c'⟩ ⟨ho, hw, hc⟩
  simp only at ho hw hc
  subst hc
  exact .ok ⟨repFinish_alike (self := .rep b r mn mx) (self' := .rep b' r' mn mx) hb mn ho hw c, rfl⟩

/-- Lists of alike results. -/
inductive AllAlike (S : Name → Bool) : List Res → List Res → Prop
  | nil : AllAlike S [] []
  | cons {x y xs ys} (h : Alike S x y) (hs : AllAlike S xs ys) : AllAlike S (x :: xs) (y :: ys)

def PickAlike (S : Name → Bool) : Pick → Pick → Prop
  | .none, .none => True
  | .ambiguous _ _, .ambiguous _ _ => True
  | .found x, .found y => Alike S x y
  | _, _ => False

theorem pickLoop_alike {xs ys : List Res} (h : AllAlike S xs ys) : ∀ (m : Int) {b b' : Option Res}, WhyAlike S b b' →
    PickAlike S (pickLoop m b xs) (pickLoop m b' ys) := by
  induction h with
  | nil =>
    intro m b b' hb
    match b, b', hb with
    | none, none, _ => trivial
    | some x, some y, h => exact h
  | cons h hs ih =>
    intro m b b' hb
    have hi : b.isSome = b'.isSome := by
      match b, b', hb with
      | none, none, _ => rfl
      | some x, some y, h => rfl
    simp only [pickLoop, ← h.count, ← hi]
    split
    · exact ih m hb
    · split
      · trivial
      · exact ih _ h

theorem pick_alike {xs ys : List Res} (h : AllAlike S xs ys) : PickAlike S (pick xs) (pick ys) := by
  cases h with
  | nil => trivial
  | cons h hs =>
    cases hs with
    | nil => exact h
    | cons h' hs => exact pickLoop_alike (.cons h (.cons h' hs)) 0 (b := none) (b' := none) trivial

structure ChoiceAlike (st st' : ChoiceState) : Prop where
  read : st.read = st'.read
  sticky : st.sticky = st'.sticky
  cursor : st.maxErrCursor = st'.maxErrCursor

theorem choiceGroup_alike (hev : EvFollow S env env' ev ev') (flag : Int) : ∀ {rs rs' : List Rule}, FactoredL S env env' rs rs' →
    ∀ {st st' : ChoiceState}, ChoiceAlike st st' → ∀ (s : Stream),
    Follow (fun x y => AllAlike S x.1 y.1 ∧ ChoiceAlike x.2.1 y.2.1 ∧ x.2.2 = y.2.2) (choiceGroup ev flag rs st s) (choiceGroup ev' flag rs' st' s) := by
  intro rs
  induction rs with
  | nil => intro rs' h st st' hst s; cases h; exact .ok ⟨.nil, hst, rfl⟩
  | cons r rs ih =>
    intro rs' h st st' hst s
    cases h with
    | cons h hs =>
    simp only [choiceGroup]
    rw [← hst.read, ← hst.sticky, ← hst.cursor]
    refine (hev _ _ flag (s.pushBack st.read) h).bind ?_
    rintro ⟨res, cs⟩ ⟨res', cs'⟩ ⟨ha, hc⟩
    simp only at ha hc
    subst hc
    rcases ha.cases with ⟨h1, h2⟩ | ⟨n, n', h1, h2, h3⟩
    · simp only [h1, h2, ← ha.errIdx, ← ha.read, ← ha.sticky]
      split
      · refine ih hs ?_ _
        exact ⟨rfl, rfl, rfl⟩
      · refine ih hs ?_ _
        exact ⟨rfl, rfl, rfl⟩
    · simp only [h1, h2, ← ha.read, ← ha.sticky]
      refine Follow.bind (ih hs ?_ _) ?_
      · exact ⟨rfl, rfl, rfl⟩
      rintro ⟨ms, c, s1⟩ ⟨ms', c', s1'⟩ ⟨hm, hc, hs⟩
      simp only at hm hc hs
      subst hs
      exact .ok ⟨.cons ha hm, hc, rfl⟩

theorem choiceLoop_alike (hev : EvFollow S env env' ev ev') {self self' : Rule} (hb : SameBase S self.base self'.base) (flag : Int) :
    ∀ {gs gs' : List (List Rule)}, FactoredLL S env env' gs gs' → ∀ {st st' : ChoiceState}, ChoiceAlike st st' → ∀ (s : Stream),
    Follow (AlikeAt S) (choiceLoop ev self flag gs st s) (choiceLoop ev' self' flag gs' st' s) := by
  intro gs
  induction gs with
  | nil =>
    intro gs' h st st' hst s
    cases h
    exact .ok ⟨⟨rfl, rfl, hst.cursor, hst.read, hst.read, hst.sticky⟩, rfl⟩
  | cons g gs ih =>
    intro gs' h st st' hst s
    cases h with
    | cons h hs =>
    simp only [choiceLoop]
    refine (choiceGroup_alike hev flag h hst s).bind ?_
    rintro ⟨ms, c, s1⟩ ⟨ms', c', s1'⟩ ⟨hm, hc, hs1⟩
    simp only at hm hc hs1
    subst hs1
    have hp := pick_alike hm
    simp only
    cases h1 : pick ms with
    | none =>
      cases h2 : pick ms' with
      | none => exact ih hs hc _
      | _ => rw [h1, h2] at hp; exact hp.elim
    | ambiguous x y =>
      cases h2 : pick ms' with
      | ambiguous x' y' => exact .ok ⟨⟨rfl, rfl, rfl, hc.read, rfl, rfl⟩, rfl⟩
      | _ => rw [h1, h2] at hp; exact hp.elim
    | found r =>
      cases h2 : pick ms' with
      | found r' =>
        rw [h1, h2] at hp
        have hp : Alike S r r' := hp
        simp only
        rw [← hp.count, ← hc.read, ← hc.sticky]
        refine .same (fun x => .ok ⟨⟨?_, rfl, rfl, rfl, rfl, rfl⟩, rfl⟩)
        rcases hp.cases with ⟨k1, k2⟩ | ⟨n, n', k1, k2, k3⟩
        · simp [k1, k2]
        · have : NodesAlike S [n] [n'] := .one k3
          simpa [k1, k2, k3.pos, NodeAlike] using branch_alike hb this n.pos
      | _ => rw [h1, h2] at hp; exact hp.elim

theorem greedyLoop_alike (hev : EvFollow S env env' ev ev') (flag : Int) : ∀ {rs rs' : List Rule}, FactoredL S env env' rs rs' →
    ∀ (m : List Rune) (s : Stream),
    Follow (fun x y => AllAlike S x.1 y.1 ∧ x.2 = y.2) (greedyLoop ev flag rs m s) (greedyLoop ev' flag rs' m s) := by
  intro rs
  induction rs with
  | nil => intro rs' h m s; cases h; exact .ok ⟨.nil, rfl⟩
  | cons r rs ih =>
    intro rs' h m s
    cases h with
    | cons h hs =>
    simp only [greedyLoop]
    refine (hev _ _ flag (s.pushBack m) h).bind ?_
    rintro ⟨res, cs⟩ ⟨res', cs'⟩ ⟨ha, hc⟩
    simp only at ha hc
    subst hc
    simp only [← ha.read]
    refine (ih hs _ _).bind ?_
    rintro ⟨ms, x⟩ ⟨ms', x'⟩ ⟨hm, hx⟩
    simp only at hm hx
    subst hx
    rcases ha.cases with ⟨h1, h2⟩ | ⟨n, n', h1, h2, h3⟩
    · simp only [h1, h2]
      exact .ok ⟨hm, rfl⟩
    · simp only [h1, h2]
      exact .ok ⟨.cons ha hm, rfl⟩

theorem mostGreedy_alike (hev : EvFollow S env env' ev ev') (flag : Int) {rs rs' : List Rule} (h : FactoredL S env env' rs rs') (s : Stream) :
    Follow (AlikeAt S) (mostGreedy ev flag rs s) (mostGreedy ev' flag rs' s) := by
  unfold mostGreedy
  refine (greedyLoop_alike hev flag h [] s).bind ?_
  rintro ⟨ms, x⟩ ⟨ms', x'⟩ ⟨hm, hx⟩
  simp only at hm hx
  subst hx
  have hp := pick_alike hm
  simp only
  cases h1 : pick ms with
  | none =>
    cases h2 : pick ms' with
    | none => exact .ok ⟨⟨rfl, rfl, rfl, rfl, rfl, rfl⟩, rfl⟩
    | _ => rw [h1, h2] at hp; exact hp.elim
  | ambiguous x y =>
    cases h2 : pick ms' with
    | ambiguous x' y' => exact .ok ⟨⟨rfl, rfl, rfl, rfl, rfl, rfl⟩, rfl⟩
    | _ => rw [h1, h2] at hp; exact hp.elim
  | found r =>
    cases h2 : pick ms' with
    | found r' =>
      rw [h1, h2] at hp
      have hp : Alike S r r' := hp
      simp only
      rw [← hp.count, ← hp.sticky]
      exact .same (fun x => .ok ⟨⟨hp.node, rfl, rfl, rfl, rfl, rfl⟩, rfl⟩)
    | _ => rw [h1, h2] at hp; exact hp.elim

/-- How a block ends, alike. -/
def EndAlike (S : Name → Bool) : BlockEnd → BlockEnd → Prop
  | .excluded t r, .excluded t' r' => t = t' ∧ r = r'
  | .closed u n c t, .closed u' n' c' t' => u = u' ∧ n = n' ∧ Alike S c c' ∧ t = t'
  | .eof u n, .eof u' n' => u = u' ∧ n = n'
  | _, _ => False

theorem blockLoop_alike (hev : EvFollow S env env' ev ev') {c c' : Rule} (hc : Factored S env env' c c') {e e' : Option Rule}
    (he : FactoredO S env env' e e') {x x' : List Rule} (hx : FactoredL S env env' x x') :
    ∀ (fuel fuel' : Nat), fuel ≤ fuel' → ∀ (st : BlockState) (s : Stream),
    Follow (fun y y' => EndAlike S y.1 y'.1 ∧ y.2 = y'.2) (blockLoop ev c e x fuel st s) (blockLoop ev' c' e' x' fuel' st s) := by
  have hlen : x.length = x'.length := by
    clear hc he
    induction x generalizing x' with
    | nil => cases hx; rfl
    | cons r rs ih => cases hx with | cons h hs => simp [ih hs]
  intro fuel
  induction fuel with
  | zero => intro fuel' _ st s a ha; cases ha
  | succ fuel ih =>
    intro fuel' hf st s
    obtain ⟨k, rfl⟩ : ∃ k, fuel' = k + 1 := ⟨fuel' - 1, by omega⟩
    have ih := ih k (by omega)
    simp only [blockLoop]
    refine Follow.bind (P := fun a b => a = b) ?_ ?_
    · cases he with
      | none => exact .ok rfl
      | some h =>
        simp only
        refine (hev _ _ NOT_SKIP s h).bind ?_
        rintro ⟨res, cs⟩ ⟨res', cs'⟩ ⟨ha, hcs⟩
        simp only at ha hcs
        subst hcs
        simp only [← ha.charsUsed, ← ha.unused, ← ha.read]
        rcases ha.cases with ⟨h1, h2⟩ | ⟨n, n', h1, h2, h3⟩
        · simp only [h1, h2]
          exact .ok rfl
        · simp only [h1, h2]
          exact .same fun x => .ok rfl
    rintro ⟨escaped, escapeChars, used, u1, s⟩ _ rfl
    simp only
    refine Follow.bind (P := fun a b => WhyAlike S a.1 b.1 ∧ a.2 = b.2) ?_ ?_
    · rw [← hlen]
      split
      · refine (mostGreedy_alike hev NOT_SKIP hx _).bind ?_
        rintro ⟨res, cs⟩ ⟨res', cs'⟩ ⟨ha, hcs⟩
        simp only at ha hcs
        subst hcs
        exact .ok ⟨ha, rfl⟩
      · exact .ok ⟨trivial, rfl⟩
    rintro ⟨rx, cs1⟩ ⟨rx', cs1'⟩ ⟨hw, h1⟩
    simp only at hw h1
    subst h1
    have tail : ∀ u2, Follow (fun y y' => EndAlike S y.1 y'.1 ∧ y.2 = y'.2)
        (do
          let (rc, cs2) ← ev c NOT_SKIP (cs1.pushBack u2)
          match rc.node with
          | some _ => do
            let c1 ← rc.charsUsed
            if escaped then do
              let (out, cs2) ← blockLoop ev c e x fuel { used := used ++ c1, unused := rc.unused, content := st.content ++ c1 } cs2
              .ok (out, (cs2.popBack u2).popBack u1)
            else .ok (.closed (used ++ st.content ++ c1) rc.unused rc st.content, (cs2.popBack u2).popBack u1)
          | none => do
            let content := st.content ++ escapeChars
            let cs3 := cs2.pushBack rc.unused
            if cs3.peek = EOFChar then .ok (.eof (used ++ content) rc.unused, (cs2.popBack u2).popBack u1)
            else do
              let r := cs3.next
              let (out, cs3) ← blockLoop ev c e x fuel { used := used, unused := [], content := content ++ escapeChars ++ [r.1] } r.2
              .ok (out, ((cs3.popBack rc.unused).popBack u2).popBack u1))
        (do
          let (rc, cs2) ← ev' c' NOT_SKIP (cs1.pushBack u2)
          match rc.node with
          | some _ => do
            let c1 ← rc.charsUsed
            if escaped then do
              let (out, cs2) ← blockLoop ev' c' e' x' k { used := used ++ c1, unused := rc.unused, content := st.content ++ c1 } cs2
              .ok (out, (cs2.popBack u2).popBack u1)
            else .ok (.closed (used ++ st.content ++ c1) rc.unused rc st.content, (cs2.popBack u2).popBack u1)
          | none => do
            let content := st.content ++ escapeChars
            let cs3 := cs2.pushBack rc.unused
            if cs3.peek = EOFChar then .ok (.eof (used ++ content) rc.unused, (cs2.popBack u2).popBack u1)
            else do
              let r := cs3.next
              let (out, cs3) ← blockLoop ev' c' e' x' k { used := used, unused := [], content := content ++ escapeChars ++ [r.1] } r.2
              .ok (out, ((cs3.popBack rc.unused).popBack u2).popBack u1)) := by
      intro u2
      refine (hev _ _ NOT_SKIP (cs1.pushBack u2) hc).bind ?_
      rintro ⟨rc, cs2⟩ ⟨rc', cs2'⟩ ⟨ha, hcs⟩
      simp only at ha hcs
      subst hcs
      rcases ha.cases with ⟨h1, h2⟩ | ⟨n, n', h1, h2, h3⟩
      · simp only [h1, h2, ← ha.unused]
        split
        · exact .ok ⟨⟨rfl, rfl⟩, rfl⟩
        · refine (ih _ _).bind ?_
          rintro ⟨out, c2⟩ ⟨out', c2'⟩ ⟨ho, hcs⟩
          simp only at ho hcs
          subst hcs
          exact .ok ⟨ho, rfl⟩
      · simp only [h1, h2, ← ha.charsUsed, ← ha.unused]
        refine .same fun y => ?_
        split
        · refine (ih _ _).bind ?_
          rintro ⟨out, c2⟩ ⟨out', c2'⟩ ⟨ho, hcs⟩
          simp only at ho hcs
          subst hcs
          exact .ok ⟨ho, rfl⟩
        · exact .ok ⟨⟨rfl, rfl, ha, rfl⟩, rfl⟩
    match rx, rx', hw with
    | none, none, _ => exact tail u1
    | some r, some r', (h : Alike S r r') =>
      rcases h.cases with ⟨h1, h2⟩ | ⟨n, n', h1, h2, h3⟩
      · simp only [Option.bind_some, h1, h2, Option.map_none, ← h.read]
        exact tail r.read
      · simp only [Option.bind_some, h1, h2, Option.map_some, ← h.charsUsed, ← h.unused, ← h.read]
        refine .same fun y => ?_
        split
        · refine (ih _ _).bind ?_
          rintro ⟨out, c2⟩ ⟨out', c2'⟩ ⟨ho, hcs⟩
          simp only at ho hcs
          subst hcs
          exact .ok ⟨ho, rfl⟩
        · exact .ok ⟨⟨rfl, rfl⟩, rfl⟩

theorem evalBlock_alike (hev : EvFollow S env env' ev ev') {fuel fuel' : Nat} (hf : fuel ≤ fuel') {b b' : RuleBase} (hb : SameBase S b b') {o o' : Rule}
    (ho : Factored S env env' o o') (v : Bool) {c c' : Rule} (hc : Factored S env env' c c') {e e' : Option Rule} (he : FactoredO S env env' e e')
    {x x' : List Rule} (hx : FactoredL S env env' x x') (flag : Int) (s : Stream) :
    Follow (AlikeAt S) (evalBlock ev fuel b o v c e x flag s) (evalBlock ev' fuel' b' o' v c' e' x' flag s) := by
  unfold evalBlock
  refine (hev _ _ flag s ho).bind ?_
  rintro ⟨ro, cs⟩ ⟨ro', cs'⟩ ⟨ha, hcs⟩
  simp only at ha hcs
  subst hcs
  rcases ha.cases with ⟨h1, h2⟩ | ⟨n, n', h1, h2, h3⟩
  · simp only [h1, h2]
    exact .ok ⟨⟨rfl, ha.error, rfl, ha.read, ha.unused, rfl⟩, rfl⟩
  · simp only [h1, h2, ← ha.count, ← ha.read, ← ha.unused]
    refine .same fun y => ?_
    refine (blockLoop_alike hev hc he hx fuel fuel' hf _ _).bind ?_
    rintro ⟨out, c2⟩ ⟨out', c2'⟩ ⟨ho, hcs⟩
    simp only at ho hcs
    subst hcs
    match out, out', ho with
    | .excluded t r, .excluded _ _, ⟨rfl, rfl⟩ => exact .ok ⟨⟨rfl, rfl, rfl, rfl, rfl, rfl⟩, rfl⟩
    | .eof u n, .eof _ _, ⟨rfl, rfl⟩ => exact .ok ⟨⟨rfl, rfl, rfl, rfl, rfl, rfl⟩, rfl⟩
    | .closed u m rc t, .closed _ _ rc' _, ⟨rfl, rfl, hrc, rfl⟩ =>
      simp only [← hrc.read]
      refine .ok ⟨⟨?_, rfl, rfl, rfl, rfl, rfl⟩, rfl⟩
      simp only [Option.map_some, Option.some.injEq, h3.pos]
      refine branch_alike hb ?_ n'.pos
      have ht : NodesAlike S (if v = true then [] else rc.node.toList) (if v = true then [] else rc'.node.toList) := by
        split
        · rfl
        · rcases hrc.cases with ⟨k1, k2⟩ | ⟨m, m', k1, k2, k3⟩
          · rw [k1, k2]; rfl
          · rw [k1, k2]; exact .one k3
      unfold NodesAlike at *
      have h3 : n.rename (veil S) = n'.rename (veil S) := h3
      simp only [List.map_append, List.map_cons, List.map_nil, h3, ht]

/-! ### Rules -/

theorem refactored_follow (he : SameRules S env env') {f f' : Nat} (hff : f ≤ f') (hev : EvFollow S env env' (eval env f) (eval env' f'))
    {r r' : Rule} (h : Refactored S env env' r r') (flag : Int) (s : Stream) :
    Follow (AlikeAt S) (eval env (f + 1) r flag s) (eval env' (f' + 1) r' flag s) := by
  cases h with
  | eof hb => exact .ok (evalEOF_alike hb flag s)
  | char hb => exact .ok (.of_rename (evalChar_ren _ _ _ _) (evalChar_ren _ _ _ _) (by rw [hb]))
  | range hb => exact .ok (.of_rename (evalRange_ren _ _ _ _ _) (evalRange_ren _ _ _ _ _) (by rw [hb]))
  | chars hb => exact .ok (.of_rename (evalChars_ren _ _ _ _) (evalChars_ren _ _ _ _) (by rw [hb]))
  | str hb => exact .ok (.of_rename (evalString_ren _ _ _ _) (evalString_ren _ _ _ _) (by rw [hb]))
  | group hb h =>
    simp only [eval]
    refine (hev _ _ flag s h).bind ?_
    rintro ⟨res, cs⟩ ⟨res', cs'⟩ ⟨ha, hcs⟩
    exact .ok ⟨groupRes_alike hb ha, hcs⟩
  | option hb h =>
    simp only [eval]
    refine (hev _ _ flag s h).bind ?_
    rintro ⟨res, cs⟩ ⟨res', cs'⟩ ⟨ha, hcs⟩
    exact .ok ⟨optionRes_alike hb ha, hcs⟩
  | rep hb h => exact evalRep_alike hev hff hb h _ _ flag s
  | @choice b b' gs gs' hb h => exact choiceLoop_alike (self := .choice b gs) (self' := .choice b' gs') hev hb flag h ⟨rfl, rfl, rfl⟩ s
  | @concat b b' rs rs' hb h => exact concatLoop_alike (self := .concat b rs) (self' := .concat b' rs') hev hb h ⟨rfl, rfl, rfl, rfl, rfl, rfl⟩ s
  | block hb ho hc he hx => exact evalBlock_alike hev hff hb ho _ hc he hx flag s
  | @ref b b' n hb hn =>
    simp only [eval]
    rcases he n hn with ⟨h1, h2⟩ | ⟨r, r', h1, h2, h3⟩
    · rw [h1, h2]
      exact .ok ⟨⟨rfl, rfl, rfl, rfl, rfl, rfl⟩, rfl⟩
    · rw [h1, h2]
      simp only
      refine (hev _ _ flag s h3).bind ?_
      rintro ⟨res, cs⟩ ⟨res', cs'⟩ ⟨ha, hcs⟩
      exact .ok ⟨refRes_alike hb ha, hcs⟩

theorem ref_plain {env : Env} {b : RuleBase} (hb : b.virt = false ∧ b.nondata = false ∧ b.tokenized = false) {n : Name} {r : Rule} (hn : env n = some r)
    (f : Nat) (flag : Int) (s : Stream) : eval env (f + 1) (.ref b n) flag s = eval env f r flag s := by
  simp only [eval, hn]
  cases eval env f r flag s with
  | ok x => show Exec.ok (refRes b x.1, x.2) = _; rw [refRes_plain hb]
  | panic => rfl
  | oof => rfl

theorem factored_follow (he : SameRules S env env') : ∀ (f f' : Nat), 2 * f ≤ f' → EvFollow S env env' (eval env f) (eval env' f') := by
  intro f
  induction f with
  | zero => intro f' _ r r' flag s _ a ha; cases ha
  | succ f ih =>
    intro f' hf r r' flag s h
    have key : ∀ k, 2 * f ≤ k → ∀ {r r'}, Refactored S env env' r r' → Follow (AlikeAt S) (eval env (f + 1) r flag s) (eval env' (k + 1) r' flag s) :=
      fun k hk _ _ h => refactored_follow he (by omega) (ih k hk) h flag s
    obtain ⟨k, rfl⟩ : ∃ k, f' = k + 2 := ⟨f' - 2, by omega⟩
    cases h with
    | same h => exact key (k + 1) (by omega) h
    | left hb hn h =>
      rw [ref_plain hb hn]
      exact ih (k + 2) (by omega) _ _ flag s (.same h)
    | right hb hn h =>
      rw [ref_plain hb hn]
      exact key k (by omega) h

end Xbnf
