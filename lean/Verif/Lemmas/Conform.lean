import Verif.Lemmas.Safe
import Verif.Spec.Tree
/-
Every node an evaluation returns has the shape its rule asks for.
-/
namespace Xbnf
open Spec

variable {S : Rune → Prop} {env : Env} {inR : Rune → Rune → Rune → Prop}

/-- The node of a result, if there is one, conforms to the rule. -/
def NodeOK (env : Env) (inR : Rune → Rune → Rune → Prop) (r : Rule) (x : Res) : Prop :=
  ∀ n, x.node = some n → Conforms env inR r n

/-- Safe, and the node conforms. -/
def Good (S : Rune → Prop) (env : Env) (inR : Rune → Rune → Rune → Prop) (r : Rule) (l : List Rune)
    (x : Res × Nat) : Prop :=
  (x.1.Safe S ∧ x.2 ≤ l.length) ∧ NodeOK env inR r x.1

def EvGood (S : Rune → Prop) (env : Env) (inR : Rune → Rune → Rune → Prop) (ev : L.Ev) : Prop :=
  ∀ r flag l, (∀ c ∈ l, S c) → (ev r flag l).All (Good S env inR r l)

theorem EvGood.safe {ev : L.Ev} (h : EvGood S env inR ev) : EvSafe S ev :=
  fun r flag l hl => (h r flag l hl).mono (fun _ hx => hx.1)

theorem marked_leaf (rt : RType) (b : RuleBase) (st : Bool) (ch : List Rune) (p) :
    Marked rt b (leafNode rt b st ch p) := ⟨rfl, rfl, rfl, rfl, rfl⟩

theorem leaf_leaf (rt : RType) (b : RuleBase) (st : Bool) (ch : List Rune) (p) :
    Leaf ch (leafNode rt b st ch p) := ⟨rfl, rfl⟩

theorem marked_branch (rt : RType) (b : RuleBase) (st : Bool) (ms : List Node) (p) :
    Marked rt b (branchNode rt b st ms p) := ⟨rfl, rfl, rfl, rfl, rfl⟩

theorem inner_branch (rt : RType) (b : RuleBase) (st : Bool) (ms : List Node) (p) :
    Inner ms (branchNode rt b st ms p) := ⟨rfl, rfl⟩

theorem nodeOK_none {r : Rule} {x : Res} (h : x.node = none) : NodeOK env inR r x := by
  intro n hn; rw [h] at hn; cases hn

theorem nodeOK_some {r : Rule} {x : Res} {n : Node} (h : x.node = some n)
    (hc : Conforms env inR r n) : NodeOK env inR r x := by
  intro m hm; rw [h] at hm; cases hm; exact hc

namespace L

theorem evalEOF_ok (b : RuleBase) (flag : Int) (l : List Rune) :
    NodeOK env inR (.eof b) (evalEOF b flag l).1 := by
  unfold evalEOF
  simp only
  split
  · exact nodeOK_some rfl (.eof rfl rfl ⟨rfl, rfl⟩ rfl rfl rfl)
  · exact nodeOK_none rfl

theorem evalChar_ok (b : RuleBase) (t : Rune) (u : Bool) (flag : Int) (l : List Rune) :
    NodeOK env inR (.char b t u) (evalChar b t flag l).1 := by
  unfold evalChar
  simp only
  split
  · exact nodeOK_none rfl
  · split
    · split
      · exact nodeOK_some rfl (.char (marked_leaf ..) (leaf_leaf ..))
      · exact nodeOK_none rfl
    · split
      · exact nodeOK_none rfl
      · rename_i h
        have h : peek (l.drop (spaces (decide (flag = SUGGEST_SKIP)) l).length) = t :=
          Decidable.of_not_not h
        rw [h]
        exact nodeOK_some rfl (.char (marked_leaf ..) (leaf_leaf ..))

/-- The character found by the loop over the white space skipped. -/
theorem findIdx_getD {l : List Rune} {p : Rune → Bool} {i : Nat} (h : l.findIdx? p = some i) :
    l.getD i EOFChar ∈ l ∧ p (l.getD i EOFChar) = true := by
  rw [List.findIdx?_eq_some_iff_getElem] at h
  obtain ⟨hi, hp, _⟩ := h
  rw [List.getD_eq_getElem?_getD, List.getElem?_eq_getElem hi]
  exact ⟨List.getElem_mem hi, by simpa using hp⟩

theorem evalRange_ok (b : RuleBase) (x : Rune) (xu : Bool) (y : Rune) (yu : Bool) (flag : Int)
    (l : List Rune) (h1 : ∀ c, x ≤ c → c ≤ y → inR x y c)
    (h2 : ∀ c ∈ l, isWhiteSpace c = true → x ≤ c → y ≤ c → inR x y c) :
    NodeOK env inR (.range b x xu y yu) (evalRange b x y flag l).1 := by
  unfold evalRange
  simp only
  split
  · exact nodeOK_none rfl
  · split
    · rename_i i hi
      obtain ⟨hm, hp⟩ := findIdx_getD hi
      simp only [Bool.and_eq_true, decide_eq_true_eq] at hp
      have hw : isWhiteSpace ((spaces (decide (flag = SUGGEST_SKIP)) l).getD i EOFChar) = true := by
        revert hm
        generalize (spaces (decide (flag = SUGGEST_SKIP)) l).getD i EOFChar = c
        intro hm
        unfold spaces at hm
        split at hm
        · exact mem_takeWhile_imp hm
        · simp at hm
      exact nodeOK_some rfl (.range (marked_leaf ..) (leaf_leaf ..)
        (h2 _ (spaces_mem hm) hw hp.1 hp.2))
    · split
      · rename_i h
        exact nodeOK_some rfl (.range (marked_leaf ..) (leaf_leaf ..) (h1 _ h.1 h.2))
      · exact nodeOK_none rfl

theorem evalChars_ok (b : RuleBase) (st skip : Bool) (t l : List Rune) :
    NodeOK env inR (.chars b t) (evalText .chars b st skip t l).1 := by
  unfold evalText
  simp only
  split
  · exact nodeOK_none rfl
  · split
    · exact nodeOK_some rfl (.chars (marked_leaf ..) (leaf_leaf ..))
    · exact nodeOK_none rfl

theorem evalString_ok (b : RuleBase) (st skip : Bool) (t l : List Rune) :
    NodeOK env inR (.str b t) (evalText .string b st skip t l).1 := by
  unfold evalText
  simp only
  split
  · exact nodeOK_none rfl
  · split
    · exact nodeOK_some rfl (.str (marked_leaf ..) (leaf_leaf ..))
    · exact nodeOK_none rfl

/-- The nodes so far conform to the rules done so far. -/
def Done (env : Env) (inR : Rune → Rune → Rune → Prop) (rs : List Rule) (ns : List Node) : Prop :=
  rs.length = ns.length ∧ ∀ p ∈ rs.zip ns, Conforms env inR p.1 p.2

theorem Done.snoc {rs : List Rule} {ns : List Node} {r : Rule} {n : Node}
    (h : Done env inR rs ns) (hn : Conforms env inR r n) :
    Done env inR (rs ++ [r]) (ns ++ [n]) := by
  refine ⟨by simp [h.1], ?_⟩
  intro p hp
  rw [List.zip_append h.1] at hp
  rcases List.mem_append.1 hp with hp | hp
  · exact h.2 p hp
  · simp only [List.zip_cons_cons, List.zip_nil_right, List.mem_singleton] at hp
    subst hp
    exact hn

theorem concatLoop_good {ev} (hev : EvGood S env inR ev) (b : RuleBase) (done rs : List Rule)
    (st : SeqState) (hst : SeqSafe S st) (hd : Done env inR done st.nodes) (l : List Rune)
    (h : ∀ c ∈ l, S c) :
    (concatLoop ev b rs st l).All (Good S env inR (.concat b (done ++ rs)) l) := by
  induction rs generalizing done st l with
  | nil =>
    rw [List.append_nil]
    exact ⟨⟨⟨hst.le, hst.read, hst.unused⟩, Nat.zero_le _⟩,
      nodeOK_some rfl (.concat (marked_branch ..) (inner_branch ..) hd.1 hd.2)⟩
  | cons r rs ih =>
    unfold concatLoop
    have hl := append_mem hst.unused h
    refine Exec.All.bind (hev r st.flag _ hl) ?_
    rintro ⟨res, k⟩ ⟨⟨hs, hk⟩, hc⟩
    refine Exec.All.bind (account_safe hs hst.le hst.read hst.unused) ?_
    rintro ⟨read, unused⟩ ⟨h1, h2, h3⟩
    simp only [List.length_append] at hk h1 h2 h3
    simp only
    cases hn : res.node with
    | none => exact ⟨⟨safe_back h2 _, by simp only; omega⟩, nodeOK_none rfl⟩
    | some n =>
      simp only
      have hd' := hd.snoc (hc n hn)
      refine Exec.All.bind (ih (done ++ [r]) _ ⟨h1, h2, h3⟩ (by exact hd') _ (drop_mem hl k)) ?_
      rintro ⟨out, k2⟩ ⟨⟨g1, g2⟩, g3⟩
      simp only [List.length_drop, List.length_append] at g2
      refine ⟨⟨g1, by simp only; omega⟩, ?_⟩
      simpa [NodeOK] using g3

theorem repLoop_good {ev} (hev : EvGood S env inR ev) (r : Rule) (mx fuel : Nat) (st : SeqState)
    (hst : SeqSafe S st) (hd : ∀ n ∈ st.nodes, Conforms env inR r n)
    (hm : mx = 0 ∨ st.nodes.length < mx) (l : List Rune) (h : ∀ c ∈ l, S c) :
    (repLoop ev r mx fuel st l).All (fun x => (SeqSafe S x.1 ∧ x.2 ≤ l.length) ∧
      (∀ n ∈ x.1.nodes, Conforms env inR r n) ∧ (mx = 0 ∨ x.1.nodes.length ≤ mx)) := by
  induction fuel generalizing st l with
  | zero => trivial
  | succ fuel ih =>
    unfold repLoop
    have hl := append_mem hst.unused h
    split
    · exact ⟨⟨hst, Nat.zero_le _⟩, hd, by simp only; omega⟩
    · refine Exec.All.bind (hev r st.flag _ hl) ?_
      rintro ⟨res, k⟩ ⟨⟨hs, hk⟩, hc⟩
      refine Exec.All.bind (account_safe hs hst.le hst.read hst.unused) ?_
      rintro ⟨read, unused⟩ ⟨h1, h2, h3⟩
      simp only [List.length_append] at hk h1 h2 h3
      simp only
      cases hn : res.node with
      | none => exact ⟨⟨⟨h1, h2, h3⟩, by simp only; omega⟩, hd, by simp only; omega⟩
      | some n =>
        simp only
        have hd' : ∀ m ∈ st.nodes ++ [n], Conforms env inR r m := by
          intro m hm
          rcases List.mem_append.1 hm with hm | hm
          · exact hd m hm
          · simp only [List.mem_singleton] at hm
            exact hm ▸ hc n hn
        split
        · rename_i heq
          exact ⟨⟨⟨h1, h2, h3⟩, by simp only; omega⟩, hd', .inr (by simp only; omega)⟩
        · rename_i hne
          simp only [List.length_append, List.length_singleton] at hne
          refine Exec.All.bind (ih _ ⟨h1, h2, h3⟩ hd'
            (by simp only [List.length_append, List.length_singleton]; omega) _ (drop_mem hl k)) ?_
          rintro ⟨out, k2⟩ ⟨⟨g1, g2⟩, g3⟩
          simp only [List.length_drop, List.length_append] at g2
          exact ⟨⟨g1, by simp only; omega⟩, g3⟩

theorem evalRep_good {ev} (hev : EvGood S env inR ev) (fuel : Nat) (b : RuleBase) (r : Rule)
    (mn mx : Nat) (flag : Int) (l : List Rune) (h : ∀ c ∈ l, S c) :
    (evalRep ev fuel b r mn mx flag l).All (Good S env inR (.rep b r mn mx) l) := by
  unfold evalRep
  refine Exec.All.bind (repLoop_good hev r mx fuel _ (seqSafe_init flag) (by simp)
    (by simp; omega) l h) ?_
  rintro ⟨st, k⟩ ⟨⟨h1, h2⟩, h3, h4⟩
  unfold repFinish
  show Good S env inR _ l _
  by_cases hlt : st.nodes.length < mn
  · simp only [hlt, if_true]
    exact ⟨⟨safe_back h1.read _, h2⟩, nodeOK_none rfl⟩
  · simp only [hlt, if_false]
    exact ⟨⟨⟨h1.le, h1.read, h1.unused⟩, h2⟩,
      nodeOK_some rfl (.rep (marked_branch ..) (inner_branch ..) h3 (by omega) h4)⟩

theorem choiceGroup_good {ev} (hev : EvGood S env inR ev) (flag : Int) (rs : List Rule)
    (read : List Rune) (sticky : Bool) (l : List Rune) (hr : ∀ c ∈ read, S c) (h : ∀ c ∈ l, S c) :
    (choiceGroup ev flag rs read sticky l).All (fun x => read.length ≤ x.2.1.length ∧
      (∀ c ∈ x.2.1, S c) ∧ (∀ m ∈ x.1, m.Safe S ∧ m.read.length ≤ x.2.1.length ∧
        ∃ r ∈ rs, NodeOK env inR r m) ∧ x.2.2.2 ≤ l.length) := by
  induction rs generalizing read sticky l with
  | nil => exact ⟨Nat.le_refl _, hr, by simp, Nat.zero_le _⟩
  | cons r rs ih =>
    unfold choiceGroup
    have hl := append_mem hr h
    refine Exec.All.bind (hev r flag _ hl) ?_
    rintro ⟨res, k⟩ ⟨⟨hs, hk⟩, hc⟩
    simp only [List.length_append] at hk
    simp only
    have hr' : ∀ c ∈ (if read.length < res.read.length then res.read else read), S c := by
      split
      · exact hs.read
      · exact hr
    have hle : read.length ≤ (if read.length < res.read.length then res.read else read).length ∧
        res.read.length ≤ (if read.length < res.read.length then res.read else read).length := by
      split <;> omega
    refine Exec.All.bind (ih _ (sticky && res.sticky) _ hr' (drop_mem h _)) ?_
    rintro ⟨ms, read', sticky', k2⟩ ⟨g1, g2, g3, g4⟩
    simp only [List.length_drop] at g1 g2 g3 g4
    refine ⟨by simp only; omega, g2, ?_, by simp only; omega⟩
    intro m hm
    have hrest : ∀ m ∈ ms, m.Safe S ∧ m.read.length ≤ read'.length ∧
        ∃ r' ∈ r :: rs, NodeOK env inR r' m := by
      intro m hm
      obtain ⟨a, b, r', hr', hc'⟩ := g3 m hm
      exact ⟨a, b, r', by simp [hr'], hc'⟩
    simp only at hm
    split at hm
    · rcases List.mem_cons.1 hm with rfl | hm
      · exact ⟨hs, by simp only; omega, r, by simp, hc⟩
      · exact hrest m hm
    · exact hrest m hm

theorem choiceLoop_good {ev} (hev : EvGood S env inR ev) (b : RuleBase) (flag : Int)
    (tried gs : List (List Rule)) (read : List Rune) (sticky : Bool) (l : List Rune)
    (hr : ∀ c ∈ read, S c) (h : ∀ c ∈ l, S c) :
    (choiceLoop ev b flag gs read sticky l).All (Good S env inR (.choice b (tried ++ gs)) l) := by
  induction gs generalizing tried read sticky l with
  | nil => exact ⟨⟨safe_back hr _, Nat.zero_le _⟩, nodeOK_none rfl⟩
  | cons g gs ih =>
    unfold choiceLoop
    refine Exec.All.bind (choiceGroup_good hev flag g read sticky l hr h) ?_
    rintro ⟨ms, read', sticky', k⟩ ⟨g1, g2, g3, g4⟩
    simp only at g1 g2 g3 g4
    simp only
    cases hp : pick ms with
    | none =>
      refine Exec.All.bind (ih (tried ++ [g]) _ _ _ g2 (drop_mem h _)) ?_
      rintro ⟨out, k2⟩ ⟨⟨q1, q2⟩, q3⟩
      simp only [List.length_drop] at q2
      refine ⟨⟨q1, by simp only; omega⟩, ?_⟩
      simpa [NodeOK] using q3
    | ambiguous => exact ⟨⟨⟨Nat.zero_le _, g2, by simp⟩, g4⟩, nodeOK_none rfl⟩
    | found r =>
      obtain ⟨hs, hlen, r', hr', hc⟩ := g3 r (pick_mem hp)
      simp only
      rw [Res.countUsed_eq hs.le, sliceFrom_all _ _ (by simp only [Res.used]; omega)]
      refine ⟨⟨⟨by simp only [List.length_drop]; omega, g2, drop_mem g2 _⟩, g4⟩, ?_⟩
      intro n hn
      simp only [Option.map_eq_some_iff] at hn
      obtain ⟨m, hm, rfl⟩ := hn
      exact .choice (marked_branch ..) (inner_branch ..) (g := g) (by simp) hr' (hc m hm)

theorem blockLoop_good {ev} (hE : S EOFChar) (hev : EvGood S env inR ev) (close : Rule)
    (escape : Option Rule) (excludes : List Rule) (fuel : Nat) (st : BlockState)
    (hst : BlockSafe S st) (l : List Rune) (h : ∀ c ∈ l, S c) :
    (blockLoop ev close escape excludes fuel st l).All
      (fun x => ∀ used unused rc content, x.1 = .closed used unused rc content →
        NodeOK env inR close rc) := by
  induction fuel generalizing st l with
  | zero => trivial
  | succ fuel ih =>
    unfold blockLoop
    refine Exec.All.bind (blockEscape_safe hev.safe escape st hst l h) ?_
    rintro ⟨escaped, escapeChars, used, u1, k0⟩ ⟨e1, e2, e3, e4⟩
    simp only at e1 e2 e3 e4
    have h1 := append_mem e3 (drop_mem h k0)
    simp only
    refine Exec.All.bind (blockExclude_safe hev.safe excludes _ h1) ?_
    rintro ⟨rx, k1⟩ ⟨x1, x2⟩
    simp only at x1
    simp only
    generalize hl1 : u1 ++ l.drop k0 = l1 at *
    cases hrx : rx.bind (fun r => r.node.map (fun _ => r)) with
    | some r =>
      have hr : rx = some r := by
        cases rx with
        | none => simp at hrx
        | some r' =>
          simp only [Option.bind_some, Option.map_eq_some_iff] at hrx
          obtain ⟨_, _, rfl⟩ := hrx
          rfl
      have hs := x1 r hr
      simp only
      rw [Res.charsUsed_eq hs.le, Exec.ok_bind]
      cases escaped with
      | true =>
        refine Exec.All.bind (ih _ ⟨append_mem e2 (take_mem hs.read _), hs.unused,
          append_mem hst.content (take_mem hs.read _)⟩ _ (drop_mem h1 k1)) ?_
        rintro ⟨out, k2⟩ g
        exact g
      | false =>
        intro _ _ _ _ e
        cases e
    | none =>
      simp only
      have hu2 : ∀ c ∈ exclRead rx u1, S c := by
        cases rx with
        | none => exact e3
        | some r => exact (x1 r rfl).read
      generalize exclRead rx u1 = u2 at *
      have h2 := append_mem hu2 (drop_mem h1 k1)
      generalize hl2 : u2 ++ l1.drop k1 = l2 at *
      refine Exec.All.bind (hev close NOT_SKIP _ h2) ?_
      rintro ⟨rc, k2⟩ ⟨⟨hs, hk2⟩, hc⟩
      simp only at hk2
      simp only
      cases hn : rc.node with
      | some n =>
        simp only
        rw [Res.charsUsed_eq hs.le, Exec.ok_bind]
        cases escaped with
        | true =>
          refine Exec.All.bind (ih _ ⟨append_mem e2 (take_mem hs.read _), hs.unused,
            append_mem hst.content (take_mem hs.read _)⟩ _ (drop_mem h2 k2)) ?_
          rintro ⟨out, k3⟩ g
          exact g
        | false =>
          intro _ _ _ _ e
          cases e
          exact hc
      | none =>
        simp only
        have h3 := append_mem hs.unused (drop_mem h2 k2)
        generalize hl3 : rc.unused ++ l2.drop k2 = l3 at *
        split
        · intro _ _ _ _ e
          cases e
        · have hpk : ∀ c ∈ [peek l3], S c := by
            intro c hc
            simp only [List.mem_singleton] at hc
            subst hc
            exact peek_mem hE h3
          refine Exec.All.bind (ih _ ⟨e2, by simp, append_mem (append_mem (append_mem hst.content e1)
            e1) hpk⟩ _ (drop_mem h3 (one l3))) ?_
          rintro ⟨out, k4⟩ g
          exact g

theorem evalBlock_good {ev} (hE : S EOFChar) (hev : EvGood S env inR ev) (fuel : Nat)
    (b : RuleBase) (opn : Rule) (v : Bool) (close : Rule) (escape : Option Rule)
    (excludes : List Rule) (flag : Int) (l : List Rune) (h : ∀ c ∈ l, S c) :
    (evalBlock ev fuel b opn v close escape excludes flag l).All
      (fun x => NodeOK env inR (.block b opn v close escape excludes) x.1) := by
  unfold evalBlock
  refine Exec.All.bind (hev opn flag l h) ?_
  rintro ⟨ro, k⟩ ⟨⟨hs, hk⟩, hc⟩
  simp only at hk
  simp only
  cases hn : ro.node with
  | none => exact nodeOK_none rfl
  | some n =>
    simp only
    rw [Res.countUsed_eq hs.le, sliceTo_all _ _ (by simp only [Res.used]; omega), Exec.ok_bind]
    have hst : BlockSafe S { used := ro.read.take ro.used, unused := ro.unused } :=
      ⟨take_mem hs.read _, hs.unused, by simp⟩
    have hl := append_mem hs.unused (drop_mem h k)
    refine Exec.All.bind ((blockLoop_safe hE hev.safe close escape excludes fuel _ hst _ hl).and
      (blockLoop_good hE hev close escape excludes fuel _ hst _ hl)) ?_
    rintro ⟨e, k2⟩ ⟨⟨he, _⟩, hg⟩
    cases e with
    | excluded read => exact nodeOK_none rfl
    | eof used unused => exact nodeOK_none rfl
    | closed used unused rc content =>
      obtain ⟨hsome, _⟩ := he
      obtain ⟨m, hm⟩ := Option.isSome_iff_exists.1 hsome
      have hcl := hg used unused rc content rfl m hm
      refine nodeOK_some rfl (.block (marked_branch ..) (inner_branch ..) (hc n hn) rfl rfl
        (text := content) ⟨rfl, rfl⟩ ?_ ?_)
      · cases v <;> simp [hm]
      · cases v <;> simp [hm]
        exact hcl

theorem groupRes_ok {r : Rule} {x : Res} (h : NodeOK env inR r x) (b : RuleBase) :
    NodeOK env inR (.group b r) (groupRes b x) := by
  unfold groupRes
  cases hn : x.node with
  | none => exact nodeOK_none rfl
  | some n => exact nodeOK_some rfl (.group (marked_branch ..) (inner_branch ..) (h n hn))

theorem optionRes_ok {r : Rule} {x : Res} (h : NodeOK env inR r x) (b : RuleBase) :
    NodeOK env inR (.option b r) (optionRes b x) := by
  unfold optionRes
  cases hn : x.node with
  | none => exact nodeOK_some rfl (.absent (marked_branch ..) (inner_branch ..))
  | some n => exact nodeOK_some rfl (.present (marked_branch ..) (inner_branch ..) (h n hn))

theorem refRes_ok {r : Rule} {x : Res} {name : Name} (hr : env name = some r)
    (h : NodeOK env inR r x) (b : RuleBase) : NodeOK env inR (.ref b name) (refRes b x) := by
  unfold refRes
  cases hn : x.node with
  | none => exact nodeOK_none hn
  | some n =>
    refine nodeOK_some rfl (.ref hr (h n hn) ⟨rfl, rfl, rfl, rfl, rfl, ?_, ?_, ?_⟩)
    · cases b.virt <;> simp
    · cases b.nondata <;> simp
    · cases b.tokenized <;> simp

theorem eval_good (hE : S EOFChar) (h1 : ∀ x y c, x ≤ c → c ≤ y → inR x y c)
    (h2 : ∀ x y c, S c → isWhiteSpace c = true → x ≤ c → y ≤ c → inR x y c) (env : Env)
    (fuel : Nat) : EvGood S env inR (eval env fuel) := by
  induction fuel with
  | zero => intro r flag l h; trivial
  | succ fuel ih =>
    intro r flag l h
    have hsafe := eval_safe hE env (fuel + 1) r flag l h
    cases r with
    | eof b => exact ⟨hsafe, evalEOF_ok b flag l⟩
    | char b t u => exact ⟨hsafe, evalChar_ok b t u flag l⟩
    | range b x xu y yu =>
      exact ⟨hsafe, evalRange_ok b x xu y yu flag l (h1 x y) (fun c hc => h2 x y c (h c hc))⟩
    | chars b t => exact ⟨hsafe, evalChars_ok _ _ _ _ _⟩
    | str b t => exact ⟨hsafe, evalString_ok _ _ _ _ _⟩
    | group b r =>
      refine Exec.All.bind (ih r flag l h) ?_
      rintro ⟨res, k⟩ ⟨⟨h1, h2⟩, h3⟩
      exact ⟨⟨groupRes_safe h1 b, h2⟩, groupRes_ok h3 b⟩
    | option b r =>
      refine Exec.All.bind (ih r flag l h) ?_
      rintro ⟨res, k⟩ ⟨⟨h1, h2⟩, h3⟩
      exact ⟨⟨optionRes_safe h1 b, h2⟩, optionRes_ok h3 b⟩
    | rep b r mn mx => exact evalRep_good ih fuel b r mn mx flag l h
    | choice b gs => exact choiceLoop_good ih b flag [] gs [] true l (by simp) h
    | concat b rs => exact concatLoop_good ih b [] rs _ (seqSafe_init flag) ⟨rfl, by simp⟩ l h
    | block b o v c e x => exact hsafe.and (evalBlock_good hE ih fuel b o v c e x flag l h)
    | ref b name =>
      simp only [eval]
      cases hr : env name with
      | none => exact ⟨⟨safe_nil _, Nat.zero_le _⟩, nodeOK_none rfl⟩
      | some r =>
        refine Exec.All.bind (ih r flag l h) ?_
        rintro ⟨res, k⟩ ⟨⟨h1, h2⟩, h3⟩
        exact ⟨⟨refRes_safe h1 b, h2⟩, refRes_ok hr h3 b⟩

end L

/-! ### Positions do not matter -/

theorem Node.erase_eq {n m : Node} (h : n.erase = m.erase) : n.ruleType = m.ruleType ∧
    n.name = m.name ∧ n.chars = m.chars ∧ n.children.map Node.erase = m.children.map Node.erase ∧
    n.sticky = m.sticky ∧ n.virt = m.virt ∧ n.nonData = m.nonData ∧
    n.tokenized = m.tokenized := by
  cases n; cases m
  simpa [Node.erase, eraseL_eq_map] using h

theorem Node.erase_eq_of {n m : Node} (h1 : n.ruleType = m.ruleType) (h2 : n.name = m.name)
    (h3 : n.chars = m.chars) (h4 : n.children.map Node.erase = m.children.map Node.erase)
    (h5 : n.sticky = m.sticky) (h6 : n.virt = m.virt) (h7 : n.nonData = m.nonData)
    (h8 : n.tokenized = m.tokenized) : n.erase = m.erase := by
  cases n; cases m
  simp only at *
  simp [Node.erase, eraseL_eq_map, *]

theorem Spec.Marked.shape {rt b} {n m : Node} (h : Marked rt b m) (e : n.erase = m.erase) :
    Marked rt b n := by
  obtain ⟨e1, e2, e3, e4, e5, e6, e7, e8⟩ := Node.erase_eq e
  exact ⟨e1.trans h.ruleType, e2.trans h.name, e6.trans h.virt, e7.trans h.nonData,
    e8.trans h.tokenized⟩

theorem Spec.Leaf.shape {t} {n m : Node} (h : Leaf t m) (e : n.erase = m.erase) : Leaf t n := by
  obtain ⟨e1, e2, e3, e4, e5, e6, e7, e8⟩ := Node.erase_eq e
  refine ⟨e3.trans h.chars, ?_⟩
  rw [h.children] at e4
  simpa using e4

theorem Spec.Inner.shape {ms} {n m : Node} (h : Inner ms m) (e : n.erase = m.erase) :
    n.children.map Node.erase = ms.map Node.erase ∧ Inner n.children n := by
  obtain ⟨e1, e2, e3, e4, e5, e6, e7, e8⟩ := Node.erase_eq e
  exact ⟨h.children ▸ e4, ⟨e3.trans h.chars, rfl⟩⟩

theorem erase_single {ms : List Node} {m : Node}
    (h : ms.map Node.erase = [m].map Node.erase) : ∃ a, ms = [a] ∧ a.erase = m.erase :=
  List.map_eq_singleton_iff.1 h

theorem erase_mem {as bs : List Node} (h : as.map Node.erase = bs.map Node.erase) {a : Node}
    (ha : a ∈ as) : ∃ b ∈ bs, a.erase = b.erase := by
  have : a.erase ∈ bs.map Node.erase := h ▸ List.mem_map_of_mem ha
  obtain ⟨b, hb, e⟩ := List.mem_map.1 this
  exact ⟨b, hb, e.symm⟩

theorem erase_zip_mem {rs : List Rule} {as bs : List Node}
    (h : as.map Node.erase = bs.map Node.erase) {p : Rule × Node} (hp : p ∈ rs.zip as) :
    ∃ b, (p.1, b) ∈ rs.zip bs ∧ p.2.erase = b.erase := by
  have : (p.1, p.2.erase) ∈ rs.zip (as.map Node.erase) := by
    rw [List.zip_map_right, List.mem_map]
    exact ⟨p, hp, rfl⟩
  rw [h, List.zip_map_right, List.mem_map] at this
  obtain ⟨q, hq, e⟩ := this
  simp only [Prod.map, Prod.mk.injEq, id_eq] at e
  exact ⟨q.2, e.1 ▸ hq, e.2.symm⟩

/-- Conforming does not depend on positions. -/
theorem Spec.Conforms.shape {r : Rule} {m : Node} (h : Conforms env inR r m) :
    ∀ n : Node, n.erase = m.erase → Conforms env inR r n := by
  induction h with
  | eof h1 h2 h3 h4 h5 h6 =>
    intro n e
    obtain ⟨e1, e2, e3, e4, e5, e6, e7, e8⟩ := Node.erase_eq e
    exact .eof (e1.trans h1) (e2.trans h2) (h3.shape e) (e6.trans h4) (e7.trans h5) (e8.trans h6)
  | char h1 h2 => intro n e; exact .char (h1.shape e) (h2.shape e)
  | range h1 h2 h3 => intro n e; exact .range (h1.shape e) (h2.shape e) h3
  | chars h1 h2 => intro n e; exact .chars (h1.shape e) (h2.shape e)
  | str h1 h2 => intro n e; exact .str (h1.shape e) (h2.shape e)
  | group h1 h2 _ ih =>
    intro n e
    obtain ⟨e', hi⟩ := h2.shape e
    obtain ⟨a, ha, hae⟩ := erase_single e'
    exact .group (h1.shape e) (ha ▸ hi) (ih a hae)
  | absent h1 h2 =>
    intro n e
    obtain ⟨e', hi⟩ := h2.shape e
    exact .absent (h1.shape e) (List.map_eq_nil_iff.1 e' ▸ hi)
  | present h1 h2 _ ih =>
    intro n e
    obtain ⟨e', hi⟩ := h2.shape e
    obtain ⟨a, ha, hae⟩ := erase_single e'
    exact .present (h1.shape e) (ha ▸ hi) (ih a hae)
  | rep h1 h2 _ h4 h5 ih =>
    intro n e
    obtain ⟨e', hi⟩ := h2.shape e
    have hlen := congrArg List.length e'
    simp only [List.length_map] at hlen
    refine .rep (h1.shape e) hi ?_ (by omega) (by omega)
    intro a ha
    obtain ⟨b, hb, hab⟩ := erase_mem e' ha
    exact ih b hb a hab
  | choice h1 h2 h3 h4 _ ih =>
    intro n e
    obtain ⟨e', hi⟩ := h2.shape e
    obtain ⟨a, ha, hae⟩ := erase_single e'
    exact .choice (h1.shape e) (ha ▸ hi) h3 h4 (ih a hae)
  | concat h1 h2 h3 _ ih =>
    intro n e
    obtain ⟨e', hi⟩ := h2.shape e
    have hlen := congrArg List.length e'
    simp only [List.length_map] at hlen
    refine .concat (h1.shape e) hi (by omega) ?_
    intro p hp
    obtain ⟨b, hb, hab⟩ := erase_zip_mem e' hp
    exact ih (p.1, b) hb p.2 hab
  | block h1 h2 _ h4 h5 h6 h7 _ ih1 ih2 =>
    intro n e
    obtain ⟨e', hi⟩ := h2.shape e
    match hc : n.children, e' with
    | o :: c :: cl, e' =>
      simp only [List.map_cons, List.cons_append, List.nil_append, List.cons.injEq] at e'
      obtain ⟨eo, ec, ecl⟩ := e'
      obtain ⟨e1, e2, _⟩ := Node.erase_eq ec
      rw [hc] at hi
      have hlen := congrArg List.length ecl
      simp only [List.length_map] at hlen
      refine .block (h1.shape e) hi (ih1 o eo) (e1.trans h4) (e2.trans h5) (h6.shape ec)
        (hlen.trans h7) ?_
      intro a ha
      obtain ⟨b, hb, hab⟩ := erase_mem ecl ha
      exact ih2 b hb a hab
    | [], e' => simp at e'
    | [_], e' => simp at e'
  | @ref b name r n' m hr _ hf ih =>
    intro n e
    obtain ⟨e1, e2, e3, e4, e5, e6, e7, e8⟩ := Node.erase_eq e
    refine .ref (m := { n with virt := m.virt, nonData := m.nonData, tokenized := m.tokenized }) hr
      (ih _ ?_) ?_
    · refine Node.erase_eq_of (e1.trans hf.ruleType) (e2.trans hf.name) (e3.trans hf.chars) ?_
        (e5.trans hf.sticky) rfl rfl rfl
      exact e4.trans (by rw [hf.children])
    · exact ⟨rfl, rfl, rfl, rfl, rfl, e6.trans hf.virt, e7.trans hf.nonData, e8.trans hf.tokenized⟩

theorem Node.erase_erase (n : Node) : n.erase.erase = n.erase := by
  have hl : ∀ cs : List Node, (∀ c ∈ cs, c.erase.erase = c.erase) →
      eraseL (eraseL cs) = eraseL cs := by
    intro cs h
    simp only [eraseL_eq_map, List.map_map]
    exact List.map_congr_left h
  match n with
  | ⟨rt, nm, ch, cs, p, st, v, nd, tk⟩ =>
    simp only [Node.erase]
    rw [hl cs (fun c _ => Node.erase_erase c)]
termination_by sizeOf n
decreasing_by
  simp_wf
  have := List.sizeOf_lt_of_mem ‹c ∈ cs›
  omega

end Xbnf
