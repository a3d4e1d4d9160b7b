import Verif.Spec.Spacing
import Verif.Spec.Document
/-
The reference semantics on two texts that differ only in the amount of white space.
-/
namespace Xbnf.Spec
namespace Gap

/-! ### Squeezed texts -/

/-- Does the text end with white space? -/
def whiteTail : List Rune → Bool
  | [] => false
  | [c] => isWhiteSpace c
  | _ :: l => whiteTail l

/-- No run of white space goes over the joint. -/
def Joint (a b : List Rune) : Prop := whiteTail a = true → whiteHead b = false

theorem whiteTail_cons {c : Rune} {l : List Rune} (h : l ≠ []) : whiteTail (c :: l) = whiteTail l := by
  cases l with
  | nil => exact absurd rfl h
  | cons => rfl

theorem whiteHead_append {a b : List Rune} (h : a ≠ []) : whiteHead (a ++ b) = whiteHead a := by
  cases a with
  | nil => exact absurd rfl h
  | cons => rfl

theorem whiteTail_append {a b : List Rune} (h : b ≠ []) : whiteTail (a ++ b) = whiteTail b := by
  induction a with
  | nil => rfl
  | cons c a ih => rw [List.cons_append, whiteTail_cons (by simp [h]), ih]

theorem Joint.nil_left (b : List Rune) : Joint [] b := by intro h; cases h

theorem Joint.nil_right (a : List Rune) : Joint a [] := fun _ => rfl

theorem squeeze_append {a b : List Rune} (h : Joint a b) : squeeze (a ++ b) = squeeze a ++ squeeze b := by
  induction a with
  | nil => rfl
  | cons c a ih =>
    by_cases ha : a = []
    · subst ha
      simp only [List.singleton_append, squeeze]
      by_cases hc : isWhiteSpace c = true
      · have : whiteHead b = false := h hc
        rw [if_pos hc, if_pos hc, this]
        rfl
      · simp [hc]
    · have h' : Joint a b := by
        intro hw
        exact h (by rw [whiteTail_cons ha]; exact hw)
      simp only [List.cons_append, squeeze, ih h', whiteHead_append ha]
      split
      · split <;> rfl
      · rfl

theorem squeeze_ne {c : Rune} {l : List Rune} : squeeze (c :: l) ≠ [] := by
  induction l generalizing c with
  | nil =>
    simp only [squeeze, whiteHead]
    split <;> simp
  | cons d l ih =>
    rw [squeeze]
    split
    · split
      · exact ih
      · simp
    · simp

theorem squeeze_nil {l : List Rune} : squeeze l = [] ↔ l = [] := by
  cases l with
  | nil => simp [squeeze]
  | cons c l => simp [squeeze_ne]

theorem whiteHead_squeeze (l : List Rune) : whiteHead (squeeze l) = whiteHead l := by
  induction l with
  | nil => rfl
  | cons c l ih =>
    rw [squeeze]
    by_cases hc : isWhiteSpace c = true
    · rw [if_pos hc]
      split
      · rename_i hl
        rw [ih, hl]
        exact hc.symm
      · simp only [whiteHead, hc]
        decide
    · rw [if_neg hc]
      rfl

theorem nil_of_squeeze {l l' : List Rune} (h : squeeze l = squeeze l') : l = [] ↔ l' = [] := by
  rw [← squeeze_nil, h, squeeze_nil]

theorem head_of_squeeze {l l' : List Rune} (h : squeeze l = squeeze l') : whiteHead l = whiteHead l' := by
  rw [← whiteHead_squeeze, h, whiteHead_squeeze]

/-- A first character that is not white space is the same. -/
theorem solid_head {c : Rune} {t l' : List Rune} (hc : isWhiteSpace c = false) (h : squeeze (c :: t) = squeeze l') :
    ∃ t', l' = c :: t' ∧ squeeze t = squeeze t' := by
  have hh := head_of_squeeze h
  cases l' with
  | nil => exact absurd h squeeze_ne
  | cons d t' =>
    have hd : isWhiteSpace d = false := by rw [← hc]; exact hh.symm
    rw [squeeze, if_neg (by simp [hc]), squeeze, if_neg (by simp [hd])] at h
    simp only [List.cons.injEq] at h
    exact ⟨t', by rw [h.1], h.2⟩

theorem takeWhile_squeeze (l : List Rune) : squeeze (l.takeWhile isWhiteSpace) = if whiteHead l then [32] else [] := by
  induction l with
  | nil => rfl
  | cons c l ih =>
    by_cases hc : isWhiteSpace c = true
    · rw [List.takeWhile_cons_of_pos hc, squeeze, if_pos hc, ih]
      have : whiteHead (List.takeWhile isWhiteSpace l) = whiteHead l := by
        cases l with
        | nil => rfl
        | cons d l =>
          by_cases hd : isWhiteSpace d = true
          · rw [List.takeWhile_cons_of_pos hd]; rfl
          · rw [List.takeWhile_cons_of_neg hd]; simp [whiteHead, hd]
      rw [this, show whiteHead (c :: l) = true from hc]
      cases whiteHead l <;> rfl
    · rw [List.takeWhile_cons_of_neg hc]
      simp [whiteHead, hc, squeeze]

theorem head_dropWhile (l : List Rune) : whiteHead (l.dropWhile isWhiteSpace) = false := by
  induction l with
  | nil => rfl
  | cons c l ih =>
    by_cases hc : isWhiteSpace c = true
    · rw [List.dropWhile_cons_of_pos hc, ih]
    · rw [List.dropWhile_cons_of_neg hc]; simp [whiteHead, hc]

theorem joint_while (l : List Rune) : Joint (l.takeWhile isWhiteSpace) (l.dropWhile isWhiteSpace) := fun _ => head_dropWhile l

theorem dropWhile_squeeze {l l' : List Rune} (h : squeeze l = squeeze l') :
    squeeze (l.dropWhile isWhiteSpace) = squeeze (l'.dropWhile isWhiteSpace) := by
  have e := squeeze_append (joint_while l)
  have e' := squeeze_append (joint_while l')
  rw [List.takeWhile_append_dropWhile, takeWhile_squeeze] at e e'
  have hh := head_of_squeeze h
  rw [e, e', hh] at h
  exact List.append_cancel_left h

/-! ### Corresponding places -/

/-- The places `u` of `l` and `u'` of `l'` correspond: neither is inside a run of white space, and what is before and after them is the same, squeezed. -/
structure Cut (l l' : List Rune) (u u' : Nat) : Prop where
  le : u ≤ l.length
  le' : u' ≤ l'.length
  joint : Joint (l.take u) (l.drop u)
  joint' : Joint (l'.take u') (l'.drop u')
  before : squeeze (l.take u) = squeeze (l'.take u')
  after : squeeze (l.drop u) = squeeze (l'.drop u')

theorem Cut.whole {l l' u u'} (h : Cut l l' u u') : squeeze l = squeeze l' := by
  rw [← List.take_append_drop u l, ← List.take_append_drop u' l', squeeze_append h.joint, squeeze_append h.joint', h.before, h.after]

theorem Cut.zero {l l' : List Rune} (h : squeeze l = squeeze l') : Cut l l' 0 0 :=
  ⟨Nat.zero_le _, Nat.zero_le _, Joint.nil_left _, Joint.nil_left _, rfl, h⟩

theorem Cut.of_append {a b a' b' : List Rune} (h : Joint a b) (h' : Joint a' b') (e : squeeze a = squeeze a') (e' : squeeze b = squeeze b') :
    Cut (a ++ b) (a' ++ b') a.length a'.length :=
  ⟨by simp, by simp, by simpa using h, by simpa using h', by simpa using e, by simpa using e'⟩

theorem Joint.trans {a b c : List Rune} (h1 : Joint a (b ++ c)) (h2 : Joint b c) : Joint (a ++ b) c := by
  by_cases hb : b = []
  · subst hb
    simpa using h1
  · intro h
    rw [whiteTail_append hb] at h
    exact h2 h

theorem Joint.left {a b c : List Rune} (h : Joint a (b ++ c)) : Joint a b := by
  by_cases hb : b = []
  · subst hb; exact Joint.nil_right _
  · intro hw
    rw [← whiteHead_append hb (b := c)]
    exact h hw

theorem take_add (l : List Rune) (u v : Nat) : l.take (u + v) = l.take u ++ (l.drop u).take v := by
  rw [List.take_add]

theorem Cut.trans {l l' u u' v v'} (h : Cut l l' u u') (k : Cut (l.drop u) (l'.drop u') v v') : Cut l l' (u + v) (u' + v') := by
  have j1 : Joint (l.take u) ((l.drop u).take v) := Joint.left (c := (l.drop u).drop v) (by rw [List.take_append_drop]; exact h.joint)
  have j2 : Joint (l'.take u') ((l'.drop u').take v') := Joint.left (c := (l'.drop u').drop v') (by rw [List.take_append_drop]; exact h.joint')
  refine ⟨?_, ?_, ?_, ?_, ?_, ?_⟩
  · have := k.le; have := h.le; simp only [List.length_drop] at *; omega
  · have := k.le'; have := h.le'; simp only [List.length_drop] at *; omega
  · rw [take_add, ← List.drop_drop]
    exact Joint.trans (by rw [List.take_append_drop]; exact h.joint) k.joint
  · rw [take_add, ← List.drop_drop]
    exact Joint.trans (by rw [List.take_append_drop]; exact h.joint') k.joint'
  · rw [take_add, take_add, squeeze_append j1, squeeze_append j2, h.before, k.before]
  · rw [← List.drop_drop, ← List.drop_drop]
    exact k.after

/-- The text between two places, squeezed. -/
theorem Cut.between {l l' u u' v v'} (h : Cut l l' u u') (k : Cut l l' v v') (hl : u ≤ v) (hl' : u' ≤ v') :
    squeeze ((l.drop u).take (v - u)) = squeeze ((l'.drop u').take (v' - u')) := by
  have j1 : Joint (l.take u) ((l.drop u).take (v - u)) := Joint.left (c := (l.drop u).drop (v - u)) (by rw [List.take_append_drop]; exact h.joint)
  have j2 : Joint (l'.take u') ((l'.drop u').take (v' - u')) :=
    Joint.left (c := (l'.drop u').drop (v' - u')) (by rw [List.take_append_drop]; exact h.joint')
  have e := k.before
  have e1 : v = u + (v - u) := by omega
  have e2 : v' = u' + (v' - u') := by omega
  rw [e1, e2, take_add, take_add, squeeze_append j1, squeeze_append j2, h.before] at e
  exact List.append_cancel_left e

theorem Cut.length_lt {l l' u u' v v'} (h : Cut l l' u u') (k : Cut l l' v v') (hl : u < v) :
    (squeeze (l.take u)).length < (squeeze (l.take v)).length := by
  have j1 : Joint (l.take u) ((l.drop u).take (v - u)) := Joint.left (c := (l.drop u).drop (v - u)) (by rw [List.take_append_drop]; exact h.joint)
  have e1 : v = u + (v - u) := by omega
  rw [e1, take_add, squeeze_append j1, List.length_append]
  have : (l.drop u).take (v - u) ≠ [] := by
    intro hc
    have := congrArg List.length hc
    have := k.le
    simp only [List.length_take, List.length_drop, List.length_nil] at *
    omega
  have : squeeze ((l.drop u).take (v - u)) ≠ [] := fun hc => this (squeeze_nil.1 hc)
  have := List.length_pos_iff.2 this
  omega

theorem Cut.symm {l l' u u'} (h : Cut l l' u u') : Cut l' l u' u :=
  ⟨h.le', h.le, h.joint', h.joint, h.before.symm, h.after.symm⟩

theorem Cut.lt_of {l l' u u' v v'} (h : Cut l l' u u') (k : Cut l l' v v') (hl : u < v) : u' < v' := by
  have e := Cut.length_lt h k hl
  rw [h.before, k.before] at e
  rcases Nat.lt_trichotomy u' v' with g | g | g
  · exact g
  · subst g; omega
  · have := Cut.length_lt k.symm h.symm g
    omega

theorem Cut.lt_iff {l l' u u' v v'} (h : Cut l l' u u') (k : Cut l l' v v') : u < v ↔ u' < v' :=
  ⟨Cut.lt_of h k, Cut.lt_of h.symm k.symm⟩

theorem Cut.eq_iff {l l' u u' v v'} (h : Cut l l' u u') (k : Cut l l' v v') : u = v ↔ u' = v' := by
  have := Cut.lt_iff h k
  have := Cut.lt_iff k h
  omega

theorem Cut.le_iff {l l' u u' v v'} (h : Cut l l' u u') (k : Cut l l' v v') : u ≤ v ↔ u' ≤ v' := by
  have := Cut.lt_iff k h
  omega

theorem Cut.max {l l' u u' v v'} (h : Cut l l' u u') (k : Cut l l' v v') : Cut l l' (max u v) (max u' v') := by
  have := Cut.le_iff h k
  by_cases hl : u ≤ v
  · rw [Nat.max_eq_right hl, Nat.max_eq_right (this.1 hl)]; exact k
  · rw [Nat.max_eq_left (by omega), Nat.max_eq_left (by omega)]; exact h

theorem Cut.one {c : Rune} {t t' : List Rune} (hc : isWhiteSpace c = false) (h : squeeze t = squeeze t') : Cut (c :: t) (c :: t') 1 1 :=
  Cut.of_append (a := [c]) (a' := [c]) (by simp [Joint, whiteTail, hc]) (by simp [Joint, whiteTail, hc]) rfl h

theorem Cut.spaces {l l' : List Rune} (h : squeeze l = squeeze l') :
    Cut l l' (l.takeWhile isWhiteSpace).length (l'.takeWhile isWhiteSpace).length := by
  have := Cut.of_append (joint_while l) (joint_while l') (by rw [takeWhile_squeeze, takeWhile_squeeze, head_of_squeeze h]) (dropWhile_squeeze h)
  rwa [List.takeWhile_append_dropWhile, List.takeWhile_append_dropWhile] at this

theorem Cut.blank {l l' : List Rune} (h : squeeze l = squeeze l') (skip : Bool) : Cut l l' (blank skip l).length (blank skip l').length := by
  unfold Spec.blank
  cases skip
  · exact Cut.zero h
  · exact Cut.spaces h

theorem Cut.text {text : List Rune} (ht : noWhite text = true) {l l' : List Rune} (h : squeeze l = squeeze l') (hp : text <+: l) :
    text <+: l' ∧ Cut l l' text.length text.length := by
  induction text generalizing l l' with
  | nil => exact ⟨List.nil_prefix, Cut.zero h⟩
  | cons c text ih =>
    simp only [noWhite, List.all_cons, Bool.and_eq_true, Bool.not_eq_true'] at ht
    obtain ⟨m, rfl⟩ := hp
    obtain ⟨t', rfl, e⟩ := solid_head ht.1 h
    obtain ⟨i1, i2⟩ := ih ht.2 e (List.prefix_append _ _)
    refine ⟨(List.prefix_cons_inj c).2 i1, ?_⟩
    have := Cut.trans (Cut.one ht.1 e) (v := text.length) (v' := text.length) i2
    rwa [Nat.add_comm] at this

theorem prefix_iff {text : List Rune} (ht : noWhite text = true) {l l' : List Rune} (h : squeeze l = squeeze l') :
    text.isPrefixOf l = text.isPrefixOf l' := by
  rw [Bool.eq_iff_iff, List.isPrefixOf_iff_prefix, List.isPrefixOf_iff_prefix]
  exact ⟨fun hp => (Cut.text ht h hp).1, fun hp => (Cut.text ht h.symm hp).1⟩

/-! ### Trees -/

/-- What is compared of trees: with blocks, everything but positions and the amount of white space; without, everything but positions. -/
def view (blocks : Bool) (n : Node) : Node := if blocks then n.squeeze else n.erase

theorem squeezeL_eq (ns : List Node) : squeezeL ns = ns.map Node.squeeze := by
  induction ns with
  | nil => rfl
  | cons n ns ih => rw [squeezeL, ih]; rfl

theorem eraseL_eq (ns : List Node) : eraseL ns = ns.map Node.erase := by
  induction ns with
  | nil => rfl
  | cons n ns ih => rw [eraseL, ih]; rfl

theorem view_inner {blocks : Bool} {rt b st kids kids'} (h : kids.map (view blocks) = kids'.map (view blocks)) :
    view blocks (inner rt b st kids) = view blocks (inner rt b st kids') := by
  cases blocks
  · have h' : eraseL kids = eraseL kids' := by rw [eraseL_eq, eraseL_eq]; exact h
    simp only [view, inner, Node.erase, h', Bool.false_eq_true, if_false]
  · have h' : squeezeL kids = squeezeL kids' := by rw [squeezeL_eq, squeezeL_eq]; exact h
    simp only [view, inner, Node.squeeze, h', if_true]

theorem view_fields {blocks : Bool} {n n' : Node} (h : view blocks n = view blocks n') : n.ruleType = n'.ruleType ∧
    (n.children = [] ↔ n'.children = []) ∧ (n.chars = [] ↔ n'.chars = []) := by
  obtain ⟨rt, nm, ch, cs, p, st, v, nd, tk⟩ := n
  obtain ⟨rt', nm', ch', cs', p', st', v', nd', tk'⟩ := n'
  cases blocks
  · simp only [view, Node.erase, Bool.false_eq_true, if_false, Node.mk.injEq, eraseL_eq] at h
    obtain ⟨h1, h2, h3, h4, -⟩ := h
    refine ⟨h1, ?_, by simp only [h3]⟩
    simp only
    rw [← List.map_eq_nil_iff, h4, List.map_eq_nil_iff]
  · simp only [view, Node.squeeze, if_true, Node.mk.injEq, squeezeL_eq] at h
    obtain ⟨h1, h2, h3, h4, -⟩ := h
    refine ⟨h1, ?_, ?_⟩
    · simp only
      rw [← List.map_eq_nil_iff, h4, List.map_eq_nil_iff]
    · exact nil_of_squeeze h3

theorem view_flag {blocks : Bool} {n n' : Node} (h : view blocks n = view blocks n') (flag : Int) (st : Bool) :
    flagAfter flag n st = flagAfter flag n' st := by
  obtain ⟨h1, h2, h3⟩ := view_fields h
  simp only [flagAfter, h1, h2, h3]

theorem view_flip {blocks : Bool} {n n' : Node} (b : RuleBase) (h : view blocks n = view blocks n') :
    view blocks (flip b n) = view blocks (flip b n') := by
  obtain ⟨rt, nm, ch, cs, p, st, v, nd, tk⟩ := n
  obtain ⟨rt', nm', ch', cs', p', st', v', nd', tk'⟩ := n'
  cases blocks
  · simp only [view, flip, Node.erase, Bool.false_eq_true, if_false, Node.mk.injEq] at *
    simp only [h, and_self]
  · simp only [view, flip, Node.squeeze, if_true, Node.mk.injEq] at *
    simp only [h, and_self]

/-! ### Answers -/

/-- The answers for two texts: the same, where both are definite. -/
def Rel (blocks : Bool) (l l' : List Rune) : Ans → Ans → Prop
  | .oof, _ => True
  | .risky, _ => True
  | _, .oof => True
  | _, .risky => True
  | .fail _ st, .fail _ st' => st = st'
  | .ambiguous _, .ambiguous _ => True
  | .hit nd u _ st, .hit nd' u' _ st' => view blocks nd = view blocks nd' ∧ st = st' ∧ Cut l l' u u'
  | _, _ => False

theorem Rel.oof_right {blocks l l'} (a : Ans) : Rel blocks l l' a .oof := by cases a <;> trivial
theorem Rel.risky_right {blocks l l'} (a : Ans) : Rel blocks l l' a .risky := by cases a <;> trivial

theorem Rel.guard {blocks l l'} {p q : Prop} [Decidable p] [Decidable q] {a a' : Ans} (h : Rel blocks l l' a a') :
    Rel blocks l l' (if p then .risky else a) (if q then .risky else a') := by
  by_cases hp : p
  · rw [if_pos hp]; trivial
  · by_cases hq : q
    · rw [if_pos hq]; exact Rel.risky_right _
    · rw [if_neg hp, if_neg hq]; exact h

/-- Runners that give the same answers. -/
def RunRel (blocks : Bool) (run run' : Runner) : Prop :=
  ∀ r flag l l', blankless blocks r = true → squeeze l = squeeze l' → Rel blocks l l' (run r flag l) (run' r flag l')

theorem eofAt_rel (blocks : Bool) (b : RuleBase) (skip : Bool) {l l' : List Rune} (h : squeeze l = squeeze l') :
    Rel blocks l l' (eofAt b skip l) (eofAt b skip l') := by
  have hc := Cut.blank h skip
  have hn := nil_of_squeeze hc.after
  unfold eofAt
  by_cases he : l.drop (Spec.blank skip l).length = []
  · simp only [if_pos he, if_pos (hn.1 he)]
    exact ⟨rfl, rfl, hc⟩
  · simp only [if_neg he, if_neg (fun k => he (hn.2 k))]
    rfl

theorem blank_white {skip : Bool} {l : List Rune} {c : Rune} (h : c ∈ Spec.blank skip l) : isWhiteSpace c = true := by
  unfold Spec.blank at h
  split at h
  · have := List.all_takeWhile (p := isWhiteSpace) (l := l)
    exact List.all_eq_true.1 this c h
  · cases h

theorem oneAt_rel (blocks : Bool) (rt : RType) (b : RuleBase) (skip : Bool) {p : Rune → Bool} (hp : ∀ c, isWhiteSpace c = true → p c = false)
    {l l' : List Rune} (h : squeeze l = squeeze l') : Rel blocks l l' (oneAt rt b skip p l) (oneAt rt b skip p l') := by
  have hc := Cut.blank h skip
  have hf : ∀ m : List Rune, (Spec.blank skip m).findIdx? p = none := by
    intro m
    rw [List.findIdx?_eq_none_iff]
    intro c hm
    exact hp c (blank_white hm)
  unfold oneAt
  simp only [hf]
  have ha := hc.after
  cases hd : l.drop (Spec.blank skip l).length with
  | nil =>
    rw [(nil_of_squeeze ha).1 hd]
    rfl
  | cons c t =>
    rw [hd] at ha
    by_cases hw : isWhiteSpace c = true
    · cases hd' : l'.drop (Spec.blank skip l').length with
      | nil => rw [hd'] at ha; exact absurd ha squeeze_ne
      | cons c' t' =>
        rw [hd'] at ha
        have hw' : isWhiteSpace c' = true := by have := head_of_squeeze ha; simp only [whiteHead] at this; rw [← this]; exact hw
        simp only [hp c hw, hp c' hw']
        rfl
    · obtain ⟨t', e1, e2⟩ := solid_head (by simpa using hw) ha
      rw [e1]
      simp only
      by_cases hpc : p c = true
      · rw [if_pos hpc, if_pos hpc]
        refine ⟨rfl, rfl, Cut.trans hc ?_⟩
        rw [hd, e1]
        exact Cut.one (by simpa using hw) e2
      · rw [if_neg hpc, if_neg hpc]
        rfl

theorem textAt_rel (blocks : Bool) (rt : RType) (b : RuleBase) (sticky skip : Bool) {text : List Rune} (ht : noWhite text = true)
    {l l' : List Rune} (h : squeeze l = squeeze l') : Rel blocks l l' (textAt rt b sticky skip text l) (textAt rt b sticky skip text l') := by
  have hc := Cut.blank h skip
  have hlead : (if skip then text.takeWhile isWhiteSpace else []) = [] := by
    split
    · cases text with
      | nil => rfl
      | cons c text =>
        simp only [noWhite, List.all_cons, Bool.and_eq_true, Bool.not_eq_true'] at ht
        rw [List.takeWhile_cons_of_neg (by simp [ht.1])]
    · rfl
  have hs : ∀ m : List Rune, ([] : List Rune).isSuffixOf m = true := fun m => by simp
  unfold textAt
  simp only [hlead, List.length_nil, List.drop_zero, hs, if_true]
  by_cases hl : l = []
  · rw [if_pos hl, if_pos ((nil_of_squeeze h).1 hl)]
    rfl
  · rw [if_neg hl, if_neg (fun k => hl ((nil_of_squeeze h).2 k)), prefix_iff ht hc.after]
    split
    · rename_i hp
      have hp' := hp
      rw [← prefix_iff ht hc.after, List.isPrefixOf_iff_prefix] at hp'
      exact ⟨rfl, rfl, Cut.trans hc (Cut.text ht hc.after hp').2⟩
    · rfl

/-! ### Loops -/

section
variable {blocks : Bool} {run run' : Runner}

theorem seqAt_rel (hrun : RunRel blocks run run') (b : RuleBase) {l l' : List Rune} (rs : List Rule) (hrs : blanklessL blocks rs = true)
    (pos pos' look look' : Nat) (st : Bool) (flag : Int) (nodes nodes' : List Node) (hc : Cut l l' pos pos')
    (hn : nodes.map (view blocks) = nodes'.map (view blocks)) :
    Rel blocks l l' (seqAt run b l rs pos look st flag nodes) (seqAt run' b l' rs pos' look' st flag nodes') := by
  induction rs generalizing pos pos' look look' st flag nodes nodes' with
  | nil => exact ⟨view_inner hn, rfl, hc⟩
  | cons r rs ih =>
    simp only [blanklessL, Bool.and_eq_true] at hrs
    have h := hrun r flag _ _ hrs.1 hc.after
    simp only [seqAt]
    revert h
    cases run r flag (l.drop pos) with
    | oof => intro _; trivial
    | risky => intro _; trivial
    | fail n s =>
      cases run' r flag (l'.drop pos') with
      | fail n' s' => intro h; simp only [Rel] at h ⊢; rw [h]
      | oof => intro _; trivial
      | risky => intro _; trivial
      | ambiguous => intro h; exact h.elim
      | hit => intro h; exact h.elim
    | ambiguous n =>
      cases run' r flag (l'.drop pos') with
      | ambiguous n' => intro _; rfl
      | oof => intro _; trivial
      | risky => intro _; trivial
      | fail => intro h; exact h.elim
      | hit => intro h; exact h.elim
    | hit nd u n s =>
      cases run' r flag (l'.drop pos') with
      | hit nd' u' n' s' =>
        rintro ⟨h1, rfl, h3⟩
        simp only
        split
        · trivial
        · split
          · exact Rel.risky_right _
          · rw [view_flag h1]
            exact ih hrs.2 _ _ _ _ _ _ _ _ (Cut.trans hc h3) (by simp [hn, h1])
      | oof => intro _; exact Rel.oof_right _
      | risky => intro _; exact Rel.risky_right _
      | fail => intro h; exact h.elim
      | ambiguous => intro h; exact h.elim

theorem repEnd_rel (b : RuleBase) (mn : Nat) {l l' : List Rune} {pos pos' : Nat} (look look' : Nat) (st : Bool) {nodes nodes' : List Node}
    (hc : Cut l l' pos pos') (hn : nodes.map (view blocks) = nodes'.map (view blocks)) :
    Rel blocks l l' (repEnd b mn pos look st nodes) (repEnd b mn pos' look' st nodes') := by
  have hl : nodes.length = nodes'.length := by simpa using congrArg List.length hn
  unfold repEnd
  rw [hl]
  split
  · rfl
  · exact ⟨view_inner hn, rfl, hc⟩

theorem repAt_rel (hrun : RunRel blocks run run') (b : RuleBase) {r : Rule} (hr : blankless blocks r = true) (mn mx : Nat) (flag : Int)
    {l l' : List Rune} (fuel fuel' pos pos' look look' : Nat) (st : Bool) (nodes nodes' : List Node) (hc : Cut l l' pos pos')
    (hn : nodes.map (view blocks) = nodes'.map (view blocks)) :
    Rel blocks l l' (repAt run b r mn mx flag l fuel pos look st nodes) (repAt run' b r mn mx flag l' fuel' pos' look' st nodes') := by
  induction fuel generalizing fuel' pos pos' look look' st nodes nodes' with
  | zero => trivial
  | succ fuel ih =>
    cases fuel' with
    | zero => exact Rel.oof_right _
    | succ fuel' =>
      have hl : nodes.length = nodes'.length := by simpa using congrArg List.length hn
      simp only [repAt]
      by_cases he : l.drop pos = []
      · rw [if_pos he, if_pos ((nil_of_squeeze hc.after).1 he)]
        exact repEnd_rel b mn _ _ _ hc hn
      rw [if_neg he, if_neg (fun k => he ((nil_of_squeeze hc.after).2 k))]
      have h := hrun r flag _ _ hr hc.after
      revert h
      cases run r flag (l.drop pos) with
      | oof => intro _; trivial
      | risky => intro _; trivial
      | fail n s =>
        cases run' r flag (l'.drop pos') with
        | fail n' s' =>
          intro h
          simp only [Rel] at h
          subst h
          exact repEnd_rel b mn _ _ _ hc hn
        | oof => intro _; exact Rel.oof_right _
        | risky => intro _; exact Rel.risky_right _
        | ambiguous => intro h; exact h.elim
        | hit => intro h; exact h.elim
      | ambiguous n => intro _; trivial
      | hit nd u n s =>
        cases run' r flag (l'.drop pos') with
        | hit nd' u' n' s' =>
          rintro ⟨h1, rfl, h3⟩
          simp only [hl]
          have hn' : (nodes ++ [nd]).map (view blocks) = (nodes' ++ [nd']).map (view blocks) := by simp [hn, h1]
          split
          · split
            · trivial
            · split
              · exact Rel.risky_right _
              · exact repEnd_rel b mn _ _ _ (Cut.trans hc h3) hn'
          · split
            · trivial
            · split
              · exact Rel.risky_right _
              · exact ih _ _ _ _ _ _ _ _ (Cut.trans hc h3) hn'
        | oof => intro _; exact Rel.oof_right _
        | risky => intro _; exact Rel.risky_right _
        | fail => intro h; exact h.elim
        | ambiguous => intro h; exact h.elim

/-! ### Choices -/

/-- The same hits. -/
inductive Hits (blocks : Bool) (l l' : List Rune) : List (Node × Nat × Bool) → List (Node × Nat × Bool) → Prop
  | nil : Hits blocks l l' [] []
  | cons {nd nd' u u' st hs hs'} (h1 : view blocks nd = view blocks nd') (h2 : Cut l l' u u') (h : Hits blocks l l' hs hs') :
      Hits blocks l l' ((nd, u, st) :: hs) ((nd', u', st) :: hs')

/-- The same alternatives. -/
def AltsRel (blocks : Bool) (l l' : List Rune) : Alts → Alts → Prop
  | .ok hs _ st, .ok hs' _ st' => Hits blocks l l' hs hs' ∧ st = st'
  | _, _ => True

theorem AltsRel.oof_right {blocks l l'} (a : Alts) : AltsRel blocks l l' a .oof := by cases a <;> trivial
theorem AltsRel.risky_right {blocks l l'} (a : Alts) : AltsRel blocks l l' a .risky := by cases a <;> trivial

theorem altsAt_rel (hrun : RunRel blocks run run') (flag : Int) {l l' : List Rune} (hl : squeeze l = squeeze l') (rs : List Rule)
    (hrs : blanklessL blocks rs = true) (look look' : Nat) (st : Bool) :
    AltsRel blocks l l' (altsAt run flag l rs look st) (altsAt run' flag l' rs look' st) := by
  induction rs generalizing look look' st with
  | nil => exact ⟨.nil, rfl⟩
  | cons r rs ih =>
    simp only [blanklessL, Bool.and_eq_true] at hrs
    have h := hrun r flag _ _ hrs.1 hl
    simp only [altsAt]
    revert h
    cases run r flag l with
    | oof => intro _; trivial
    | risky => intro _; trivial
    | fail n s =>
      cases run' r flag l' with
      | fail n' s' =>
        intro h
        simp only [Rel] at h
        subst h
        exact ih hrs.2 _ _ _
      | oof => intro _; exact AltsRel.oof_right _
      | risky => intro _; exact AltsRel.risky_right _
      | ambiguous => intro h; exact h.elim
      | hit => intro h; exact h.elim
    | ambiguous n =>
      cases run' r flag l' with
      | ambiguous n' => intro h; exact ih hrs.2 _ _ _
      | oof => intro _; exact AltsRel.oof_right _
      | risky => intro _; exact AltsRel.risky_right _
      | fail => intro h; exact h.elim
      | hit => intro h; exact h.elim
    | hit nd u n s =>
      cases run' r flag l' with
      | hit nd' u' n' s' =>
        rintro ⟨h1, rfl, h3⟩
        have i := ih hrs.2 (max look n) (max look' n') (st && s)
        simp only
        revert i
        cases altsAt run flag l rs (max look n) (st && s) with
        | oof => intro _; trivial
        | risky => intro _; trivial
        | ok hs lk sk =>
          cases altsAt run' flag l' rs (max look' n') (st && s) with
          | oof => intro _; trivial
          | risky => intro _; trivial
          | ok hs' lk' sk' =>
            rintro ⟨i1, i2⟩
            exact ⟨.cons h1 h3 i1, i2⟩
      | oof => intro _; exact AltsRel.oof_right _
      | risky => intro _; exact AltsRel.risky_right _
      | fail => intro h; exact h.elim
      | ambiguous => intro h; exact h.elim

theorem Hits.longest {l l' : List Rune} (hl : squeeze l = squeeze l') {hs hs'} (h : Hits blocks l l' hs hs') :
    Cut l l' (longest hs) (longest hs') := by
  induction h with
  | nil => exact Cut.zero hl
  | cons h1 h2 h ih => exact Cut.max h2 ih

theorem Hits.filter {l l' : List Rune} {hs hs'} (h : Hits blocks l l' hs hs') {m m' : Nat} (hm : Cut l l' m m') :
    Hits blocks l l' (hs.filter (fun h => h.2.1 == m)) (hs'.filter (fun h => h.2.1 == m')) := by
  induction h with
  | nil => exact .nil
  | @cons nd nd' u u' st hs hs' h1 h2 h ih =>
    have e := Cut.eq_iff h2 hm
    by_cases hu : u = m
    · rw [List.filter_cons_of_pos (by simpa using hu), List.filter_cons_of_pos (by simpa using e.1 hu)]
      exact .cons h1 h2 ih
    · rw [List.filter_cons_of_neg (by simpa using hu), List.filter_cons_of_neg (by simpa using fun k => hu (e.2 k))]
      exact ih

theorem Hits.tie {l l' : List Rune} {hs hs'} (h : Hits blocks l l' hs hs') :
    (∀ m m', Cut l l' m m' → runningTie (some m) hs = runningTie (some m') hs') ∧ runningTie none hs = runningTie none hs' := by
  induction h with
  | nil => exact ⟨fun _ _ _ => rfl, rfl⟩
  | @cons nd nd' u u' st hs hs' h1 h2 h ih =>
    refine ⟨fun m m' hm => ?_, ih.1 u u' h2⟩
    have e : (u == m) = (u' == m') := by
      rw [Bool.eq_iff_iff, beq_iff_eq, beq_iff_eq]
      exact Cut.eq_iff h2 hm
    simp only [runningTie, e, ih.1 _ _ (Cut.max hm h2)]

/-- The same choice. -/
def BestRel (blocks : Bool) (l l' : List Rune) : Best → Best → Prop
  | .none, .none => True
  | .tie, .tie => True
  | .order, .order => True
  | .one nd u st, .one nd' u' st' => view blocks nd = view blocks nd' ∧ st = st' ∧ Cut l l' u u'
  | _, _ => False

theorem best_rel {l l' : List Rune} (hl : squeeze l = squeeze l') {hs hs'} (h : Hits blocks l l' hs hs') :
    BestRel blocks l l' (best hs) (best hs') := by
  have hf := h.filter (h.longest hl)
  have ht := h.tie.2
  unfold best
  generalize hs.filter (fun h => h.2.1 == Spec.longest hs) = fs at hf ⊢
  generalize hs'.filter (fun h => h.2.1 == Spec.longest hs') = fs' at hf ⊢
  cases hf with
  | nil => trivial
  | cons h1 h2 h =>
    cases h with
    | nil =>
      simp only [ht]
      split
      · trivial
      · exact ⟨h1, rfl, h2⟩
    | cons => trivial

theorem choiceAt_rel (hrun : RunRel blocks run run') (b : RuleBase) (flag : Int) {l l' : List Rune} (hl : squeeze l = squeeze l')
    (gs : List (List Rule)) (hgs : blanklessLL blocks gs = true) (look look' : Nat) (st : Bool) :
    Rel blocks l l' (choiceAt run b flag l gs look st) (choiceAt run' b flag l' gs look' st) := by
  induction gs generalizing look look' st with
  | nil => rfl
  | cons g gs ih =>
    simp only [blanklessLL, Bool.and_eq_true] at hgs
    have h := altsAt_rel hrun flag hl g hgs.1 look look' st
    simp only [choiceAt]
    revert h
    cases altsAt run flag l g look st with
    | oof => intro _; trivial
    | risky => intro _; trivial
    | ok hs lk sk =>
      cases altsAt run' flag l' g look' st with
      | oof => intro _; exact Rel.oof_right _
      | risky => intro _; exact Rel.risky_right _
      | ok hs' lk' sk' =>
        rintro ⟨h1, rfl⟩
        have hb := best_rel hl h1
        simp only
        revert hb
        cases best hs <;> cases best hs' <;> intro hb <;> first | exact hb.elim | skip
        · exact ih hgs.2 _ _ _
        · trivial
        · trivial
        · exact ⟨view_inner (by simp [hb.1]), rfl, hb.2.2⟩

/-! ### Blocks -/

theorem escapeAt_rel (hrun : RunRel blocks run run') (escape : Option Rule) (he : blanklessO blocks escape = true) (ne : Bool)
    {l l' : List Rune} (hl : squeeze l = squeeze l') : Rel blocks l l' (escapeAt run escape ne l) (escapeAt run' escape ne l') := by
  cases escape with
  | none => rfl
  | some e =>
    have h := hrun e NOT_SKIP _ _ he hl
    simp only [escapeAt]
    revert h
    cases run e NOT_SKIP l with
    | oof => intro _; trivial
    | risky => intro _; trivial
    | hit => intro _; trivial
    | fail n s =>
      simp only
      cases run' e NOT_SKIP l' with
      | oof => intro _; exact Rel.oof_right _
      | risky => intro _; exact Rel.risky_right _
      | hit => intro _; exact Rel.risky_right _
      | ambiguous => intro h; exact h.elim
      | fail n' s' =>
        intro h
        simp only
        split
        · trivial
        · split
          · trivial
          · exact h
    | ambiguous n =>
      simp only
      cases run' e NOT_SKIP l' with
      | oof => intro _; exact Rel.oof_right _
      | risky => intro _; exact Rel.risky_right _
      | hit => intro _; exact Rel.risky_right _
      | fail => intro h; exact h.elim
      | ambiguous n' =>
        intro h
        simp only
        split
        · trivial
        · split
          · trivial
          · rfl

theorem excludeAt_rel (hrun : RunRel blocks run run') (excludes : List Rule) (hx : blanklessL blocks excludes = true)
    {l l' : List Rune} (hl : squeeze l = squeeze l') : Rel blocks l l' (excludeAt run excludes l) (excludeAt run' excludes l') := by
  have h := altsAt_rel hrun NOT_SKIP hl excludes hx 0 0 true
  simp only [excludeAt]
  revert h
  cases altsAt run NOT_SKIP l excludes 0 true with
  | oof => intro _; trivial
  | risky => intro _; trivial
  | ok hs lk sk =>
    cases altsAt run' NOT_SKIP l' excludes 0 true with
    | oof => intro _; exact Rel.oof_right _
    | risky => intro _; exact Rel.risky_right _
    | ok hs' lk' sk' =>
      rintro ⟨h1, rfl⟩
      have hb := best_rel hl h1
      simp only
      revert hb
      cases best hs <;> cases best hs' <;> intro hb <;> first | exact hb.elim | skip
      · rfl
      · trivial
      · trivial
      · exact hb

/-- No match, or nothing definite. -/
def Dead : Ans → Prop
  | .hit _ _ _ _ => False
  | _ => True

theorem Rel.dead {l l'} {a a' : Ans} (h : Rel blocks l l' a a') (hd : ∃ n st, a = .fail n st) : Dead a' := by
  obtain ⟨n, st, rfl⟩ := hd
  cases a' <;> trivial

theorem Rel.dead' {l l'} {a a' : Ans} (h : Rel blocks l l' a a') (hd : ∃ n st, a' = .fail n st) : Dead a := by
  obtain ⟨n, st, rfl⟩ := hd
  cases a <;> trivial

/-- A run of white space in a block: if nothing ends the block at its first character, nothing does at the others. -/
theorem blockAt_white (b : RuleBase) (v : Bool) (close : Rule) (escape : Option Rule) (excludes : List Rule) (opn : Node) (start : Nat)
    {l : List Rune} (k : Nat) (pos : Nat) (hk : ((l.drop pos).takeWhile isWhiteSpace).length = k + 1)
    (hd : ∀ m, squeeze m = squeeze (l.drop pos) → Dead (excludeAt run excludes m) ∧ Dead (run close NOT_SKIP m)) (fuel look : Nat) :
    blockAt run b v close escape excludes opn start l fuel pos look = .oof ∨
    blockAt run b v close escape excludes opn start l fuel pos look = .risky ∨
    ∃ fuel' look', fuel' < fuel ∧ blockAt run b v close escape excludes opn start l fuel pos look =
      blockAt run b v close escape excludes opn start l fuel' (pos + (k + 1)) look' := by
  induction k generalizing pos fuel look with
  | zero =>
    cases fuel with
    | zero => exact .inl rfl
    | succ fuel =>
      have hne : l.drop pos ≠ [] := by intro hc; rw [hc] at hk; cases hk
      obtain ⟨d1, d2⟩ := hd _ rfl
      simp only [blockAt]
      cases escapeAt run escape excludes.isEmpty (l.drop pos) with
      | oof => exact .inl rfl
      | risky => exact .inr (.inl rfl)
      | hit => exact .inr (.inl rfl)
      | ambiguous => exact .inr (.inl rfl)
      | fail ne s =>
        simp only
        revert d1
        cases excludeAt run excludes (l.drop pos) with
        | oof => intro _; exact .inl rfl
        | risky => intro _; exact .inr (.inl rfl)
        | ambiguous => intro _; exact .inr (.inl rfl)
        | hit => intro h; exact h.elim
        | fail nx s =>
          intro _
          simp only
          revert d2
          cases run close NOT_SKIP (l.drop pos) with
          | oof => intro _; exact .inl rfl
          | risky => intro _; exact .inr (.inl rfl)
          | ambiguous => intro _; exact .inr (.inl rfl)
          | hit => intro h; exact h.elim
          | fail n s =>
            intro _
            simp only [if_neg hne]
            exact .inr (.inr ⟨fuel, _, Nat.lt_succ_self _, rfl⟩)
  | succ k ih =>
    cases fuel with
    | zero => exact .inl rfl
    | succ fuel =>
      have hne : l.drop pos ≠ [] := by intro hc; rw [hc] at hk; cases hk
      obtain ⟨d1, d2⟩ := hd _ rfl
      obtain ⟨c, t, hct⟩ := List.exists_cons_of_ne_nil hne
      have hdrop : l.drop (pos + 1) = t := by rw [← List.drop_drop, hct]; rfl
      have hcw : isWhiteSpace c = true := by
        rw [hct] at hk
        apply Classical.byContradiction
        intro hc
        rw [List.takeWhile_cons_of_neg hc] at hk
        cases hk
      have hk' : (t.takeWhile isWhiteSpace).length = k + 1 := by
        rw [hct, List.takeWhile_cons_of_pos hcw, List.length_cons] at hk
        omega
      have hwt : whiteHead t = true := by
        cases t with
        | nil => cases hk'
        | cons d t =>
          apply Classical.byContradiction
          intro hc
          rw [List.takeWhile_cons_of_neg (by simpa [whiteHead] using hc)] at hk'
          cases hk'
      have hsq : squeeze (l.drop (pos + 1)) = squeeze (l.drop pos) := by
        rw [hdrop, hct, squeeze, if_pos hcw, if_pos hwt]
      simp only [blockAt]
      cases escapeAt run escape excludes.isEmpty (l.drop pos) with
      | oof => exact .inl rfl
      | risky => exact .inr (.inl rfl)
      | hit => exact .inr (.inl rfl)
      | ambiguous => exact .inr (.inl rfl)
      | fail ne s =>
        simp only
        revert d1
        cases excludeAt run excludes (l.drop pos) with
        | oof => intro _; exact .inl rfl
        | risky => intro _; exact .inr (.inl rfl)
        | ambiguous => intro _; exact .inr (.inl rfl)
        | hit => intro h; exact h.elim
        | fail nx s =>
          intro _
          simp only
          revert d2
          cases run close NOT_SKIP (l.drop pos) with
          | oof => intro _; exact .inl rfl
          | risky => intro _; exact .inr (.inl rfl)
          | ambiguous => intro _; exact .inr (.inl rfl)
          | hit => intro h; exact h.elim
          | fail n s =>
            intro _
            simp only [if_neg hne]
            rcases ih (pos + 1) (by rw [hdrop]; exact hk') (fun m hm => hd m (hm.trans hsq)) fuel _ with h | h | ⟨f, lk, h1, h2⟩
            · exact .inl h
            · exact .inr (.inl h)
            · refine .inr (.inr ⟨f, lk, by omega, ?_⟩)
              rw [h2]
              congr 1
              omega

theorem blockAt_rel (hb : blocks = true) (hrun : RunRel blocks run run') (b : RuleBase) (v : Bool) {close : Rule} {escape : Option Rule} {excludes : List Rule}
    (hclose : blankless blocks close = true) (he : blanklessO blocks escape = true) (hx : blanklessL blocks excludes = true)
    {opn opn' : Node} (ho : view blocks opn = view blocks opn') {l l' : List Rune} {start start' : Nat} (hs : Cut l l' start start')
    (fuel fuel' pos pos' look look' : Nat) (hc : Cut l l' pos pos') (hle : start ≤ pos) :
    Rel blocks l l' (blockAt run b v close escape excludes opn start l fuel pos look)
      (blockAt run' b v close escape excludes opn' start' l' fuel' pos' look') := by
  induction fuel using Nat.strongRecOn generalizing fuel' pos pos' look look' with
  | ind fuel ih =>
    have hesc := escapeAt_rel hrun escape he excludes.isEmpty hc.after
    have hexc := excludeAt_rel hrun excludes hx hc.after
    have hcl := hrun close NOT_SKIP _ _ hclose hc.after
    -- what nothing definite or a match does
    cases fuel with
    | zero => trivial
    | succ fuel =>
      cases fuel' with
      | zero => exact Rel.oof_right _
      | succ fuel' =>
        have step : (∃ n s, excludeAt run excludes (l.drop pos) = .fail n s) → (∃ n s, excludeAt run' excludes (l'.drop pos') = .fail n s) →
            (∃ n s, run close NOT_SKIP (l.drop pos) = .fail n s) → (∃ n s, run' close NOT_SKIP (l'.drop pos') = .fail n s) →
            whiteHead (l.drop pos) = true →
            Rel blocks l l' (blockAt run b v close escape excludes opn start l (fuel + 1) pos look)
              (blockAt run' b v close escape excludes opn' start' l' (fuel' + 1) pos' look') := by
          intro e1 e2 e3 e4 hw
          have hw' : whiteHead (l'.drop pos') = true := by rw [← head_of_squeeze hc.after]; exact hw
          have len : ∀ m : List Rune, whiteHead m = true → ∃ k, (m.takeWhile isWhiteSpace).length = k + 1 := by
            intro m hm
            cases m with
            | nil => cases hm
            | cons c m => exact ⟨_, by rw [List.takeWhile_cons_of_pos (show isWhiteSpace c = true from hm), List.length_cons]⟩
          obtain ⟨k, hk⟩ := len _ hw
          obtain ⟨k', hk'⟩ := len _ hw'
          have hsp := Cut.trans hc (Cut.spaces hc.after)
          rw [hk, hk'] at hsp
          rcases blockAt_white (run := run) b v close escape excludes opn start k pos hk
              (fun m hm => ⟨Rel.dead' (excludeAt_rel hrun excludes hx (hm.trans hc.after)) e2, Rel.dead' (hrun close NOT_SKIP _ _ hclose (hm.trans hc.after)) e4⟩)
              (fuel + 1) look with h | h | ⟨f, lk, h1, h2⟩
          · rw [h]; trivial
          · rw [h]; trivial
          rcases blockAt_white (run := run') b v close escape excludes opn' start' k' pos' hk'
              (fun m hm => ⟨Rel.dead (excludeAt_rel hrun excludes hx (hc.after.trans hm.symm)) e1, Rel.dead (hrun close NOT_SKIP _ _ hclose (hc.after.trans hm.symm)) e3⟩)
              (fuel' + 1) look' with h | h | ⟨f', lk', h1', h2'⟩
          · rw [h]; exact Rel.oof_right _
          · rw [h]; exact Rel.risky_right _
          rw [h2, h2']
          exact ih f h1 _ _ _ _ _ hsp (by omega)
        revert step
        simp only [blockAt]
        revert hesc
        cases escapeAt run escape excludes.isEmpty (l.drop pos) with
        | oof => intro _ _; trivial
        | risky => intro _ _; trivial
        | hit => intro _ _; trivial
        | ambiguous => intro _ _; trivial
        | fail ne s =>
        cases escapeAt run' escape excludes.isEmpty (l'.drop pos') with
        | oof => intro _ _; exact Rel.oof_right _
        | risky => intro _ _; exact Rel.risky_right _
        | hit => intro _ _; exact Rel.risky_right _
        | ambiguous => intro _ _; exact Rel.risky_right _
        | fail ne' s' =>
        intro _
        simp only
        revert hexc
        cases excludeAt run excludes (l.drop pos) with
        | oof => intro _ _; trivial
        | risky => intro _ _; trivial
        | ambiguous => intro _ _; trivial
        | hit nd u nx s =>
          cases excludeAt run' excludes (l'.drop pos') with
          | oof => intro _ _; exact Rel.oof_right _
          | risky => intro _ _; exact Rel.risky_right _
          | ambiguous => intro h; exact h.elim
          | fail => intro h; exact h.elim
          | hit =>
            intro _ _
            simp only
            split
            · trivial
            · split
              · exact Rel.risky_right _
              · rfl
        | fail nx s =>
        cases excludeAt run' excludes (l'.drop pos') with
        | oof => intro _ _; exact Rel.oof_right _
        | risky => intro _ _; exact Rel.risky_right _
        | ambiguous => intro h; exact h.elim
        | hit => intro h; exact h.elim
        | fail nx' s' =>
        intro _
        simp only
        revert hcl
        cases run close NOT_SKIP (l.drop pos) with
        | oof => intro _ _; trivial
        | risky => intro _ _; trivial
        | ambiguous => intro _ _; trivial
        | hit nd u n s =>
          cases run' close NOT_SKIP (l'.drop pos') with
          | oof => intro _ _; exact Rel.oof_right _
          | risky => intro _ _; exact Rel.risky_right _
          | ambiguous => intro h; exact h.elim
          | fail => intro h; exact h.elim
          | hit nd' u' n' s' =>
            rintro ⟨h1, rfl, h3⟩ _
            refine Rel.guard ⟨view_inner ?_, rfl, ?_⟩
            · have hcon : squeeze ((l.drop start).take (pos - start)) = squeeze ((l'.drop start').take (pos' - start')) :=
                Cut.between hs hc hle ((Cut.le_iff hs hc).1 hle)
              simp only [List.map_append, List.map_cons, List.map_nil, ho]
              congr 1
              · subst hb
                simp only [view, if_true, Node.squeeze, hcon]
              · cases v
                · simp [h1]
                · rfl
            · cases v
              · exact Cut.trans hc h3
              · exact hc
        | fail n s =>
          cases run' close NOT_SKIP (l'.drop pos') with
          | oof => intro _ _; exact Rel.oof_right _
          | risky => intro _ _; exact Rel.risky_right _
          | ambiguous => intro h; exact h.elim
          | hit => intro h; exact h.elim
          | fail n' s' =>
            intro _ step
            by_cases hw : whiteHead (l.drop pos) = true
            · exact step ⟨_, _, rfl⟩ ⟨_, _, rfl⟩ ⟨_, _, rfl⟩ ⟨_, _, rfl⟩ hw
            · simp only
              by_cases hn : l.drop pos = []
              · rw [if_pos hn, if_pos ((nil_of_squeeze hc.after).1 hn)]
                rfl
              · rw [if_neg hn, if_neg (fun k => hn ((nil_of_squeeze hc.after).2 k))]
                obtain ⟨c, t, hct⟩ := List.exists_cons_of_ne_nil hn
                have hcw : isWhiteSpace c = false := by rw [hct] at hw; simpa [whiteHead] using hw
                have ha := hc.after
                rw [hct] at ha
                obtain ⟨t', e1, e2⟩ := solid_head hcw ha
                exact ih fuel (Nat.lt_succ_self _) _ _ _ _ _ (Cut.trans hc (by rw [hct, e1]; exact Cut.one hcw e2)) (by omega)

/-! ### Rules -/

theorem range_white {x y : Rune} (h : whiteSpaceTable.all (fun c => !between x y c) = true) (c : Rune) (hc : isWhiteSpace c = true) :
    between x y c = false := by
  simp only [List.all_eq_true, Bool.not_eq_true'] at h
  exact h c (by simpa [isWhiteSpace] using hc)

theorem run_rel {env : Name → Option Rule} (henv : BlanklessEnv blocks env) (fuel fuel' : Nat) : RunRel blocks (Spec.run env fuel) (Spec.run env fuel') := by
  induction fuel generalizing fuel' with
  | zero => intro r flag l l' _ _; trivial
  | succ fuel ih =>
    intro r flag l l' hr hl
    cases fuel' with
    | zero => exact Rel.oof_right _
    | succ fuel' =>
      have hrun := ih fuel'
      cases r with
      | eof b => exact eofAt_rel blocks b _ hl
      | char b t u =>
        simp only [Spec.run]
        refine Rel.guard (oneAt_rel blocks .char b _ ?_ hl)
        simp only [blankless, Bool.not_eq_true'] at hr
        intro c hc
        rw [beq_eq_false_iff_ne]
        rintro rfl
        rw [hc] at hr
        cases hr
      | range b x xu y yu =>
        simp only [Spec.run]
        exact Rel.guard (oneAt_rel blocks .chars b _ (range_white hr) hl)
      | chars b t => exact textAt_rel blocks .chars b true _ hr hl
      | str b t => exact textAt_rel blocks .string b false _ hr hl
      | group b r =>
        have h := hrun r flag _ _ hr hl
        simp only [Spec.run]
        revert h
        cases Spec.run env fuel r flag l <;> cases Spec.run env fuel' r flag l' <;> intro h <;> first | trivial | exact h.elim | exact rfl | skip
        · exact ⟨by rw [h.2.1]; exact view_inner (by simp [h.1]), h.2.1, h.2.2⟩
      | option b r =>
        have h := hrun r flag _ _ hr hl
        simp only [Spec.run]
        revert h
        cases Spec.run env fuel r flag l <;> cases Spec.run env fuel' r flag l' <;> intro h <;> first | trivial | exact h.elim | skip
        · simp only [Rel] at h
          subst h
          exact ⟨rfl, rfl, Cut.zero hl⟩
        · exact ⟨by rw [h.2.1]; exact view_inner (by simp [h.1]), h.2.1, h.2.2⟩
      | rep b r mn mx =>
        simp only [blankless] at hr
        exact repAt_rel hrun b hr mn mx flag _ _ _ _ _ _ _ _ _ (Cut.zero hl) rfl
      | choice b gs => exact choiceAt_rel hrun b flag hl gs hr _ _ _
      | concat b rs => exact seqAt_rel hrun b rs hr _ _ _ _ _ _ _ _ (Cut.zero hl) rfl
      | block b o v c e xs =>
        simp only [blankless, Bool.and_eq_true] at hr
        obtain ⟨⟨⟨⟨hb, h1⟩, h2⟩, h3⟩, h4⟩ := hr
        have h := hrun o flag _ _ h1 hl
        simp only [Spec.run]
        revert h
        cases Spec.run env fuel o flag l <;> cases Spec.run env fuel' o flag l' <;> intro h <;>
          first | trivial | exact h.elim | exact rfl | exact Rel.oof_right _ | exact Rel.risky_right _ | skip
        · exact Rel.guard (blockAt_rel hb hrun b v h2 h3 h4 h.1 h.2.2 _ _ _ _ _ _ h.2.2 (Nat.le_refl _))
      | ref b name =>
        simp only [Spec.run]
        cases hn : env name with
        | none => rfl
        | some r =>
          have h := hrun r flag _ _ (henv _ _ hn) hl
          simp only
          revert h
          cases Spec.run env fuel r flag l <;> cases Spec.run env fuel' r flag l' <;> intro h <;> first | trivial | exact h.elim | exact h | skip
          · exact ⟨view_flip b h.1, h.2⟩

/-! ### Documents -/

/-- The same round. -/
def RoundRel (blocks : Bool) (l l' : List Rune) : Round → Round → Prop
  | .oof, _ => True
  | .risky, _ => True
  | _, .oof => True
  | _, .risky => True
  | .noMatch, .noMatch => True
  | .tie, .tie => True
  | .step nd u _ st, .step nd' u' _ st' => view blocks nd = view blocks nd' ∧ st = st' ∧ Cut l l' u u'
  | _, _ => False

theorem RoundRel.oof_right {blocks l l'} (a : Round) : RoundRel blocks l l' a .oof := by cases a <;> trivial
theorem RoundRel.risky_right {blocks l l'} (a : Round) : RoundRel blocks l l' a .risky := by cases a <;> trivial

theorem roots_rel (hrun : RunRel blocks run run') (flag : Int) {l l' : List Rune} (hl : squeeze l = squeeze l') (roots : List Rule)
    (hr : blanklessL blocks roots = true) :
    let as := roots.map (fun r => run r flag l)
    let as' := roots.map (fun r => run' r flag l')
    as.any isOof = false → as.any isRisky = false → as'.any isOof = false → as'.any isRisky = false →
    Hits blocks l l' (as.filterMap hitOf) (as'.filterMap hitOf) := by
  induction roots with
  | nil => intro _ _ _ _ _ _; exact .nil
  | cons r rs ih =>
    simp only [blanklessL, Bool.and_eq_true] at hr
    have h := hrun r flag _ _ hr.1 hl
    have i := ih hr.2
    simp only [List.map_cons, List.any_cons, Bool.or_eq_false_iff, List.filterMap_cons] at i ⊢
    revert h
    cases run r flag l <;> cases run' r flag l' <;> intro h h1 h2 h3 h4 <;>
      first
        | exact h.elim
        | exact Bool.noConfusion (show true = false from h1.1)
        | exact Bool.noConfusion (show true = false from h2.1)
        | exact Bool.noConfusion (show true = false from h3.1)
        | exact Bool.noConfusion (show true = false from h4.1)
        | exact i h1.2 h2.2 h3.2 h4.2
        | skip
    obtain ⟨g1, rfl, g3⟩ := h
    exact .cons g1 g3 (i h1.2 h2.2 h3.2 h4.2)

theorem roundAt_rel (hrun : RunRel blocks run run') (flag : Int) {l l' : List Rune} (hl : squeeze l = squeeze l') (roots : List Rule)
    (hr : blanklessL blocks roots = true) (pending pending' : Nat) :
    RoundRel blocks l l' (roundAt run roots flag pending l) (roundAt run' roots flag pending' l') := by
  have h := roots_rel hrun flag hl roots hr
  simp only at h
  unfold roundAt
  simp only
  by_cases h1 : (roots.map (fun r => run r flag l)).any isOof = true
  · rw [if_pos h1]; trivial
  rw [if_neg h1]
  by_cases h2 : (roots.map (fun r => run r flag l)).any isRisky = true
  · rw [if_pos h2]; trivial
  rw [if_neg h2]
  by_cases h3 : (roots.map (fun r => run' r flag l')).any isOof = true
  · rw [if_pos h3]; exact RoundRel.oof_right _
  rw [if_neg h3]
  by_cases h4 : (roots.map (fun r => run' r flag l')).any isRisky = true
  · rw [if_pos h4]; exact RoundRel.risky_right _
  rw [if_neg h4]
  replace h := h (by simpa using h1) (by simpa using h2) (by simpa using h3) (by simpa using h4)
  generalize ((roots.map (fun r => run r flag l)).map looked).foldr max 0 = look
  generalize ((roots.map (fun r => run' r flag l')).map looked).foldr max 0 = look'
  by_cases h5 : 2 < roots.length ∧ (roots.map (fun r => run r flag l)).any (fun a => looked a != look) = true
  · rw [if_pos h5]; trivial
  rw [if_neg h5]
  by_cases h6 : 2 < roots.length ∧ (roots.map (fun r => run' r flag l')).any (fun a => looked a != look') = true
  · rw [if_pos h6]; exact RoundRel.risky_right _
  rw [if_neg h6]
  generalize (roots.map (fun r => run r flag l)).filterMap hitOf = hs at h ⊢
  generalize (roots.map (fun r => run' r flag l')).filterMap hitOf = hs' at h ⊢
  have hf := h.filter (h.longest hl)
  generalize hs.filter (fun h => h.2.1 == Spec.longest hs) = fs at hf ⊢
  generalize hs'.filter (fun h => h.2.1 == Spec.longest hs') = fs' at hf ⊢
  cases hf with
  | nil => trivial
  | cons g1 g2 g =>
    cases g with
    | nil =>
      simp only
      split
      · trivial
      · split
        · split
          · exact RoundRel.risky_right _
          · split
            · exact ⟨g1, rfl, g2⟩
            · exact RoundRel.risky_right _
        · trivial
    | cons => trivial

/-- The same document. -/
def DocRel (blocks : Bool) : Doc → Doc → Prop
  | .oof, _ => True
  | .risky, _ => True
  | _, .oof => True
  | _, .risky => True
  | .noMatch, .noMatch => True
  | .ambiguity, .ambiguity => True
  | .nodes ns, .nodes ns' => ns.map (view blocks) = ns'.map (view blocks)
  | _, _ => False

theorem DocRel.oof_right {blocks} (a : Doc) : DocRel blocks a .oof := by cases a <;> trivial
theorem DocRel.risky_right {blocks} (a : Doc) : DocRel blocks a .risky := by cases a <;> trivial

theorem docAt_rel (hrun : RunRel blocks run run') (roots : List Rule) (hr : blanklessL blocks roots = true) (fuel fuel' : Nat) (flag : Int)
    (pending pending' : Nat) {l l' : List Rune} (hl : squeeze l = squeeze l') (nodes nodes' : List Node)
    (hn : nodes.map (view blocks) = nodes'.map (view blocks)) :
    DocRel blocks (docAt run roots fuel flag pending l nodes) (docAt run' roots fuel' flag pending' l' nodes') := by
  induction fuel generalizing fuel' flag pending pending' l l' nodes nodes' with
  | zero => trivial
  | succ fuel ih =>
    cases fuel' with
    | zero => exact DocRel.oof_right _
    | succ fuel' =>
      simp only [docAt]
      by_cases he : l = []
      · rw [if_pos he, if_pos ((nil_of_squeeze hl).1 he)]
        exact hn
      rw [if_neg he, if_neg (fun k => he ((nil_of_squeeze hl).2 k))]
      have h := roundAt_rel hrun flag hl roots hr pending pending'
      revert h
      cases roundAt run roots flag pending l <;> cases roundAt run' roots flag pending' l' <;> intro h <;>
        first | trivial | exact h.elim | exact DocRel.oof_right _ | exact DocRel.risky_right _ | skip
      obtain ⟨g1, rfl, g3⟩ := h
      exact ih _ _ _ _ g3.after _ _ (by simp [hn, g1])

end
end Gap
end Xbnf.Spec
