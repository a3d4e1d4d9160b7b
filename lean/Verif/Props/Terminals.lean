import Verif.Props.Rules
/-
Properties of the terminal rules: C16, C17, C40.
-/
namespace Xbnf.Props
open Spec

variable {env : Env}

/-- What an answer of the reference for a terminal means. -/
def Gives (s : Stream) (a : Ans) (res : Res) (s' : Stream) : Prop :=
  match a with
  | .hit nd u n _ => res.node.map Node.erase = some nd ∧ res.countUsed = u ∧ res.read = s.rem.take n ∧
      res.unused = (s.rem.take n).drop u ∧ (s'.pushBack res.unused).rem = s.rem.drop u
  | .fail n _ => res.node = none ∧ res.read = s.rem.take n ∧ res.unused = res.read ∧
      (s'.pushBack res.unused).rem = s.rem
  | _ => False

theorem gives {r : Rule} {flag : Int} {s : Stream} (fuel : Nat) (h : Ready s) {a : Ans}
    (hr : Spec.run env (fuel + 1) r flag s.rem = a)
    (ha : (∃ nd u n st, a = .hit nd u n st) ∨ ∃ n st, a = .fail n st) :
    ∃ res s', eval env (fuel + 1) r flag s = .ok (res, s') ∧ Gives s a res s' := by
  obtain ⟨res, s', k, e1, hadv, href⟩ := run_eval (env := env) (fuel := fuel + 1) (r := r)
    (flag := flag) h
    (by rw [hr]; rcases ha with ⟨_, _, _, _, rfl⟩ | ⟨_, _, rfl⟩ <;> intro hc <;> cases hc)
    (by rw [hr]; rcases ha with ⟨_, _, _, _, rfl⟩ | ⟨_, _, rfl⟩ <;> intro hc <;> cases hc)
  rw [hr] at href
  refine ⟨res, s', e1, ?_⟩
  rcases ha with ⟨nd, u, n, st, rfl⟩ | ⟨n, st, rfl⟩
  · obtain ⟨g1, g2, g3, g4, g5, g6, g7⟩ := ref_hit href
    refine ⟨g1, g2, g3, g4, ?_⟩
    rw [Stream.rem_pushBack, g4, hadv.rem, g7]
    have : s.rem.drop u = (s.rem.take n ++ s.rem.drop n).drop u := by rw [List.take_append_drop]
    rw [this, List.drop_append_of_le_length (by rw [List.length_take]; omega)]
  · obtain ⟨g1, g2, g3, g4, g5⟩ := ref_fail href
    refine ⟨g1, g2, by rw [g3, g2], ?_⟩
    rw [Stream.rem_pushBack, g3, hadv.rem, g5, List.take_append_drop]

/-! ## C16 -/

theorem blank_append (skip : Bool) (l : List Rune) :
    blank skip l ++ l.drop (blank skip l).length = l := by
  have := List.take_append_drop (blank skip l).length l
  rwa [L.take_blank] at this

theorem head_dropWhile {l : List Rune} {c : Rune} (h : c ∈ (l.dropWhile isWhiteSpace).head?) :
    isWhiteSpace c = false := by
  have := List.head?_dropWhile_not isWhiteSpace l
  rw [h] at this
  simpa using this

theorem takeWhile_append_stop {a b : List Rune} (ha : ∀ c ∈ a, isWhiteSpace c = true)
    (hb : ∀ c ∈ b.head?, isWhiteSpace c = false) : (a ++ b).takeWhile isWhiteSpace = a := by
  induction a with
  | nil =>
    cases b with
    | nil => rfl
    | cons x b => simp [hb x (by simp)]
  | cons x a ih =>
    rw [List.cons_append, List.takeWhile_cons, if_pos (ha x (by simp)),
      ih (fun c hc => ha c (List.mem_cons_of_mem _ hc))]

/-- The reference for texts matches exactly when the text comes next. -/
theorem textAt_comes {rt b sticky skip} {t l ws : List Rune} (h : Comes skip t l ws) :
    textAt rt b sticky skip t l =
      .hit (leaf rt b sticky t) (ws.length + t.length) (ws.length + t.length) sticky := by
  obtain ⟨hl, rest, rfl, hws, hns, hall⟩ := h
  cases skip with
  | false =>
    have := hns rfl
    subst this
    simp only [List.nil_append] at hl
    simp [textAt, blank, hl]
  | true =>
    have key : (ws ++ t ++ rest).takeWhile isWhiteSpace = ws ++ t.takeWhile isWhiteSpace := by
      by_cases ht : ∀ c ∈ t, isWhiteSpace c = true
      · have e : t.takeWhile isWhiteSpace = t := by
          have := takeWhile_append_stop (a := t) (b := []) ht (by simp)
          simpa using this
        rw [e]
        exact takeWhile_append_stop (fun c hc => by
          rcases List.mem_append.1 hc with h | h
          · exact hws c h
          · exact ht c h) (hall rfl ht)
      · have e : t = t.takeWhile isWhiteSpace ++ t.dropWhile isWhiteSpace :=
          (List.takeWhile_append_dropWhile).symm
        have hd : t.dropWhile isWhiteSpace ≠ [] := by
          intro hc
          rw [hc, List.append_nil] at e
          exact ht fun c hcm => mem_takeWhile_imp (e ▸ hcm)
        have e' : ws ++ t ++ rest =
            (ws ++ t.takeWhile isWhiteSpace) ++ (t.dropWhile isWhiteSpace ++ rest) := by
          rw [List.append_assoc ws (t.takeWhile isWhiteSpace), ← List.append_assoc _ _ rest, ← e,
            List.append_assoc]
        rw [e']
        refine takeWhile_append_stop (fun c hc => ?_) (fun c hc => ?_)
        · rcases List.mem_append.1 hc with h | h
          · exact hws c h
          · exact mem_takeWhile_imp h
        · cases hx : t.dropWhile isWhiteSpace with
          | nil => exact absurd hx hd
          | cons x xs =>
            rw [hx] at hc
            simp only [List.cons_append, List.head?_cons, Option.mem_some_iff] at hc
            exact head_dropWhile (l := t) (by rw [hx, ← hc]; simp)
    have hlen := congrArg List.length
      (List.takeWhile_append_dropWhile (p := isWhiteSpace) (l := t))
    rw [List.length_append] at hlen
    have hdt : t.drop (t.takeWhile isWhiteSpace).length = t.dropWhile isWhiteSpace :=
      drop_takeWhile_length _ _
    have hdl : (ws ++ t ++ rest).drop (ws ++ t.takeWhile isWhiteSpace).length =
        t.dropWhile isWhiteSpace ++ rest := by
      rw [List.length_append, List.append_assoc, List.drop_append, ← List.drop_drop]
      simp only [List.drop_append, hdt, Nat.add_sub_cancel_left]
      have : (t.takeWhile isWhiteSpace).length - t.length = 0 := by omega
      simp [this]
    simp only [textAt, blank, if_true, key, hdl, hdt, if_neg hl]
    rw [if_pos (by simp), if_pos (by simp)]
    have : (ws ++ t.takeWhile isWhiteSpace).length + (t.dropWhile isWhiteSpace).length =
        ws.length + t.length := by rw [List.length_append]; omega
    rw [this]

theorem textAt_not {rt b sticky skip} {t l : List Rune} (h : ¬ ∃ ws, Comes skip t l ws) :
    ∃ n, textAt rt b sticky skip t l = .fail n sticky := by
  unfold textAt
  simp only
  generalize hlead' : (if skip = true then t.takeWhile isWhiteSpace else []) = lead
  split
  · exact ⟨_, rfl⟩
  · rename_i hl
    split
    · rename_i hlead
      split
      · rename_i hrest
        exfalso
        apply h
        have h1 := blank_append skip l
        obtain ⟨w0, hw0⟩ := List.isSuffixOf_iff_suffix.1 hlead
        obtain ⟨r0, hr0⟩ := List.isPrefixOf_iff_prefix.1 hrest
        have h2 : lead ++ t.drop lead.length = t := by
          rw [← hlead']
          split
          · rw [drop_takeWhile_length]; exact List.takeWhile_append_dropWhile
          · rfl
        refine ⟨w0, hl, r0, ?_, ?_, ?_, ?_⟩
        · calc l = blank skip l ++ l.drop (blank skip l).length := h1.symm
            _ = (w0 ++ lead) ++ (t.drop lead.length ++ r0) := by rw [hw0, hr0]
            _ = w0 ++ t ++ r0 := by
              rw [List.append_assoc w0, ← List.append_assoc _ _ r0, h2, List.append_assoc]
        · intro c hc
          exact L.blank_ws (b := skip) (l := l) (by rw [← hw0]; exact List.mem_append_left _ hc)
        · rintro rfl
          simp only [blank, Bool.false_eq_true, if_false, List.append_eq_nil_iff] at hw0
          exact hw0.1
        · rintro rfl ht c hc
          have e : t.takeWhile isWhiteSpace = t := by
            have := takeWhile_append_stop (a := t) (b := []) ht (by simp)
            simpa using this
          simp only [if_true, e] at hlead'
          rw [← hlead', List.drop_length, List.nil_append] at hr0
          simp only [blank, if_true, drop_takeWhile_length] at hr0
          exact head_dropWhile (l := l) (by rw [← hr0]; exact hc)
      · exact ⟨_, rfl⟩
    · exact ⟨_, rfl⟩

/-- The literals with more than one character, and whether white space before them may be skipped. -/
inductive Literal : Rule → Int → List Rune → Bool → Prop
  | chars {b t flag} : Literal (.chars b t) flag t (decide (flag = SUGGEST_SKIP))
  | str {b t flag} : Literal (.str b t) flag t (decide (flag = SUGGEST_SKIP ∨ flag = SUGGEST_NOT_SKIP))

theorem Literal.run {r flag t skip} (h : Literal r flag t skip) (fuel : Nat) (l : List Rune) :
    ∃ rt b st, Spec.run env (fuel + 1) r flag l = textAt rt b st skip t l := by
  cases h
  · exact ⟨_, _, _, rfl⟩
  · exact ⟨_, _, _, rfl⟩

/-- A literal matches when its text comes next; the tree is a leaf with that text, and exactly the
white space before it and the text are used. -/
theorem C16_literal_matches {r flag t skip} (hr : Literal r flag t skip) {s : Stream} (h : Ready s)
    (fuel : Nat) {ws : List Rune} (hc : Comes skip t s.rem ws) :
    ∃ res s' n, eval env (fuel + 1) r flag s = .ok (res, s') ∧ res.node = some n ∧ n.text = t ∧
      n.children = [] ∧ res.read = ws ++ t ∧ res.unused = [] ∧ s.rem = ws ++ t ++ s'.rem := by
  obtain ⟨rt, b, st, hrun⟩ := hr.run (env := env) fuel s.rem
  rw [textAt_comes hc] at hrun
  obtain ⟨res, s', e1, g1, g2, g3, g4, g5⟩ := gives (env := env) fuel h hrun
    (Or.inl ⟨_, _, _, _, rfl⟩)
  obtain ⟨hl, rest, hrem, _⟩ := hc
  have hu : res.unused = [] := by
    rw [g4, List.drop_take]; simp
  obtain ⟨n, hn, hne⟩ := Option.map_eq_some_iff.1 g1
  have hnc := congrArg Node.chars hne
  have hnk := congrArg Node.children hne
  rw [chars_erase] at hnc
  rw [children_erase] at hnk
  simp only [leaf] at hnc hnk
  have hk : n.children = [] := by simpa using hnk
  refine ⟨res, s', n, e1, hn, ?_, hk, ?_, hu, ?_⟩
  · refine leaf_text n (fun c hcm => h.valid c ?_) hnc hk
    rw [hrem]; simp [hcm]
  · rw [g3, hrem, ← List.length_append, List.take_left']
    rfl
  · have : s'.rem = s.rem.drop (ws.length + t.length) := by
      rw [← g5, hu, Stream.rem_pushBack, List.nil_append]
    rw [this, ← List.length_append, hrem, List.drop_left']
    rfl

/-- A literal does not match when its text does not come next; everything read is given back. -/
theorem C16_literal_fails {r flag t skip} (hr : Literal r flag t skip) {s : Stream} (h : Ready s)
    (fuel : Nat) (hc : ¬ ∃ ws, Comes skip t s.rem ws) :
    ∃ res s', eval env (fuel + 1) r flag s = .ok (res, s') ∧ res.node = none ∧
      res.unused = res.read ∧ (s'.pushBack res.unused).rem = s.rem := by
  obtain ⟨rt, b, st, hrun⟩ := hr.run (env := env) fuel s.rem
  obtain ⟨n, hn⟩ := textAt_not (rt := rt) (b := b) (sticky := st) hc
  rw [hn] at hrun
  obtain ⟨res, s', e1, g1, g2, g3, g4⟩ := gives (env := env) fuel h hrun (Or.inr ⟨_, _, rfl⟩)
  exact ⟨res, s', e1, g1, g3, g4⟩

/-- Non-vacuity: a string after white space, and one that differs in its third character. -/
example : Comes true (runes "abc") (runes "  abcd") (runes "  ") :=
  ⟨by decide, runes "d", by decide, by decide, by decide, fun _ ht => absurd (ht 97 (by decide)) (by decide)⟩
example : ¬ ∃ ws, Comes true (runes "abc") (runes "  abd") ws := fun ⟨ws, h⟩ => by
  have h1 := textAt_comes (rt := .chars) (b := {}) (sticky := true) h
  have h2 : textAt .chars {} true true (runes "abc") (runes "  abd") = .fail 5 true := by rfl
  rw [h2] at h1; cases h1

/-! ### One character -/

theorem findIdx_none_of {p : Rune → Bool} {l : List Rune} (h : ∀ c ∈ l, p c = false) :
    l.findIdx? p = none := by
  rw [List.findIdx?_eq_none_iff]; exact h

theorem oneAt_comes {rt b skip} {p : Rune → Bool} {l ws : List Rune} {c : Rune}
    (h : ComesOne skip (fun c => p c = true) l ws c) :
    ∃ n, oneAt rt b skip p l = .hit (leaf rt b true [c]) (ws.length + 1) n true := by
  obtain ⟨hp, ⟨rest, rfl⟩, hws, hns⟩ := h
  have hnp : ∀ w ∈ ws, p w = false := fun w hw => by
    have := (hws w hw).2
    simpa using this
  unfold oneAt
  simp only
  by_cases hcw : skip = true ∧ isWhiteSpace c = true
  · obtain ⟨rfl, hcw⟩ := hcw
    have hb : blank true (ws ++ c :: rest) = ws ++ c :: rest.takeWhile isWhiteSpace := by
      simp only [blank, if_true]
      rw [List.takeWhile_append_of_pos (fun w hw => (hws w hw).1), List.takeWhile_cons, if_pos hcw]
    have hi : (ws ++ c :: rest.takeWhile isWhiteSpace).findIdx? p = some ws.length := by
      rw [List.findIdx?_append, findIdx_none_of hnp, List.findIdx?_cons, if_pos hp]
      simp
    rw [hb, hi]
    simp
  · have hb : blank skip (ws ++ c :: rest) = ws := by
      cases skip with
      | false => rw [hns rfl]; rfl
      | true =>
        have hcw' : isWhiteSpace c = false := by
          cases hx : isWhiteSpace c
          · rfl
          · exact absurd ⟨rfl, hx⟩ hcw
        simp only [blank, if_true]
        exact takeWhile_append_stop (fun w hw => (hws w hw).1) (by simpa using hcw')
    rw [hb, findIdx_none_of hnp]
    simp only [List.drop_left']
    rw [if_pos hp]
    exact ⟨_, rfl⟩

theorem oneAt_not {rt b skip} {p : Rune → Bool} {l : List Rune}
    (h : ¬ ∃ ws c, ComesOne skip (fun c => p c = true) l ws c) :
    ∃ n, oneAt rt b skip p l = .fail n true := by
  have h1 := blank_append skip l
  have hsk : skip = false → blank skip l = [] := by rintro rfl; rfl
  unfold oneAt
  simp only
  cases hi : (blank skip l).findIdx? p with
  | some i =>
    exfalso
    apply h
    rw [List.findIdx?_eq_some_iff_getElem] at hi
    obtain ⟨hlt, hpi, hbefore⟩ := hi
    have e : blank skip l = (blank skip l).take i ++ (blank skip l)[i] :: (blank skip l).drop (i + 1) := by
      rw [← List.drop_eq_getElem_cons hlt, List.take_append_drop]
    refine ⟨(blank skip l).take i, (blank skip l)[i], hpi,
      ⟨(blank skip l).drop (i + 1) ++ l.drop (blank skip l).length, ?_⟩, ?_, ?_⟩
    · have := congrArg (· ++ l.drop (blank skip l).length) e
      simp only [List.append_assoc, List.cons_append] at this
      rw [h1] at this
      exact this
    · intro w hw
      refine ⟨L.blank_ws (List.mem_of_mem_take hw), ?_⟩
      obtain ⟨j, hj, rfl⟩ := List.mem_iff_getElem.1 hw
      rw [List.length_take] at hj
      have := hbefore j (by omega)
      rw [List.getElem_take]
      simpa using this
    · intro hs
      have := hsk hs
      rw [this]; simp
  | none =>
    simp only
    rw [List.findIdx?_eq_none_iff] at hi
    cases hd : l.drop (blank skip l).length with
    | nil => exact ⟨_, rfl⟩
    | cons c t =>
      simp only
      by_cases hp : p c = true
      · exfalso
        apply h
        refine ⟨blank skip l, c, hp, ⟨t, by rw [← hd]; exact h1.symm⟩, ?_, hsk⟩
        intro w hw
        exact ⟨L.blank_ws hw, fun hx => by simp only [hi w hw] at hx; cases hx⟩
      · rw [if_neg hp]; exact ⟨_, rfl⟩

/-- What a terminal of one character does: with `p` its characters. -/
theorem one_matches {r flag} {rt b skip} {p : Rune → Bool} {s : Stream} (h : Ready s) {fuel : Nat}
    (hr : Spec.run env (fuel + 1) r flag s.rem = oneAt rt b skip p s.rem) {ws : List Rune} {c : Rune}
    (hc : ComesOne skip (fun c => p c = true) s.rem ws c) :
    ∃ res s' n, eval env (fuel + 1) r flag s = .ok (res, s') ∧ res.node = some n ∧ n.text = [c] ∧
      n.children = [] ∧ res.countUsed = ws.length + 1 ∧
      s.rem = ws ++ c :: (s'.pushBack res.unused).rem := by
  obtain ⟨m, hm⟩ := oneAt_comes (rt := rt) (b := b) hc
  rw [hm] at hr
  obtain ⟨res, s', e1, g1, g2, g3, g4, g5⟩ := gives (env := env) fuel h hr
    (Or.inl ⟨_, _, _, _, rfl⟩)
  obtain ⟨hl, ⟨rest, hrem⟩, _⟩ := hc
  obtain ⟨n, hn, hne⟩ := Option.map_eq_some_iff.1 g1
  have hnc := congrArg Node.chars hne
  have hnk := congrArg Node.children hne
  rw [chars_erase] at hnc
  rw [children_erase] at hnk
  simp only [leaf] at hnc hnk
  have hk : n.children = [] := by simpa using hnk
  refine ⟨res, s', n, e1, hn, ?_, hk, g2, ?_⟩
  · refine leaf_text n (fun x hx => h.valid x ?_) hnc hk
    rw [hrem]
    simp only [List.mem_singleton] at hx
    simp [hx]
  · rw [g5, hrem, ← List.drop_drop]
    simp

theorem one_fails {r flag} {rt b skip} {p : Rune → Bool} {s : Stream} (h : Ready s) {fuel : Nat}
    (hr : Spec.run env (fuel + 1) r flag s.rem = oneAt rt b skip p s.rem)
    (hc : ¬ ∃ ws c, ComesOne skip (fun c => p c = true) s.rem ws c) :
    ∃ res s', eval env (fuel + 1) r flag s = .ok (res, s') ∧ res.node = none ∧
      res.unused = res.read ∧ (s'.pushBack res.unused).rem = s.rem := by
  obtain ⟨n, hn⟩ := oneAt_not (rt := rt) (b := b) hc
  rw [hn] at hr
  obtain ⟨res, s', e1, g1, g2, g3, g4⟩ := gives (env := env) fuel h hr (Or.inr ⟨_, _, rfl⟩)
  exact ⟨res, s', e1, g1, g3, g4⟩

theorem comesOne_congr {skip} {p q : Rune → Prop} (hpq : ∀ c, p c ↔ q c) {l ws c} :
    ComesOne skip p l ws c ↔ ComesOne skip q l ws c := by
  have : p = q := funext fun c => propext (hpq c)
  rw [this]

/-- A character rule matches when its character comes next; the tree is a leaf with that character,
and exactly the white space before it and the character are used. -/
theorem C16_char_matches {b : RuleBase} {t : Rune} {q : Bool} {flag : Int} (ht : t ≠ EOFChar)
    {s : Stream} (h : Ready s) (fuel : Nat) {ws : List Rune} {c : Rune}
    (hc : ComesOne (decide (flag = SUGGEST_SKIP)) (fun c => c = t) s.rem ws c) :
    ∃ res s' n, eval env (fuel + 1) (.char b t q) flag s = .ok (res, s') ∧ res.node = some n ∧
      n.text = [t] ∧ n.children = [] ∧ res.countUsed = ws.length + 1 ∧
      s.rem = ws ++ t :: (s'.pushBack res.unused).rem := by
  have hct : c = t := hc.1
  subst hct
  refine one_matches (rt := .char) (b := b) (p := fun x => x == c) h (fuel := fuel) ?_
    ((comesOne_congr (by simp)).1 hc)
  simp only [Spec.run, if_neg ht]

/-- A character rule does not match when its character does not come next. -/
theorem C16_char_fails {b : RuleBase} {t : Rune} {q : Bool} {flag : Int} (ht : t ≠ EOFChar)
    {s : Stream} (h : Ready s) (fuel : Nat)
    (hc : ¬ ∃ ws c, ComesOne (decide (flag = SUGGEST_SKIP)) (fun c => c = t) s.rem ws c) :
    ∃ res s', eval env (fuel + 1) (.char b t q) flag s = .ok (res, s') ∧ res.node = none ∧
      res.unused = res.read ∧ (s'.pushBack res.unused).rem = s.rem := by
  refine one_fails (rt := .char) (b := b) (skip := decide (flag = SUGGEST_SKIP)) (p := fun x => x == t) h (fuel := fuel) ?_ ?_
  · simp only [Spec.run, if_neg ht]
  · rintro ⟨ws, c, hx⟩
    exact hc ⟨ws, c, (comesOne_congr (by simp)).1 hx⟩

/-- Non-vacuity. -/
example : ComesOne true (fun c => c = 97) (runes "  ab") (runes "  ") 97 :=
  ⟨rfl, ⟨runes "b", by decide⟩, by decide, by decide⟩

/-! ## C17 -/

/-- The white space in which the library's test for ranges is wrong is not there. -/
def PlainSpace (first last : Rune) (flag : Int) (l : List Rune) : Prop :=
  flag = SUGGEST_SKIP → ∀ c ∈ l.takeWhile isWhiteSpace, first ≤ c → c = last

theorem range_run {b : RuleBase} {x y : Rune} {q1 q2 : Bool} {flag : Int} {l : List Rune} {fuel : Nat}
    (hx : 0 ≤ x) (hw : PlainSpace x y flag l) :
    Spec.run env (fuel + 1) (.range b x q1 y q2) flag l =
      oneAt .chars b (decide (flag = SUGGEST_SKIP)) (between x y) l := by
  simp only [Spec.run]
  rw [if_neg]
  rintro (h | h)
  · unfold Rune at *; omega
  · rw [List.any_eq_true] at h
    obtain ⟨c, hc, hne⟩ := h
    unfold blank at hc
    split at hc
    · rename_i hs
      have hs : flag = SUGGEST_SKIP := by simpa using hs
      have := hw hs c hc
      simp only [between, bne_iff_ne, ne_eq] at hne
      apply hne
      by_cases h1 : x ≤ c
      · have := this h1
        subst this
        simp [h1]
      · simp [h1]
    · cases hc

/-- A range matches when a character between its ends comes next; the tree is a leaf with that one
character.  Missing for the full claim: white space that may be skipped and lies at or above the
first end, where the library compares wrongly. -/
theorem C17_range_matches_partial {b : RuleBase} {x y : Rune} {q1 q2 : Bool} {flag : Int} (hx : 0 ≤ x)
    {s : Stream} (h : Ready s) (hw : PlainSpace x y flag s.rem) (fuel : Nat) {ws : List Rune}
    {c : Rune} (hc : ComesOne (decide (flag = SUGGEST_SKIP)) (fun c => x ≤ c ∧ c ≤ y) s.rem ws c) :
    ∃ res s' n, eval env (fuel + 1) (.range b x q1 y q2) flag s = .ok (res, s') ∧
      res.node = some n ∧ n.text = [c] ∧ x ≤ c ∧ c ≤ y ∧ n.children = [] ∧
      res.countUsed = ws.length + 1 ∧ s.rem = ws ++ c :: (s'.pushBack res.unused).rem := by
  obtain ⟨res, s', n, e1, e2, e3, e4, e5, e6⟩ := one_matches (env := env) (rt := .chars) (b := b)
    (p := between x y) h (fuel := fuel) (range_run hx hw (q1 := q1) (q2 := q2))
    ((comesOne_congr (by simp [between])).1 hc)
  exact ⟨res, s', n, e1, e2, e3, hc.1.1, hc.1.2, e4, e5, e6⟩

/-- A range does not match when no character between its ends comes next. -/
theorem C17_range_fails_partial {b : RuleBase} {x y : Rune} {q1 q2 : Bool} {flag : Int} (hx : 0 ≤ x)
    {s : Stream} (h : Ready s) (hw : PlainSpace x y flag s.rem) (fuel : Nat)
    (hc : ¬ ∃ ws c, ComesOne (decide (flag = SUGGEST_SKIP)) (fun c => x ≤ c ∧ c ≤ y) s.rem ws c) :
    ∃ res s', eval env (fuel + 1) (.range b x q1 y q2) flag s = .ok (res, s') ∧ res.node = none ∧
      res.unused = res.read ∧ (s'.pushBack res.unused).rem = s.rem := by
  refine one_fails (rt := .chars) (b := b) (p := between x y) h (fuel := fuel) (range_run hx hw) ?_
  rintro ⟨ws, c, hh⟩
  exact hc ⟨ws, c, (comesOne_congr (by simp [between])).1 hh⟩

/-- The full claim is false: '0'-'9' matches a no-break space (U+00A0) before the digit. -/
theorem C17_counterexample :
    seen (eval noRules 9 digit SUGGEST_SKIP (Stream.ofChars [0xA0, 49])) =
      some (some ([0xA0], 0), [0xA0], [], [49]) := by decide +kernel

/-- Without skipping, ranges are right on every input. -/
example (x y : Rune) (l : List Rune) : PlainSpace x y NOT_SKIP l := fun h => absurd h (by decide)
example : PlainSpace 48 57 SUGGEST_SKIP (runes " 7a") := fun _ => by decide
example : ComesOne true (fun c => (48 : Rune) ≤ c ∧ c ≤ 57) (runes " 7a") (runes " ") 55 :=
  ⟨by decide, ⟨runes "a", by decide⟩, by decide, by decide⟩

/-! ## C40 -/

/-- EOF matches exactly when nothing but white space that may be skipped is left; it uses that white
space, and its node has no text. -/
theorem C40_eof {b : RuleBase} {flag : Int} {s : Stream} (h : Ready s) (fuel : Nat) :
    ∃ res s', eval env (fuel + 1) (.eof b) flag s = .ok (res, s') ∧
      (res.node.isSome = true ↔
        if flag = SUGGEST_SKIP then ∀ c ∈ s.rem, isWhiteSpace c = true else s.rem = []) ∧
      (∀ n, res.node = some n → n.text = [] ∧ n.children = [] ∧ res.unused = [] ∧
        res.read = s.rem ∧ s'.rem = []) ∧
      (res.node = none → res.unused = res.read ∧ (∀ c ∈ res.read, isWhiteSpace c = true) ∧
        (s'.pushBack res.unused).rem = s.rem) := by
  have hall : s.rem.drop (blank (decide (flag = SUGGEST_SKIP)) s.rem).length = [] ↔
      if flag = SUGGEST_SKIP then ∀ c ∈ s.rem, isWhiteSpace c = true else s.rem = [] := by
    by_cases hf : flag = SUGGEST_SKIP
    · simp only [hf, if_true, blank, decide_true, drop_takeWhile_length]
      constructor
      · intro hd c hc
        have := List.takeWhile_append_dropWhile (p := isWhiteSpace) (l := s.rem)
        rw [hd, List.append_nil] at this
        exact mem_takeWhile_imp (this ▸ hc)
      · intro hc
        have := takeWhile_append_stop (a := s.rem) (b := []) hc (by simp)
        rw [List.append_nil] at this
        have h2 := congrArg List.length (List.takeWhile_append_dropWhile (p := isWhiteSpace) (l := s.rem))
        rw [List.length_append, this] at h2
        exact List.eq_nil_of_length_eq_zero (by omega)
    · simp [hf, blank]
  have hb := L.take_blank (decide (flag = SUGGEST_SKIP)) s.rem
  by_cases hc : s.rem.drop (blank (decide (flag = SUGGEST_SKIP)) s.rem).length = []
  · have hrun : ∃ nd, Spec.run env (fuel + 1) (.eof b) flag s.rem =
          .hit nd (blank (decide (flag = SUGGEST_SKIP)) s.rem).length
            (blank (decide (flag = SUGGEST_SKIP)) s.rem).length true ∧ nd.chars = [EOFChar] ∧
          nd.children = [] := by
      simp only [Spec.run, eofAt, if_pos hc]
      exact ⟨_, rfl, rfl, rfl⟩
    obtain ⟨nd, hrun, hnd1, hnd2⟩ := hrun
    obtain ⟨res, s', e1, g1, g2, g3, g4, g5⟩ := gives (env := env) fuel h hrun
      (Or.inl ⟨_, _, _, _, rfl⟩)
    obtain ⟨n, hn, hne⟩ := Option.map_eq_some_iff.1 g1
    have hfull : s.rem.take (blank (decide (flag = SUGGEST_SKIP)) s.rem).length = s.rem := by
      have := List.take_append_drop (blank (decide (flag = SUGGEST_SKIP)) s.rem).length s.rem
      rw [hc, List.append_nil] at this
      exact this
    have hu : res.unused = [] := by rw [g4, List.drop_take]; simp
    refine ⟨res, s', e1, ⟨fun _ => hall.1 hc, fun _ => by rw [hn]; rfl⟩, ?_, ?_⟩
    · intro m hm
      rw [hn] at hm
      simp only [Option.some.injEq] at hm
      subst hm
      have hnc := congrArg Node.chars hne
      have hnk := congrArg Node.children hne
      rw [chars_erase] at hnc
      rw [children_erase] at hnk
      rw [hnd1] at hnc
      rw [hnd2] at hnk
      have hk : n.children = [] := by simpa using hnk
      refine ⟨?_, hk, hu, by rw [g3]; exact hfull, ?_⟩
      · obtain ⟨rt, nm, ch, cs, p, st, v, nd, tk⟩ := n
        simp only at hnc hk
        subst hnc hk
        rw [Node.text]
        simp
      · have := g5
        rw [hu, Stream.rem_pushBack, List.nil_append] at this
        rw [this]; exact hc
    · intro hx; rw [hn] at hx; cases hx
  · have hrun : Spec.run env (fuel + 1) (.eof b) flag s.rem =
        .fail (blank (decide (flag = SUGGEST_SKIP)) s.rem).length true := by
      simp only [Spec.run, eofAt, if_neg hc]
    obtain ⟨res, s', e1, g1, g2, g3, g4⟩ := gives (env := env) fuel h hrun (Or.inr ⟨_, _, rfl⟩)
    refine ⟨res, s', e1, ⟨(fun hx => by rw [g1] at hx; cases hx), fun hx => absurd (hall.2 hx) hc⟩, ?_, ?_⟩
    · intro n hx; rw [g1] at hx; cases hx
    · intro _
      refine ⟨g3, ?_, g4⟩
      intro c hcm
      rw [g2, hb] at hcm
      exact L.blank_ws hcm

/-- Non-vacuity: white space at the end, and a character left. -/
example : seen (eval noRules 1 (.eof {}) SUGGEST_SKIP (Stream.ofChars (runes " \t"))) =
    some (some ([], 0), runes " \t", [], []) := by decide +kernel
example : seen (eval noRules 1 (.eof {}) SUGGEST_SKIP (Stream.ofChars (runes " a"))) =
    some (none, runes " ", runes " ", runes "a") := by decide +kernel

end Xbnf.Props
