import Verif.Spec.Drawing
import Verif.Model.Show
import Verif.Props.Counts
import Verif.Props.Document
/-
C54: `StringTree` shows every node of the tree, in the order of the tree and at its level.
-/
namespace Xbnf.Props
open Spec

/-! ### Lines -/

theorem rows_ne (s : List Rune) : rows s ≠ [] := by
  cases s with
  | nil => simp [rows]
  | cons c s =>
    rw [rows]
    split
    · simp
    · split <;> simp

theorem rows_cons (s : List Rune) : ∃ l ls, rows s = l :: ls := by
  cases h : rows s with
  | nil => exact absurd h (rows_ne s)
  | cons l ls => exact ⟨l, ls, rfl⟩

theorem rows_newline (a b : List Rune) : rows (a ++ newline :: b) = rows a ++ rows b := by
  induction a with
  | nil => simp [rows]
  | cons c a ih =>
    rw [List.cons_append, rows, rows]
    split
    · rw [ih]; rfl
    · obtain ⟨l, ls, h⟩ := rows_cons a
      rw [ih, h]; rfl

theorem rows_front {a : List Rune} (h : newline ∉ a) (s : List Rune) : rows (a ++ s) = ruled a [] (rows s) := by
  induction a with
  | nil => obtain ⟨l, ls, h⟩ := rows_cons s; simp [h, ruled]
  | cons c a ih =>
    rw [List.mem_cons, not_or] at h
    rw [List.cons_append, rows, if_neg (fun e => h.1 e.symm), ih h.2]
    obtain ⟨l, ls, h⟩ := rows_cons s
    simp [h, ruled]

theorem rows_indent {pre : List Rune} (h : newline ∉ pre) (s : List Rune) : rows (indent pre s) = ruled [] pre (rows s) := by
  induction s with
  | nil => rfl
  | cons c s ih =>
    rw [indent, rows]
    obtain ⟨l, ls, hl⟩ := rows_cons s
    split
    · rw [List.cons_append, rows, if_pos rfl, rows_front h, ih, hl]
      simp [ruled]
    · rename_i hc
      rw [rows, if_neg hc, ih, hl]
      simp [ruled]

theorem rows_branch {f r : List Rune} (hf : newline ∉ f) (hr : newline ∉ r) (s : List Rune) :
    rows (f ++ indent r s) = ruled f r (rows s) := by
  rw [rows_front hf, rows_indent hr]
  obtain ⟨l, ls, h⟩ := rows_cons s
  simp [h, ruled]

theorem ruled_append {a b : List Rune} {l m : List (List Rune)} (h : l ≠ []) : ruled a b (l ++ m) = ruled a b l ++ m.map (b ++ ·) := by
  cases l with
  | nil => exact absurd rfl h
  | cons x l => simp [ruled]

theorem map_ruled (r a b : List Rune) (l : List (List Rune)) : (ruled a b l).map (r ++ ·) = ruled (r ++ a) (r ++ b) l := by
  cases l with
  | nil => rfl
  | cons x l => simp [ruled]

theorem ruled_nil (l : List (List Rune)) : ruled [] [] l = l := by
  cases l with
  | nil => rfl
  | cons x l => simp [ruled]

/-! ### The order of the paths -/

theorem pathsL_sorted {P : Node → Bool} (ns : List Node) (h : ∀ n ∈ ns, (paths P n).Pairwise (· < ·)) :
    ∀ i, (pathsL P i ns).Pairwise (· < ·) := by
  induction ns with
  | nil => intro i; exact .nil
  | cons n ns ih =>
    intro i
    rw [pathsL, List.pairwise_append]
    refine ⟨?_, ih (fun m hm => h m (List.mem_cons_of_mem _ hm)) _, ?_⟩
    · rw [List.pairwise_map]
      exact (h n List.mem_cons_self).imp (fun hab => List.cons_lt_cons_iff.2 (.inr ⟨rfl, hab⟩))
    · intro a ha b hb
      obtain ⟨q, _, rfl⟩ := List.mem_map.1 ha
      obtain ⟨j, q', m, rfl, _⟩ := (mem_pathsL ns _ _).1 hb
      exact List.cons_lt_cons_iff.2 (.inl (by omega))

theorem paths_sorted {P : Node → Bool} (n : Node) : (paths P n).Pairwise (· < ·) := by
  induction n using node_ind with
  | h rt nm ch cs p st v nd tk ih =>
    rw [paths, List.pairwise_append]
    refine ⟨by split <;> simp, pathsL_sorted cs ih 0, ?_⟩
    intro a ha b hb
    obtain ⟨j, q, m, rfl, _⟩ := (mem_pathsL cs _ _).1 hb
    split at ha
    · rw [List.mem_singleton.1 ha]; exact List.nil_lt_cons _ _
    · cases ha

/-- The paths of all nodes. -/
def allPaths (n : Node) : List (List Nat) := paths (fun _ => true) n

theorem inOrder (n : Node) : InOrder n (allPaths n) :=
  ⟨fun p => by unfold allPaths; rw [mem_paths]; cases h : nodeAt n p <;> simp, paths_sorted n⟩

theorem inOrder_length {n : Node} {ps : List (List Nat)} (h : InOrder n ps) : ps.length = n.countNodes := by
  refine C52_unique (Q := fun p => nodeAt n p ≠ none) ⟨ps, ?_, h.all, rfl⟩ (C52_nodes n)
  exact h.sorted.imp (fun hab => by rintro rfl; exact List.lt_irrefl _ hab)

/-! ### Trees -/

theorem drawnAt_child {what : Node → List Rune} {n c : Node} {i : Nat} (hc : n.children[i]? = some c) (p : List Nat) :
    drawnAt what n (i :: p) = if p = [] then
        ruled (pen.fork (i + 1 = n.children.length)) (pen.rail (i + 1 = n.children.length)) (rows (what c))
      else (drawnAt what c p).map (pen.rail (i + 1 = n.children.length) ++ ·) := by
  cases p with
  | nil => simp only [drawnAt, nodeAt, hc, leading, further, List.append_nil, if_true]
  | cons j p =>
    rw [if_neg (by simp)]
    simp only [drawnAt]
    rw [show nodeAt n (i :: j :: p) = nodeAt c (j :: p) by simp only [nodeAt, hc]]
    cases hm : nodeAt c (j :: p) with
    | none => rfl
    | some m =>
      simp only
      rw [map_ruled]
      rw [show leading n (i :: j :: p) = pen.rail (i + 1 = n.children.length) ++ leading c (j :: p) by simp only [leading, hc],
        show further n (i :: j :: p) = pen.rail (i + 1 = n.children.length) ++ further c (j :: p) by
          rw [further, hc]]

/-- The lines of one child. -/
theorem drawn_child {what : Node → List Rune} {n c : Node} {i : Nat} (hc : n.children[i]? = some c) :
    ((allPaths c).map (i :: ·)).flatMap (drawnAt what n) =
      ruled (pen.fork (i + 1 = n.children.length)) (pen.rail (i + 1 = n.children.length)) ((allPaths c).flatMap (drawnAt what c)) := by
  unfold allPaths
  rw [paths_eq]
  simp only [if_true, List.map_append, List.map_cons, List.map_nil, List.flatMap_append, List.flatMap_cons, List.flatMap_nil, List.append_nil]
  have h0 : drawnAt what c [] = rows (what c) := by
    simp only [drawnAt, nodeAt, leading, further, ruled_nil]
  rw [ruled_append (by rw [h0]; exact rows_ne _), drawnAt_child hc, if_pos rfl, h0]
  congr 1
  rw [List.flatMap_map, List.map_flatMap]
  have : ∀ q ∈ pathsL (fun _ => true) 0 c.children, q ≠ [] := by
    intro q hq
    obtain ⟨j, r, m, rfl, _⟩ := (mem_pathsL _ _ _).1 hq
    simp
  revert this
  generalize pathsL (fun _ => true) 0 c.children = qs
  intro this
  induction qs with
  | nil => rfl
  | cons q qs ih =>
    rw [List.flatMap_cons, List.flatMap_cons, ih (fun x hx => this x (List.mem_cons_of_mem _ hx)), drawnAt_child hc,
      if_neg (this q List.mem_cons_self)]

theorem newline_fork (b : Bool) : newline ∉ pen.fork b ∧ newline ∉ pen.rail b ∧ newline ∉ rootPen.fork b ∧ newline ∉ rootPen.rail b := by
  cases b <;> decide +kernel

theorem childTrees_rows {cfg : TreeConfig} {n : Node} (cs : List Node)
    (ih : ∀ c ∈ cs, rows (c.stringTree cfg) = (allPaths c).flatMap (drawnAt (Node.line cfg) c)) : ∀ (pre : List Node) (s : List Rune),
    n.children = pre ++ cs →
    rows (s ++ childTrees cfg cs) = rows s ++ (pathsL (fun _ => true) pre.length cs).flatMap (drawnAt (Node.line cfg) n) := by
  induction cs with
  | nil => intro pre s _; simp [childTrees, pathsL]
  | cons c cs ihc =>
    intro pre s hn
    have hc : n.children[pre.length]? = some c := by rw [hn]; simp
    have hlast : (decide (pre.length + 1 = n.children.length)) = decide (cs.length = 0) := by
      rw [hn, List.length_append, List.length_cons]
      exact decide_eq_decide.2 (by omega)
    have hd := drawn_child (what := Node.line cfg) hc
    have hbr : ∃ b, b = decide (cs.length = 0) ∧ (if cs.length = 0 then newline :: runes "└──" ++ indent (runes "   ") (c.stringTree cfg)
        else newline :: runes "├──" ++ indent (runes "│  ") (c.stringTree cfg)) =
        newline :: (pen.fork b ++ indent (pen.rail b) (c.stringTree cfg)) := by
      by_cases h : cs.length = 0
      · exact ⟨true, by simp [h], by rw [if_pos h]; rfl⟩
      · exact ⟨false, by simp [h], by rw [if_neg h]; rfl⟩
    obtain ⟨b, hb, hbr⟩ := hbr
    rw [childTrees, hbr, ← List.append_assoc, ihc (fun x hx => ih x (List.mem_cons_of_mem _ hx)) (pre ++ [c]) _ (by rw [hn]; simp),
      rows_newline, rows_branch (newline_fork b).1 (newline_fork b).2.1, ih c List.mem_cons_self, pathsL, List.flatMap_append]
    rw [show paths (fun _ => true) c = allPaths c from rfl, hd, List.length_append]
    simp only [hlast, ← hb]
    rw [List.append_assoc]
    rfl

theorem branches_eq (t : RType) : t.branches = hasParts t := by cases t <;> rfl

theorem stringTree_rows (cfg : TreeConfig) (n : Node) (h : Proper n) :
    rows (n.stringTree cfg) = (allPaths n).flatMap (drawnAt (Node.line cfg) n) := by
  induction n using node_ind with
  | h rt nm ch cs p st v nd tk ih =>
    obtain ⟨ht, hc⟩ := h
    simp only at ht hc
    rw [Node.stringTree]
    have e : (if rt.branches then childTrees cfg cs else []) = childTrees cfg cs := by
      cases cs with
      | nil => simp [childTrees]
      | cons c cs => rw [branches_eq, ht (by simp), if_pos rfl]
    rw [e, childTrees_rows (n := ⟨rt, nm, ch, cs, p, st, v, nd, tk⟩) cs (fun c hm => ih c hm (hc c hm)) [] _ rfl]
    unfold allPaths
    rw [paths_eq]
    simp only [if_true, List.flatMap_append, List.flatMap_cons, List.flatMap_nil, List.append_nil]
    congr 1
    simp only [drawnAt, nodeAt, leading, further, ruled_nil]

/-- The lines of `StringTree` are the lines of the nodes one after the other, in the order of the tree,
each at its level: rails for the levels above it and a fork in front of its first line. -/
theorem C54_tree (cfg : TreeConfig) (n : Node) (h : Proper n) :
    ∃ ps, InOrder n ps ∧ rows (n.stringTree cfg) = ps.flatMap (drawnAt (Node.line cfg) n) :=
  ⟨_, inOrder n, stringTree_rows cfg n h⟩

theorem rows_one {s : List Rune} (h : newline ∉ s) : rows s = [s] := by
  have := rows_front h []
  rw [List.append_nil] at this
  rw [this]
  simp [rows, ruled]

/-- If nothing that is written about a node has a newline, there is one line for every node. -/
theorem C54_lines (cfg : TreeConfig) (n : Node) (h : Proper n) (hl : ∀ p m, nodeAt n p = some m → newline ∉ m.line cfg) :
    ∃ ps, InOrder n ps ∧ rows (n.stringTree cfg) = ps.map (fun p => leading n p ++ ((nodeAt n p).map (Node.line cfg)).getD []) ∧
      (rows (n.stringTree cfg)).length = n.countNodes := by
  have key : rows (n.stringTree cfg) = (allPaths n).map (fun p => leading n p ++ ((nodeAt n p).map (Node.line cfg)).getD []) := by
    rw [stringTree_rows cfg n h]
    have hall := (inOrder n).all
    revert hall
    generalize allPaths n = ps
    intro hall
    have hps : ∀ p ∈ ps, nodeAt n p ≠ none := fun p hp => (hall p).1 hp
    clear hall
    induction ps with
    | nil => rfl
    | cons p ps ih =>
      rw [List.flatMap_cons, List.map_cons, ih (fun q hq => hps q (List.mem_cons_of_mem _ hq))]
      have := hps p List.mem_cons_self
      cases hm : nodeAt n p with
      | none => exact absurd hm this
      | some m =>
        simp only [drawnAt, hm, rows_one (hl p m hm), ruled, Option.map_some, Option.getD_some]
        rfl
  exact ⟨_, inOrder n, key, by rw [key, List.length_map, inOrder_length (inOrder n)]⟩

/-! ### Headers -/

theorem mem_runes {c : Rune} {s : String} (h : c ∈ runes s) : ∃ d ∈ s.toList, c = (d.toNat : Int) := by
  obtain ⟨d, hd, rfl⟩ := List.mem_map.1 h
  exact ⟨d, hd, rfl⟩

theorem runes_inj {s t : String} (h : runes s = runes t) : s = t := by
  unfold runes at h
  have : s.toList = t.toList := by
    refine List.map_inj_right ?_ |>.1 h
    intro a b hab
    simp only [Int.ofNat_inj] at hab
    exact Char.toNat_inj.1 hab
  exact String.toList_inj.1 this

theorem percentD_chars {i : Int} {c : Rune} (h : c ∈ percentD i) : c = 45 ∨ 48 ≤ c ∧ c ≤ 57 := by
  obtain ⟨d, hd, rfl⟩ := mem_runes h
  have dig : ∀ {m : Nat}, d ∈ (Nat.repr m).toList → 48 ≤ (d.toNat : Int) ∧ (d.toNat : Int) ≤ 57 := by
    intro m hm
    rw [Nat.toList_repr] at hm
    have := Nat.isDigit_of_mem_toDigits (by omega) (by omega) hm
    simp only [Char.isDigit, Bool.and_eq_true, decide_eq_true_eq] at this
    have h1 : 48 ≤ d.toNat := this.1
    have h2 : d.toNat ≤ 57 := this.2
    omega
  have hr : toString i = i.repr := rfl
  rw [hr, Int.repr_eq_if] at hd
  split at hd
  · exact .inr (dig hd)
  · rw [String.toList_append, List.mem_append] at hd
    rcases hd with hd | hd
    · left
      simp at hd
      rw [hd]; rfl
    · exact .inr (dig hd)

theorem percentD_newline (i : Int) : newline ∉ percentD i := fun h => by
  have := percentD_chars h
  unfold newline Rune at *
  omega

theorem percentD_inj {i j : Int} (h : percentD i = percentD j) : i = j := by
  have h : toString i = toString j := runes_inj h
  rw [Int.toString_eq_repr, Int.toString_eq_repr, Int.repr_eq_if, Int.repr_eq_if] at h
  have nat : ∀ {m k : Nat}, m.repr = k.repr → m = k := by
    intro m k e
    have e := congrArg String.toList e
    rw [Nat.toList_repr, Nat.toList_repr] at e
    rw [← Nat.ofDigitChars_ten_toDigits (n := m), e, Nat.ofDigitChars_ten_toDigits]
  have minus : ∀ {m k : Nat}, m.repr ≠ "-" ++ k.repr := by
    intro m k e
    have e := congrArg String.toList e
    rw [Nat.toList_repr, String.toList_append] at e
    have : '-' ∈ Nat.toDigits 10 m := by rw [e]; simp
    exact absurd (Nat.isDigit_of_mem_toDigits (by omega) (by omega) this) (by decide)
  split at h <;> split at h
  · have := nat h; omega
  · exact absurd h minus
  · exact absurd h.symm minus
  · have := congrArg String.toList h
    rw [String.toList_append, String.toList_append] at this
    have := nat (String.toList_inj.1 (List.append_cancel_left this))
    omega

theorem cut {x : Rune} {a b c d : List Rune} (ha : x ∉ a) (hc : x ∉ c) (h : a ++ x :: b = c ++ x :: d) : a = c ∧ b = d := by
  induction a generalizing c with
  | nil =>
    cases c with
    | nil => simpa using h
    | cons y c => simp at h; exact absurd (h.1 ▸ List.mem_cons_self) hc
  | cons z a ih =>
    cases c with
    | nil => simp at h; exact absurd (h.1 ▸ List.mem_cons_self) ha
    | cons y c =>
      simp only [List.cons_append, List.cons.injEq] at h
      obtain ⟨rfl, h⟩ := h
      obtain ⟨rfl, rfl⟩ := ih (fun hm => ha (List.mem_cons_of_mem _ hm)) (fun hm => hc (List.mem_cons_of_mem _ hm)) h
      exact ⟨rfl, rfl⟩

/-- The marks at the end of a header. -/
def markText (tk nd v st : Bool) : List Rune :=
  (if tk then runes "$" else []) ++ (if nd then runes "#" else []) ++ (if v then runes "~" else []) ++ (if st then runes "+" else [])

theorem markText_inj : ∀ a b c d a' b' c' d', markText a b c d = markText a' b' c' d' → a = a' ∧ b = b' ∧ c = c' ∧ d = d' := by
  decide +kernel

theorem label_inj {t u : RType} (h : t.label = u.label) : t = u := by
  revert h
  cases t <;> cases u <;> decide +kernel

theorem markText_letter : ∀ a b c d, ∀ x ∈ (markText a b c d), ¬ (65 ≤ x ∧ x ≤ 125) := by
  decide +kernel

theorem label_letter {t : RType} : ∀ c ∈ t.label, 65 ≤ c ∧ c ≤ 125 := by
  cases t <;> decide +kernel

theorem takeWhile_eq {p : Rune → Bool} {a b : List Rune} (ha : ∀ x ∈ a, p x = true) (hb : ∀ x ∈ b, p x = false) :
    (a ++ b).takeWhile p = a := by
  rw [List.takeWhile_append_of_pos ha]
  cases b with
  | nil => simp
  | cons x b => simp [hb x List.mem_cons_self]

theorem label_mark {t u : RType} {a b c d a' b' c' d' : Bool} (h : t.label ++ markText a b c d = u.label ++ markText a' b' c' d') :
    t = u ∧ a = a' ∧ b = b' ∧ c = c' ∧ d = d' := by
  have key : ∀ (t : RType) a b c d, (t.label ++ markText a b c d).takeWhile (fun x => decide (65 ≤ x ∧ x ≤ 125)) = t.label := by
    intro t a b c d
    refine takeWhile_eq (fun x hx => ?_) (fun x hx => ?_)
    · exact decide_eq_true (label_letter x hx)
    · exact decide_eq_false (markText_letter a b c d x hx)
  have hl := key t a b c d
  rw [h, key] at hl
  have := label_inj hl
  subst this
  exact ⟨rfl, markText_inj _ _ _ _ _ _ _ _ (List.append_cancel_left h)⟩

/-- The line and the column that are shown. -/
def shownAt (p : Option Position) : Int × Int := match p with
  | none => (0, 0)
  | some p => (p.line, p.col)

theorem showPos_eq (p : Option Position) : showPos p = 76 :: (percentD (shownAt p).1 ++ 58 :: percentD (shownAt p).2) := by
  cases p with
  | none => rfl
  | some p =>
    simp only [showPos, shownAt]
    rw [show runes "L" = [76] from rfl, show runes ":" = [58] from rfl]
    simp

theorem header_eq (n : Node) (cfg : TreeConfig) (hc : cfg.printRuleType = true) : n.header cfg =
    76 :: (percentD (shownAt n.pos).1 ++ 58 :: (percentD (shownAt n.pos).2 ++ 58 :: (n.name ++ 47 ::
      (n.ruleType.label ++ markText n.tokenized n.nonData n.virt n.sticky)))) := by
  unfold Node.header markText
  rw [hc, showPos_eq, show runes ":" = [58] from rfl, show runes "/" = [47] from rfl]
  simp

/-- A header tells everything but the text: with rule types printed, two nodes with names without `/`
have the same header only if they have the same line and column, name, type and marks. -/
theorem C54_header {cfg cfg' : TreeConfig} (hc : cfg.printRuleType = true) (hc' : cfg'.printRuleType = true) {n m : Node}
    (hn : (47 : Rune) ∉ n.name) (hm : (47 : Rune) ∉ m.name) (h : n.header cfg = m.header cfg') :
    shownAt n.pos = shownAt m.pos ∧ n.name = m.name ∧ n.ruleType = m.ruleType ∧ n.tokenized = m.tokenized ∧
      n.nonData = m.nonData ∧ n.virt = m.virt ∧ n.sticky = m.sticky := by
  have colon : ∀ i, (58 : Rune) ∉ percentD i := fun i h => by
    have := percentD_chars h
    unfold Rune at *
    omega
  rw [header_eq n cfg hc, header_eq m cfg' hc'] at h
  obtain ⟨h1, h⟩ := cut (colon _) (colon _) (List.cons.inj h).2
  obtain ⟨h2, h⟩ := cut (colon _) (colon _) h
  obtain ⟨h3, h⟩ := cut hn hm h
  exact ⟨Prod.ext (percentD_inj h1) (percentD_inj h2), h3, label_mark h⟩

/-- What is written about a leaf tells its text, too. -/
theorem C54_leaf {cfg cfg' : TreeConfig} (hc : cfg.printRuleType = true) (hc' : cfg'.printRuleType = true) {n m : Node}
    (hl : n.children = []) (hl' : m.children = []) (hn : (47 : Rune) ∉ n.name) (hm : (47 : Rune) ∉ m.name) (h : n.line cfg = m.line cfg') :
    n.header cfg = m.header cfg' ∧ n.text = m.text := by
  have colon : ∀ i, (58 : Rune) ∉ percentD i := fun i h => by
    have := percentD_chars h
    unfold Rune at *
    omega
  have tail : ∀ (t : RType) a b c d, (58 : Rune) ∉ t.label ++ markText a b c d := by
    intro t; cases t <;> decide +kernel
  simp only [Node.line, hl, hl', List.length_nil, true_or, if_true] at h
  have split : ∀ x : Node, ∀ cfg : TreeConfig, cfg.printRuleType = true → x.header cfg ++ runes ": >" ++ x.text ++ runes "<" =
      76 :: (percentD (shownAt x.pos).1 ++ 58 :: (percentD (shownAt x.pos).2 ++ 58 :: (x.name ++ 47 ::
        ((x.ruleType.label ++ markText x.tokenized x.nonData x.virt x.sticky) ++ 58 :: (runes " >" ++ x.text ++ runes "<"))))) := by
    intro x cfg hx
    rw [header_eq x cfg hx, show runes ": >" = 58 :: runes " >" from rfl]
    simp
  rw [split n cfg hc, split m cfg' hc'] at h
  obtain ⟨h1, h⟩ := cut (colon _) (colon _) (List.cons.inj h).2
  obtain ⟨h2, h⟩ := cut (colon _) (colon _) h
  obtain ⟨h3, h⟩ := cut hn hm h
  obtain ⟨h4, h⟩ := cut (tail _ _ _ _ _) (tail _ _ _ _ _) h
  refine ⟨by rw [header_eq n cfg hc, header_eq m cfg' hc', h1, h2, h3, h4], ?_⟩
  exact List.append_cancel_left (List.append_cancel_right h)

example : (leafNode .chars {} true (runes "a") none).line { printRuleType := true } = runes "L0:0:/chars+: >a<" ∧
    (leafNode .chars {} true (runes "a<") none).line { printRuleType := true } = runes "L0:0:/chars+: >a<<" := by decide +kernel

/-! ### Forests -/

/-- The tree of a top-level node, with the branch in front. -/
def drawnRoot (cfg : TreeConfig) (n : Node) (last : Bool) : List (List Rune) :=
  ruled (rootPen.fork last) (rootPen.rail last) (rows (n.stringTree cfg))

theorem rootTrees_rows (cfg : TreeConfig) (ns : List Node) : ∀ s, ∃ trees : List (List (List Rune)),
    trees.length = ns.length ∧
    (∀ i n, ns[i]? = some n → trees[i]? = some (drawnRoot cfg n (i + 1 = ns.length))) ∧
    rows (s ++ rootTrees cfg ns) = rows s ++ trees.flatten := by
  induction ns with
  | nil => intro s; exact ⟨[], rfl, fun i n h => by simp at h, by simp [rootTrees]⟩
  | cons n ns ih =>
    intro s
    have hbr : ∃ b, b = decide (ns.length = 0) ∧ (if ns.length = 0 then newline :: runes "└───" ++ indent (runes "    ") (n.stringTree cfg)
        else newline :: runes "├───" ++ indent (runes "│   ") (n.stringTree cfg)) =
        newline :: (rootPen.fork b ++ indent (rootPen.rail b) (n.stringTree cfg)) := by
      by_cases h : ns.length = 0
      · exact ⟨true, by simp [h], by rw [if_pos h]; rfl⟩
      · exact ⟨false, by simp [h], by rw [if_neg h]; rfl⟩
    obtain ⟨b, hb, hbr⟩ := hbr
    obtain ⟨trees, hlen, hall, hrows⟩ := ih (s ++ newline :: (rootPen.fork b ++ indent (rootPen.rail b) (n.stringTree cfg)))
    refine ⟨drawnRoot cfg n b :: trees, by simp [hlen], ?_, ?_⟩
    · intro i m hm
      cases i with
      | zero =>
        rw [List.getElem?_cons_zero] at hm ⊢
        cases hm
        rw [hb]
        have : (0 + 1 = (n :: ns).length) ↔ ns.length = 0 := by rw [List.length_cons]; omega
        simp only [this]
      | succ i =>
        rw [List.getElem?_cons_succ] at hm ⊢
        rw [hall i m hm]
        have : (i + 1 + 1 = (n :: ns).length) ↔ i + 1 = ns.length := by rw [List.length_cons]; omega
        simp only [this]
    · rw [rootTrees, hbr, ← List.append_assoc, hrows, rows_newline, rows_branch (newline_fork b).2.2.1 (newline_fork b).2.2.2,
        List.flatten_cons, List.append_assoc]
      rfl

/-- `AST.StringTree`: a title, the file, the number of trees, then every tree in order, each node in its
place. -/
theorem C54_ast (cfg : TreeConfig) (file : List Rune) (hf : newline ∉ file) (ns : List Node) (h : ∀ n ∈ ns, Proper n) :
    ∃ trees : List (List (List Rune)), trees.length = ns.length ∧
      (∀ i n, ns[i]? = some n → ∃ ps, InOrder n ps ∧
        trees[i]? = some (ruled (rootPen.fork (i + 1 = ns.length)) (rootPen.rail (i + 1 = ns.length))
          (ps.flatMap (drawnAt (Node.line cfg) n)))) ∧
      rows (astStringTree cfg file ns) = [runes "Abstract Syntax Tree", runes "├─ file:" ++ file,
        (if ns = [] then runes "└─ Nodes: " else runes "├─ Nodes: ") ++ percentD ns.length] ++ trees.flatten := by
  have hnum : newline ∉ percentD ns.length := percentD_newline _
  obtain ⟨trees, hlen, hall, hrows⟩ := rootTrees_rows cfg ns (runes "Abstract Syntax Tree" ++ newline :: runes "├─ file:" ++ file ++
    (if ns.length = 0 then newline :: runes "└─ Nodes: " ++ percentD ns.length
     else newline :: runes "├─ Nodes: " ++ percentD ns.length))
  refine ⟨trees, hlen, fun i n hn => ⟨_, inOrder n, ?_⟩, ?_⟩
  · rw [hall i n hn, drawnRoot, stringTree_rows cfg n (h n (List.mem_of_getElem? hn))]
  · rw [astStringTree, hrows]
    congr 1
    have e : (if ns.length = 0 then newline :: runes "└─ Nodes: " ++ percentD ns.length
        else newline :: runes "├─ Nodes: " ++ percentD ns.length) =
        newline :: ((if ns = [] then runes "└─ Nodes: " else runes "├─ Nodes: ") ++ percentD ns.length) := by
      by_cases h0 : ns = []
      · rw [h0]; rfl
      · rw [if_neg h0, if_neg (fun h => h0 (List.length_eq_zero_iff.1 h))]; rfl
    rw [e, rows_newline, List.append_assoc, List.cons_append, rows_newline, rows_one (by decide +kernel), rows_one, rows_one]
    · rfl
    · rw [List.mem_append, not_or]
      refine ⟨?_, hnum⟩
      split <;> decide +kernel
    · rw [List.mem_append, not_or]
      exact ⟨by decide +kernel, hf⟩

/-! ### The trees of the parser are drawn completely -/

theorem proper_iff {n : Node} : Proper n ↔ (n.children ≠ [] → hasParts n.ruleType = true) ∧ ∀ c ∈ n.children, Proper c :=
  ⟨fun ⟨h, g⟩ => ⟨h, g⟩, fun h => .mk h.1 h.2⟩

theorem conforms_proper {env : Rules} {inR : Rune → Rune → Rune → Prop} {r : Rule} {n : Node}
    (h : Conforms env inR r n) : Proper n := by
  have hleaf : ∀ {t : List Rune} {n : Node}, Leaf t n → Proper n := fun h =>
    proper_iff.2 ⟨fun hc => absurd h.children hc, by rw [h.children]; intro c hc; cases hc⟩
  have hinner : ∀ {ms : List Node} {b : RuleBase} {rt : RType} {n : Node}, Marked rt b n → hasParts rt = true → Inner ms n →
      (∀ m ∈ ms, Proper m) → Proper n := fun hm ht h hp =>
    proper_iff.2 ⟨fun _ => by rw [hm.ruleType]; exact ht, by rw [h.children]; exact hp⟩
  have one : ∀ {m : Node}, Proper m → ∀ x ∈ [m], Proper x := fun h x hx => by
    rw [List.mem_singleton.1 hx]; exact h
  induction h with
  | eof _ _ hl => exact hleaf hl
  | char _ hl => exact hleaf hl
  | range _ hl => exact hleaf hl
  | chars _ hl => exact hleaf hl
  | str _ hl => exact hleaf hl
  | group hm hi _ ih => exact hinner hm rfl hi (one ih)
  | absent hm hi => exact hinner hm rfl hi fun m hm => (by cases hm)
  | present hm hi _ ih => exact hinner hm rfl hi (one ih)
  | rep hm hi _ _ _ ih => exact hinner hm rfl hi ih
  | choice hm hi _ _ _ ih => exact hinner hm rfl hi (one ih)
  | @concat b rs n ms hk hi hlen _ ih =>
    refine hinner hk rfl hi fun m hm => ?_
    obtain ⟨i, hi, rfl⟩ := List.mem_iff_getElem.1 hm
    refine ih (rs[i]'(by omega), ms[i]) ?_
    have : (rs.zip ms)[i]'(by simp; omega) = (rs[i]'(by omega), ms[i]) := by simp
    rw [← this]
    exact List.getElem_mem _
  | block hk hi _ _ _ hl _ _ iho ihc =>
    refine hinner hk rfl hi fun m hm => ?_
    rcases List.mem_append.1 hm with hm | hm
    · rcases List.mem_cons.1 hm with rfl | hm
      · exact iho
      · rw [List.mem_singleton.1 hm]; exact hleaf hl
    · exact ihc m hm
  | @ref b name r n m _ _ hf ih =>
    have := proper_iff.1 ih
    exact proper_iff.2 ⟨by rw [hf.ruleType, hf.children]; exact this.1, by rw [hf.children]; exact this.2⟩

theorem merge_proper (ns : List Node) (h : ∀ n ∈ ns, Proper n) : ∀ n ∈ mergeStickyNodes ns, Proper n := by
  refine merged_ind (P := fun n m => Proper n → Proper m)
    (Q := fun ns ms => (∀ n ∈ ns, Proper n) → ∀ m ∈ ms, Proper m)
    (R := fun ns ms => (∀ n ∈ ns, Proper n) → ∀ m ∈ ms, Proper m)
    (fun _ h => h)
    (fun {n cs} hc _ h hn => proper_iff.2 ⟨fun _ => (proper_iff.1 hn).1 hc, h (proper_iff.1 hn).2⟩)
    (fun {n cs} hc _ h hn => proper_iff.2 ⟨fun _ => (proper_iff.1 hn).1 hc, h (proper_iff.1 hn).2⟩)
    (fun h => h)
    (fun {n m ns ms} h hs hn => ?_)
    (fun h => h)
    (fun {n m ns ms} _ _ h hs hn => ?_)
    (fun {n run ns ms} _ _ _ hs hn => ?_)
    (C28_merge ns) h
  · intro x hx
    rcases List.mem_cons.1 hx with rfl | hx
    · have := proper_iff.1 (h (hn n List.mem_cons_self))
      exact proper_iff.2 ⟨this.1, this.2⟩
    · exact hs (fun y hy => hn y (List.mem_cons_of_mem _ hy)) x hx
  · intro x hx
    rcases List.mem_cons.1 hx with rfl | hx
    · exact h (hn n List.mem_cons_self)
    · exact hs (fun y hy => hn y (List.mem_cons_of_mem _ hy)) x hx
  · intro x hx
    rcases List.mem_cons.1 hx with rfl | hx
    · exact proper_iff.2 ⟨fun hc => absurd rfl hc, fun c hc => (by cases hc)⟩
    · exact hs (fun y hy => hn y (List.mem_append_right _ hy)) x hx

theorem removeVirtual_proper (n : Node) : Proper n → Proper n.removeVirtual := by
  induction n using node_ind with
  | h rt nm ch cs q st v nd tk ih =>
    intro h
    rw [proper_iff] at h
    rw [removeVirtual_eq, removeVirtualL_eq, proper_iff]
    refine ⟨fun hc => h.1 (fun e => hc (by simp only at e; simp [e])), fun c hc => ?_⟩
    obtain ⟨m, hm, rfl⟩ := List.mem_map.1 hc
    have hm := (List.mem_filter.1 hm).1
    exact ih m hm (h.2 m hm)

theorem removeNonData_proper (n : Node) : Proper n → Proper n.removeNonData := by
  induction n using node_ind with
  | h rt nm ch cs q st v nd tk ih =>
    intro h
    rw [proper_iff] at h
    rw [removeNonData_eq, removeNonDataL_eq, proper_iff]
    refine ⟨fun hc => h.1 (fun e => hc (by simp only at e; simp [e])), fun c hc => ?_⟩
    obtain ⟨m, hm, rfl⟩ := List.mem_map.1 hc
    have hm := (List.mem_filter.1 hm).1
    exact ih m hm (h.2 m hm)

theorem removeVirtualL_proper {ns : List Node} (h : ∀ n ∈ ns, Proper n) : ∀ n ∈ removeVirtualL ns, Proper n := by
  intro n hn
  rw [removeVirtualL_eq] at hn
  obtain ⟨m, hm, rfl⟩ := List.mem_map.1 hn
  exact removeVirtual_proper m (h m (List.mem_filter.1 hm).1)

theorem removeNonDataL_proper {ns : List Node} (h : ∀ n ∈ ns, Proper n) : ∀ n ∈ removeNonDataL ns, Proper n := by
  intro n hn
  rw [removeNonDataL_eq] at hn
  obtain ⟨m, hm, rfl⟩ := List.mem_map.1 hn
  exact removeNonData_proper m (h m (List.mem_filter.1 hm).1)

theorem promoteOnly_proper {n : Node} (h : Proper n) : Proper (promoteOnly n) := by
  have hp := proper_iff.1 h
  unfold promoteOnly
  split
  · rename_i only hc
    split
    · split
      · exact proper_iff.2 ⟨fun hc => absurd rfl hc, fun c hc => (by cases hc)⟩
      · exact proper_iff.2 ⟨fun _ => hp.1 (by rw [hc]; simp), (proper_iff.1 (hp.2 only (by rw [hc]; simp))).2⟩
    · exact h
  · exact h

theorem splice_proper {cs : List Node} (h : ∀ c ∈ cs, Proper c) : ∀ c ∈ spliceUnnamed cs, Proper c := by
  induction cs with
  | nil => intro c hc; cases hc
  | cons d cs ih =>
    have ih := ih fun x hx => h x (List.mem_cons_of_mem _ hx)
    have hd := h d List.mem_cons_self
    intro c hc
    rw [spliceUnnamed] at hc
    split at hc
    · exact ih c hc
    · split at hc
      · rcases List.mem_append.1 hc with hc | hc
        · exact (proper_iff.1 hd).2 c hc
        · exact ih c hc
      · rcases List.mem_cons.1 hc with rfl | hc
        · exact hd
        · exact ih c hc

theorem promoteLeaf_proper {n : Node} (h : Proper n) : Proper (promoteLeaf n) := by
  unfold promoteLeaf
  split
  · split
    · exact proper_iff.2 ⟨fun hc => absurd rfl hc, fun c hc => (by cases hc)⟩
    · exact h
  · exact h

theorem removeRedundant_proper (n : Node) : Proper n → Proper n.removeRedundant := by
  induction n using node_ind with
  | h rt nm ch cs q st v nd tk ih =>
    intro h
    rw [removeRedundant_eq]
    split
    · exact h
    · rename_i hcs
      have hp := proper_iff.1 h
      apply promoteLeaf_proper
      have h1 : Proper ⟨rt, nm, ch, cs.map Node.removeRedundant, q, st, v, nd, tk⟩ := by
        refine proper_iff.2 ⟨fun _ => hp.1 hcs, fun x hx => ?_⟩
        obtain ⟨c, hc, rfl⟩ := List.mem_map.1 hx
        exact ih c hc (hp.2 c hc)
      have h2 := promoteOnly_proper h1
      have hrt : (promoteOnly ⟨rt, nm, ch, cs.map Node.removeRedundant, q, st, v, nd, tk⟩).ruleType = rt := by
        unfold promoteOnly
        split
        · split
          · split <;> rfl
          · rfl
        · rfl
      exact proper_iff.2 ⟨fun _ => by simp only; rw [hrt]; exact hp.1 hcs, splice_proper (proper_iff.1 h2).2⟩

theorem astRemoveRedundant_proper {ns : List Node} (h : ∀ n ∈ ns, Proper n) : ∀ n ∈ astRemoveRedundant ns, Proper n := by
  induction ns with
  | nil => intro n hn; cases hn
  | cons m ns ih =>
    intro n hn
    rw [astRemoveRedundant] at hn
    rcases List.mem_cons.1 hn with rfl | hn
    · split
      · exact h m List.mem_cons_self
      · exact removeRedundant_proper m (h m List.mem_cons_self)
    · exact ih (fun x hx => h x (List.mem_cons_of_mem _ hx)) n hn

theorem simplify_proper (level : Int) {ns : List Node} (h : ∀ n ∈ ns, Proper n) : ∀ n ∈ Grammar.simplify level ns, Proper n := by
  unfold Grammar.simplify
  split
  · exact h
  · have hm := merge_proper ns h
    apply astRemoveRedundant_proper
    split
    · exact removeNonDataL_proper (removeVirtualL_proper hm)
    · split
      · exact removeVirtualL_proper hm
      · exact hm

/-- Everything `Eval` returns, at any level, is drawn completely by `StringTree`: only rules with parts
have children. -/
theorem C54_eval {g : Grammar} {fuel : Nat} {sch : Grammar.Sched} (hfair : sch.Fair) {s s' : Stream} (hw : s.WF)
    {level : Int} {ns : List Node} (h : g.evalAST fuel sch s level = .ok (.ok ns, s')) : ∀ n ∈ ns, Proper n := by
  obtain ⟨raw, hr, hm⟩ := C30_eval h
  cases raw with
  | error e => cases hm
  | ok ms =>
    cases hm
    refine simplify_proper level fun n hn => ?_
    obtain ⟨r, _, hc⟩ := (C24_nodes hfair hw hr).2 n hn
    exact conforms_proper hc

/-- And so is what `EvalRule` and `EvalEmbed` return. -/
theorem C54_evalRule {g : Grammar} {fuel : Nat} {name : Name} {sample : List Rune} {res : Res}
    (h : g.evalRule fuel name sample = .ok res) : ∀ n, res.node = some n → Proper n := by
  intro n hn
  unfold Grammar.evalRule at h
  split at h
  · cases h; cases hn
  · obtain ⟨⟨r, s'⟩, he, h⟩ := Exec.of_bind h
    cases h
    exact conforms_proper (node_conforms (S := fun _ => True) (inR := ranged) (Nat.zero_le _) (fun _ _ => trivial) trivial
      (fun _ _ _ h1 h2 => ⟨h1, .inl h2⟩) (fun _ _ _ _ h1 h2 _ => ⟨h2, .inr h1⟩) he hn)

theorem alternating_proper {P : Node → Prop} (hP : ∀ n, P n → Proper n) {b : Bool} {ns : List Node} (h : Alternating P b ns) :
    ∀ n ∈ ns, Proper n := by
  induction h with
  | nil => intro n hn; cases hn
  | text ht h ih =>
    intro n hn
    rcases List.mem_cons.1 hn with rfl | hn
    · exact proper_iff.2 ⟨fun hc => absurd rfl hc, fun c hc => (by cases hc)⟩
    · exact ih n hn
  | node hm h ih =>
    intro n hn
    rcases List.mem_cons.1 hn with rfl | hn
    · exact hP n hm
    · exact ih n hn

theorem C54_evalEmbed {g : Grammar} {fuel : Nat} {name : Name} {sample : List Rune} {res : Res}
    (h : g.evalEmbed fuel name sample = .ok res) : ∀ n, res.node = some n → Proper n := by
  intro n hn
  cases hrec : g.getRecord name with
  | none =>
    obtain ⟨r, h1, h2, _⟩ := C23_unknown (fuel := fuel) (sample := sample) hrec
    rw [h] at h1; cases h1
    rw [hn] at h2; cases h2
  | some rec =>
    obtain ⟨m, hm, ha⟩ := C23_children hrec h
    rw [hn] at hm; cases hm
    have ht : n.ruleType = .embed := by
      unfold Grammar.evalEmbed at h
      simp only [hrec] at h
      obtain ⟨kids, _, h⟩ := Exec.of_bind h
      cases h; cases hn; rfl
    exact proper_iff.2 ⟨fun _ => by rw [ht]; rfl, alternating_proper (fun _ => conforms_proper) ha⟩

/-! ### A case -/

/-- A tree with three levels; one text has a newline in it. -/
def drawSample : Node :=
  branchNode .concatenate { name := runes "all" } false
    [branchNode .option {} false [leafNode .string { nondata := true } true (runes "b\nc") none] none,
     leafNode .chars { tokenized := true } true (runes "d") (some ⟨2, 3⟩)] (some ⟨1, 1⟩)

example : rows (drawSample.stringTree {}) =
    [runes "L1:1:all/concatenate",
     runes "├──L0:0:/option",
     runes "│  └──L0:0:/string#+: >b",
     runes "│     c<",
     runes "└──L2:3:/chars$+: >d<"] := by decide +kernel
example : Proper drawSample := by
  refine proper_iff.2 ⟨fun _ => rfl, fun c hc => ?_⟩
  simp only [drawSample, branchNode, List.mem_cons, List.not_mem_nil, or_false] at hc
  rcases hc with rfl | rfl
  · refine proper_iff.2 ⟨fun _ => rfl, fun c hc => ?_⟩
    rw [List.mem_singleton.1 hc]
    exact proper_iff.2 ⟨fun hc => absurd rfl hc, fun c hc => (by cases hc)⟩
  · exact proper_iff.2 ⟨fun hc => absurd rfl hc, fun c hc => (by cases hc)⟩
example : rows (astStringTree {} (runes "f") [drawSample, leafNode .eof {} false [EOFChar] none]) =
    [runes "Abstract Syntax Tree", runes "├─ file:f", runes "├─ Nodes: 2",
     runes "├───L1:1:all/concatenate",
     runes "│   ├──L0:0:/option",
     runes "│   │  └──L0:0:/string#+: >b",
     runes "│   │     c<",
     runes "│   └──L2:3:/chars$+: >d<",
     runes "└───L0:0:/EOF: ><"] := by decide +kernel

end Xbnf.Props
