import Verif.Spec.Escape
import Verif.Lemmas.Ref
/-
Blocks of literals, with escapes, on the list of characters left.
-/
namespace Xbnf
open Spec
namespace L

theorem matchK_spec (t l : List Rune) (hl : Valid l) :
    (t <+: l ∧ matchK t l = (t, true, t.length)) ∨
    (¬ t <+: l ∧ ∃ n, n ≤ l.length ∧ n ≤ t.length ∧ (t.head? ≠ l.head? → n ≤ 1) ∧
      matchK t l = (l.take n, false, n)) := by
  induction t generalizing l with
  | nil => exact .inl ⟨List.nil_prefix, by simp [matchK]⟩
  | cons a t ih =>
    cases l with
    | nil => exact .inr ⟨by simp, 0, by simp, by simp, by simp, by simp [matchK]⟩
    | cons b l =>
      have hb : b ≠ EOFChar := hl b (by simp)
      have hl' : Valid l := fun c hc => hl c (List.mem_cons_of_mem _ hc)
      simp only [matchK, if_neg hb]
      by_cases hab : b = a
      · subst hab
        rw [if_neg (by simp)]
        rcases ih l hl' with ⟨h1, h2⟩ | ⟨h1, n, h2, h3, _, h5⟩
        · exact .inl ⟨by simpa using h1, by rw [h2]; simp⟩
        · exact .inr ⟨by simpa using h1, n + 1, by simpa using h2, by simpa using h3, by simp,
            by rw [h5]; simp⟩
      · rw [if_pos hab]
        exact .inr ⟨by simp [Ne.symm hab], 1, by simp, by simp, fun _ => Nat.le_refl _, by simp⟩

/-- What a literal does at a place, no white space being skipped. -/
def LitAt (t l : List Rune) (x : Exec (Res × Nat)) : Prop :=
  (t <+: l ∧ ∃ nd st, nd.chars = t ∧ nd.children = [] ∧
    x = .ok ({ node := some nd, read := t, unused := [], sticky := st }, t.length)) ∨
  (¬ t <+: l ∧ ∃ n st, n ≤ l.length ∧ n ≤ t.length ∧ (t.head? ≠ l.head? → n ≤ 1) ∧
    x = .ok ({ read := l.take n, unused := l.take n, sticky := st }, n))

theorem evalText_lit (rt : RType) (b : RuleBase) (sticky : Bool) (t l : List Rune) (hl : Valid l)
    (ht : t ≠ []) : LitAt t l (.ok (evalText rt b sticky false t l)) := by
  unfold evalText
  by_cases hn : l = []
  · subst hn
    rw [if_pos (show peek [] = EOFChar from rfl)]
    exact .inr ⟨fun h => ht (List.prefix_nil.1 h), 0, sticky, by simp, by simp, by simp, by simp⟩
  · rw [if_neg (fun h => hn ((peek_eof hl).1 h))]
    simp only [matchText]
    rcases matchK_spec t l hl with ⟨h1, h2⟩ | ⟨h1, n, h2, h3, h4, h5⟩
    · exact .inl ⟨h1, leafNode rt b sticky t none, sticky, rfl, rfl, by simp [h2]⟩
    · exact .inr ⟨h1, n, sticky, h2, h3, h4, by simp [h5]⟩

theorem evalChar_lit (b : RuleBase) (x : Rune) (l : List Rune) (hl : Valid l) (hx : x ≠ EOFChar) :
    (l.head? = some x ∧ evalChar b x NOT_SKIP l =
      ({ node := some (leafNode .char b true [x] none), read := [x], sticky := true }, 1)) ∨
    (l.head? ≠ some x ∧ evalChar b x NOT_SKIP l = ({ sticky := true }, 0)) := by
  unfold evalChar
  have hs : spaces (decide (NOT_SKIP = SUGGEST_SKIP)) l = [] := rfl
  rw [hs]
  cases l with
  | nil =>
    rw [if_pos (show peek [] = EOFChar from rfl)]
    exact .inr ⟨by simp, rfl⟩
  | cons a l =>
    have ha : a ≠ EOFChar := hl a (by simp)
    rw [if_neg (by simpa [peek] using ha)]
    simp only [List.length_nil, List.drop_zero]
    rw [if_neg (by simp)]
    by_cases hax : a = x
    · subst hax
      exact .inl ⟨rfl, by simp [peek, one]⟩
    · exact .inr ⟨by simpa using hax, by simp [peek, hax]⟩

theorem eval_lit (env : Env) (f : Nat) {r : Rule} {t : List Rune} (h : Wording r t) (ht : t ≠ [])
    (hv : Valid t) (l : List Rune) (hl : Valid l) : LitAt t l (eval env (f + 1) r NOT_SKIP l) := by
  cases h with
  | char b x u =>
    simp only [eval]
    rcases evalChar_lit b x l hl (hv x (by simp)) with ⟨h1, h2⟩ | ⟨h1, h2⟩
    · rw [h2]
      refine .inl ⟨?_, _, true, rfl, rfl, rfl⟩
      cases l with
      | nil => simp at h1
      | cons a l => simp only [List.head?_cons, Option.some.injEq] at h1; subst h1; simp
    · rw [h2]
      refine .inr ⟨?_, 0, true, by simp, by simp, by simp, by simp⟩
      intro hp
      cases l with
      | nil => simp at hp
      | cons a l => simp at hp; simp [hp] at h1
  | chars b t => exact evalText_lit .chars b true t l hl ht
  | str b t => exact evalText_lit .string b false t l hl ht

/-- The rules of a list and their texts. -/
structure Lits (ps : List (Rule × List Rune)) : Prop where
  lit : ∀ p ∈ ps, Wording p.1 p.2
  ne : ∀ p ∈ ps, p.2 ≠ []
  valid : ∀ p ∈ ps, Valid p.2

theorem Lits.tail {p ps} (h : Lits (p :: ps)) : Lits ps :=
  ⟨fun q hq => h.lit q (List.mem_cons_of_mem _ hq), fun q hq => h.ne q (List.mem_cons_of_mem _ hq),
    fun q hq => h.valid q (List.mem_cons_of_mem _ hq)⟩

theorem take_max (l : List Rune) {look n : Nat} (h1 : look ≤ l.length) (h2 : n ≤ l.length) :
    (if (l.take look).length < (l.take n).length then l.take n else l.take look) =
      l.take (max look n) := by
  rw [List.length_take, List.length_take, Nat.min_eq_left h1, Nat.min_eq_left h2]
  by_cases h : look < n
  · rw [if_pos h, Nat.max_eq_right (by omega)]
  · rw [if_neg h, Nat.max_eq_left (by omega)]

theorem drop_max (l : List Rune) {look n : Nat} (h1 : look ≤ l.length) :
    (l.drop look).drop (n - (l.take look).length) = l.drop (max look n) := by
  rw [List.length_take, Nat.min_eq_left h1, List.drop_drop]
  congr 1; omega

theorem greedy_none (env : Env) (f : Nat) (l : List Rune) (hl : Valid l)
    (ps : List (Rule × List Rune)) (h : Lits ps) (hn : ∀ p ∈ ps, ¬ p.2 <+: l) (look : Nat)
    (hk : look ≤ l.length) :
    ∃ look', look ≤ look' ∧ look' ≤ l.length ∧
      (∀ M, look ≤ M → (∀ p ∈ ps, p.2.length ≤ M) → look' ≤ M) ∧
      ((∀ p ∈ ps, p.2.head? ≠ l.head?) → look' ≤ max look 1) ∧
      greedyLoop (eval env (f + 1)) NOT_SKIP (ps.map Prod.fst) (l.take look) (l.drop look) =
        .ok ([], l.take look', look' - look) := by
  induction ps generalizing look with
  | nil => exact ⟨look, by omega, hk, fun _ h _ => h, fun _ => by omega, by simp [greedyLoop]⟩
  | cons p ps ih =>
    have hp := eval_lit env f (h.lit p (by simp)) (h.ne p (by simp)) (h.valid p (by simp)) l hl
    rcases hp with ⟨h1, _⟩ | ⟨_, n, st, h2, h3, h4, h5⟩
    · exact absurd h1 (hn p (by simp))
    · obtain ⟨look', i1, i2, i3, i4, i5⟩ := ih h.tail (fun q hq => hn q (List.mem_cons_of_mem _ hq))
        (max look n) (by omega)
      refine ⟨look', by omega, i2, ?_, ?_, ?_⟩
      · intro M hM hp
        have := hp p (by simp)
        exact i3 M (by omega) (fun q hq => hp q (List.mem_cons_of_mem _ hq))
      · intro hh
        have := h4 (hh p (by simp))
        have := i4 (fun q hq => hh q (List.mem_cons_of_mem _ hq))
        omega
      · simp only [List.map_cons, greedyLoop, List.take_append_drop, h5, Exec.ok_bind]
        rw [drop_max l hk, take_max l hk h2, i5, Exec.ok_bind]
        simp only [Option.isSome_none, Bool.false_eq_true, if_false, List.length_take,
          Nat.min_eq_left hk, Exec.ok.injEq, Prod.mk.injEq, true_and]
        omega

theorem head_of_prefix {t l : List Rune} (h : t <+: l) (ht : t ≠ []) : t.head? = l.head? := by
  obtain ⟨s, rfl⟩ := h
  cases t with
  | nil => exact absurd rfl ht
  | cons a t => rfl

theorem greedy_one (env : Env) (f : Nat) (l : List Rune) (hl : Valid l)
    (ps : List (Rule × List Rune)) (h : Lits ps)
    (hd : ps.Pairwise (fun p q => p.2.head? ≠ q.2.head?)) (p : Rule × List Rune) (hp : p ∈ ps)
    (hpl : p.2 <+: l) (look : Nat) (hk : look ≤ l.length) :
    ∃ nd st, greedyLoop (eval env (f + 1)) NOT_SKIP (ps.map Prod.fst) (l.take look) (l.drop look) =
        .ok ([{ node := some nd, read := p.2, unused := [], sticky := st }],
          l.take (max look p.2.length), p.2.length - look) := by
  have hlen := hpl.length_le
  have htk : p.2 = l.take p.2.length := List.prefix_iff_eq_take.1 hpl
  induction ps generalizing look with
  | nil => cases hp
  | cons q ps ih =>
    have hpos : 1 ≤ p.2.length := by
      have := h.ne p hp
      cases hq : p.2 with
      | nil => exact absurd hq this
      | cons => simp
    rw [List.pairwise_cons] at hd
    have hq := eval_lit env f (h.lit q (by simp)) (h.ne q (by simp)) (h.valid q (by simp)) l hl
    rcases List.mem_cons.1 hp with rfl | hp'
    · rcases hq with ⟨_, nd, st, _, _, h5⟩ | ⟨h1, _⟩
      · have hh : ∀ q ∈ ps, q.2.head? ≠ l.head? := fun q hq hc =>
          hd.1 q hq ((head_of_prefix hpl (h.ne p (by simp))).trans hc.symm)
        obtain ⟨look', i1, i2, _, i4, i5⟩ := greedy_none env f l hl ps h.tail
          (fun q hq hc => hh q hq (head_of_prefix hc (h.tail.ne q hq))) (max look p.2.length) (by omega)
        have := i4 hh
        have hlk : look' = max look p.2.length := by omega
        refine ⟨nd, st, ?_⟩
        simp only [List.map_cons, greedyLoop, List.take_append_drop, h5, Exec.ok_bind]
        have htm := take_max l hk hlen
        rw [← htk] at htm
        rw [drop_max l hk, htm, i5, Exec.ok_bind]
        simp only [Option.isSome_some, if_true, List.length_take, Nat.min_eq_left hk, hlk,
          Exec.ok.injEq, Prod.mk.injEq, true_and]
        omega
      · exact absurd hpl h1
    · have hne : q.2.head? ≠ l.head? := fun hc =>
        hd.1 p hp' (hc.trans (head_of_prefix hpl (h.ne p hp)).symm)
      rcases hq with ⟨h1, _⟩ | ⟨_, n, st', h2, h3, h4, h5⟩
      · exact absurd (head_of_prefix h1 (h.ne q (by simp))) hne
      · have := h4 hne
        obtain ⟨nd, st, i⟩ := ih h.tail hd.2 hp' (max look n) (by omega)
        refine ⟨nd, st, ?_⟩
        simp only [List.map_cons, greedyLoop, List.take_append_drop, h5, Exec.ok_bind]
        rw [drop_max l hk, take_max l hk h2, i, Exec.ok_bind]
        have hmm : max (max look n) p.2.length = max look p.2.length := by omega
        simp only [Option.isSome_none, Bool.false_eq_true, if_false, List.length_take, hmm,
          Nat.min_eq_left hk, Exec.ok.injEq, Prod.mk.injEq, true_and]
        omega

theorem blockExclude_lit (env : Env) (f : Nat) (l : List Rune) (hl : Valid l)
    (ps : List (Rule × List Rune)) (h : Lits ps)
    (hd : ps.Pairwise (fun p q => p.2.head? ≠ q.2.head?)) :
    (∃ p ∈ ps, p.2 <+: l ∧ ∃ nd st, blockExclude (eval env (f + 1)) (ps.map Prod.fst) l =
      .ok (some { node := some nd, read := p.2, unused := [], sticky := st }, p.2.length)) ∨
    ((∀ p ∈ ps, ¬ p.2 <+: l) ∧ ∃ rx nx, blockExclude (eval env (f + 1)) (ps.map Prod.fst) l =
      .ok (rx, nx) ∧ nx ≤ l.length ∧ (∀ M, (∀ p ∈ ps, p.2.length ≤ M) → nx ≤ M) ∧
      rx.bind (fun r => r.node.map (fun _ => r)) = none ∧
      ∀ u1, (ps = [] → u1 = []) → exclRead rx u1 = l.take nx) := by
  by_cases hx : ∃ p ∈ ps, p.2 <+: l
  · obtain ⟨p, hp, hpl⟩ := hx
    refine .inl ⟨p, hp, hpl, ?_⟩
    obtain ⟨nd, st, i⟩ := greedy_one env f l hl ps h hd p hp hpl 0 (by omega)
    have htk : p.2 = l.take p.2.length := List.prefix_iff_eq_take.1 hpl
    rw [List.take_zero, List.drop_zero, Nat.max_eq_right (Nat.zero_le _), ← htk, Nat.sub_zero] at i
    refine ⟨nd, st, ?_⟩
    have hlen : (ps.map Prod.fst).length > 0 := by
      rw [List.length_map]; exact List.length_pos_of_mem hp
    unfold blockExclude mostGreedy
    rw [if_pos hlen, i, Exec.ok_bind]
    simp only [pick]
    have hcu : Res.countUsed { node := some nd, read := p.2, unused := [], sticky := st } =
        (p.2.length : Int) := by simp [Res.countUsed]
    rw [hcu, sliceFrom_all _ _ (Nat.le_refl _), Exec.ok_bind, Exec.ok_bind]
    simp
  · have hn : ∀ p ∈ ps, ¬ p.2 <+: l := fun p hp hpl => hx ⟨p, hp, hpl⟩
    refine .inr ⟨hn, ?_⟩
    cases ps with
    | nil => exact ⟨none, 0, rfl, by omega, fun _ _ => by omega, rfl, fun u1 h => by simp [exclRead, h rfl]⟩
    | cons q qs =>
      obtain ⟨look', i1, i2, i3, _, i5⟩ := greedy_none env f l hl (q :: qs) h hn 0 (by omega)
      rw [List.take_zero, List.drop_zero, Nat.sub_zero] at i5
      refine ⟨some { read := l.take look', unused := l.take look' }, look', ?_, i2,
        fun M hM => i3 M (by omega) hM, rfl, fun _ _ => rfl⟩
      unfold blockExclude mostGreedy
      rw [if_pos (by simp), i5, Exec.ok_bind]
      rfl

/-- The escape of a block: none, or a literal; if there are no excluded texts, a single character. -/
def EscOf (ps : List (Rule × List Rune)) (er : Option Rule) (e : Option (List Rune)) : Prop :=
  (er = none ∧ e = none) ∨ ∃ r a, er = some r ∧ e = some a ∧ Wording r a ∧ a ≠ [] ∧ Valid a ∧
    ((∃ b x u, r = .char b x u) ∨ ps ≠ [])

theorem blockEscape_lit (env : Env) (f : Nat) {ps : List (Rule × List Rune)} {er : Option Rule}
    {e : Option (List Rune)} (he : EscOf ps er e) (st : BlockState) (hst : er = none → st.unused = [])
    (l : List Rune) (hl : Valid l) :
    (∃ a t, e = some a ∧ a ≠ [] ∧ l = a ++ t ∧
      blockEscape (eval env (f + 1)) er st l = .ok (true, a, st.used ++ a, [], a.length)) ∨
    ((∀ a, e = some a → ¬ a <+: l) ∧ ∃ ne, ne ≤ l.length ∧ (ps = [] → ne = 0) ∧
      (∀ M, (∀ a, e = some a → a.length ≤ M) → ne ≤ M) ∧
      blockEscape (eval env (f + 1)) er st l = .ok (false, [], st.used, l.take ne, ne)) := by
  rcases he with ⟨rfl, rfl⟩ | ⟨r, a, rfl, rfl, h1, h2, h3, h4⟩
  · exact .inr ⟨by simp, 0, by omega, fun _ => rfl, fun _ _ => by omega, by simp [blockEscape, hst]⟩
  · rcases eval_lit env f h1 h2 h3 l hl with ⟨⟨t, rfl⟩, nd, sx, _, _, c4⟩ | ⟨c1, n, sx, c2, c3, _, c4⟩
    · refine .inl ⟨a, t, rfl, h2, rfl, ?_⟩
      simp only [blockEscape, c4, Exec.ok_bind, Option.isSome_some, if_true]
      rw [Res.charsUsed_eq (by simp), Exec.ok_bind]
      simp [Res.used]
    · refine .inr ⟨by simpa using c1, n, c2, ?_, fun M hM => Nat.le_trans c3 (hM a rfl), ?_⟩
      · intro hp
        rcases h4 with ⟨b, x, u, rfl⟩ | h4
        · cases h1
          rcases evalChar_lit b x l hl (h3 x (by simp)) with ⟨g1, _⟩ | ⟨_, g2⟩
          · cases l with
            | nil => simp at g1
            | cons y t =>
              simp only [List.head?_cons, Option.some.injEq] at g1
              subst g1
              exact absurd (by simp) c1
          · simp only [eval, g2, Exec.ok.injEq, Prod.mk.injEq] at c4
            exact c4.2.symm
        · exact absurd hp h4
      · simp only [blockEscape, c4, Exec.ok_bind, Option.isSome_none, Bool.false_eq_true, if_false]

theorem within_inv {c : List Rune} {e : Option (List Rune)} {xs : List (List Rune)} {l ct r : List Rune}
    (h : Within c e xs l ct r) :
    (l = c ++ r ∧ ct = [] ∧ (∀ a, e = some a → ¬ a <+: l) ∧ ∀ x ∈ xs, ¬ x <+: l) ∨
    (∃ b t ct', l = b :: t ∧ ct = b :: ct' ∧ (∀ a, e = some a → ¬ a <+: l) ∧ (∀ x ∈ xs, ¬ x <+: l) ∧
      ¬ c <+: l ∧ Within c e xs t ct' r) ∨
    (∃ a x t ct', l = a ++ (x ++ t) ∧ ct = x ++ ct' ∧ e = some a ∧ x ∈ xs ∧ Within c e xs t ct' r) ∨
    (∃ a t ct', l = a ++ (c ++ t) ∧ ct = c ++ ct' ∧ e = some a ∧ (∀ x ∈ xs, ¬ x <+: c ++ t) ∧
      Within c e xs t ct' r) ∨
    (∃ a b t ct', l = a ++ b :: t ∧ ct = a ++ (a ++ b :: ct') ∧ e = some a ∧
      (∀ x ∈ xs, ¬ x <+: b :: t) ∧ ¬ c <+: b :: t ∧ Within c e xs t ct' r) := by
  cases h with
  | close he hx => exact .inl ⟨rfl, rfl, he, hx⟩
  | char he hx hc h => exact .inr (.inl ⟨_, _, _, rfl, rfl, he, hx, hc, h⟩)
  | excluded he hx h => exact .inr (.inr (.inl ⟨_, _, _, _, rfl, rfl, he, hx, h⟩))
  | escaped he hx h => exact .inr (.inr (.inr (.inl ⟨_, _, _, rfl, rfl, he, hx, h⟩)))
  | stray he hx hc h => exact .inr (.inr (.inr (.inr ⟨_, _, _, _, rfl, rfl, he, hx, hc, h⟩)))

theorem unique_head {ps : List (Rule × List Rune)}
    (hd : ps.Pairwise (fun p q => p.2.head? ≠ q.2.head?)) {p q : Rule × List Rune} (hp : p ∈ ps)
    (hq : q ∈ ps) (h : p.2.head? = q.2.head?) : p = q := by
  induction ps with
  | nil => cases hp
  | cons x ps ih =>
    rw [List.pairwise_cons] at hd
    rcases List.mem_cons.1 hp with rfl | hp' <;> rcases List.mem_cons.1 hq with rfl | hq'
    · rfl
    · exact absurd h (hd.1 q hq')
    · exact absurd h.symm (hd.1 p hp')
    · exact ih hd.2 hp' hq'

/-- What the loop over the content of a block of literals comes to. -/
def LoopLit (c : List Rune) (e : Option (List Rune)) (xs : List (List Rune)) (ct0 l : List Rune)
    (x : Exec (BlockEnd × Nat)) : Prop :=
  ∃ out k, x = .ok (out, k) ∧
    ((∃ ct r U rc nd, Within c e xs l ct r ∧ out = .closed U [] rc (ct0 ++ ct) ∧ rc.node = some nd ∧
        nd.chars = c ∧ nd.children = [] ∧ rc.read = c ∧
        ((∀ x ∈ e.toList ++ xs, x.length ≤ c.length) → c.length ≤ k ∧ k ≤ l.length ∧ l.drop k = r)) ∨
     ((¬ ∃ ct r, Within c e xs l ct r) ∧ ((∃ t r, out = .excluded t r) ∨ ∃ a b, out = .eof a b)))

theorem blockLoop_lit (env : Env) (f : Nat) {cr : Rule} {c : List Rune} (hcr : Wording cr c)
    (hc0 : c ≠ []) (hcv : Valid c) {ps : List (Rule × List Rune)} {er : Option Rule}
    {e : Option (List Rune)} (he : EscOf ps er e) (hps : Lits ps)
    (hd : ps.Pairwise (fun p q => p.2.head? ≠ q.2.head?)) (fuel : Nat) (l : List Rune)
    (hl : Valid l) (hf : l.length < fuel) (st : BlockState) (hst : er = none → st.unused = []) :
    LoopLit c e (ps.map Prod.snd) st.content l
      (blockLoop (eval env (f + 1)) cr er (ps.map Prod.fst) fuel st l) := by
  have hcpos : 1 ≤ c.length := by
    cases c with
    | nil => exact absurd rfl hc0
    | cons => simp
  induction fuel generalizing l st with
  | zero => omega
  | succ fuel ih =>
    unfold blockLoop
    have hxs : ∀ {m : List Rune}, (∀ p ∈ ps, ¬ p.2 <+: m) → ∀ x ∈ ps.map Prod.snd, ¬ x <+: m := by
      intro m h x hx
      obtain ⟨p, hp, rfl⟩ := List.mem_map.1 hx
      exact h p hp
    have hM : (∀ x ∈ e.toList ++ ps.map Prod.snd, x.length ≤ c.length) → ∀ p ∈ ps, p.2.length ≤ c.length :=
      fun h p hp => h _ (List.mem_append_right _ (List.mem_map.2 ⟨p, hp, rfl⟩))
    have hE : (∀ x ∈ e.toList ++ ps.map Prod.snd, x.length ≤ c.length) → ∀ a, e = some a → a.length ≤ c.length :=
      fun h a ha => h _ (List.mem_append_left _ (by rw [ha]; simp))
    rcases blockEscape_lit env f he st hst l hl with ⟨a, t, rfl, ha0, rfl, h1⟩ | ⟨hne, ne, hnl, hn0, hnM, h1⟩
    · -- escaped
      have htv : Valid t := fun x hx => hl x (List.mem_append_right _ hx)
      have hapos : 1 ≤ a.length := by
        cases a with
        | nil => exact absurd rfl ha0
        | cons => simp
      rw [h1, Exec.ok_bind]
      simp only [List.nil_append, List.drop_left, List.length_nil, Nat.sub_zero]
      have hesc : ∀ {ct r}, Within c (some a) (ps.map Prod.snd) (a ++ t) ct r →
          (∃ x t2 ct', t = x ++ t2 ∧ x ∈ ps.map Prod.snd ∧ Within c (some a) (ps.map Prod.snd) t2 ct' r) ∨
          (∃ t2 ct', t = c ++ t2 ∧ (∀ x ∈ ps.map Prod.snd, ¬ x <+: t) ∧
            Within c (some a) (ps.map Prod.snd) t2 ct' r) ∨
          (∃ b t2 ct', t = b :: t2 ∧ (∀ x ∈ ps.map Prod.snd, ¬ x <+: t) ∧ ¬ c <+: t ∧
            Within c (some a) (ps.map Prod.snd) t2 ct' r) := by
        intro ct r hi
        rcases within_inv hi with ⟨_, _, q, _⟩ | ⟨_, _, _, _, _, q, _⟩ |
          ⟨a', x, t2, ct', q1, q2, q3, q4, q5⟩ | ⟨a', t2, ct', q1, _, q3, q2, q4⟩ |
          ⟨a', b, t2, ct', q1, _, q3, q2, q4, q5⟩
        · exact absurd (List.prefix_append _ _) (q a rfl)
        · exact absurd (List.prefix_append _ _) (q a rfl)
        · simp only [Option.some.injEq] at q3
          subst q3
          exact .inl ⟨x, t2, ct', List.append_cancel_left q1, q4, q5⟩
        · simp only [Option.some.injEq] at q3
          subst q3
          have := List.append_cancel_left q1
          subst this
          exact .inr (.inl ⟨t2, ct', rfl, q2, q4⟩)
        · simp only [Option.some.injEq] at q3
          subst q3
          have := List.append_cancel_left q1
          subst this
          exact .inr (.inr ⟨b, t2, ct', rfl, q2, q4, q5⟩)
      rcases blockExclude_lit env f t htv ps hps hd with
        ⟨p, hp, hpl, nd, stx, h2⟩ | ⟨hno, rx, nx, h2, hnx, hnxM, h3, h4⟩
      · rw [h2, Exec.ok_bind]
        simp only [Option.bind_some, Option.map_some, if_true]
        rw [Res.charsUsed_eq (by simp), Exec.ok_bind]
        obtain ⟨t', rfl⟩ := hpl
        have hpu : ({ node := some nd, read := p.2, unused := [], sticky := stx } : Res).used = p.2.length := by
          simp [Res.used]
        simp only [hpu, List.take_length, List.drop_left]
        obtain ⟨out, k, i1, i2⟩ := ih t' (fun x hx => htv x (List.mem_append_right _ hx))
          (by simp only [List.length_append] at hf; omega)
          { used := st.used ++ a ++ p.2, unused := [], content := st.content ++ p.2 } (fun _ => rfl)
        rw [i1, Exec.ok_bind]
        refine ⟨out, _, rfl, ?_⟩
        rcases i2 with ⟨ct, r, U, rc, cn, j1, j2, j3, j4, j5, j6, j7⟩ | ⟨j1, j2⟩
        · refine .inl ⟨p.2 ++ ct, r, U, rc, cn, .excluded rfl (List.mem_map.2 ⟨p, hp, rfl⟩) j1, ?_,
            j3, j4, j5, j6, ?_⟩
          · rw [j2]; simp
          · intro hm
            obtain ⟨m1, m2, m3⟩ := j7 hm
            refine ⟨by omega, by simp only [List.length_append]; omega, ?_⟩
            rw [← List.drop_drop, List.drop_left, ← List.drop_drop, List.drop_left, m3]
        · refine .inr ⟨?_, j2⟩
          rintro ⟨ct, r, hi⟩
          rcases hesc hi with ⟨x, t2, ct', q1, q4, q5⟩ | ⟨_, _, _, q, _⟩ | ⟨_, _, _, _, q, _⟩
          · obtain ⟨q, hq, rfl⟩ := List.mem_map.1 q4
            have e1 := head_of_prefix (t := p.2) (l := p.2 ++ t') (List.prefix_append _ _) (hps.ne p hp)
            have e2 := head_of_prefix (t := q.2) (l := q.2 ++ t2) (List.prefix_append _ _) (hps.ne q hq)
            have : p = q := unique_head hd hp hq (by rw [e1, e2, q1])
            subst this
            have := List.append_cancel_left q1
            subst this
            exact j1 ⟨_, _, q5⟩
          · exact q _ (List.mem_map.2 ⟨p, hp, rfl⟩) (List.prefix_append _ _)
          · exact q _ (List.mem_map.2 ⟨p, hp, rfl⟩) (List.prefix_append _ _)
      · rw [h2, Exec.ok_bind]
        have h4 := h4 [] (fun _ => rfl)
        simp only [h3, h4, List.take_append_drop]
        rcases eval_lit env f hcr hc0 hcv t htv with ⟨c1, cn, cst, c2, c3, c4⟩ | ⟨c1, n, cst, c2, c3, _, c4⟩
        · rw [c4, Exec.ok_bind]
          simp only [if_true]
          rw [Res.charsUsed_eq (by simp), Exec.ok_bind]
          obtain ⟨t', rfl⟩ := c1
          have hpu : ({ node := some cn, read := c, unused := [], sticky := cst } : Res).used = c.length := by
            simp [Res.used]
          simp only [hpu, List.take_length, List.drop_left]
          obtain ⟨out, k, i1, i2⟩ := ih t' (fun x hx => htv x (List.mem_append_right _ hx))
            (by simp only [List.length_append] at hf; omega)
            { used := st.used ++ a ++ c, unused := [], content := st.content ++ c } (fun _ => rfl)
          rw [i1, Exec.ok_bind]
          refine ⟨out, _, rfl, ?_⟩
          rcases i2 with ⟨ct, r, U, rc, cn', j1, j2, j3, j4, j5, j6, j7⟩ | ⟨j1, j2⟩
          · refine .inl ⟨c ++ ct, r, U, rc, cn', .escaped rfl (hxs hno) j1, ?_, j3, j4, j5, j6, ?_⟩
            · rw [j2]; simp
            · intro hm
              obtain ⟨m1, m2, m3⟩ := j7 hm
              have := hnxM c.length (hM hm)
              rw [List.length_take, Nat.min_eq_left hnx]
              have hk : a.length + (nx + (c.length + k - nx)) = a.length + (c.length + k) := by omega
              rw [hk]
              refine ⟨by omega, by simp only [List.length_append]; omega, ?_⟩
              rw [← List.drop_drop, List.drop_left, ← List.drop_drop, List.drop_left, m3]
          · refine .inr ⟨?_, j2⟩
            rintro ⟨ct, r, hi⟩
            rcases hesc hi with ⟨x, t2, ct', q1, q4, q5⟩ | ⟨t2, ct', q1, _, q⟩ | ⟨_, _, _, _, _, q, _⟩
            · exact hxs hno x q4 (by rw [q1]; exact List.prefix_append _ _)
            · have := List.append_cancel_left q1
              subst this
              exact j1 ⟨_, _, q⟩
            · exact q (List.prefix_append _ _)
        · rw [c4, Exec.ok_bind]
          simp only [List.take_append_drop]
          cases t with
          | nil =>
            rw [if_pos (show peek [] = EOFChar from rfl)]
            refine ⟨_, _, rfl, .inr ⟨?_, .inr ⟨_, _, rfl⟩⟩⟩
            rintro ⟨ct, r, hi⟩
            rcases hesc hi with ⟨x, t2, ct', q1, q4, q5⟩ | ⟨t2, ct', q1, _, q⟩ | ⟨_, _, _, q, _⟩
            · exact hxs hno x q4 (by rw [q1]; exact List.prefix_append _ _)
            · exact c1 (by rw [q1]; exact List.prefix_append _ _)
            · cases q
          | cons b t =>
            have hb : b ≠ EOFChar := htv b (by simp)
            have hone : one (b :: t) = 1 := by simp [one]
            rw [if_neg (show ¬ peek (b :: t) = EOFChar from hb)]
            simp only [hone, List.drop_succ_cons, List.drop_zero]
            obtain ⟨out, k, i1, i2⟩ := ih t (fun x hx => htv x (List.mem_cons_of_mem _ hx))
              (by simp only [List.length_append, List.length_cons] at hf; omega)
              { used := st.used ++ a, unused := [], content := st.content ++ a ++ a ++ [peek (b :: t)] }
              (fun _ => rfl)
            rw [i1, Exec.ok_bind]
            refine ⟨out, _, rfl, ?_⟩
            rcases i2 with ⟨ct, r, U, rc, cn', j1, j2, j3, j4, j5, j6, j7⟩ | ⟨j1, j2⟩
            · refine .inl ⟨a ++ (a ++ b :: ct), r, U, rc, cn', .stray rfl (hxs hno) c1 j1, ?_, j3, j4, j5, j6, ?_⟩
              · rw [j2]; simp [peek]
              · intro hm
                obtain ⟨m1, m2, m3⟩ := j7 hm
                have := hnxM c.length (hM hm)
                simp only [List.length_take, Nat.min_eq_left hnx, Nat.min_eq_left c2]
                have hk : a.length + (nx + (n + (1 + k - n) - nx)) = a.length + (k + 1) := by omega
                rw [hk]
                refine ⟨by omega, by simp only [List.length_append, List.length_cons]; omega, ?_⟩
                rw [← List.drop_drop, List.drop_left, List.drop_succ_cons, m3]
            · refine .inr ⟨?_, j2⟩
              rintro ⟨ct, r, hi⟩
              rcases hesc hi with ⟨x, t2, ct', q1, q4, q5⟩ | ⟨t2, ct', q1, _, q⟩ | ⟨_, _, _, q1, _, _, q⟩
              · exact hxs hno x q4 (by rw [q1]; exact List.prefix_append _ _)
              · exact c1 (by rw [q1]; exact List.prefix_append _ _)
              · simp only [List.cons.injEq] at q1
                obtain ⟨_, rfl⟩ := q1
                exact j1 ⟨_, _, q⟩
    · -- not escaped
      rw [h1, Exec.ok_bind]
      simp only [List.take_append_drop, List.length_take, Nat.min_eq_left hnl]
      have hnoesc : ∀ {ct r}, Within c e (ps.map Prod.snd) l ct r →
          (l = c ++ r ∧ ∀ x ∈ ps.map Prod.snd, ¬ x <+: l) ∨
          ∃ a t ct', l = a :: t ∧ ct = a :: ct' ∧ (∀ x ∈ ps.map Prod.snd, ¬ x <+: l) ∧ ¬ c <+: l ∧
            Within c e (ps.map Prod.snd) t ct' r := by
        intro ct r hi
        rcases within_inv hi with ⟨q1, _, _, q2⟩ | ⟨a', t, ct', q1, q2, _, q3, q4, q5⟩ |
          ⟨a', x, t2, ct', q1, q2, q3, q4, q5⟩ | ⟨a', t2, ct', q1, _, q3, q2, _⟩ |
          ⟨a', b', t2, ct', q1, _, q3, q2, _⟩
        · exact .inl ⟨q1, q2⟩
        · exact .inr ⟨a', t, ct', q1, q2, q3, q4, q5⟩
        · exact absurd (by rw [q1]; exact List.prefix_append _ _) (hne a' q3)
        · exact absurd (by rw [q1]; exact List.prefix_append _ _) (hne a' q3)
        · exact absurd (by rw [q1]; exact List.prefix_append _ _) (hne a' q3)
      rcases blockExclude_lit env f l hl ps hps hd with
        ⟨p, hp, hpl, nd, stx, h2⟩ | ⟨hno, rx, nx, h2, hnx, hnxM, h3, h4⟩
      · rw [h2, Exec.ok_bind]
        simp only [Option.bind_some, Option.map_some, Bool.false_eq_true, if_false]
        rw [Res.charsUsed_eq (by simp), Exec.ok_bind]
        refine ⟨_, _, rfl, .inr ⟨?_, .inl ⟨_, _, rfl⟩⟩⟩
        rintro ⟨ct, r, hi⟩
        rcases hnoesc hi with ⟨_, q⟩ | ⟨_, _, _, _, _, q, _⟩
        · exact q _ (List.mem_map.2 ⟨p, hp, rfl⟩) hpl
        · exact q _ (List.mem_map.2 ⟨p, hp, rfl⟩) hpl
      · rw [h2, Exec.ok_bind]
        have h4 := h4 (l.take ne) (fun hp => by rw [hn0 hp]; rfl)
        simp only [h3, h4, List.take_append_drop]
        rcases eval_lit env f hcr hc0 hcv l hl with ⟨c1, cn, cst, c2, c3, c4⟩ | ⟨c1, n, cst, c2, c3, _, c4⟩
        · rw [c4, Exec.ok_bind]
          simp only [Bool.false_eq_true, if_false]
          rw [Res.charsUsed_eq (by simp), Exec.ok_bind]
          obtain ⟨r, rfl⟩ := c1
          refine ⟨_, _, rfl, .inl ⟨[], r, _, _, cn, .close hne (hxs hno), by rw [List.append_nil], rfl, c2, c3,
            rfl, ?_⟩⟩
          intro hm
          have := hnxM c.length (hM hm)
          have := hnM c.length (hE hm)
          rw [List.length_take, Nat.min_eq_left hnx]
          have hk : ne + (nx + (c.length - nx) - ne) = c.length := by omega
          rw [hk]
          exact ⟨Nat.le_refl _, by simp, List.drop_left⟩
        · rw [c4, Exec.ok_bind]
          simp only [List.take_append_drop]
          cases l with
          | nil =>
            rw [if_pos (show peek [] = EOFChar from rfl)]
            refine ⟨_, _, rfl, .inr ⟨?_, .inr ⟨_, _, rfl⟩⟩⟩
            rintro ⟨ct, r, hi⟩
            rcases hnoesc hi with ⟨q, _⟩ | ⟨_, _, _, q, _⟩
            · exact c1 (by rw [q]; exact List.prefix_append _ _)
            · cases q
          | cons b t =>
            have hb : b ≠ EOFChar := hl b (by simp)
            have hone : one (b :: t) = 1 := by simp [one]
            rw [if_neg (show ¬ peek (b :: t) = EOFChar from hb)]
            simp only [hone, List.drop_succ_cons, List.drop_zero]
            obtain ⟨out, k, i1, i2⟩ := ih t (fun x hx => hl x (List.mem_cons_of_mem _ hx))
              (by simp only [List.length_cons] at hf; omega)
              { used := st.used, unused := [], content := st.content ++ [] ++ [] ++ [peek (b :: t)] }
              (fun _ => rfl)
            rw [i1, Exec.ok_bind]
            refine ⟨out, _, rfl, ?_⟩
            rcases i2 with ⟨ct, r, U, rc, cn', j1, j2, j3, j4, j5, j6, j7⟩ | ⟨j1, j2⟩
            · refine .inl ⟨b :: ct, r, U, rc, cn', .char hne (hxs hno) c1 j1, ?_, j3, j4, j5,
                j6, ?_⟩
              · rw [j2]; simp [peek]
              · intro hm
                obtain ⟨m1, m2, m3⟩ := j7 hm
                have := hnxM c.length (hM hm)
                simp only [List.length_take, Nat.min_eq_left hnx, Nat.min_eq_left c2]
                have := hnM c.length (hE hm)
                have hk : ne + (nx + (n + (1 + k - n) - nx) - ne) = k + 1 := by omega
                rw [hk]
                refine ⟨by omega, by simp only [List.length_cons]; omega, ?_⟩
                rw [List.drop_succ_cons, m3]
            · refine .inr ⟨?_, j2⟩
              rintro ⟨ct, r, hi⟩
              rcases hnoesc hi with ⟨q, _⟩ | ⟨_, _, _, q1, _, _, _, q⟩
              · exact c1 (by rw [q]; exact List.prefix_append _ _)
              · simp only [List.cons.injEq] at q1
                obtain ⟨_, rfl⟩ := q1
                exact j1 ⟨_, _, q⟩

/-- A literal that white space may come before. -/
theorem eval_lit_open (env : Env) (f : Nat) {r : Rule} {a : Rune} {t ws body : List Rune} {flag : Int}
    (h : Wording r (a :: t)) (ha : isWhiteSpace a = false) (hv : Valid (ws ++ (a :: t ++ body)))
    (hws : ∀ x ∈ ws, isWhiteSpace x = true) (hf : ws = [] ∨ flag = SUGGEST_SKIP) :
    ∃ nd st, nd.chars = a :: t ∧ nd.children = [] ∧
      eval env (f + 1) r flag (ws ++ (a :: t ++ body)) =
        .ok ({ node := some nd, read := ws ++ (a :: t), unused := [], sticky := st },
          (ws ++ (a :: t)).length) := by
  have htw : (ws ++ (a :: t ++ body)).takeWhile isWhiteSpace = ws := by
    rw [List.takeWhile_append_of_pos hws]; simp [ha]
  have hne : peek (ws ++ (a :: t ++ body)) ≠ EOFChar := fun hc => by
    have := (peek_eof hv).1 hc
    simp at this
  have hvt : Valid (a :: t ++ body) := fun x hx => hv x (List.mem_append_right _ hx)
  have hsp : ∀ skip : Bool, (ws = [] ∨ skip = true) → spaces skip (ws ++ (a :: t ++ body)) = ws := by
    intro skip hs
    cases skip with
    | true => exact htw
    | false =>
      rcases hs with rfl | hs
      · rfl
      · cases hs
  have hm : ∀ skip : Bool, (ws = [] ∨ skip = true) →
      matchText (a :: t) skip (ws ++ (a :: t ++ body)) = (ws ++ (a :: t), true, (ws ++ (a :: t)).length) := by
    intro skip hs
    have hk : matchK (a :: t) (a :: t ++ body) = (a :: t, true, (a :: t).length) := by
      rcases matchK_spec (a :: t) (a :: t ++ body) hvt with ⟨_, h⟩ | ⟨h, _⟩
      · exact h
      · exact absurd (List.prefix_append _ _) h
    cases skip with
    | true =>
      have hlead : leadingWhiteSpace (a :: t) = [] := by simp [leadingWhiteSpace, ha]
      simp only [matchText, if_true, htw, hlead, List.length_nil, Nat.sub_zero, List.drop_length,
        List.drop_zero, Nat.not_lt_zero, if_false, List.drop_left, hk]
      simp
    | false =>
      rcases hs with rfl | hs
      · simp only [matchText, Bool.false_eq_true, if_false, List.nil_append]
        exact hk
      · cases hs
  have htext : ∀ (rt : RType) (b : RuleBase) (sticky skip : Bool), (ws = [] ∨ skip = true) →
      evalText rt b sticky skip (a :: t) (ws ++ (a :: t ++ body)) =
        ({ node := some (leafNode rt b sticky (a :: t) none), read := ws ++ (a :: t), unused := [],
           sticky := sticky }, (ws ++ (a :: t)).length) := by
    intro rt b sticky skip hs
    unfold evalText
    rw [if_neg hne]
    simp only [hm skip hs, if_true]
  cases h with
  | char b x u =>
    refine ⟨leafNode .char b true [a] none, true, rfl, rfl, ?_⟩
    simp only [eval, evalChar]
    rw [if_neg hne, hsp _ (hf.imp id (by rintro rfl; rfl)), if_neg (by simp [ha])]
    simp [peek, one]
  | chars b t' =>
    exact ⟨_, _, rfl, rfl, by simp only [eval]; rw [htext _ _ _ _ (hf.imp id (by rintro rfl; rfl))]⟩
  | str b t' =>
    exact ⟨_, _, rfl, rfl, by simp only [eval]; rw [htext _ _ _ _ (hf.imp id (by rintro rfl; rfl))]⟩

theorem lits_of {rs : List Rule} {xs : List (List Rune)} (h : Wordings rs xs) :
    ∃ ps : List (Rule × List Rune), ps.map Prod.fst = rs ∧ ps.map Prod.snd = xs ∧
      ∀ p ∈ ps, Wording p.1 p.2 := by
  induction h with
  | nil => exact ⟨[], rfl, rfl, by simp⟩
  | @cons r t _ _ h _ ih =>
    obtain ⟨ps, h1, h2, h3⟩ := ih
    refine ⟨(r, t) :: ps, by simp [h1], by simp [h2], ?_⟩
    intro p hp
    rcases List.mem_cons.1 hp with rfl | hp
    · exact h
    · exact h3 p hp

/-- The content is made of characters of the text. -/
theorem within_valid {c : List Rune} {e : Option (List Rune)} {xs : List (List Rune)} {l ct r : List Rune}
    (h : Within c e xs l ct r) (hl : Valid l) : Valid ct := by
  induction h with
  | close => intro x hx; cases hx
  | @char a l ct r _ _ _ _ ih =>
    intro x hx
    rcases List.mem_cons.1 hx with rfl | hx
    · exact hl _ (by simp)
    · exact ih (fun y hy => hl y (List.mem_cons_of_mem _ hy)) x hx
  | excluded _ _ _ ih =>
    intro x hx
    rcases List.mem_append.1 hx with hx | hx
    · exact hl x (by simp [hx])
    · exact ih (fun y hy => hl y (by simp [hy])) x hx
  | escaped _ _ _ ih =>
    intro x hx
    rcases List.mem_append.1 hx with hx | hx
    · exact hl x (by simp [hx])
    · exact ih (fun y hy => hl y (by simp [hy])) x hx
  | stray _ _ _ _ ih =>
    intro x hx
    simp only [List.mem_append, List.mem_cons] at hx
    rcases hx with hx | hx | rfl | hx
    · exact hl x (by simp [hx])
    · exact hl x (by simp [hx])
    · exact hl x (by simp)
    · exact ih (fun y hy => hl y (by simp [hy])) x hx

theorem evalBlock_lit (env : Env) (f fuel : Nat) {v : Bool} {o c : List Rune} {e : Option (List Rune)}
    {xs : List (List Rune)} {b : RuleBase} {ro rc : Rule} {er : Option Rule} {rs : List Rule}
    (hr : LiteralBlock v o c e xs (.block b ro v rc er rs)) (ht : Texts o c e xs) {ws body : List Rune}
    {flag : Int} (hv : Valid (ws ++ (o ++ body))) (hws : ∀ x ∈ ws, isWhiteSpace x = true)
    (hf : ws = [] ∨ flag = SUGGEST_SKIP) (hfuel : body.length < fuel) :
    ∃ res k, evalBlock (eval env (f + 1)) fuel b ro v rc er rs flag (ws ++ (o ++ body)) = .ok (res, k) ∧
      ((∃ ct r on cn, Within c e xs body ct r ∧ on.chars = o ∧ on.children = [] ∧ cn.chars = c ∧
          cn.children = [] ∧
          res.node = some (branchNode .block b false
            ([on, { ruleType := .chars, chars := ct, sticky := true }] ++ (if v then [] else [cn])) none) ∧
          ((∀ x ∈ e.toList ++ xs, x.length ≤ c.length) →
            res.unused ++ (ws ++ (o ++ body)).drop k = if v then c ++ r else r)) ∨
       (res.node = none ∧ ¬ ∃ ct r, Within c e xs body ct r)) := by
  obtain ⟨a, t, rfl, ha⟩ := ht.opens
  have key : Wording ro (a :: t) ∧ Wording rc c ∧ Wordings rs xs ∧ ∀ ps : List (Rule × List Rune),
      ps.map Prod.snd = xs → EscOf ps er e := by
    cases hr with
    | plain h1 h2 h3 => exact ⟨h1, h2, h3, fun _ _ => .inl ⟨rfl, rfl⟩⟩
    | escape h1 h2 h3 h4 h5 =>
      refine ⟨h1, h2, h4, fun ps hp => .inr ⟨_, _, rfl, rfl, h3, ht.nonempty _ (by simp), ht.chars _ (by simp),
        h5.imp id ?_⟩⟩
      rintro hx rfl
      exact hx hp.symm
  obtain ⟨h1, h2, h3, h4⟩ := key
  obtain ⟨ps, rfl, rfl, hps⟩ := lits_of h3
  have hmem : ∀ p ∈ ps, p.2 ∈ e.toList ++ ps.map Prod.snd :=
    fun p hp => List.mem_append_right _ (List.mem_map.2 ⟨p, hp, rfl⟩)
  have hl : Lits ps := ⟨hps, fun p hp => ht.nonempty _ (List.mem_cons_of_mem _ (hmem p hp)),
    fun p hp => ht.chars _ (List.mem_cons_of_mem _ (List.mem_cons_of_mem _ (hmem p hp)))⟩
  obtain ⟨on, st, o1, o2, o3⟩ := eval_lit_open env f (flag := flag) h1 ha hv hws hf
  unfold evalBlock
  rw [o3, Exec.ok_bind]
  simp only [List.nil_append]
  have hcu : Res.countUsed { node := some on, read := ws ++ (a :: t), unused := [], sticky := st } =
      ((ws ++ (a :: t)).length : Int) := by simp [Res.countUsed]
  rw [hcu, sliceTo_all _ _ (Nat.le_refl _), Exec.ok_bind]
  have hdr : (ws ++ (a :: t ++ body)).drop (ws ++ (a :: t)).length = body := by
    rw [← List.append_assoc, List.drop_left]
  have hbv : Valid body := fun x hx => hv x (by simp [hx])
  obtain ⟨out, k, i1, i2⟩ := blockLoop_lit env f h2 (ht.nonempty c (by simp)) (ht.chars c (by simp)) (h4 ps rfl) hl
    ((List.pairwise_map (R := fun (x y : List Rune) => x.head? ≠ y.head?)).1 ht.apart) fuel body hbv hfuel
    { used := (ws ++ (a :: t)).take (ws ++ (a :: t)).length, unused := [] } (fun _ => rfl)
  rw [hdr, i1, Exec.ok_bind]
  rcases i2 with ⟨ct, r, U, rcl, cn, j1, rfl, j3, j4, j5, j6, j7⟩ | ⟨j1, j2⟩
  · refine ⟨_, _, rfl, .inl ⟨ct, r, on, cn, j1, o1, o2, j4, j5, ?_, ?_⟩⟩
    · simp only [List.nil_append, j3, Option.toList_some]
    · intro hm
      obtain ⟨m1, m2, m3⟩ := j7 hm
      simp only [j6, List.length_nil, Nat.sub_zero]
      rw [← List.drop_drop, hdr, m3]
      cases v <;> rfl
  · rcases j2 with ⟨_, _, rfl⟩ | ⟨_, _, rfl⟩
    · exact ⟨_, _, rfl, .inr ⟨rfl, j1⟩⟩
    · exact ⟨_, _, rfl, .inr ⟨rfl, j1⟩⟩

end L
end Xbnf
