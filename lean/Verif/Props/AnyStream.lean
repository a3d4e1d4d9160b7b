import Verif.Lemmas.AnyDocument
import Verif.Lemmas.AnySafe
import Verif.Lemmas.AnyExact
import Verif.Props.Eval
import Verif.Props.Document
/-
C79: a stream of the caller's own type that spells a text is parsed as the text is.
C80: no stream of the caller's own type, however wrong its answers, makes the library panic.
-/
namespace Xbnf.Props
open Spec Grammar

section
variable {σ : Type} {I : Impl σ} {ok : σ → Prop} {rest : σ → List Rune}

theorem par_start {b : σ} (hb : ok b) {w : Nat} (hw : (rest b).length ≤ w) :
    G.Par w ok rest (.base b) (Stream.ofChars (rest b)) :=
  ⟨⟨hb, hw⟩, Nat.zero_le _, rfl⟩

/-- The streams after the call: the caller's stream has the characters left that the text has. -/
theorem both_end {w : Nat} {b : σ} {s s' : Stream} {gs' : GStream σ}
    (h : G.Both w ok rest (.base b) s gs' s') (hp : G.Par w ok rest (.base b) s) :
    ∃ b', gs' = .base b' ∧ ok b' ∧ rest b' = s'.rem := by
  have h2 := h.par hp
  obtain ⟨k, h1, _⟩ := h
  match gs', h1, h2 with
  | .base b', h1, h2 => exact ⟨b', rfl, h1.2.1, h2.2.2⟩

theorem core_parts {r r' : Res} (h : r.core = r'.core) :
    r.node.map Node.erase = r'.node.map Node.erase ∧ r.read = r'.read ∧ r.unused = r'.unused ∧
      r.sticky = r'.sticky := by
  simpa only [Res.core, Res.mk.injEq, true_and] using h

/-- **C79** for `Eval` of a rule.  If the caller's implementation of `ICharstream` spells a text, what a rule finds on it, it finds on the text:
the same tree but for positions, the same characters read and left over; and the caller's stream is left with the characters the text is left with. -/
theorem C79_rule (hs : Spells I ok rest) {b : σ} (hb : ok b) {w : Nat} (hw : (rest b).length ≤ w) {env : Env} {fuel : Nat} {r : Rule} {flag : Int}
    {res : Res} {s' : GStream σ} (h : G.eval I w env fuel r flag (.base b) = .ok (res, s')) :
    ∃ res' t, eval env fuel r flag (Stream.ofChars (rest b)) = .ok (res', t) ∧
      (res.node.map Node.erase = res'.node.map Node.erase ∧ res.read = res'.read ∧ res.unused = res'.unused ∧ res.sticky = res'.sticky) ∧
      ∃ b', s' = .base b' ∧ ok b' ∧ rest b' = t.rem := by
  have hp := par_start hb hw
  have h1 := G.eval_both hs env fuel r flag hp
  rw [h] at h1
  cases hx : eval env fuel r flag (Stream.ofChars (rest b)) with
  | ok y =>
    rw [hx] at h1
    exact ⟨y.1, y.2, rfl, core_parts h1.1, both_end h1.2 hp⟩
  | panic => rw [hx] at h1; exact h1.elim
  | oof => rw [hx] at h1; exact h1.elim

/-- The other way round: what the rule finds on the text, it finds on the caller's stream. -/
theorem C79_rule_text (hs : Spells I ok rest) {b : σ} (hb : ok b) {w : Nat} (hw : (rest b).length ≤ w) {env : Env} {fuel : Nat} {r : Rule}
    {flag : Int} {res' : Res} {t : Stream} (h : eval env fuel r flag (Stream.ofChars (rest b)) = .ok (res', t)) :
    ∃ res b', G.eval I w env fuel r flag (.base b) = .ok (res, .base b') ∧
      (res.node.map Node.erase = res'.node.map Node.erase ∧ res.read = res'.read ∧ res.unused = res'.unused ∧ res.sticky = res'.sticky) ∧
      ok b' ∧ rest b' = t.rem := by
  have hp := par_start hb hw
  have h1 := G.eval_both hs env fuel r flag hp
  rw [h] at h1
  cases hx : G.eval I w env fuel r flag (.base b) with
  | ok y =>
    rw [hx] at h1
    obtain ⟨b', e, h2, h3⟩ := both_end h1.2 hp
    obtain ⟨y1, y2⟩ := y
    simp only at e
    subst e
    exact ⟨y1, b', rfl, core_parts h1.1, h2, h3⟩
  | panic => rw [hx] at h1; exact h1.elim
  | oof => rw [hx] at h1; exact h1.elim

/-- Two implementations that spell the same text cannot be told apart by the trees. -/
theorem C79_two {τ : Type} {J : Impl τ} {ok' : τ → Prop} {rest' : τ → List Rune} (hs : Spells I ok rest) (hs' : Spells J ok' rest') {b : σ} {c : τ}
    (hb : ok b) (hc : ok' c) (he : rest b = rest' c) {w w' : Nat} (hw : (rest b).length ≤ w) (hw' : (rest' c).length ≤ w') {env : Env} {fuel : Nat}
    {r : Rule} {flag : Int} {res : Res} {s' : GStream σ} (h : G.eval I w env fuel r flag (.base b) = .ok (res, s')) :
    ∃ res' c', G.eval J w' env fuel r flag (.base c) = .ok (res', .base c') ∧ res.node.map Node.erase = res'.node.map Node.erase ∧
      res.read = res'.read ∧ res.unused = res'.unused ∧ res.sticky = res'.sticky := by
  obtain ⟨x, t, h1, ⟨a1, a2, a3, a4⟩, _⟩ := C79_rule hs hb hw h
  rw [he] at h1
  obtain ⟨y, c', h2, ⟨b1, b2, b3, b4⟩, _⟩ := C79_rule_text hs' hc hw' h1
  exact ⟨y, c', h2, a1.trans b1.symm, a2.trans b2.symm, a3.trans b3.symm, a4.trans b4.symm⟩

/-- **C79** for `EvalRaw`.  In whatever order the maps are visited over the caller's stream, there is an order in which the text gives the same
error, or the same trees but for positions. -/
theorem C79_document (hs : Spells I ok rest) {b : σ} (hb : ok b) {w : Nat} (hw : (rest b).length ≤ w) {g : Grammar} {fuel : Nat} {sch : Sched}
    (hf : sch.Fair) {y : Except RawErr (List Node)} {s' : GStream σ} (h : G.evalRaw I w g fuel sch (.base b) = .ok (y, s')) :
    ∃ sch' : Sched, sch'.Fair ∧ ∃ y' t, g.evalRaw fuel sch' (Stream.ofChars (rest b)) = .ok (y', t) ∧
      y.map (List.map Node.erase) = y'.map (List.map Node.erase) ∧ ∃ b', s' = .base b' ∧ ok b' ∧ rest b' = t.rem := by
  have hp := par_start hb hw
  obtain ⟨sch', h1, h2⟩ := G.evalRaw_forth hs (g := g) (fuel := fuel) hf hp
  rw [h] at h2
  refine ⟨sch', h1, ?_⟩
  cases hx : g.evalRaw fuel sch' (Stream.ofChars (rest b)) with
  | ok z => rw [hx] at h2; exact ⟨z.1, z.2, rfl, h2.1, both_end h2.2 hp⟩
  | panic => rw [hx] at h2; exact h2.elim
  | oof => rw [hx] at h2; exact h2.elim

/-- The other way round. -/
theorem C79_document_text (hs : Spells I ok rest) {b : σ} (hb : ok b) {w : Nat} (hw : (rest b).length ≤ w) {g : Grammar} {fuel : Nat} {sch : Sched}
    (hf : sch.Fair) {y' : Except RawErr (List Node)} {t : Stream} (h : g.evalRaw fuel sch (Stream.ofChars (rest b)) = .ok (y', t)) :
    ∃ sch' : Sched, sch'.Fair ∧ ∃ y b', G.evalRaw I w g fuel sch' (.base b) = .ok (y, .base b') ∧
      y.map (List.map Node.erase) = y'.map (List.map Node.erase) ∧ ok b' ∧ rest b' = t.rem := by
  have hp := par_start hb hw
  obtain ⟨sch', h1, h2⟩ := G.evalRaw_back hs (g := g) (fuel := fuel) hf hp
  rw [h] at h2
  refine ⟨sch', h1, ?_⟩
  cases hx : G.evalRaw I w g fuel sch' (.base b) with
  | ok z =>
    rw [hx] at h2
    obtain ⟨b', e, h3, h4⟩ := both_end h2.2 hp
    obtain ⟨z1, z2⟩ := z
    simp only at e
    subst e
    exact ⟨z1, b', rfl, h2.1, h3, h4⟩
  | panic => rw [hx] at h2; exact h2.elim
  | oof => rw [hx] at h2; exact h2.elim

/-- **C79** for `Eval`, at every level of simplification. -/
theorem C79_levels (hs : Spells I ok rest) {b : σ} (hb : ok b) {w : Nat} (hw : (rest b).length ≤ w) {g : Grammar} {fuel : Nat} {sch : Sched}
    (hf : sch.Fair) {level : Int} {y : Except RawErr (List Node)} {s' : GStream σ} (h : G.evalAST I w g fuel sch (.base b) level = .ok (y, s')) :
    ∃ sch' : Sched, sch'.Fair ∧ ∃ y' t, g.evalAST fuel sch' (Stream.ofChars (rest b)) level = .ok (y', t) ∧
      y.map (List.map Node.erase) = y'.map (List.map Node.erase) := by
  have hp := par_start hb hw
  obtain ⟨sch', h1, h2⟩ := G.evalRaw_forth hs (g := g) (fuel := fuel) hf hp
  have h3 := G.simplify_same (level := level) h2
  refine ⟨sch', h1, ?_⟩
  change SimG _ (G.evalAST I w g fuel sch (.base b) level) (g.evalAST fuel sch' (Stream.ofChars (rest b)) level) at h3
  rw [h] at h3
  cases hx : g.evalAST fuel sch' (Stream.ofChars (rest b)) level with
  | ok z => rw [hx] at h3; exact ⟨z.1, z.2, rfl, h3.1⟩
  | panic => rw [hx] at h3; exact h3.elim
  | oof => rw [hx] at h3; exact h3.elim

/-- The evaluation over the caller's stream ends when the evaluation of the text does: no loop of the library keeps asking. -/
theorem C79_ends (hs : Spells I ok rest) {b : σ} (hb : ok b) {w : Nat} (hw : (rest b).length ≤ w) {env : Env} {fuel : Nat} {r : Rule} {flag : Int} :
    G.eval I w env fuel r flag (.base b) = .oof ↔ eval env fuel r flag (Stream.ofChars (rest b)) = .oof := by
  have h1 := G.eval_both hs env fuel r flag (par_start hb hw)
  generalize G.eval I w env fuel r flag (.base b) = x at *
  generalize eval env fuel r flag (Stream.ofChars (rest b)) = y at *
  match x, y, h1 with
  | .ok _, .ok _, _ => simp
  | .panic, .panic, _ => simp
  | .oof, .oof, _ => simp

end

/-! ### Two implementations -/

/-- A stream over a text that arrives in pieces, some of them empty: `Peek` throws the empty ones away.  It knows no positions, and its cursor is
always 0. -/
def Pieces.next : List (List Rune) → Rune × List (List Rune)
  | [] => (EOFChar, [])
  | [] :: ps => Pieces.next ps
  | (c :: p) :: ps => (c, p :: ps)

def Pieces.peek : List (List Rune) → Rune × List (List Rune)
  | [] => (EOFChar, [])
  | [] :: ps => Pieces.peek ps
  | (c :: p) :: ps => (c, (c :: p) :: ps)

def Pieces.matchRunes : List Rune → List (List Rune) → (List Rune × Bool) × List (List Rune)
  | [], b => (([], true), b)
  | want :: t, b =>
    let r := Pieces.next b
    if r.1 = EOFChar then (([], false), r.2)
    else if r.1 = want then
      let m := Pieces.matchRunes t r.2
      ((r.1 :: m.1.1, m.1.2), m.2)
    else (([r.1], false), r.2)

def Pieces.skipSpaces : List (List Rune) → List Rune × List (List Rune)
  | [] => ([], [])
  | p :: ps =>
    if p.all isWhiteSpace then (p ++ (Pieces.skipSpaces ps).1, (Pieces.skipSpaces ps).2)
    else (p.takeWhile isWhiteSpace, p.dropWhile isWhiteSpace :: ps)

def pieces : Impl (List (List Rune)) where
  next := Pieces.next
  peek := Pieces.peek
  matchRunes := Pieces.matchRunes
  skipSpaces := Pieces.skipSpaces
  position b := (none, b)
  positionLookup _ b := (none, b)
  cursor b := (0, b)

theorem Pieces.next_spec (b : List (List Rune)) :
    (Pieces.next b).1 = b.flatten.headD EOFChar ∧ (Pieces.next b).2.flatten = b.flatten.tail := by
  fun_induction Pieces.next b with
  | case1 => exact ⟨rfl, rfl⟩
  | case2 ps ih => simpa using ih
  | case3 c p ps => exact ⟨rfl, rfl⟩

theorem Pieces.peek_spec (b : List (List Rune)) : (Pieces.peek b).1 = b.flatten.headD EOFChar ∧ (Pieces.peek b).2.flatten = b.flatten := by
  fun_induction Pieces.peek b with
  | case1 => exact ⟨rfl, rfl⟩
  | case2 ps ih => simpa using ih
  | case3 c p ps => exact ⟨rfl, rfl⟩

theorem Pieces.match_spec : ∀ (t : List Rune) (b : List (List Rune)), (∀ c ∈ b.flatten, c ≠ EOFChar) →
    (Pieces.matchRunes t b).1 = tryMatch t b.flatten ∧
      (Pieces.matchRunes t b).2.flatten = b.flatten.drop (tryMatch t b.flatten).1.length
  | [], b, _ => by simp [Pieces.matchRunes, tryMatch]
  | want :: t, b, h => by
    have h1 := Pieces.next_spec b
    have h2 := Pieces.match_spec t (Pieces.next b).2
    simp only [Pieces.matchRunes]
    cases hl : b.flatten with
    | nil =>
      rw [hl] at h1
      rw [if_pos (by rw [h1.1]; rfl)]
      refine ⟨rfl, ?_⟩
      rw [h1.2]; rfl
    | cons c l =>
      rw [hl] at h1 h
      have e : (Pieces.next b).1 = c := h1.1
      have e2 : (Pieces.next b).2.flatten = l := h1.2
      rw [e, if_neg (h c List.mem_cons_self)]
      simp only [tryMatch]
      split
      · obtain ⟨a1, a2⟩ := h2 (by rw [e2]; exact fun x hx => h x (List.mem_cons_of_mem _ hx))
        rw [e2] at a1 a2
        rw [a1]
        refine ⟨rfl, ?_⟩
        rw [a2]; simp
      · exact ⟨rfl, by rw [e2]; rfl⟩

theorem Pieces.skip_spec (b : List (List Rune)) :
    (Pieces.skipSpaces b).1 = b.flatten.takeWhile isWhiteSpace ∧ (Pieces.skipSpaces b).2.flatten = b.flatten.dropWhile isWhiteSpace := by
  induction b with
  | nil => exact ⟨rfl, rfl⟩
  | cons p ps ih =>
    simp only [Pieces.skipSpaces, List.flatten_cons]
    by_cases h : p.all isWhiteSpace = true
    · rw [if_pos h]
      have h' : ∀ x ∈ p, isWhiteSpace x = true := List.all_eq_true.mp h
      rw [List.takeWhile_append_of_pos h', List.dropWhile_append_of_pos h']
      exact ⟨by rw [ih.1], ih.2⟩
    · rw [if_neg h]
      have hne : p.dropWhile isWhiteSpace ≠ [] := by
        intro e
        apply h
        rw [List.all_eq_true]
        have := List.takeWhile_append_dropWhile (p := isWhiteSpace) (l := p)
        rw [e, List.append_nil] at this
        rw [← this]
        exact List.all_eq_true.mp List.all_takeWhile
      rw [List.takeWhile_append, List.dropWhile_append]
      have hlen : ¬ (p.takeWhile isWhiteSpace).length = p.length := by
        intro e
        have := congrArg List.length (List.takeWhile_append_dropWhile (p := isWhiteSpace) (l := p))
        rw [List.length_append, e] at this
        exact hne (List.eq_nil_of_length_eq_zero (by omega))
      rw [if_neg hlen]
      refine ⟨rfl, ?_⟩
      have : (p.dropWhile isWhiteSpace).isEmpty = false := by cases hp : p.dropWhile isWhiteSpace <;> simp_all
      rw [this]; rfl

/-- The pieces spell the text they make up, as long as no character is the end marker. -/
theorem pieces_spells : Spells pieces (fun b => ∀ c ∈ b.flatten, c ≠ EOFChar) List.flatten where
  chars _ h := h
  next b h := ⟨(Pieces.next_spec b).1, by
    change ∀ c ∈ (Pieces.next b).2.flatten, c ≠ EOFChar
    rw [(Pieces.next_spec b).2]; exact fun c hc => h c (List.mem_of_mem_tail hc), (Pieces.next_spec b).2⟩
  peek b h := ⟨(Pieces.peek_spec b).1, by
    change ∀ c ∈ (Pieces.peek b).2.flatten, c ≠ EOFChar
    rw [(Pieces.peek_spec b).2]; exact h, (Pieces.peek_spec b).2⟩
  matchRunes b t h := ⟨(Pieces.match_spec t b h).1, by
    change ∀ c ∈ (Pieces.matchRunes t b).2.flatten, c ≠ EOFChar
    rw [(Pieces.match_spec t b h).2]; exact fun c hc => h c (List.mem_of_mem_drop hc), (Pieces.match_spec t b h).2⟩
  skipSpaces b h := ⟨(Pieces.skip_spec b).1, by
    change ∀ c ∈ (Pieces.skipSpaces b).2.flatten, c ≠ EOFChar
    rw [(Pieces.skip_spec b).2]; exact fun c hc => h c ((List.dropWhile_sublist _).subset hc), (Pieces.skip_spec b).2⟩
  position _ h := ⟨h, rfl⟩
  positionLookup _ _ h := ⟨h, rfl⟩
  cursor _ h := ⟨h, rfl⟩

/-- What the user sees of `EvalRaw` over a stream of their own. -/
def rawTextsOf {σ : Type} (x : Exec (Except RawErr (List Node) × GStream σ)) : Option (RawErr ⊕ List (List Rune)) :=
  match x with
  | .ok (.ok ns, _) => some (.inr (ns.map Node.text))
  | .ok (.error e, _) => some (.inl e)
  | _ => none

/-- `"item 1 1 stop item 1"` in pieces. -/
def itemPieces : List (List Rune) := ["", "it", "", "em 1", " ", " 1 s", "top item ", "1", ""].map runes

/-- Non-vacuity: a document that arrives in pieces gives the trees of the document; the orders of visiting are the same here. -/
example : (∀ c ∈ itemPieces.flatten, c ≠ EOFChar) ∧ itemPieces.flatten.length = 21 ∧
    rawTextsOf (G.evalRaw pieces 21 itemsAndStops 20 forward (.base itemPieces)) = some (.inr [runes "item 1 1", runes "stop", runes "item 1"]) ∧
    rawTexts (itemsAndStops.evalRaw 20 forward (Stream.ofChars itemPieces.flatten)) = some (.inr [runes "item 1 1", runes "stop", runes "item 1"]) ∧
    rawTextsOf (G.evalRaw pieces 21 itemsAndStops 20 backward (.base (["st", "op it", "em"].map runes))) = some (.inl .noMatch) ∧
    rawTexts (itemsAndStops.evalRaw 20 backward (Stream.ofChars (runes "stop item"))) = some (.inl .noMatch) := by
  decide +kernel

/-- What the user sees of `Eval` of a rule: the text of the tree, the characters read, the characters left over. -/
def seenOf {σ : Type} (x : Exec (Res × GStream σ)) : Option (Option (List Rune) × List Rune × List Rune) :=
  match x with
  | .ok (r, _) => some (r.node.map Node.text, r.read, r.unused)
  | _ => none

/-- Non-vacuity for rules: `{"ab"} EOF` on `ab ab`, in pieces; and a text on which it fails. -/
example :
    let r : Rule := .concat {} [.rep {} (.chars {} (runes "ab")) 0 0, .eof {}]
    seenOf (G.eval pieces 5 (fun _ => none) 9 r SUGGEST_SKIP (.base (["a", "b ", "", "a", "b"].map runes))) =
      some (some (runes "abab"), runes "ab ab", []) ∧
    seenOf (G.eval pieces 5 (fun _ => none) 9 r SUGGEST_SKIP (.base (["a", "b ", "", "a", "c"].map runes))) =
      some (none, runes "ab ac", runes "ab ac") := by decide +kernel

/-- A stream whose `Peek` moves on: what `Spells` asks is needed. -/
def hasty : Impl (List (List Rune)) := { pieces with peek := Pieces.next }

/-- Over the hasty stream the rule `"ab"` finds nothing in `ab`. -/
example : seenOf (G.eval hasty 2 (fun _ => none) 9 (.chars {} (runes "ab")) SUGGEST_SKIP (.base [runes "ab"])) = some (none, runes "b", runes "b") ∧
    seenOf (G.eval pieces 2 (fun _ => none) 9 (.chars {} (runes "ab")) SUGGEST_SKIP (.base [runes "ab"])) = some (some (runes "ab"), runes "ab", []) := by
  decide +kernel

/-! ### Streams that know their positions -/

theorem exact_first {σ α : Type} {w : Nat} {R : σ → Base → Prop} {x : Exec (α × GStream σ)} {y : Exec (α × Stream)} (h : SimG (G.RX w R) x y) :
    (x >>= fun z => Exec.ok z.1) = (y >>= fun z => Exec.ok z.1) := by
  match x, y, h with
  | .ok a, .ok b, h => exact congrArg Exec.ok h.1
  | .panic, .panic, _ => rfl
  | .oof, .oof, _ => rfl

section
variable {σ : Type} {I : Impl σ} {R : σ → Base → Prop}

/-- **C79** with cursors and positions.  If the caller's implementation also gives the cursors and positions that the library's own stream gives, the
result is the same in everything: trees with their positions, errors with all that goes into their texts. -/
theorem C79_exact (hI : Answers I R) {b : σ} {c : Base} (h : R b c) {w : Nat} (hw : c.chars.length - c.cursor ≤ w) (env : Env) (fuel : Nat)
    (r : Rule) (flag : Int) :
    (G.eval I w env fuel r flag (.base b) >>= fun z => Exec.ok z.1) = (eval env fuel r flag (.base c) >>= fun z => Exec.ok z.1) :=
  exact_first (G.eval_exact hI env fuel r flag _ _ (.base h hw))

/-- The same for `EvalRaw`, with the same order of visiting maps. -/
theorem C79_document_exact (hI : Answers I R) {b : σ} {c : Base} (h : R b c) {w : Nat} (hw : c.chars.length - c.cursor ≤ w) (g : Grammar)
    (fuel : Nat) (sch : Sched) :
    (G.evalRaw I w g fuel sch (.base b) >>= fun z => Exec.ok z.1) = (g.evalRaw fuel sch (.base c) >>= fun z => Exec.ok z.1) :=
  exact_first (G.evalRaw_exact hI g fuel sch (.base h hw))

/-- The same for `Eval`. -/
theorem C79_levels_exact (hI : Answers I R) {b : σ} {c : Base} (h : R b c) {w : Nat} (hw : c.chars.length - c.cursor ≤ w) (g : Grammar)
    (fuel : Nat) (sch : Sched) (level : Int) :
    (G.evalAST I w g fuel sch (.base b) level >>= fun z => Exec.ok z.1) = (g.evalAST fuel sch (.base c) level >>= fun z => Exec.ok z.1) :=
  exact_first (G.evalAST_exact hI g fuel sch level (.base h hw))

end

theorem base_match (t : List Rune) (c : Base) : ∃ c', ((Stream.base c).matchRunes t).2.2 = .base c' := by
  induction t generalizing c with
  | nil => exact ⟨c, rfl⟩
  | cons want t ih =>
    unfold Stream.matchRunes
    simp only
    split
    · exact ⟨_, rfl⟩
    · split
      · exact ⟨_, rfl⟩
      · exact ih _

/-- The `CharstreamString` in a stream (`Match` leaves one). -/
def bottomBase : Stream → Base
  | .base c => c
  | .pre _ _ u => bottomBase u

/-- A wrapper around the library's stream that counts the calls. -/
def counting : Impl (Nat × Base) where
  next b := (b.2.next.1, b.1 + 1, b.2.next.2)
  peek b := (b.2.peek, b.1 + 1, b.2)
  matchRunes t b :=
    let m := (Stream.base b.2).matchRunes t
    ((m.1, m.2.1), b.1 + 1, bottomBase m.2.2)
  skipSpaces b := (b.2.skipSpaces.1, b.1 + 1, b.2.skipSpaces.2)
  position b := (b.2.position.1, b.1 + 1, b.2.position.2)
  positionLookup i b := (b.2.positionLookup i, b.1 + 1, b.2)
  cursor b := (b.2.cursor, b.1 + 1, b.2)

/-- The wrapper answers as the stream inside does. -/
theorem counting_answers : Answers counting (fun b c => b.2 = c) where
  next b c h := by subst h; exact ⟨rfl, rfl⟩
  peek b c h := by subst h; exact ⟨rfl, rfl⟩
  matchRunes b c t h := by
    subst h
    obtain ⟨c', e⟩ := base_match t b.2
    refine ⟨c', ?_, ?_⟩
    · exact Prod.ext rfl (Prod.ext rfl e)
    · change bottomBase _ = c'
      rw [e]; rfl
  skipSpaces b c h := by subst h; exact ⟨rfl, rfl⟩
  position b c h := by subst h; exact ⟨rfl, rfl⟩
  positionLookup b c idx h := by subst h; exact ⟨rfl, rfl⟩
  cursor b c h := by subst h; exact ⟨rfl, rfl⟩

/-- Where the trees begin. -/
def places {α : Type} (x : Exec (Except RawErr (List Node) × α)) : List (Option Position) :=
  match x with
  | .ok (.ok ns, _) => ns.map (·.pos)
  | _ => []

/-- How often the stream was called. -/
def callsOf {α : Type} (x : Exec (α × GStream (Nat × Base))) : Nat :=
  match x with
  | .ok (_, .base b) => b.1
  | _ => 0

/-- Non-vacuity: the places of the trees, and the number of calls of the methods, which shows that the states are used. -/
example :
    let x := G.evalRaw counting 20 itemsAndStops 20 forward (.base (0, Base.ofChars (runes "item 1 1\nstop item 1")))
    places x = [some ⟨1, 1⟩, some ⟨2, 1⟩, some ⟨2, 6⟩] ∧
      places (itemsAndStops.evalRaw 20 forward (Stream.ofChars (runes "item 1 1\nstop item 1"))) = [some ⟨1, 1⟩, some ⟨2, 1⟩, some ⟨2, 6⟩] ∧
      callsOf x = 61 := by
  decide +kernel

/-! ### Streams that answer anything -/

/-- **C80**.  Whatever the methods of the caller's stream answer, evaluating a rule does not index outside a slice, and what it hands back as left over
is no longer than what it read. -/
theorem C80_rule {σ : Type} (I : Impl σ) (w : Nat) (env : Env) (fuel : Nat) (r : Rule) (flag : Int) (b : σ) :
    G.eval I w env fuel r flag (.base b) ≠ .panic ∧
      ∀ res s', G.eval I w env fuel r flag (.base b) = .ok (res, s') → res.unused.length ≤ res.read.length := by
  have h := G.eval_kept I w env fuel r flag (.base b)
  refine ⟨fun e => ?_, fun res s' e => ?_⟩
  · rw [e] at h; exact h
  · rw [e] at h; exact h

/-- **C80** for `EvalRaw`. -/
theorem C80_document {σ : Type} (I : Impl σ) (w : Nat) (g : Grammar) (fuel : Nat) {sch : Sched} (hf : sch.Fair) (b : σ) :
    G.evalRaw I w g fuel sch (.base b) ≠ .panic := by
  have h := G.evalRaw_kept I w g fuel hf (.base b)
  intro e
  rw [e] at h; exact h

/-- **C80** for `Eval`. -/
theorem C80_levels {σ : Type} (I : Impl σ) (w : Nat) (g : Grammar) (fuel : Nat) {sch : Sched} (hf : sch.Fair) (b : σ) (level : Int) :
    G.evalAST I w g fuel sch (.base b) level ≠ .panic := by
  have h := G.evalRaw_kept I w g fuel hf (.base b)
  unfold G.evalAST
  intro e
  cases hx : G.evalRaw I w g fuel sch (.base b) with
  | ok y => rw [hx] at e; cases e
  | panic => rw [hx] at h; exact h
  | oof => rw [hx] at e; cases e

/-- A stream that answers nonsense: `Match` says it found the text and read more than that, `SkipSpaces` returns letters, `Cursor` runs backwards. -/
def liar : Impl Int where
  next n := (n, n - 1)
  peek n := (120, n + 1)
  matchRunes t n := ((t ++ t ++ runes "zz", true), n)
  skipSpaces n := (runes "q ", n + 7)
  position n := (some ⟨-1, 5⟩, n - 2)
  positionLookup i n := (some ⟨i, i⟩, n + 1)
  cursor n := (-n, n + 1)

/-- Non-vacuity: rules of every kind come to an end over the liar. -/
example : [(Rule.concat {} [.chars {} (runes "ab"), .char {} 32 false, .option {} (.str {} (runes "c"))]), .rep {} (.char {} 120 false) 1 3,
      .choice {} [[.chars {} (runes "ab"), .char {} 120 false], [.range {} 97 false 122 false]],
      .block {} (.chars {} (runes "(")) false (.chars {} (runes ")")) none [], .eof {}].map
      (fun r => seenOf (G.eval liar 3 (fun _ => none) 9 r SUGGEST_SKIP (.base 4))) =
    [some (none, runes "q ababzz", runes "q ababzz"), some (some [10, 15, 20], runes "q " ++ [10] ++ runes "q " ++ [15] ++ runes "q " ++ [20], []),
      some (some (runes "ab"), runes "q ababzz", []), some (some (runes "()"), runes "q ((zz))zz", []), some (none, runes "q ", runes "q ")] := by
  decide +kernel

end Xbnf.Props
