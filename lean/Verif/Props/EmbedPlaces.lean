import Verif.Props.Places
import Verif.Props.Embed
/-
C50 for `EvalEmbed`: where the matches are in the sample, and the positions they carry.
-/
namespace Xbnf.Props
open Spec Grammar

variable {env : Env}

/-- Where the stream is after an evaluation, when the rule is plain at its place. -/
theorem clean_here {fuel : Nat} {r : Rule} {flag : Int} {text : List Rune} {i : Nat} {s s' : Stream} {res : Res} (hv : Valid text)
    (h : Here text i s) (hc : Clean env r flag (text.drop i)) (he : eval env fuel r flag s = .ok (res, s')) :
    (res.node = none ∧ Here text i (s'.pushBack res.unused)) ∨
    ∃ n u st, res.node = some n ∧ Matches env r flag (text.drop i) n.erase u st ∧ Laid text i [n] (i + u) ∧
      Here text (i + u) (s'.pushBack res.unused) := by
  obtain ⟨F, hF⟩ := hc
  have hk := know_of (eval_sim env F) (L.eval_ref env F) r flag s _ h.wf h.rem (hv.drop _)
  have hle := h.le
  cases ha : Spec.run env F r flag (text.drop i) with
  | oof => rw [ha] at hF; cases hF
  | risky => rw [ha] at hF; cases hF
  | ambiguous => rw [ha] at hF; cases hF
  | fail n st =>
    rw [ha] at hk
    obtain ⟨k1, res', s1, k2, k3, k4, k5, k6⟩ := hk
    have := eval_det he k2
    simp only [Prod.mk.injEq] at this
    obtain ⟨rfl, rfl⟩ := this
    rw [List.length_drop] at k1
    refine .inl ⟨k4, (h.adv k3).push (by omega) ?_⟩
    rw [k6]
    exact L.take_drop_sl _ _ _
  | hit nd u n st =>
    have hm := matches_of_run (hv.drop i) ha
    rw [ha] at hk
    obtain ⟨k0, k1, res', s1, nd', k2, k3, k4, k5, k6, k7, k8⟩ := hk
    have := eval_det he k2
    simp only [Prod.mk.injEq] at this
    obtain ⟨rfl, rfl⟩ := this
    rw [List.length_drop] at k1
    refine .inr ⟨nd', u, st, k4, by rw [k5]; exact hm, eval_laid env F r flag text i s nd u n st hv h ha _ _ nd' k2 k4,
      (h.adv k3).push (by omega) ?_⟩
    rw [k7, L.take_drop_sl]
    unfold L.sl
    rw [List.drop_drop]

theorem embedLoop_tiled {r : Rule} {fuel : Nat} {text : List Rune} (hv : Valid text)
    (hc : ∀ i ≤ text.length, Clean env r NOT_SKIP (text.drop i)) (n : Nat) : ∀ (kids : List Node) (a p : Nat) (s : Stream) (out : List Node),
    a ≤ p → Here text p s → embedLoop env fuel r n kids (L.sl text a p) s = .ok out →
    ∃ more, out = kids ++ more ∧ Tiled text a more text.length := by
  induction n with
  | zero => intro _ _ _ _ _ _ _ h; cases h
  | succ n ih =>
    intro kids a p s out hap hh h
    have hle := hh.le
    have hcp := hc p hle
    have hstuck := embedLoop_stuck (env := env) (r := r) (fuel := fuel) (n + 1) kids (L.sl text a p) s hh.wf
      (by rw [hh.rem]; exact hv.drop _) (by rw [hh.rem]; exact hcp)
    rw [h, hh.rem] at hstuck
    simp only [embedLoop] at h
    obtain ⟨⟨res, s'⟩, he, h⟩ := Exec.of_bind h
    have hgap : ∀ more, Tiled text p more text.length → Tiled text a (textNodes (L.sl text a p) ++ more) text.length := by
      intro more hm
      unfold textNodes
      by_cases hl : (L.sl text a p).length > 0
      · rw [if_pos hl]
        rw [L.sl_length hle] at hl
        exact .gap rfl rfl (by omega) hle rfl rfl hm
      · rw [if_neg hl]
        rw [L.sl_length hle] at hl
        have : a = p := by omega
        subst this
        exact hm
    rcases clean_here hv hh hcp he with ⟨h1, h2⟩ | ⟨x, u, st, h1, h2, h3, h4⟩
    · simp only [h1] at h
      obtain ⟨n1, n2⟩ := Stream.next_spec h2.wf
      rw [h2.rem] at n1 n2
      by_cases hpl : p = text.length
      · subst hpl
        rw [if_pos (by rw [n1, List.drop_length]; rfl)] at h
        cases h
        exact ⟨_, rfl, by simpa using hgap [] .nil⟩
      · have hlt : p < text.length := by omega
        have hd : text.drop p = text[p] :: text.drop (p + 1) := List.drop_eq_getElem_cons hlt
        have e1 : (s'.pushBack res.unused).next.1 = text[p] := by rw [n1, hd]; rfl
        have hne : text[p] ≠ EOFChar := by
          intro e
          exact absurd (hv _ (List.getElem_mem hlt)) (by rw [e]; decide)
        rw [if_neg (by rw [e1]; exact hne), e1] at h
        have hn := h2.adv n2
        rw [hd] at hn
        refine ih kids a (p + 1) _ out (by omega) hn ?_
        rw [show L.sl text a (p + 1) = L.sl text a p ++ [text[p]] from ?_]
        · exact h
        · unfold L.sl
          rw [List.take_add_one, List.getElem?_eq_getElem hlt, List.drop_append_of_le_length (by rw [List.length_take]; omega)]
          rfl
    · simp only [h1] at h
      have hu : 0 < u := by
        cases u with
        | succ u => omega
        | zero => cases hstuck ⟨_, _, h2⟩
      obtain ⟨more, g1, g2⟩ := ih _ (p + u) (p + u) _ out (Nat.le_refl _) h4 (by
        rw [show L.sl text (p + u) (p + u) = [] by simp [L.sl]]
        exact h)
      refine ⟨textNodes (L.sl text a p) ++ x :: more, by rw [g1]; simp, hgap _ ?_⟩
      exact .hit (by omega) h3 g2

/-- The children of the node that `EvalEmbed` returns are the sample cut into pieces, from its beginning
to its end: each match is at its place and carries the positions of `Laid`, and the text between the
matches carries none.  (Missing from the full claim: see C50; and samples with a place at which the
rule is ambiguous or the reference semantics is silent.) -/
theorem C50_embed_partial {g : Grammar} {fuel : Nat} {name : Name} {rec : Record} {sample : List Rune} {res : Res}
    (hv : Valid sample) (hrec : g.getRecord name = some rec)
    (hc : ∀ i ≤ sample.length, Clean g.env rec.rule NOT_SKIP (sample.drop i))
    (h : g.evalEmbed fuel name sample = .ok res) :
    ∃ n, res.node = some n ∧ n.pos = none ∧ Tiled sample 0 n.children sample.length := by
  unfold evalEmbed at h
  simp only [hrec] at h
  obtain ⟨kids, he, h⟩ := Exec.of_bind h
  cases h
  obtain ⟨more, e, hm⟩ := embedLoop_tiled hv hc fuel [] 0 0 _ kids (Nat.le_refl _) (here_ofChars sample)
    (by rw [show L.sl sample 0 0 = [] by simp [L.sl]]; exact he)
  subst e
  exact ⟨_, rfl, rfl, hm⟩

theorem tiled_placed {text : List Rune} {i j : Nat} {ns : List Node} (h : Tiled text i ns j) :
    ∀ n ∈ ns, Everywhere (Placed text) n := by
  induction h with
  | nil => intro n hn; cases hn
  | gap ht hc hk hl h hp hs ih =>
    intro m hm
    rcases List.mem_cons.1 hm with rfl | hm
    · refine everywhere_leaf hc fun ht' => ?_
      rw [ht] at ht'
      rcases ht' with h | h <;> cases h
    · exact ih m hm
  | hit hk h hs ih =>
    intro m hm
    rcases List.mem_cons.1 hm with rfl | hm
    · exact placed_all h _ (List.mem_singleton_self _)
    · exact ih m hm

/-- Every character and every string in the matches of `EvalEmbed` is a piece of the sample and carries
the position of its first character. -/
theorem C50_leaves_embed_partial {g : Grammar} {fuel : Nat} {name : Name} {rec : Record} {sample : List Rune} {res : Res}
    (hv : Valid sample) (hrec : g.getRecord name = some rec)
    (hc : ∀ i ≤ sample.length, Clean g.env rec.rule NOT_SKIP (sample.drop i))
    (h : g.evalEmbed fuel name sample = .ok res) :
    ∃ n, res.node = some n ∧ ∀ c ∈ n.children, Everywhere (Placed sample) c := by
  obtain ⟨n, h1, _, h2⟩ := C50_embed_partial hv hrec hc h
  exact ⟨n, h1, tiled_placed h2⟩

/-! ### Cases -/

/-- `"$" 'x'` -/
def holeRule : Rule := .concat {} [.str {} (runes "$"), .char {} 120 false]

/-- The positions of the children. -/
def childPositions (x : Exec Res) : Option (List (List Rune × Option Position)) :=
  match x with
  | .ok res => res.node.map fun n => n.children.map fun c => (c.chars, c.pos)
  | _ => none

/-- Non-vacuity: two placeholders in a text of two lines; the text between them has no position. -/
example : (rootGrammar [("hole", holeRule)]).getRecord (runes "hole") = some ⟨runes "hole", holeRule, 1⟩ ∧
    (∀ i ≤ 10, Clean (rootGrammar [("hole", holeRule)]).env holeRule NOT_SKIP ((runes "a $x\n bc$x").drop i)) ∧
    childPositions ((rootGrammar [("hole", holeRule)]).evalEmbed 20 (runes "hole") (runes "a $x\n bc$x")) =
      some [(runes "a ", none), ([], some ⟨1, 3⟩), (runes "\n bc", none), ([], some ⟨2, 4⟩)] := by
  refine ⟨rfl, fun i hi => ⟨9, ?_⟩, by decide +kernel⟩
  revert i
  decide +kernel

end Xbnf.Props
