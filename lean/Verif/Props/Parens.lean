import Verif.Lemmas.Parens
import Verif.Props.Predictive
import Verif.Props.Needed
import Verif.Props.Written
/-
C67: parentheses group and change nothing else.
-/
namespace Xbnf.Props
open Xbnf Xbnf.Spec Grammar

mutual
/-- The nodes that parentheses add do not change the text. -/
theorem C67_text {n n' : Node} (h : SameTree n n') : n'.text = n.text := by
  cases h with
  | same h => unfold Node.text; simp only [parens_loop h]
  | group h ho => rw [← C67_text h, Node.text.eq_def]; simp [textLoop, joinText]
theorem parens_loop {ns ns' : List Node} (h : SameTrees ns ns') (inBlock : Bool) (acc : List Rune) (ps : Bool) :
    textLoop inBlock acc ps ns' = textLoop inBlock acc ps ns := by
  cases h with
  | nil => rfl
  | cons h hs => unfold textLoop; rw [C67_text h, sameTree_sticky h, parens_loop hs]
end

mutual
/-- Nor do they change the characters of the leaves. -/
theorem parens_yield {n n' : Node} (h : SameTree n n') : yield n' = yield n := by
  cases h with
  | same h => unfold yield; simp only [parens_yieldL h]
  | group h ho => rw [← parens_yield h, yield.eq_def]; simp [yieldL]
theorem parens_yieldL {ns ns' : List Node} (h : SameTrees ns ns') : yieldL ns' = yieldL ns := by
  cases h with
  | nil => rfl
  | cons h hs => unfold yieldL; rw [parens_yield h, parens_yieldL hs]
end

mutual
/-- The named nodes, each with the named nodes above it, its marks and its characters, stay the same. -/
theorem C67_named {n n' : Node} (h : SameTree n n') : named n' = named n := by
  cases h with
  | @same rt nm ch cs cs' p st v nd tk h =>
    have := parens_yield (.same (rt := rt) (nm := nm) (ch := ch) (p := p) (st := st) (v := v) (nd := nd) (tk := tk) h)
    unfold named
    simp only [this, parens_namedL h]
  | group h ho => rw [← C67_named h, named.eq_def]; simp [namedL]
theorem parens_namedL {ns ns' : List Node} (h : SameTrees ns ns') : namedL ns' = namedL ns := by
  cases h with
  | nil => rfl
  | cons h hs => unfold namedL; rw [C67_named h, parens_namedL hs]
end

/-- A rule and the rule with parts of it in parentheses on the same input, where the first evaluation is regular. -/
theorem parens_eval {env env' : Env} (he : Parenthesised env env') {r r' : Rule} (hr : Around env r r') {flag : Int} {s : Stream} (h : Ready s)
    (hreg : Regular env r flag s.rem) :
    Regular env' r' flag s.rem ∧ ∃ fuel fuel' res res' s1 s1', eval env fuel r flag s = .ok (res, s1) ∧ eval env' fuel' r' flag s = .ok (res', s1') ∧
      SameReading res res' := by
  obtain ⟨F, h1, h2⟩ := hreg
  have hrel := (run_rel he F (2 * F) (Nat.le_refl _)).1 r r' flag s.rem hr
  obtain ⟨res, s1, k, e1, _, r1⟩ := run_eval h h1 h2
  suffices hd : Spec.run env' (2 * F) r' flag s.rem ≠ .oof ∧ Spec.run env' (2 * F) r' flag s.rem ≠ .risky ∧
      ∀ res' k', Ref s.rem (Spec.run env' (2 * F) r' flag s.rem) (.ok (Res.core res', k')) → SameReading res res' by
    obtain ⟨h3, h4, h5⟩ := hd
    obtain ⟨res', s1', k', e2, _, r2⟩ := run_eval h h3 h4
    exact ⟨⟨2 * F, h3, h4⟩, F, 2 * F, res, res', s1, s1', e1, e2, h5 res' k' r2⟩
  cases ha : Spec.run env F r flag s.rem with
  | oof => exact absurd ha h1
  | risky => exact absurd ha h2
  | fail n st =>
    rw [ha] at hrel r1
    have hb : Spec.run env' (2 * F) r' flag s.rem = .fail n st := hrel
    refine ⟨by rw [hb]; simp, by rw [hb]; simp, fun res' k' r2 => ?_⟩
    rw [hb] at r2
    have f1 := ref_fail r1
    have f2 := ref_fail r2
    exact ⟨by rw [f1.2.1, f2.2.1], .inr ⟨f1.1, f2.1⟩⟩
  | ambiguous n =>
    rw [ha] at hrel r1
    have f1 := ref_ambiguous r1
    rcases hrel with hb | hb
    · refine ⟨by rw [hb]; simp, by rw [hb]; simp, fun res' k' r2 => ?_⟩
      rw [hb] at r2
      have f2 := ref_ambiguous r2
      exact ⟨by rw [f1.2.1, f2.2.1], .inr ⟨f1.1, f2.1⟩⟩
    · refine ⟨by rw [hb]; simp, by rw [hb]; simp, fun res' k' r2 => ?_⟩
      rw [hb] at r2
      have f2 := ref_fail r2
      exact ⟨by rw [f1.2.1, f2.2.1], .inr ⟨f1.1, f2.1⟩⟩
  | hit nd u n st =>
    rw [ha] at hrel r1
    obtain ⟨nd', hb, hs⟩ := hrel
    refine ⟨by rw [hb]; simp, by rw [hb]; simp, fun res' k' r2 => ?_⟩
    rw [hb] at r2
    have f1 := ref_hit r1
    have f2 := ref_hit r2
    obtain ⟨n, k1, rfl⟩ : ∃ n, res.node = some n ∧ n.erase = nd := by simpa using f1.1
    obtain ⟨n', k2, rfl⟩ : ∃ n, res'.node = some n ∧ n.erase = nd' := by simpa using f2.1
    exact ⟨by rw [f1.2.2.1, f2.2.2.1], .inl ⟨n, n', k1, k2, hs, by rw [f1.2.2.2.1, f2.2.2.2.1]⟩⟩

theorem parens_text {res res' : Res} (h : SameReading res res') : res'.node.map Node.text = res.node.map Node.text := by
  rcases h.2 with ⟨n, n', k1, k2, hs, _⟩ | ⟨k1, k2⟩
  · rw [k1, k2, Option.map_some, Option.map_some, ← text_erase n, ← text_erase n', C67_text hs]
  · rw [k1, k2]

/-- **C67**, the part that holds: if one grammar is the other with parts of the rules put in parentheses, at any depth, none of these
parts an option, then `EvalRule` says the same with both, on every sample for which the first evaluation is regular: both return; either neither
has a tree, or both have, the trees differ only by the nodes of the parentheses, and the same characters were used and the same only looked at.

What is missing is stated by the counterexamples below: parentheses around an option, around a part of a concatenation, and around a
choice that is ambiguous do change what is matched. -/
theorem C67_parentheses_partial {g g' : Grammar} (he : Parenthesised g.env g'.env) {name : Name} {sample : List Rune} (hv : Valid sample)
    (hreg : ∀ rule, g.env name = some rule → Regular g.env rule SUGGEST_SKIP sample) :
    ∃ fuel fuel' res res', g.evalRule fuel name sample = .ok res ∧ g'.evalRule fuel' name sample = .ok res' ∧ SameReading res res' ∧
      res'.node.map Node.text = res.node.map Node.text := by
  rcases he name with ⟨h1, h2⟩ | ⟨r, r', h1, h2, h3⟩
  · have n1 : g.getRecord name = none := by simpa [Grammar.env] using h1
    have n2 : g'.getRecord name = none := by simpa [Grammar.env] using h2
    exact ⟨0, 0, { error := some (.undefined {} name) }, { error := some (.undefined {} name) }, by simp only [evalRule, n1], by simp only [evalRule, n2],
      ⟨rfl, .inr ⟨rfl, rfl⟩⟩, rfl⟩
  · have hreg := hreg r h1
    obtain ⟨q, n1, rfl⟩ : ∃ q, g.getRecord name = some q ∧ q.rule = r := by simpa [Grammar.env] using h1
    obtain ⟨q', n2, rfl⟩ : ∃ q, g'.getRecord name = some q ∧ q.rule = r' := by simpa [Grammar.env] using h2
    rw [← rem_ofChars sample] at hreg
    obtain ⟨_, f, f', res, res', s1, s1', e1, e2, e3⟩ := parens_eval he (.same h3) (ready_ofChars hv) hreg
    exact ⟨f, f', res, res', by simp only [evalRule, n1, e1]; rfl, by simp only [evalRule, n2, e2]; rfl, e3, parens_text e3⟩

/-- For a predictive grammar (C58) this is so on every sample. -/
theorem C67_predictive_partial {g g' : Grammar} (hg : Predictive g) (he : Parenthesised g.env g'.env) {name : Name} {sample : List Rune}
    (hv : Valid sample) (ht : Tidy sample) :
    ∃ fuel fuel' res res', g.evalRule fuel name sample = .ok res ∧ g'.evalRule fuel' name sample = .ok res' ∧ SameReading res res' ∧
      res'.node.map Node.text = res.node.map Node.text := by
  refine C67_parentheses_partial he hv fun rule hr => ?_
  obtain ⟨c, hc⟩ := hg
  obtain ⟨q, n1, rfl⟩ : ∃ q, g.getRecord name = some q ∧ q.rule = rule := by simpa [Grammar.env] using hr
  have := (C58_clean hc ((certified hc).covers n1 (flag := SUGGEST_SKIP) (by decide)) (ready_ofChars hv) (by rw [rem_ofChars]; exact ht)).2.1
  rwa [rem_ofChars] at this

/-- Grammars whose rules have the same names and differ by parentheses. -/
theorem parens_env {g g' : Grammar} (hn : (g.records.map Record.name).Nodup) (hn' : (g'.records.map Record.name).Nodup)
    (h : ∀ p ∈ content g.records, ∃ r', (p.1, r') ∈ content g'.records ∧ Bracketed g.env p.2 r')
    (h' : ∀ p ∈ content g'.records, ∃ r, (p.1, r) ∈ content g.records) : Parenthesised g.env g'.env := by
  intro n
  cases h1 : g.env n with
  | some r =>
    obtain ⟨r', h2, h3⟩ := h _ ((env_content hn n r).1 h1)
    exact .inr ⟨r, r', rfl, (env_content hn' n r').2 h2, h3⟩
  | none =>
    cases h2 : g'.env n with
    | none => exact .inl ⟨rfl, rfl⟩
    | some r' =>
      obtain ⟨r, h3⟩ := h' _ ((env_content hn' n r').1 h2)
      rw [(env_content hn n r).2 h3] at h1
      cases h1

/-- **C67**, counterexample: an option may be left out with the white space before what follows, but not an option in parentheses. -/
theorem C67_option_counterexample :
    readOf (runes "r = \"a\" ['b'] 'c'") (runes "r") (runes "a c") = some (true, 3) ∧
    readOf (runes "r = \"a\" (['b']) 'c'") (runes "r") (runes "a c") = some (false, 0) := by decide +kernel

/-- **C67**, counterexample: concatenation is not associative, as white space may come only where something that is not sticky was before. -/
theorem C67_regroup_counterexample :
    readOf (runes "r = \"x\" \"a\" 'b' 'c'") (runes "r") (runes "x ab c") = some (false, 0) ∧
    readOf (runes "r = \"x\" (\"a\" 'b') 'c'") (runes "r") (runes "x ab c") = some (true, 6) := by decide +kernel

/-- **C67**, counterexample: an ambiguous choice loses the characters it read, unless it is in parentheses. -/
theorem C67_ambiguous_counterexample :
    readOf (runes "r = ['a' | 'a'] 'a'") (runes "r") (runes "a") = some (false, 0) ∧
    readOf (runes "r = [('a' | 'a')] 'a'") (runes "r") (runes "a") = some (true, 1) := by decide +kernel

/-! ## Cases -/

def bareText : List Rune := runes "r = \"a\" {b} 'c'\nb = 'x' | 'y'"
def parensText : List Rune := runes "r = (\"a\") ({(b)}) 'c'\nb = ('x') | 'y'"
def bareGrammar : Grammar := (madeOf bareText).getD {}
def parensGrammar : Grammar := (madeOf parensText).getD {}

theorem bare_content : content bareGrammar.records =
    [(runes "r", .concat { name := runes "r" } [.str {} (runes "a"), .rep {} (.ref {} (runes "b")) 0 0, .char {} 99 false]),
     (runes "b", .choice { name := runes "b" } [[.char {} 120 false, .char {} 121 false]])] := by decide +kernel

theorem parens_content : content parensGrammar.records =
    [(runes "r", .concat { name := runes "r" } [.group {} (.str {} (runes "a")), .group {} (.rep {} (.group {} (.ref {} (runes "b"))) 0 0), .char {} 99 false]),
     (runes "b", .choice { name := runes "b" } [[.group {} (.char {} 120 false), .char {} 121 false]])] := by decide +kernel

theorem bare_names : (bareGrammar.records.map Record.name).Nodup ∧ (parensGrammar.records.map Record.name).Nodup := by decide +kernel

/-- The hypotheses of `C67_parentheses_partial` and `C67_predictive_partial` hold of these grammars. -/
theorem bare_parens : Parenthesised bareGrammar.env parensGrammar.env := by
  have hb : bareGrammar.env (runes "b") = some (.choice { name := runes "b" } [[.char {} 120 false, .char {} 121 false]]) :=
    (env_content bare_names.1 _ _).2 (by rw [bare_content]; simp)
  refine parens_env bare_names.1 bare_names.2 ?_ ?_
  · rw [bare_content, parens_content]
    intro p hp
    simp only [List.mem_cons, List.not_mem_nil, or_false] at hp
    rcases hp with rfl | rfl
    · refine ⟨_, List.mem_cons_self, .concat (.cons (.parens .str (.other (by simp) (by simp))) (.cons (.parens (.rep (.parens .ref (.ref ?_))) (.other (by simp) (by simp)))
        (.cons (.same .char) .nil)))⟩
      intro r hr
      rw [hb] at hr
      cases hr
      exact .other (by simp) (by simp)
    · exact ⟨_, List.mem_cons_of_mem _ List.mem_cons_self, .choice (.cons (.cons (.parens .char (.other (by simp) (by simp))) (.cons (.same .char) .nil)) .nil)⟩
  · rw [bare_content, parens_content]
    intro p hp
    simp only [List.mem_cons, List.not_mem_nil, or_false] at hp
    rcases hp with rfl | rfl
    · exact ⟨_, List.mem_cons_self⟩
    · exact ⟨_, List.mem_cons_of_mem _ List.mem_cons_self⟩

theorem bare_predictive : Predictive bareGrammar := ⟨certify bareGrammar 6, by decide +kernel⟩

example {sample : List Rune} (hv : Valid sample) (ht : Tidy sample) : ∃ fuel fuel' res res', bareGrammar.evalRule fuel (runes "r") sample = .ok res ∧
    parensGrammar.evalRule fuel' (runes "r") sample = .ok res' ∧ SameReading res res' ∧ res'.node.map Node.text = res.node.map Node.text :=
  C67_predictive_partial bare_predictive bare_parens hv ht

/-- A sample with a tree, and one without. -/
example : readOf bareText (runes "r") (runes "a xyc") = some (true, 5) ∧ readOf parensText (runes "r") (runes "a xyc") = some (true, 5) ∧
    readOf bareText (runes "r") (runes "a xyd") = some (false, 0) ∧ readOf parensText (runes "r") (runes "a xyd") = some (false, 0) := by decide +kernel

end Xbnf.Props
