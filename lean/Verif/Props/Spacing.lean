import Verif.Lemmas.Spacing
import Verif.Lemmas.Unplaced
import Verif.Props.Predictive
/-
C72: where there is white space, it does not matter how much, or which.
-/
namespace Xbnf.Props
open Spec Grammar Spec.Gap

variable {blocks : Bool}

theorem blankless_env {g : Grammar} (h : BlanklessGrammar blocks g) : BlanklessEnv blocks g.env := by
  intro n r hr
  simp only [Grammar.env, Option.map_eq_some_iff] at hr
  obtain ⟨rc, h1, rfl⟩ := hr
  exact h rc (List.mem_append_left _ (List.mem_of_find?_eq_some h1))

theorem blankless_roots {g : Grammar} (h : BlanklessGrammar blocks g) : blanklessL blocks (g.roots.map (·.rule)) = true := by
  have key : ∀ rs : List Record, (∀ rc ∈ rs, blankless blocks rc.rule = true) → blanklessL blocks (rs.map (·.rule)) = true := by
    intro rs
    induction rs with
    | nil => intro _; rfl
    | cons r rs ih =>
      intro hr
      simp only [List.map_cons, blanklessL, Bool.and_eq_true]
      exact ⟨hr r List.mem_cons_self, ih fun x hx => hr x (List.mem_cons_of_mem _ hx)⟩
  exact key _ fun rc hr => h rc (List.mem_append_right _ hr)

theorem squeeze_erase (n : Node) : n.erase.squeeze = n.squeeze := by
  induction n using node_ind with
  | h rt nm ch cs p st v nd tk ih =>
    simp only [Node.erase, Node.squeeze]
    congr 1
    induction cs with
    | nil => rfl
    | cons c cs ihc =>
      simp only [eraseL, squeezeL]
      rw [ih c List.mem_cons_self, ihc fun x hx => ih x (List.mem_cons_of_mem _ hx)]

theorem view_erase (n : Node) : view blocks n.erase = view blocks n := by
  cases blocks
  · exact Node.erase_erase n
  · exact squeeze_erase n

theorem eval_spaced {env : Env} (henv : BlanklessEnv blocks env) {r : Rule} (hr : blankless blocks r = true) {flag : Int} {s s' t t' : Stream}
    (hs : Ready s) (hs' : Ready s') (hl : squeeze s.rem = squeeze s'.rem) (hreg : Regular env r flag s.rem) (hreg' : Regular env r flag s'.rem)
    {fuel fuel' : Nat} {res res' : Res} (he : eval env fuel r flag s = .ok (res, t)) (he' : eval env fuel' r flag s' = .ok (res', t')) :
    SameSpaced (view blocks) s.rem s'.rem res res' := by
  obtain ⟨F, k, a1, a2, a3, a4, a5⟩ := regular_eval hs hreg he
  obtain ⟨F', k', b1, b2, b3, b4, b5⟩ := regular_eval hs' hreg' he'
  have h := run_rel henv F F' r flag _ _ hr hl
  have hn : res.node.map (view blocks) = res.core.node.map (view blocks) := by
    rw [Res.core_node, Option.map_map]
    congr 1
    funext n
    exact (view_erase n).symm
  have hn' : res'.node.map (view blocks) = res'.core.node.map (view blocks) := by
    rw [Res.core_node, Option.map_map]
    congr 1
    funext n
    exact (view_erase n).symm
  have hb : ∀ r : Res, r.node.isSome = r.core.node.isSome := fun r => by rw [Res.core_node, Option.isSome_map]
  revert h a1 a2 a5 b1 b2 b5
  cases Spec.run env F r flag s.rem <;> cases Spec.run env F' r flag s'.rem <;> intro a1 a2 a5 b1 b2 b5 h <;>
    first | exact h.elim | exact absurd rfl a1 | exact absurd rfl a2 | exact absurd rfl b1 | exact absurd rfl b2 | skip
  · obtain ⟨-, a5⟩ := a5
    obtain ⟨-, b5⟩ := b5
    simp only [Exec.ok.injEq, Prod.mk.injEq] at a5 b5
    refine ⟨by rw [hn, hn', a5.1, b5.1], ?_, ?_⟩
    · rw [← Res.core_sticky, a5.1, ← Res.core_sticky res', b5.1]; exact h
    · rw [hb, a5.1]; intro hc; cases hc
  · obtain ⟨a0, a5⟩ := a5
    obtain ⟨b0, b5⟩ := b5
    simp only [Exec.ok.injEq, Prod.mk.injEq] at a5 b5
    refine ⟨by rw [hn, hn', a5.1, b5.1], ?_, ?_⟩
    · rw [← Res.core_sticky, a5.1, ← Res.core_sticky res', b5.1]
    · rw [hb, a5.1]; intro hc; cases hc
  · obtain ⟨a6, a7, a5⟩ := a5
    obtain ⟨b6, b7, b5⟩ := b5
    simp only [Exec.ok.injEq, Prod.mk.injEq] at a5 b5
    obtain ⟨h1, h2, h3⟩ := h
    refine ⟨by rw [hn, hn', a5.1, b5.1]; exact congrArg some h1, ?_, fun _ => ⟨_, _, ?_, ?_, h3.le, h3.le', h3.before, h3.after⟩⟩
    · rw [← Res.core_sticky, a5.1, ← Res.core_sticky res', b5.1]; exact h2
    · rw [← Res.core_count, a5.1]
      simp only [Res.countUsed, List.length_take, List.length_drop]
      omega
    · rw [← Res.core_count, b5.1]
      simp only [Res.countUsed, List.length_take, List.length_drop]
      omega

/-! ### Rules -/

/-- **C72** for one rule.  If no literal and no range of the rule and of the grammar contains white space, evaluating the rule on two texts that differ only in
the amount and kind of white space, where there is some, gives the same: no tree both times, or the same tree, but for positions and
the amount of white space in the contents of blocks; and what is left over differs again only in the amount of white space.  (Partial: both
evaluations must be regular; `C72_counterexample` shows one that is not.) -/
theorem C72_rule_partial {g : Grammar} (hg : BlanklessGrammar true g) {r : Rule} (hr : blankless true r = true) {flag : Int} {s s' t t' : Stream}
    (hs : Ready s) (hs' : Ready s') (hl : squeeze s.rem = squeeze s'.rem) (hreg : Regular g.env r flag s.rem) (hreg' : Regular g.env r flag s'.rem)
    {fuel fuel' : Nat} {res res' : Res} (he : eval g.env fuel r flag s = .ok (res, t)) (he' : eval g.env fuel' r flag s' = .ok (res', t')) :
    SameSpaced Node.squeeze s.rem s'.rem res res' :=
  eval_spaced (blankless_env hg) hr hs hs' hl hreg hreg' he he'

/-- Without blocks the trees are the same but for positions. -/
theorem C72_rule_exact_partial {g : Grammar} (hg : BlanklessGrammar false g) {r : Rule} (hr : blankless false r = true) {flag : Int} {s s' t t' : Stream}
    (hs : Ready s) (hs' : Ready s') (hl : squeeze s.rem = squeeze s'.rem) (hreg : Regular g.env r flag s.rem) (hreg' : Regular g.env r flag s'.rem)
    {fuel fuel' : Nat} {res res' : Res} (he : eval g.env fuel r flag s = .ok (res, t)) (he' : eval g.env fuel' r flag s' = .ok (res', t')) :
    SameSpaced Node.erase s.rem s'.rem res res' :=
  eval_spaced (blankless_env hg) hr hs hs' hl hreg hreg' he he'

theorem evalRule_spaced {g : Grammar} (hg : BlanklessGrammar blocks g) {name : Name} {rc : Record} (hrc : g.getRecord name = some rc) {l l' : List Rune}
    (hv : Valid l) (hv' : Valid l') (hl : squeeze l = squeeze l') (hreg : Regular g.env rc.rule SUGGEST_SKIP l)
    (hreg' : Regular g.env rc.rule SUGGEST_SKIP l') {fuel fuel' : Nat} {res res' : Res} (he : g.evalRule fuel name l = .ok res)
    (he' : g.evalRule fuel' name l' = .ok res') : SameSpaced (view blocks) l l' res res' := by
  simp only [Grammar.evalRule, hrc] at he he'
  obtain ⟨⟨x, t⟩, e, he⟩ := Exec.of_bind he
  obtain ⟨⟨x', t'⟩, e', he'⟩ := Exec.of_bind he'
  cases he
  cases he'
  have h1 := rem_ofChars l
  have h2 := rem_ofChars l'
  have := eval_spaced (blankless_env hg) (hg rc (List.mem_append_left _ (List.mem_of_find?_eq_some hrc))) (ready_ofChars hv) (ready_ofChars hv')
    (by rw [h1, h2]; exact hl) (by rw [h1]; exact hreg) (by rw [h2]; exact hreg') e e'
  rwa [h1, h2] at this

/-- `EvalRule` for a predictive grammar, on any two texts that differ only in the amount of white space (ASCII, as in C58). -/
theorem C72_predictive {g : Grammar} (hp : Predictive g) (hg : BlanklessGrammar true g) {name : Name} {rc : Record} (hrc : g.getRecord name = some rc)
    {l l' : List Rune} (hv : Valid l) (hv' : Valid l') (ht : Tidy l) (ht' : Tidy l') (hl : squeeze l = squeeze l') {fuel fuel' : Nat} {res res' : Res}
    (he : g.evalRule fuel name l = .ok res) (he' : g.evalRule fuel' name l' = .ok res') : SameSpaced Node.squeeze l l' res res' := by
  obtain ⟨c, hc⟩ := hp
  have hcov := (certified hc).covers hrc (flag := SUGGEST_SKIP) (by decide)
  exact evalRule_spaced hg hrc hv hv' hl (Clean.regular ((certified hc).clean hcov hv ht)) (Clean.regular ((certified hc).clean hcov hv' ht')) he he'

/-- The same without blocks. -/
theorem C72_predictive_exact {g : Grammar} (hp : Predictive g) (hg : BlanklessGrammar false g) {name : Name} {rc : Record} (hrc : g.getRecord name = some rc)
    {l l' : List Rune} (hv : Valid l) (hv' : Valid l') (ht : Tidy l) (ht' : Tidy l') (hl : squeeze l = squeeze l') {fuel fuel' : Nat} {res res' : Res}
    (he : g.evalRule fuel name l = .ok res) (he' : g.evalRule fuel' name l' = .ok res') : SameSpaced Node.erase l l' res res' := by
  obtain ⟨c, hc⟩ := hp
  have hcov := (certified hc).covers hrc (flag := SUGGEST_SKIP) (by decide)
  exact evalRule_spaced hg hrc hv hv' hl (Clean.regular ((certified hc).clean hcov hv ht)) (Clean.regular ((certified hc).clean hcov hv' ht')) he he'

/-! ### Documents -/

theorem document_spaced {g : Grammar} (hg : BlanklessGrammar blocks g) {sch sch' : Sched} (hf : sch.Fair) (hf' : sch'.Fair) {s s' t t' : Stream}
    (hs : Ready s) (hs' : Ready s') (hl : squeeze s.rem = squeeze s'.rem) (ho : Orderly g.env (g.roots.map (·.rule)) s.rem)
    (ho' : Orderly g.env (g.roots.map (·.rule)) s'.rem) {fuel fuel' : Nat} {y y' : Except RawErr (List Node)}
    (h : g.evalRaw fuel sch s = .ok (y, t)) (h' : g.evalRaw fuel' sch' s' = .ok (y', t')) :
    y.map (List.map (view blocks)) = y'.map (List.map (view blocks)) := by
  by_cases hne : s.rem = []
  · rw [(C24_empty hf hs h).2 hne, (C24_empty hf' hs' h').2 ((nil_of_squeeze hl).1 hne)]
  have hne' : s'.rem ≠ [] := fun k => hne ((nil_of_squeeze hl).2 k)
  obtain ⟨F, x, hx⟩ := orderly_outcome ho
  obtain ⟨F', x', hx'⟩ := orderly_outcome ho'
  obtain ⟨z, u, e1, e2⟩ := evalRaw_ref hf hs.wf hs.valid hne hx
  obtain ⟨z', u', e1', e2'⟩ := evalRaw_ref hf' hs'.wf hs'.valid hne' hx'
  have hz := raw_det h e1
  have hz' := raw_det h' e1'
  simp only [Prod.mk.injEq] at hz hz'
  have hd := docAt_rel (run_rel (blankless_env hg) F F') (g.roots.map (·.rule)) (blankless_roots hg) F F' SUGGEST_SKIP 0 0 hl [] [] rfl
  have hview : ∀ w : Except RawErr (List Node), w.map (List.map (view blocks)) = (w.map (List.map Node.erase)).map (List.map (view blocks)) := by
    intro w
    cases w with
    | error => rfl
    | ok ns =>
      simp only [Except.map, List.map_map]
      congr 2
      funext n
      exact (view_erase n).symm
  rw [hz.1, hz'.1, hview z, hview z', e2, e2']
  revert hx hx' hd
  cases docAt (Spec.run g.env F) (g.roots.map (·.rule)) F SUGGEST_SKIP 0 s.rem [] <;>
    cases docAt (Spec.run g.env F') (g.roots.map (·.rule)) F' SUGGEST_SKIP 0 s'.rem [] <;> intro hx hx' hd <;>
    first | exact hd.elim | cases hx | skip
  all_goals first | (cases hx'; done) | skip
  all_goals cases hx'
  · rfl
  · rfl
  · exact congrArg Except.ok hd

/-- **C72** for documents: `EvalRaw` on two texts that differ only in the amount of white space gives the same error, or the same trees. -/
theorem C72_document_partial {g : Grammar} (hg : BlanklessGrammar true g) {sch sch' : Sched} (hf : sch.Fair) (hf' : sch'.Fair) {s s' t t' : Stream}
    (hs : Ready s) (hs' : Ready s') (hl : squeeze s.rem = squeeze s'.rem) (ho : Orderly g.env (g.roots.map (·.rule)) s.rem)
    (ho' : Orderly g.env (g.roots.map (·.rule)) s'.rem) {fuel fuel' : Nat} {y y' : Except RawErr (List Node)}
    (h : g.evalRaw fuel sch s = .ok (y, t)) (h' : g.evalRaw fuel' sch' s' = .ok (y', t')) :
    y.map (List.map Node.squeeze) = y'.map (List.map Node.squeeze) :=
  document_spaced hg hf hf' hs hs' hl ho ho' h h'

theorem evalAST_spaced {g : Grammar} (hg : BlanklessGrammar false g) {sch sch' : Sched} (hf : sch.Fair) (hf' : sch'.Fair) {s s' t t' : Stream}
    (hs : Ready s) (hs' : Ready s') (hl : squeeze s.rem = squeeze s'.rem) (ho : Orderly g.env (g.roots.map (·.rule)) s.rem)
    (ho' : Orderly g.env (g.roots.map (·.rule)) s'.rem) {fuel fuel' : Nat} {level : Int} {y y' : Except RawErr (List Node)}
    (h : g.evalAST fuel sch s level = .ok (y, t)) (h' : g.evalAST fuel' sch' s' level = .ok (y', t')) :
    y.map (List.map Node.erase) = y'.map (List.map Node.erase) := by
  simp only [evalAST] at h h'
  obtain ⟨⟨z, u⟩, e, h⟩ := Exec.of_bind h
  obtain ⟨⟨z', u'⟩, e', h'⟩ := Exec.of_bind h'
  cases h
  cases h'
  have hz : z.map (List.map Node.erase) = z'.map (List.map Node.erase) := document_spaced hg hf hf' hs hs' hl ho ho' e e'
  cases z <;> cases z' <;> first | (cases hz; done) | skip
  · cases hz; rfl
  · simp only [Except.map, Except.ok.injEq] at hz ⊢
    rw [← simplify_erase, ← simplify_erase, hz]

/-- Without blocks: `Eval` at every level gives the same trees but for positions, or the same error. -/
theorem C72_document_exact_partial {g : Grammar} (hg : BlanklessGrammar false g) {sch sch' : Sched} (hf : sch.Fair) (hf' : sch'.Fair) {s s' t t' : Stream}
    (hs : Ready s) (hs' : Ready s') (hl : squeeze s.rem = squeeze s'.rem) (ho : Orderly g.env (g.roots.map (·.rule)) s.rem)
    (ho' : Orderly g.env (g.roots.map (·.rule)) s'.rem) {fuel fuel' : Nat} {level : Int} {y y' : Except RawErr (List Node)}
    (h : g.evalAST fuel sch s level = .ok (y, t)) (h' : g.evalAST fuel' sch' s' level = .ok (y', t')) :
    y.map (List.map Node.erase) = y'.map (List.map Node.erase) :=
  evalAST_spaced hg hf hf' hs hs' hl ho ho' h h'

/-- The documents of a predictive grammar, whatever the order in which maps are visited. -/
theorem C72_predictive_document {c : Certificate} {g : Grammar} (hc : c.ok g = true) (hr : c.rootsOk (g.roots.map (·.rule)) = true)
    (hg : BlanklessGrammar true g) {sch sch' : Sched} (hf : sch.Fair) (hf' : sch'.Fair) {l l' : List Rune} (hv : Valid l) (hv' : Valid l')
    (ht : Tidy l) (ht' : Tidy l') (hl : squeeze l = squeeze l') {fuel fuel' : Nat} {y y' : Except RawErr (List Node)} {t t' : Stream}
    (h : g.evalRaw fuel sch (Stream.ofChars l) = .ok (y, t)) (h' : g.evalRaw fuel' sch' (Stream.ofChars l') = .ok (y', t')) :
    y.map (List.map Node.squeeze) = y'.map (List.map Node.squeeze) :=
  C72_document_partial hg hf hf' (ready_ofChars hv) (ready_ofChars hv') (by rw [rem_ofChars, rem_ofChars]; exact hl)
    (by rw [rem_ofChars]; exact C58_orderly hc hr hv ht) (by rw [rem_ofChars]; exact C58_orderly hc hr hv' ht') h h'

/-- The same without blocks, at every level. -/
theorem C72_predictive_document_exact {c : Certificate} {g : Grammar} (hc : c.ok g = true) (hr : c.rootsOk (g.roots.map (·.rule)) = true)
    (hg : BlanklessGrammar false g) {sch sch' : Sched} (hf : sch.Fair) (hf' : sch'.Fair) {l l' : List Rune} (hv : Valid l) (hv' : Valid l')
    (ht : Tidy l) (ht' : Tidy l') (hl : squeeze l = squeeze l') {fuel fuel' : Nat} {level : Int} {y y' : Except RawErr (List Node)} {t t' : Stream}
    (h : g.evalAST fuel sch (Stream.ofChars l) level = .ok (y, t)) (h' : g.evalAST fuel' sch' (Stream.ofChars l') level = .ok (y', t')) :
    y.map (List.map Node.erase) = y'.map (List.map Node.erase) :=
  C72_document_exact_partial hg hf hf' (ready_ofChars hv) (ready_ofChars hv') (by rw [rem_ofChars, rem_ofChars]; exact hl)
    (by rw [rem_ofChars]; exact C58_orderly hc hr hv ht) (by rw [rem_ofChars]; exact C58_orderly hc hr hv' ht') h h'

/-! ### Two grammars -/

/-- Values with strings in which every character may occur, and comments. -/
def remarks : Grammar :=
  match Grammar.fromString 1000 (runes "line = entry \";\"\nentry = word [remark]\nword = ('a'-'z') { 'a'-'z' | '0'-'9' }\nremark = <\"/*\" \"*/\">") with
  | .ok g _ => g
  | _ => {}

theorem remarks_checks : ((certify remarks 6).ok remarks = true ∧ (certify remarks 6).rootsOk (remarks.roots.map (·.rule)) = true) ∧
    (remarks.records.length = 4 ∧ remarks.roots.map (·.name) = [runes "line"]) ∧
    (remarks.records ++ remarks.roots).all (fun rc => blankless true rc.rule) = true := by
  decide +kernel

theorem remarks_blankless : BlanklessGrammar true remarks := fun rc h => List.all_eq_true.1 remarks_checks.2.2 rc h

theorem arith_blankless : BlanklessGrammar false arith := by
  have h : (arith.records ++ arith.roots).all (fun rc => blankless false rc.rule) = true := by decide +kernel
  exact fun rc k => List.all_eq_true.1 h rc k

/-- Every expression, every document of them, at every level. -/
example {sch sch' : Sched} (hf : sch.Fair) (hf' : sch'.Fair) {l l' : List Rune} (hv : Valid l) (hv' : Valid l')
    (ht : Tidy l) (ht' : Tidy l') (hl : squeeze l = squeeze l') {fuel fuel' : Nat} {level : Int} {y y' : Except RawErr (List Node)} {t t' : Stream}
    (h : arith.evalAST fuel sch (Stream.ofChars l) level = .ok (y, t)) (h' : arith.evalAST fuel' sch' (Stream.ofChars l') level = .ok (y', t')) :
    y.map (List.map Node.erase) = y'.map (List.map Node.erase) :=
  C72_predictive_document_exact arith_checks.1.1 arith_checks.1.2 arith_blankless hf hf' hv hv' ht ht' hl h h'

/-- Two such texts, both with trees. -/
example : squeeze (runes "1 + (a2*3) ;") = squeeze (runes "1\n\n+\t (a2*3)   ;") ∧
    (match arith.evalAST 80 forward (Stream.ofChars (runes "1 + (a2*3) ;")) 0 with | .ok (.ok ns, _) => ns.map (·.text) | _ => []) = [runes "1 + ( a2 * 3 ) ;"] ∧
    (match arith.evalAST 80 forward (Stream.ofChars (runes "1\n\n+\t (a2*3)   ;")) 0 with | .ok (.ok ns, _) => ns.map (·.text) | _ => []) =
      [runes "1 + ( a2 * 3 ) ;"] := by
  decide +kernel

/-- With comments. -/
example {sch sch' : Sched} (hf : sch.Fair) (hf' : sch'.Fair) {l l' : List Rune} (hv : Valid l) (hv' : Valid l')
    (ht : Tidy l) (ht' : Tidy l') (hl : squeeze l = squeeze l') {fuel fuel' : Nat} {y y' : Except RawErr (List Node)} {t t' : Stream}
    (h : remarks.evalRaw fuel sch (Stream.ofChars l) = .ok (y, t)) (h' : remarks.evalRaw fuel' sch' (Stream.ofChars l') = .ok (y', t')) :
    y.map (List.map Node.squeeze) = y'.map (List.map Node.squeeze) :=
  C72_predictive_document remarks_checks.1.1 remarks_checks.1.2 remarks_blankless hf hf' hv hv' ht ht' hl h h'

/-- The text of a comment keeps its white space: the trees are the same only when squeezed. -/
example : squeeze (runes "ab /* x  y*/;") = squeeze (runes "ab  /* x\ny*/;") ∧
    (match remarks.evalRaw 80 forward (Stream.ofChars (runes "ab /* x  y*/;")) with | .ok (.ok ns, _) => ns.map (·.text) | _ => []) =
      [runes "ab /* x  y*/ ;"] ∧
    (match remarks.evalRaw 80 forward (Stream.ofChars (runes "ab  /* x\ny*/;")) with | .ok (.ok ns, _) => ns.map (·.text) | _ => []) =
      [runes "ab /* x\ny*/ ;"] := by
  decide +kernel

/-! ### What is false -/

/-- `{'z'} ['yy'] "x"`. -/
def zyx : Rule := .concat {} [.rep {} (.char {} 122 false) 0 0, .option {} (.chars {} [121, 121]), .str {} [120]]

/-- `("x" "qq") | ({'z'} ['yy'] "x")`. -/
def fickle : Rule := .choice {} [[.concat {} [.str {} [120], .str {} [113, 113]], zyx]]

/-- C72 is false of the code: the number of spaces before `xqq` decides which alternative is taken.  With two it is the first, with three
there is an ambiguity, with four it is the second, which leaves `qq`: the characters read by parts that matched nothing count as used. -/
theorem C72_counterexample : blankless false fickle = true ∧
    squeeze (runes "  xqq") = squeeze (runes "   xqq") ∧ squeeze (runes "  xqq") = squeeze (runes "    xqq") ∧
    (match eval (fun _ => none) 50 fickle SUGGEST_SKIP (Stream.ofChars (runes "  xqq")) with
      | .ok (res, _) => res.node.map (·.text) | _ => none) = some (runes "x qq") ∧
    (match eval (fun _ => none) 50 fickle SUGGEST_SKIP (Stream.ofChars (runes "   xqq")) with
      | .ok (res, _) => (res.node.isNone, match res.error with | some (.ambiguity ..) => true | _ => false) | _ => (false, false)) = (true, true) ∧
    (match eval (fun _ => none) 50 fickle SUGGEST_SKIP (Stream.ofChars (runes "    xqq")) with
      | .ok (res, _) => res.node.map (·.text) | _ => none) = some (runes "x") := by
  decide +kernel

/-- The first white space is another matter: `{'z'} 'y'` matches `y` and not ` y`, since a character is sought without skipping white space once
something, even nothing, was matched before it. -/
theorem C72_leading_counterexample :
    (match eval (fun _ => none) 50 (.concat {} [.rep {} (.char {} 122 false) 0 0, .char {} 121 false]) SUGGEST_SKIP (Stream.ofChars (runes "y")) with
      | .ok (res, _) => res.node.map (·.text) | _ => none) = some (runes "y") ∧
    (match eval (fun _ => none) 50 (.concat {} [.rep {} (.char {} 122 false) 0 0, .char {} 121 false]) SUGGEST_SKIP (Stream.ofChars (runes " y")) with
      | .ok (res, _) => res.node.isNone | _ => false) = true := by
  decide +kernel

/-- Nor may the kind of white space change before a range: `'A'-'Z'` on a space and `A` is `A`, but on a no-break space and `A` it is the no-break
space, though that is no letter: white space that was skipped is taken for a match if it is not below the last character of the range. -/
theorem C72_kind_counterexample : blankless false (.range {} 65 false 90 false) = true ∧ squeeze [32, 65] = squeeze [160, 65] ∧
    (match eval (fun _ => none) 50 (.range {} 65 false 90 false) SUGGEST_SKIP (Stream.ofChars [32, 65]) with
      | .ok (res, _) => res.node.map (·.chars) | _ => none) = some [65] ∧
    (match eval (fun _ => none) 50 (.range {} 65 false 90 false) SUGGEST_SKIP (Stream.ofChars [160, 65]) with
      | .ok (res, _) => res.node.map (·.chars) | _ => none) = some [160] := by
  decide +kernel

end Xbnf.Props
