import Verif.Props.MarksTree
import Verif.Props.Grammars
import Verif.Props.Merge
import Verif.Props.Factor
/-
C70: annotations only mark nodes.  C71: tokens.
-/
namespace Xbnf.Props
open Xbnf Spec Grammar

variable {k : Marks}

/-! ## Grammars -/

/-- Names and rules without the annotations. -/
def bare (k : Marks) (p : Name × Rule) : Name × Rule := (p.1, p.2.strip k)

theorem marks_content {recs recs' : List Record} (h : SameButMarks k recs recs') :
    ((content recs').map (bare k)).Perm ((content recs).map (bare k)) := by
  unfold SameButMarks at h
  unfold content
  rw [List.map_map, List.map_map]
  exact h

mutual
theorem refs_strip : ∀ r : Rule, refs (r.strip k) = refs r
  | .eof _ | .char .. | .range .. | .chars .. | .str .. => by simp [Rule.strip, refs]
  | .ref _ n => by simp [Rule.strip, refs]
  | .group _ r | .option _ r | .rep _ r _ _ => by simp only [Rule.strip, refs]; exact refs_strip r
  | .choice _ gs => by simp only [Rule.strip, refs]; exact refsLL_strip gs
  | .concat _ rs => by simp only [Rule.strip, refs]; exact refsL_strip rs
  | .block _ o _ c e xs => by
    simp only [Rule.strip, refs]
    rw [refs_strip o, refs_strip c, refsO_strip e, refsL_strip xs]
theorem refsL_strip : ∀ rs : List Rule, refsL (stripL k rs) = refsL rs
  | [] => rfl
  | r :: rs => by simp only [stripL, refsL]; rw [refs_strip r, refsL_strip rs]
theorem refsLL_strip : ∀ gs : List (List Rule), refsLL (stripLL k gs) = refsLL gs
  | [] => rfl
  | g :: gs => by simp only [stripLL, refsLL]; rw [refsL_strip g, refsLL_strip gs]
theorem refsO_strip : ∀ e : Option Rule, refsO (stripO k e) = refsO e
  | none => rfl
  | some r => by simp only [stripO, refsO]; exact refs_strip r
end

theorem sameButMarks_symm {a b : List Record} (h : SameButMarks k a b) : SameButMarks k b a := List.Perm.symm h

theorem marks_mem {a b : List Record} (h : SameButMarks k a b) {n : Name} {r : Rule} (hr : (n, r) ∈ content a) :
    ∃ r', (n, r') ∈ content b ∧ r'.strip k = r.strip k := by
  have := (marks_content h).mem_iff.2 (List.mem_map_of_mem (f := bare k) hr)
  obtain ⟨⟨m, r'⟩, h1, h2⟩ := List.mem_map.1 this
  simp only [bare, Prod.mk.injEq] at h2
  obtain ⟨rfl, h2⟩ := h2
  exact ⟨r', h1, h2⟩

theorem marks_names {a b : List Record} (h : SameButMarks k a b) : (b.map Record.name).Perm (a.map Record.name) := by
  have := (show List.Perm _ _ from h).map Prod.fst
  rwa [List.map_map, List.map_map] at this

theorem marks_env {g g' : Grammar} (hn : (g.records.map Record.name).Nodup) (hn' : (g'.records.map Record.name).Nodup)
    (h : SameButMarks k g.records g'.records) (n : Name) : (g.env n).map (Rule.strip k) = (g'.env n).map (Rule.strip k) := by
  refine Option.ext (fun r => ?_)
  rw [Option.map_eq_some_iff, Option.map_eq_some_iff]
  constructor
  · rintro ⟨q, hq, rfl⟩
    obtain ⟨r', h1, h2⟩ := marks_mem h ((env_content hn _ _).1 hq)
    exact ⟨r', (env_content hn' _ _).2 h1, h2⟩
  · rintro ⟨q, hq, rfl⟩
    obtain ⟨r', h1, h2⟩ := marks_mem (sameButMarks_symm h) ((env_content hn' _ _).1 hq)
    exact ⟨r', (env_content hn _ _).2 h1, h2⟩

theorem closed_marks {a b : List Record} (h : SameButMarks k a b) (ha : Closed a) : Closed b := by
  rw [closed_content] at ha ⊢
  rintro ⟨m, r⟩ hp n hn
  obtain ⟨r', h1, h2⟩ := marks_mem (sameButMarks_symm h) hp
  have := ha _ h1 n (by simp only; rw [← refs_strip (k := k), h2, refs_strip]; exact hn)
  rw [content_names] at this ⊢
  exact (marks_names h).mem_iff.2 this

/-- Of two texts whose definitions differ in annotations only, both are accepted or none is. -/
theorem C70_accepted {text text' : List Rune} {ls ls' : List (List Rune)} (hl : Lines text ls) (hl' : Lines text' ls')
    {recs recs' : List Record} (hd : Denotes 1 ls recs) (hd' : Denotes 1 ls' recs') (h : SameButMarks k recs recs') :
    (∃ g', Accepted text' g') ↔ ∃ g, Accepted text g := by
  have key : ∀ {text : List Rune} {ls : List (List Rune)} (_ : Lines text ls) {recs : List Record} (_ : Denotes 1 ls recs),
      (∃ g, Accepted text g) ↔ (recs.map Record.name).Nodup ∧ Closed recs := by
    intro text ls hl recs hd
    constructor
    · rintro ⟨g, hg⟩
      obtain ⟨h1, h2, h3, _⟩ := accepted_facts hg hl
      rw [denotes_unique hd h1]
      exact ⟨h2, h3⟩
    · rintro ⟨h2, h3⟩
      obtain ⟨g, hg, _⟩ := (C32_accepts hl recs).2 ⟨hd, h2, h3⟩
      exact ⟨g, hg⟩
  rw [key hl hd, key hl' hd', (marks_names h).nodup_iff]
  exact ⟨fun ⟨h1, h2⟩ => ⟨h1, closed_marks (sameButMarks_symm h) h2⟩, fun ⟨h1, h2⟩ => ⟨h1, closed_marks h h2⟩⟩

/-! ## Rules -/

/-- The definitions without the annotations. -/
def bareEnv (k : Marks) (env : Env) : Env := fun n => (env n).map (Rule.strip k)

theorem simG_eq {α γ : Type} {p : α → γ} {x y : Exec α} {z : Exec γ} (h : SimG (fun a b => b = p a) x z) (h' : SimG (fun a b => b = p a) y z) :
    (do let a ← x; .ok (p a)) = (do let a ← y; Exec.ok (p a)) := by
  rw [← sim_eq h, ← sim_eq h']

theorem simG_both {α γ : Type} {p : α → γ} {x y : Exec α} {z : Exec γ} (h : SimG (fun a b => b = p a) x z) (h' : SimG (fun a b => b = p a) y z) :
    SimG (fun a b => p a = p b) x y := by
  cases x <;> cases y <;> cases z <;> first | exact h.elim | exact h'.elim | trivial | exact (show _ = _ from h).symm.trans h'

theorem eval_marks {env env' : Env} (he : ∀ n, (env n).map (Rule.strip k) = (env' n).map (Rule.strip k)) (fuel : Nat) {r r' : Rule}
    (hr : r.strip k = r'.strip k) (flag : Int) (s : Stream) :
    SimG (fun x y => (x.1.strip k, x.2) = (y.1.strip k, y.2)) (eval env fuel r flag s) (eval env' fuel r' flag s) := by
  have h1 := eval_strip (k := k) (env := env) (env' := bareEnv k env) (fun n => rfl) fuel r flag s
  have h2 := eval_strip (k := k) (env := env') (env' := bareEnv k env) (fun n => he n) fuel r' flag s
  rw [← hr] at h2
  exact simG_both (p := fun x : Res × Stream => (x.1.strip k, x.2)) h1 h2

/-- **C70** for `EvalRule`: every rule gives the same result but for the marks. -/
theorem C70_rule {text text' : List Rune} {g g' : Grammar} (h : Accepted text g) (h' : Accepted text' g')
    (hb : SameButMarks k g.records g'.records) (fuel : Nat) (name : Name) (sample : List Rune) :
    (do let r ← g.evalRule fuel name sample; .ok (r.strip k)) = (do let r ← g'.evalRule fuel name sample; Exec.ok (r.strip k)) := by
  have he := marks_env (accepted_facts h (splitLines_lines _)).2.1 (accepted_facts h' (splitLines_lines _)).2.1 hb
  have key : ∀ {g : Grammar}, g.env name = none → g.evalRule fuel name sample = .ok { error := some (.undefined {} name) } := by
    intro g hg
    unfold evalRule
    unfold Grammar.env at hg
    rw [Option.map_eq_none_iff.1 hg]
  have key2 : ∀ {g : Grammar} {r : Rule}, g.env name = some r →
      g.evalRule fuel name sample = (do let x ← eval g.env fuel r SUGGEST_SKIP (Stream.ofChars sample); .ok x.1) := by
    intro g r hg
    unfold evalRule
    unfold Grammar.env at hg
    obtain ⟨q, h1, rfl⟩ := Option.map_eq_some_iff.1 hg
    rw [h1]
  have hn := he name
  cases h1 : g.env name with
  | none =>
    rw [h1] at hn
    rw [key h1, key (Option.map_eq_none_iff.1 hn.symm)]
  | some r =>
    rw [h1] at hn
    obtain ⟨r', h2, h3⟩ := Option.map_eq_some_iff.1 hn.symm
    rw [key2 h1, key2 h2]
    have := eval_marks he fuel h3.symm SUGGEST_SKIP (Stream.ofChars sample)
    revert this
    cases eval g.env fuel r SUGGEST_SKIP (Stream.ofChars sample) <;> cases eval g'.env fuel r' SUGGEST_SKIP (Stream.ofChars sample) <;> intro this <;>
      first | exact this.elim | rfl | exact congrArg (fun p => Exec.ok p.1) this

theorem textNodes_strip (t : List Rune) : (textNodes t).map (Node.strip k) = textNodes t := by
  unfold textNodes
  split
  · simp [Node.strip, stripNodes]
  · rfl

theorem embedLoop_strip {env env' : Env} (he : ∀ n, env' n = (env n).map (Rule.strip k)) (fuel : Nat) (r : Rule) :
    ∀ (n : Nat) (kids : List Node) (text : List Rune) (cs : Stream),
      SimG (fun x y => y = x.map (Node.strip k)) (embedLoop env fuel r n kids text cs)
        (embedLoop env' fuel (r.strip k) n (kids.map (Node.strip k)) text cs)
  | 0, _, _, _ => trivial
  | n + 1, kids, text, cs => by
    unfold embedLoop
    refine SimG.bind (eval_strip he fuel r NOT_SKIP cs) ?_
    rintro ⟨res, cs⟩ _ rfl
    simp only [Res.strip_node]
    cases hn : res.node with
    | none =>
      simp only [Option.map_none]
      by_cases hp : (cs.pushBack res.unused).next.1 = EOFChar
      · rw [if_pos hp, if_pos (show (cs.pushBack (res.strip k).unused).next.1 = EOFChar from hp)]
        show _ = _
        rw [List.map_append, textNodes_strip]
      · rw [if_neg hp, if_neg (show ¬ (cs.pushBack (res.strip k).unused).next.1 = EOFChar from hp)]
        exact embedLoop_strip he fuel r n _ _ _
    | some node =>
      simp only [Option.map_some]
      have := embedLoop_strip he fuel r n (kids ++ textNodes text ++ [node]) [] (cs.pushBack res.unused)
      rw [List.map_append, List.map_append, textNodes_strip] at this
      exact this

/-- **C70** for `EvalEmbed`. -/
theorem C70_embed {text text' : List Rune} {g g' : Grammar} (h : Accepted text g) (h' : Accepted text' g')
    (hb : SameButMarks k g.records g'.records) (fuel : Nat) (name : Name) (sample : List Rune) :
    (do let r ← g.evalEmbed fuel name sample; .ok (r.strip k)) = (do let r ← g'.evalEmbed fuel name sample; Exec.ok (r.strip k)) := by
  have he := marks_env (accepted_facts h (splitLines_lines _)).2.1 (accepted_facts h' (splitLines_lines _)).2.1 hb
  have hn := he name
  unfold evalEmbed
  unfold Grammar.env at hn
  cases h1 : g.getRecord name with
  | none =>
    rw [h1] at hn
    rw [Option.map_none, Option.map_none] at hn
    rw [Option.map_eq_none_iff.1 (Option.map_eq_none_iff.1 hn.symm)]
  | some q =>
    rw [h1] at hn
    obtain ⟨r', h2, h3⟩ := Option.map_eq_some_iff.1 hn.symm
    obtain ⟨q', h4, rfl⟩ := Option.map_eq_some_iff.1 h2
    rw [h4]
    simp only
    have k1 := embedLoop_strip (k := k) (env := g.env) (env' := bareEnv k g.env) (fun n => rfl) fuel q.rule fuel [] [] (Stream.ofChars sample)
    have k2 := embedLoop_strip (k := k) (env := g'.env) (env' := bareEnv k g.env) (fun n => he n) fuel q'.rule fuel [] [] (Stream.ofChars sample)
    rw [h3] at k2
    have := simG_both (p := List.map (Node.strip k)) k1 k2
    revert this
    cases embedLoop g.env fuel q.rule fuel [] [] (Stream.ofChars sample) <;> cases embedLoop g'.env fuel q'.rule fuel [] [] (Stream.ofChars sample) <;>
      intro this <;> first | exact this.elim | rfl | skip
    show Exec.ok _ = Exec.ok _
    simp only [SimG] at this
    simp only [Res.strip, Option.map_some, Node.strip, stripNodes_eq, this]

/-! ## Documents -/

/-- The root rules are the same but for annotations. -/
theorem C70_roots {text text' : List Rune} {g g' : Grammar} (h : Accepted text g) (h' : Accepted text' g')
    (hb : SameButMarks k g.records g'.records) : SameButMarks k g.roots g'.roots := by
  have key : ∀ {text text' : List Rune} {g g' : Grammar} (h : Accepted text g) (h' : Accepted text' g')
      (_ : SameButMarks k g.records g'.records) (p : Name × Rule), p ∈ (content g.roots).map (bare k) → p ∈ (content g'.roots).map (bare k) := by
    intro text text' g g' h h' hb p hp
    obtain ⟨⟨n, r⟩, h1, rfl⟩ := List.mem_map.1 hp
    obtain ⟨h2, h3⟩ := (mem_content_roots h n r).1 h1
    obtain ⟨r', h4, h5⟩ := marks_mem hb h2
    refine List.mem_map.2 ⟨(n, r'), (mem_content_roots h' n r').2 ⟨h4, ?_⟩, by simp only [bare, h5]⟩
    rintro ⟨m, q⟩ hq hm
    obtain ⟨q', h6, h7⟩ := marks_mem (sameButMarks_symm hb) hq
    refine h3 _ h6 ?_
    simp only at hm ⊢
    rw [← refs_strip (k := k), h7, refs_strip]
    exact hm
  have nd : ∀ {text : List Rune} {g : Grammar} (_ : Accepted text g), ((content g.roots).map (bare k)).Nodup := by
    intro text g h
    have := (accepted_facts h (splitLines_lines _)).2.2.2.1
    rw [← content_names] at this
    unfold List.Nodup
    rw [List.pairwise_map]
    exact (List.pairwise_map.1 this).imp (fun h hab => h (show (bare k _).1 = (bare k _).1 from congrArg Prod.fst hab))
  have := perm_of_nodup (nd h') (nd h) (fun p => ⟨key h' h (sameButMarks_symm hb) p, key h h' hb p⟩)
  unfold content at this
  rw [List.map_map, List.map_map] at this
  exact this

theorem rootsLoop_marks {env env' : Env} (he : ∀ n, (env n).map (Rule.strip k) = (env' n).map (Rule.strip k)) (fuel : Nat) (flag : Int) :
    ∀ (a b : List Record) (_ : a.map (fun r => r.rule.strip k) = b.map (fun r => r.rule.strip k)) (m : List Rune) (cs : Stream),
      SimG (fun x y => x.1.map (Res.strip k) = y.1.map (Res.strip k) ∧ x.2 = y.2) (rootsLoop env fuel flag a m cs) (rootsLoop env' fuel flag b m cs)
  | [], [], _, _, _ => ⟨rfl, rfl⟩
  | [], y :: b, h, _, _ => by cases h
  | x :: a, [], h, _, _ => by cases h
  | x :: a, y :: b, h, m, cs => by
    simp only [List.map_cons, List.cons.injEq] at h
    unfold rootsLoop
    refine SimG.bind (eval_marks he fuel h.1 flag (cs.pushBack m)) ?_
    rintro ⟨res, c⟩ ⟨res', c'⟩ hx
    simp only [Prod.mk.injEq] at hx
    obtain ⟨hx, rfl⟩ := hx
    have hread : res.read = res'.read := show (res.strip k).read = (res'.strip k).read from congrArg Res.read hx
    have hnode : res.node.isSome = res'.node.isSome := by
      have := congrArg (fun r : Res => r.node.isSome) hx
      simpa using this
    simp only
    rw [hread]
    refine SimG.bind (rootsLoop_marks he fuel flag a b h.2 _ c) ?_
    rintro ⟨ms, m', c'⟩ ⟨ms', m'', c''⟩ ⟨h1, h2⟩
    cases h2
    simp only at h1
    refine ⟨?_, rfl⟩
    simp only
    rw [hnode]
    split
    · simp only [List.map_cons, hx, h1]
    · exact h1

/-- The outcome of `EvalRaw` or `Eval` without the marks. -/
def stripped (k : Marks) (x : Except RawErr (List Node) × Stream) : Except RawErr (List Node) × Stream :=
  (x.1.map (List.map (Node.strip k)), x.2)

theorem rawLoop_marks {env env' : Env} (he : ∀ n, (env n).map (Rule.strip k) = (env' n).map (Rule.strip k)) (fuel : Nat) (ra rb : List Record)
    (sch : Sched) (hs : sch.Fair) (hr : ∀ i, ∃ l : List Record, l.Perm rb ∧
      (sch.roots i ra).map (fun r => r.rule.strip k) = l.map (fun r => r.rule.strip k)) :
    ∀ (n i : Nat) (nodes nodes' : List Node) (_ : nodes.map (Node.strip k) = nodes'.map (Node.strip k)) (flag : Int) (un : List Rune) (s : Stream),
      ∃ sch' : Sched, sch'.Fair ∧ SimG (fun x y => stripped k x = stripped k y) (rawLoop env fuel ra sch n i nodes flag un s)
        (rawLoop env' fuel rb sch' n i nodes' flag un s)
  | 0, _, _, _, _, _, _, _ => ⟨⟨fun _ l => l, fun _ l => l⟩, ⟨fun _ _ => .refl _, fun _ _ => .refl _⟩, trivial⟩
  | n + 1, i, nodes, nodes', hk, flag, un, s => by
    classical
    have idFair : (⟨fun _ l => l, fun _ l => l⟩ : Sched).Fair := ⟨fun _ _ => .refl _, fun _ _ => .refl _⟩
    have hlen : nodes.length = nodes'.length := by
      have := congrArg List.length hk
      simpa using this
    unfold rawLoop
    simp only [hlen]
    by_cases hp : (s.pushBack un).peek = EOFChar
    · simp only [if_pos hp]
      refine ⟨_, idFair, ?_⟩
      show stripped k _ = stripped k _
      unfold stripped
      simp only
      split
      · rfl
      · simp only [Except.map, hk]
    · simp only [if_neg hp]
      obtain ⟨l, hl, hf⟩ := hr i
      have hroots := rootsLoop_marks he fuel flag _ l hf [] (s.pushBack un)
      have wrong : ∀ {y : Exec (List Res × List Rune × Stream)}, rootsLoop env' fuel flag l [] (s.pushBack un) = y →
          (∀ z, y ≠ .ok z) → ∃ sch' : Sched, sch'.Fair ∧ rootsLoop env' fuel flag (sch'.roots i rb) [] (s.pushBack un) = y := by
        intro y hy _
        refine ⟨⟨fun _ q => if q = rb then l else q, fun _ q => q⟩, ⟨fun j q => ?_, fun _ _ => .refl _⟩, ?_⟩
        · simp only
          split
          · rename_i h; rw [h]; exact hl
          · exact .refl _
        · simpa using hy
      cases h1 : rootsLoop env fuel flag (sch.roots i ra) [] (s.pushBack un) with
      | panic =>
        rw [h1] at hroots
        cases h2 : rootsLoop env' fuel flag l [] (s.pushBack un) with
        | ok z => rw [h2] at hroots; exact hroots.elim
        | oof => rw [h2] at hroots; exact hroots.elim
        | panic =>
          obtain ⟨sch', f1, f2⟩ := wrong h2 (by intro z h; cases h)
          exact ⟨sch', f1, by rw [f2]; trivial⟩
      | oof =>
        rw [h1] at hroots
        cases h2 : rootsLoop env' fuel flag l [] (s.pushBack un) with
        | ok z => rw [h2] at hroots; exact hroots.elim
        | panic => rw [h2] at hroots; exact hroots.elim
        | oof =>
          obtain ⟨sch', f1, f2⟩ := wrong h2 (by intro z h; cases h)
          exact ⟨sch', f1, by rw [f2]; trivial⟩
      | ok z =>
        obtain ⟨ms, mx, cs⟩ := z
        rw [h1] at hroots
        cases h2 : rootsLoop env' fuel flag l [] (s.pushBack un) with
        | oof => rw [h2] at hroots; exact hroots.elim
        | panic => rw [h2] at hroots; exact hroots.elim
        | ok z =>
        obtain ⟨ms', mx', cs'⟩ := z
        rw [h2] at hroots
        obtain ⟨h3, h4⟩ := hroots
        cases h4
        simp only at h3
        obtain ⟨p', hp1, hp2⟩ := perm_lift (Res.strip k) ((hs.2 i ms).map (Res.strip k)) h3
        have hpick : (pick p').strip k = (pick (sch.matched i ms)).strip k := by rw [← pick_strip, ← pick_strip, hp2]
        -- this round as it must be, the others as in `sch0`
        let over (sch0 : Sched) : Sched :=
          ⟨fun j q => if j = i then (if q = rb then l else q) else sch0.roots j q, fun j q => if j = i then (if q = ms' then p' else q) else sch0.matched j q⟩
        have hover : ∀ sch0 : Sched, sch0.Fair → (over sch0).Fair := by
          intro sch0 hf0
          constructor
          · intro j q
            simp only [over]
            split
            · split
              · rename_i h; rw [h]; exact hl
              · exact .refl _
            · exact hf0.1 j q
          · intro j q
            simp only [over]
            split
            · split
              · rename_i h; rw [h]; exact hp1
              · exact .refl _
            · exact hf0.2 j q
        have hnow : ∀ sch0 : Sched, (over sch0).roots i rb = l ∧ (over sch0).matched i ms' = p' := by
          intro sch0
          simp [over]
        match hx : pick (sch.matched i ms), hy : pick p', hpick with
        | .none, .none, _ =>
          refine ⟨_, hover _ idFair, ?_⟩
          rw [(hnow _).1, h2]
          simp only [Exec.ok_bind]
          rw [(hnow _).2, hx, hy]
          rfl
        | .ambiguous _ _, .ambiguous _ _, _ =>
          refine ⟨_, hover _ idFair, ?_⟩
          rw [(hnow _).1, h2]
          simp only [Exec.ok_bind]
          rw [(hnow _).2, hx, hy]
          rfl
        | .found r, .found r', ha =>
          have ha' : r'.strip k = r.strip k := by simpa [Pick.strip] using ha
          have hc : r'.countUsed = r.countUsed := show (r'.strip k).countUsed = (r.strip k).countUsed from congrArg Res.countUsed ha'
          have hst : r'.sticky = r.sticky := show (r'.strip k).sticky = (r.strip k).sticky from congrArg Res.sticky ha'
          have hnd : r.node.map (Node.strip k) = r'.node.map (Node.strip k) := (congrArg Res.node ha').symm
          have hnodes : (nodes ++ r.node.toList).map (Node.strip k) = (nodes' ++ r'.node.toList).map (Node.strip k) := by
            rw [List.map_append, List.map_append, hk]
            congr 1
            cases h : r.node <;> cases h' : r'.node <;> rw [h, h'] at hnd <;> simp_all
          cases hu : sliceFrom mx r.countUsed with
          | panic =>
            refine ⟨_, hover _ idFair, ?_⟩
            rw [(hnow _).1, h2]
            simp only [Exec.ok_bind]
            rw [(hnow _).2, hx, hy]
            simp only [hc, hu]
            trivial
          | oof =>
            refine ⟨_, hover _ idFair, ?_⟩
            rw [(hnow _).1, h2]
            simp only [Exec.ok_bind]
            rw [(hnow _).2, hx, hy]
            simp only [hc, hu]
            trivial
          | ok u =>
            obtain ⟨sch0, hf0, h6⟩ := rawLoop_marks he fuel ra rb sch hs hr n (i + 1) _ _ hnodes
              (if r.sticky then SUGGEST_NOT_SKIP else SUGGEST_SKIP) u (cs.popBack un)
            refine ⟨over sch0, hover _ hf0, ?_⟩
            rw [(hnow _).1, h2]
            simp only [Exec.ok_bind]
            rw [(hnow _).2, hx, hy]
            simp only [hc, hu, hst, Exec.ok_bind]
            have := rawLoop_later env' fuel rb (sch := over sch0) (sch' := sch0) n (i + 1) (fun j hj => by
              have : ¬ j = i := by omega
              constructor <;> funext q <;> simp only [over, if_neg this]) (nodes' ++ r'.node.toList)
              (if r.sticky then SUGGEST_NOT_SKIP else SUGGEST_SKIP) u (cs.popBack un)
            rw [this]
            exact h6

/-- **C70** for `EvalRaw`: whatever the one grammar can make of a document in some order of visiting its maps, the other can in some order, but for
the marks. -/
theorem C70_raw {text text' : List Rune} {g g' : Grammar} (h : Accepted text g) (h' : Accepted text' g')
    (hb : SameButMarks k g.records g'.records) {sch : Sched} (hs : sch.Fair) (fuel : Nat) (s : Stream) :
    ∃ sch' : Sched, sch'.Fair ∧ (do let x ← g.evalRaw fuel sch s; .ok (stripped k x)) = (do let x ← g'.evalRaw fuel sch' s; Exec.ok (stripped k x)) := by
  have he := marks_env (accepted_facts h (splitLines_lines _)).2.1 (accepted_facts h' (splitLines_lines _)).2.1 hb
  have hr := C70_roots h h' hb
  unfold evalRaw
  by_cases hp : s.peek = EOFChar
  · simp only [if_pos hp]
    exact ⟨sch, hs, trivial⟩
  · simp only [if_neg hp]
    obtain ⟨sch', h1, h2⟩ := rawLoop_marks he fuel g.roots g'.roots sch hs (by
      intro i
      have hperm : ((sch.roots i g.roots).map (fun r => (r.name, r.rule.strip k))).Perm (g'.roots.map (fun r => (r.name, r.rule.strip k))) :=
        ((hs.1 i g.roots).map _).trans (List.Perm.symm hr)
      obtain ⟨l, hl, hm⟩ := perm_lift (fun r : Record => (r.name, r.rule.strip k)) hperm rfl
      refine ⟨l, hl, ?_⟩
      have := congrArg (List.map Prod.snd) hm
      rw [List.map_map, List.map_map] at this
      exact this.symm) fuel 0 [] [] rfl SUGGEST_SKIP [] s
    refine ⟨sch', h1, ?_⟩
    revert h2
    cases rawLoop g.env fuel g.roots sch fuel 0 [] SUGGEST_SKIP [] s <;> cases rawLoop g'.env fuel g'.roots sch' fuel 0 [] SUGGEST_SKIP [] s <;> intro h2 <;>
      first | exact h2.elim | rfl | exact congrArg Exec.ok h2

/-! ## Simplified trees -/

theorem evalAST_marks {level : Int} (hk : Silent k level) {g g' : Grammar} {sch sch' : Sched} {fuel : Nat} {s : Stream}
    (h : (do let x ← g.evalRaw fuel sch s; .ok (stripped k x)) = (do let x ← g'.evalRaw fuel sch' s; Exec.ok (stripped k x))) :
    (do let x ← g.evalAST fuel sch s level; .ok (stripped k x)) = (do let x ← g'.evalAST fuel sch' s level; Exec.ok (stripped k x)) := by
  have key : ∀ g : Grammar, ∀ sch, (do let x ← g.evalAST fuel sch s level; Exec.ok (stripped k x)) =
      (do let y ← (do let x ← g.evalRaw fuel sch s; Exec.ok (stripped k x)); .ok (y.1.map (simplify level), y.2)) := by
    intro g sch
    unfold evalAST
    cases g.evalRaw fuel sch s with
    | oof => rfl
    | panic => rfl
    | ok x =>
      obtain ⟨r, s'⟩ := x
      show Exec.ok _ = Exec.ok _
      unfold stripped
      cases r with
      | error e => rfl
      | ok ns =>
        simp only [Except.map]
        rw [C70_simplify hk]
  rw [key, key, h]

/-- **C70** for `Eval`: the trees are the same but for marks that say nothing about the level. -/
theorem C70_eval {level : Int} (hk : Silent k level) {text text' : List Rune} {g g' : Grammar} (h : Accepted text g) (h' : Accepted text' g')
    (hb : SameButMarks k g.records g'.records) {sch : Sched} (hs : sch.Fair) (fuel : Nat) (s : Stream) :
    ∃ sch' : Sched, sch'.Fair ∧
      (do let x ← g.evalAST fuel sch s level; .ok (stripped k x)) = (do let x ← g'.evalAST fuel sch' s level; Exec.ok (stripped k x)) := by
  obtain ⟨sch', h1, h2⟩ := C70_raw h h' hb hs fuel s
  exact ⟨sch', h1, evalAST_marks hk h2⟩

/-! ## Tokens -/

/-- All marks but `$` stay. -/
def dollars : Marks := { tokenized := true }

/-- `$` says nothing about any level. -/
theorem silent_dollars (level : Int) : Silent dollars level := fun _ => ⟨rfl, fun _ => rfl⟩

/-- `$` keeps nothing apart: with and without it `Eval` gives the same trees at every level, but for the `$` marks of their nodes. -/
theorem C71_ignored {text text' : List Rune} {g g' : Grammar} (h : Accepted text g) (h' : Accepted text' g')
    (hb : SameButMarks dollars g.records g'.records) {sch : Sched} (hs : sch.Fair) (fuel : Nat) (s : Stream) (level : Int) :
    ∃ sch' : Sched, sch'.Fair ∧
      (do let x ← g.evalAST fuel sch s level; .ok (stripped dollars x)) = (do let x ← g'.evalAST fuel sch' s level; Exec.ok (stripped dollars x)) :=
  C70_eval (silent_dollars level) h h' hb hs fuel s

/-! ## Cases -/

mutual
/-- Name, text, mark `$` and number of children of each node. -/
def outline (n : Node) : List (Name × List Rune × Bool × Nat) :=
  match n with
  | ⟨rt, nm, ch, cs, p, st, v, nd, tk⟩ => (nm, (⟨rt, nm, ch, cs, p, st, v, nd, tk⟩ : Node).text, tk, cs.length) :: outlineL cs
def outlineL : List Node → List (Name × List Rune × Bool × Nat)
  | [] => []
  | n :: ns => outline n ++ outlineL ns
end

/-- The nodes `Eval` gives. -/
def nodesOf (text doc : List Rune) (level : Int) : Option (List (Name × List Rune × Bool × Nat)) :=
  match madeOf text with
  | some g => match g.evalAST 40 forward (Stream.ofChars doc) level with
    | .ok (.ok ns, _) => some (outlineL ns)
    | _ => none
  | none => none

def tokenText : List Rune := runes "step = '[' $index ']'\nindex = {'0'-'9'}+"
def plainText : List Rune := runes "index = {'0'-'9'}+\nstep = ~'[' index #']'"


/-- **C71** is false: `$index` is a token, and it is merged with the brackets around it, so that no node for it is left.  (README, "Token
annotation": "it won't be merged to previous sticky node even if the token is sticky".) -/
theorem C71_counterexample :
    (∃ nodes, nodesOf tokenText (runes "[12]") LevelRaw = some nodes ∧ (runes "index", runes "12", true, 2) ∈ nodes) ∧
    nodesOf tokenText (runes "[12]") LevelBasic = some [(runes "step", runes "[12]", false, 0)] := by
  refine ⟨?_, by decide +kernel⟩
  have : (match nodesOf tokenText (runes "[12]") LevelRaw with
    | some nodes => decide ((runes "index", runes "12", true, 2) ∈ nodes)
    | none => false) = true := by decide +kernel
  split at this
  · rename_i nodes h
    exact ⟨nodes, h, of_decide_eq_true this⟩
  · cases this

/-- Non-vacuity of `C71_token_partial`: a token between sticky nodes. -/
example : (({ ruleType := .string, chars := [98], tokenized := true } : Node) ∈
      ([⟨.chars, [], [97], [], none, true, false, false, false⟩, { ruleType := .string, chars := [98], tokenized := true },
        ⟨.chars, [], [99], [], none, true, false, false, false⟩] : List Node)) ∧
    ({ ruleType := .string, chars := [98], tokenized := true } : Node).sticky = false := ⟨by simp, rfl⟩

/-- All annotations. -/
def allMarks : Marks := ⟨true, true, true⟩

/-- Records that are the same but for annotations, checked. -/
def sameMarksB (k : Marks) (a b : Option Grammar) : Bool :=
  match a, b with
  | some g, some g' => decide ((g'.records.map (fun r => (r.name, r.rule.strip k))).Perm (g.records.map (fun r => (r.name, r.rule.strip k))))
  | _, _ => false

theorem sameMarks_of {k : Marks} {text text' : List Rune} (h : sameMarksB k (madeOf text) (madeOf text') = true) :
    ∃ g g', madeOf text = some g ∧ Accepted text g ∧ madeOf text' = some g' ∧ Accepted text' g' ∧ SameButMarks k g.records g'.records := by
  unfold sameMarksB at h
  split at h
  · rename_i g g' h1 h2
    obtain ⟨x, hx, ha⟩ := made_accepted (by rw [h1]; rfl)
    obtain ⟨x', hx', ha'⟩ := made_accepted (by rw [h2]; rfl)
    rw [h1] at hx
    rw [h2] at hx'
    cases hx; cases hx'
    exact ⟨g, g', h1, ha, h2, ha', by unfold SameButMarks; exact of_decide_eq_true h⟩
  · cases h

/-- Non-vacuity: the two texts have different annotations, in another order; both read the document, and the marks differ. -/
example : (∃ g g', madeOf tokenText = some g ∧ Accepted tokenText g ∧ madeOf plainText = some g' ∧ Accepted plainText g' ∧
      SameButMarks allMarks g.records g'.records) ∧ Silent allMarks LevelRaw ∧
    nodesOf tokenText (runes "[12]") LevelRaw ≠ nodesOf plainText (runes "[12]") LevelRaw :=
  ⟨sameMarks_of (by decide +kernel), fun h => absurd rfl h, by decide +kernel⟩

/-- Non-vacuity of `C71_ignored`. -/
example : ∃ g g', madeOf tokenText = some g ∧ Accepted tokenText g ∧ madeOf (runes "step = '[' index ']'\nindex = {'0'-'9'}+") = some g' ∧
      Accepted (runes "step = '[' index ']'\nindex = {'0'-'9'}+") g' ∧ SameButMarks dollars g.records g'.records :=
  sameMarks_of (by decide +kernel)

/-- The levels matter: `~` from the level without virtual nodes on, `#` from the basic level on. -/
theorem C70_levels_needed :
    nodesOf (runes "r = \"a\" \"b\"") (runes "a b") LevelNoVirtual ≠ nodesOf (runes "r = \"a\" ~\"b\"") (runes "a b") LevelNoVirtual ∧
    nodesOf (runes "r = \"a\" \"b\"") (runes "a b") LevelBasic = nodesOf (runes "r = \"a\" ~\"b\"") (runes "a b") LevelBasic ∧
    nodesOf (runes "r = {\"a\"}+") (runes "a") LevelBasic ≠ nodesOf (runes "r = #{\"a\"}+") (runes "a") LevelBasic := by
  refine ⟨by decide +kernel, by decide +kernel, by decide +kernel⟩

end Xbnf.Props
