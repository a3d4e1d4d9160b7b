import Verif.Lemmas.Rename
import Verif.Props.Grammars
import Verif.Props.Merge
/-
C56: the names of rules are only names.
-/
namespace Xbnf.Props
open Xbnf Spec Grammar

variable {f : Name → Name}

/-! ## Grammars -/

/-- Names and rules with other names. -/
def other (f : Name → Name) (p : Name × Rule) : Name × Rule := (f p.1, p.2.rename f)

theorem same_content {recs recs' : List Record} (h : SameBut f recs recs') : (content recs').Perm ((content recs).map (other f)) := by
  unfold SameBut at h
  unfold content
  rw [List.map_map]
  exact h

mutual
theorem refs_rename : ∀ r : Rule, refs (r.rename f) = (refs r).map f
  | .eof _ | .char .. | .range .. | .chars .. | .str .. => by simp [Rule.rename, refs]
  | .ref _ n => by simp [Rule.rename, refs]
  | .group _ r | .option _ r | .rep _ r _ _ => by simp only [Rule.rename, refs]; exact refs_rename r
  | .choice _ gs => by simp only [Rule.rename, refs]; exact refsLL_rename gs
  | .concat _ rs => by simp only [Rule.rename, refs]; exact refsL_rename rs
  | .block _ o _ c e xs => by
    simp only [Rule.rename, refs, List.map_append]
    rw [refs_rename o, refs_rename c, refsO_rename e, refsL_rename xs]
theorem refsL_rename : ∀ rs : List Rule, refsL (renameL f rs) = (refsL rs).map f
  | [] => rfl
  | r :: rs => by simp only [renameL, refsL, List.map_append]; rw [refs_rename r, refsL_rename rs]
theorem refsLL_rename : ∀ gs : List (List Rule), refsLL (renameLL f gs) = (refsLL gs).map f
  | [] => rfl
  | g :: gs => by simp only [renameLL, refsLL, List.map_append]; rw [refsL_rename g, refsLL_rename gs]
theorem refsO_rename : ∀ e : Option Rule, refsO (renameO f e) = (refsO e).map f
  | none => rfl
  | some r => by simp only [renameO, refsO]; exact refs_rename r
end

theorem env_other (hf : Renaming f) {g g' : Grammar} (hn : (g.records.map Record.name).Nodup) (hn' : (g'.records.map Record.name).Nodup)
    (h : SameBut f g.records g'.records) (n : Name) : g'.env (f n) = (g.env n).map (Rule.rename f) := by
  refine Option.ext (fun r => ?_)
  rw [env_content hn', Option.map_eq_some_iff, (same_content h).mem_iff, List.mem_map]
  constructor
  · rintro ⟨⟨m, q⟩, hm, he⟩
    simp only [other, Prod.mk.injEq] at he
    cases hf.inj he.1
    exact ⟨q, (env_content hn _ _).2 hm, he.2⟩
  · rintro ⟨q, hq, rfl⟩
    exact ⟨(n, q), (env_content hn _ _).1 hq, rfl⟩

theorem closed_other (hf : Renaming f) {a b : List Record} (h : SameBut f a b) : Closed b ↔ Closed a := by
  have hc := same_content h
  rw [closed_content, closed_content]
  have hnames : ((content b).map Prod.fst).Perm (((content a).map Prod.fst).map f) := by
    refine (hc.map Prod.fst).trans ?_
    rw [List.map_map, List.map_map]
    exact .refl _
  constructor
  · intro hb p hp n hn
    have h1 := hb (other f p) (hc.mem_iff.2 (List.mem_map_of_mem hp)) (f n) (by
      simp only [other]; rw [refs_rename]; exact List.mem_map_of_mem hn)
    rw [hnames.mem_iff] at h1
    obtain ⟨m, hm, he⟩ := List.mem_map.1 h1
    rwa [hf.inj he] at hm
  · intro ha p hp n hn
    obtain ⟨q, hq, rfl⟩ := List.mem_map.1 (hc.mem_iff.1 hp)
    simp only [other] at hn
    rw [refs_rename] at hn
    obtain ⟨m, hm, rfl⟩ := List.mem_map.1 hn
    exact hnames.mem_iff.2 (List.mem_map_of_mem (ha q hq m hm))

theorem nodup_map_inj {α β : Type} {k : α → β} (hk : ∀ {a b}, k a = k b → a = b) {l : List α} : (l.map k).Nodup ↔ l.Nodup := by
  unfold List.Nodup
  rw [List.pairwise_map]
  exact ⟨fun h => h.imp (fun h hab => h (by rw [hab])), fun h => h.imp (fun h hab => h (hk hab))⟩

/-- Of two texts whose definitions differ in names only, both are accepted or none is. -/
theorem C56_accepted (hf : Renaming f) {text text' : List Rune} {ls ls' : List (List Rune)} (hl : Lines text ls) (hl' : Lines text' ls')
    {recs recs' : List Record} (hd : Denotes 1 ls recs) (hd' : Denotes 1 ls' recs') (h : SameBut f recs recs') :
    (∃ g', Accepted text' g') ↔ ∃ g, Accepted text g := by
  have hc := same_content h
  have hnd : (recs'.map Record.name).Nodup ↔ (recs.map Record.name).Nodup := by
    rw [← content_names, ← content_names, (hc.map Prod.fst).nodup_iff, List.map_map]
    have : (Prod.fst ∘ other f) = f ∘ Prod.fst := rfl
    rw [this, ← List.map_map]
    exact nodup_map_inj hf.inj
  have key : ∀ {text : List Rune} {ls : List (List Rune)} (_ : Lines text ls) {recs : List Record} (_ : Denotes 1 ls recs),
      (∃ g, Accepted text g) ↔ (recs.map Record.name).Nodup ∧ Closed recs := by
    intro text ls hl recs hd
    constructor
    · rintro ⟨g, hg⟩
      obtain ⟨h1, h2, h3, _⟩ := accepted_facts hg hl
      rw [denotes_unique hd h1]
      exact ⟨h2, h3⟩
    · rintro ⟨h2, h3⟩
      obtain ⟨g, hg, _⟩ := (C32_accepts hl recs).2 ⟨hd, h2, h3⟩
      exact ⟨g, hg⟩
  rw [key hl hd, key hl' hd', hnd, closed_other hf h]

/-- The results of such grammars, too. -/
theorem sim_eq {α β : Type} {k : α → β} {x : Exec α} {y : Exec β} (h : SimG (fun a b => b = k a) x y) : y = (do let a ← x; .ok (k a)) := by
  cases x <;> cases y <;> first | exact h.elim | rfl | (cases h; rfl)

theorem evalRule_other (hf : Renaming f) {g g' : Grammar} (he : ∀ n, g'.env (f n) = (g.env n).map (Rule.rename f)) (fuel : Nat) (name : Name)
    (sample : List Rune) : g'.evalRule fuel (f name) sample = (do let r ← g.evalRule fuel name sample; .ok (r.rename f)) := by
  have hn := he name
  refine sim_eq ?_
  unfold evalRule
  unfold Grammar.env at hn
  cases h1 : g.getRecord name <;> cases h2 : g'.getRecord (f name) <;> rw [h1, h2] at hn <;>
    simp only [Option.map_some, Option.map_none, Option.some.injEq, reduceCtorEq] at hn
  · show _ = _
    simp [Res.rename, Err.rename, RuleBase.rename, hf.empty]
  · simp only
    rw [hn]
    refine SimG.bind (eval_ren hf he fuel _ SUGGEST_SKIP (Stream.ofChars sample)) ?_
    rintro ⟨res, cs⟩ _ rfl
    exact rfl

/-- Every rule gives the same result under its new name, with the names in it replaced. -/
theorem C56_evalRule (hf : Renaming f) {text text' : List Rune} {g g' : Grammar} (h : Accepted text g) (h' : Accepted text' g')
    (hb : SameBut f g.records g'.records) (fuel : Nat) (name : Name) (sample : List Rune) :
    g'.evalRule fuel (f name) sample = (do let r ← g.evalRule fuel name sample; .ok (r.rename f)) :=
  evalRule_other hf (env_other hf (accepted_facts h (splitLines_lines _)).2.1 (accepted_facts h' (splitLines_lines _)).2.1 hb) fuel name sample

theorem textNodes_ren (hf : Renaming f) (t : List Rune) : (textNodes t).map (Node.rename f) = textNodes t := by
  unfold textNodes
  split
  · simp [Node.rename, renameNodes, hf.text]
  · rfl

theorem embedLoop_ren (hf : Renaming f) {env env' : Env} (he : ∀ n, env' (f n) = (env n).map (Rule.rename f)) (fuel : Nat) (r : Rule) :
    ∀ (n : Nat) (kids : List Node) (text : List Rune) (cs : Stream),
      SimG (fun x y => y = x.map (Node.rename f)) (embedLoop env fuel r n kids text cs)
        (embedLoop env' fuel (r.rename f) n (kids.map (Node.rename f)) text cs)
  | 0, _, _, _ => trivial
  | n + 1, kids, text, cs => by
    unfold embedLoop
    refine SimG.bind (eval_ren hf he fuel r NOT_SKIP cs) ?_
    rintro ⟨res, cs⟩ _ rfl
    simp only [Res.rename_node]
    cases hn : res.node with
    | none =>
      simp only [Option.map_none]
      by_cases hp : (cs.pushBack res.unused).next.1 = EOFChar
      · rw [if_pos hp, if_pos (show (cs.pushBack (res.rename f).unused).next.1 = EOFChar from hp)]
        show _ = _
        rw [List.map_append, textNodes_ren hf]
      · rw [if_neg hp, if_neg (show ¬ (cs.pushBack (res.rename f).unused).next.1 = EOFChar from hp)]
        exact embedLoop_ren hf he fuel r n _ _ _
    | some node =>
      simp only [Option.map_some]
      have := embedLoop_ren hf he fuel r n (kids ++ textNodes text ++ [node]) [] (cs.pushBack res.unused)
      rw [List.map_append, List.map_append, textNodes_ren hf] at this
      exact this

/-- So does the search for it. -/
theorem C56_evalEmbed (hf : Renaming f) {text text' : List Rune} {g g' : Grammar} (h : Accepted text g) (h' : Accepted text' g')
    (hb : SameBut f g.records g'.records) (fuel : Nat) (name : Name) (sample : List Rune) :
    g'.evalEmbed fuel (f name) sample = (do let r ← g.evalEmbed fuel name sample; .ok (r.rename f)) := by
  have he := env_other hf (accepted_facts h (splitLines_lines _)).2.1 (accepted_facts h' (splitLines_lines _)).2.1 hb
  have hn := he name
  refine sim_eq ?_
  unfold evalEmbed
  unfold Grammar.env at hn
  cases h1 : g.getRecord name <;> cases h2 : g'.getRecord (f name) <;> rw [h1, h2] at hn <;>
    simp only [Option.map_some, Option.map_none, Option.some.injEq, reduceCtorEq] at hn
  · show _ = _
    simp [Res.rename, Err.rename, RuleBase.rename, hf.empty]
  · simp only
    rw [hn]
    refine SimG.bind (embedLoop_ren hf he fuel _ fuel [] [] (Stream.ofChars sample)) ?_
    rintro kids _ rfl
    show _ = _
    simp [Res.rename, Node.rename, renameNodes_eq]

/-! ## Root rules and documents -/

/-- The root rules of the one are those of the other, renamed. -/
theorem C56_roots (hf : Renaming f) {text text' : List Rune} {g g' : Grammar} (h : Accepted text g) (h' : Accepted text' g')
    (hb : SameBut f g.records g'.records) : SameBut f g.roots g'.roots := by
  have hc := same_content hb
  have hperm : (content g'.roots).Perm ((content g.roots).map (other f)) := by
    refine perm_of_nodup (nodup_content (accepted_facts h' (splitLines_lines _)).2.2.2.1) ?_ ?_
    · have hn := (accepted_facts h (splitLines_lines _)).2.2.2.1
      rw [← content_names] at hn
      unfold List.Nodup
      rw [List.pairwise_map]
      exact (List.pairwise_map.1 hn).imp (fun h hab => h (hf.inj (congrArg Prod.fst hab)))
    · rintro ⟨n, r⟩
      rw [mem_content_roots h', List.mem_map]
      constructor
      · rintro ⟨h1, h2⟩
        obtain ⟨⟨m, q⟩, hq, he⟩ := List.mem_map.1 (hc.mem_iff.1 h1)
        refine ⟨(m, q), (mem_content_roots h m q).2 ⟨hq, ?_⟩, he⟩
        intro p hp hm
        simp only [other, Prod.mk.injEq] at he
        refine h2 (other f p) (hc.mem_iff.2 (List.mem_map_of_mem hp)) ?_
        simp only [other]
        rw [refs_rename, ← he.1]
        exact List.mem_map_of_mem hm
      · rintro ⟨⟨m, q⟩, hq, he⟩
        obtain ⟨h1, h2⟩ := (mem_content_roots h m q).1 hq
        refine ⟨hc.mem_iff.2 (List.mem_map.2 ⟨_, h1, he⟩), ?_⟩
        intro p hp hm
        obtain ⟨p0, hp0, rfl⟩ := List.mem_map.1 (hc.mem_iff.1 hp)
        simp only [other, Prod.mk.injEq] at he hm
        rw [refs_rename, ← he.1] at hm
        obtain ⟨k, hk, hke⟩ := List.mem_map.1 hm
        rw [hf.inj hke] at hk
        exact h2 p0 hp0 hk
  unfold SameBut
  unfold content at hperm
  rw [List.map_map] at hperm
  exact hperm

theorem rootsLoop_ren (hf : Renaming f) {env env' : Env} (he : ∀ n, env' (f n) = (env n).map (Rule.rename f)) (fuel : Nat) (flag : Int) :
    ∀ (a b : List Record) (_ : b.map Record.rule = (a.map Record.rule).map (Rule.rename f)) (m : List Rune) (cs : Stream),
      SimG (fun x y => y = (x.1.map (Res.rename f), x.2)) (rootsLoop env fuel flag a m cs) (rootsLoop env' fuel flag b m cs)
  | [], [], _, _, _ => rfl
  | [], y :: b, h, _, _ => by cases h
  | x :: a, [], h, _, _ => by cases h
  | x :: a, y :: b, h, m, cs => by
    simp only [List.map_cons, List.cons.injEq] at h
    unfold rootsLoop
    rw [h.1]
    refine SimG.bind (eval_ren hf he fuel x.rule flag (cs.pushBack m)) ?_
    rintro ⟨res, cs'⟩ _ rfl
    simp only [Res.rename_read, Res.rename_node, Option.isSome_map]
    refine SimG.bind (rootsLoop_ren hf he fuel flag a b h.2 _ cs') ?_
    rintro ⟨ms, m', cs''⟩ _ rfl
    show _ = _
    simp only
    split <;> rfl

/-- The outcome of `EvalRaw` or `Eval` with other names. -/
def renamed (f : Name → Name) (x : Except RawErr (List Node) × Stream) : Except RawErr (List Node) × Stream :=
  (x.1.map (List.map (Node.rename f)), x.2)

theorem rawLoop_ren (hf : Renaming f) {env env' : Env} (he : ∀ n, env' (f n) = (env n).map (Rule.rename f)) (fuel : Nat) (ra rb : List Record)
    (sch sch' : Sched) (hr : ∀ i, (sch'.roots i rb).map Record.rule = ((sch.roots i ra).map Record.rule).map (Rule.rename f))
    (hm : ∀ i l, sch'.matched i (l.map (Res.rename f)) = (sch.matched i l).map (Res.rename f)) :
    ∀ (n i : Nat) (nodes : List Node) (flag : Int) (un : List Rune) (s : Stream),
      SimG (fun x y => y = renamed f x) (rawLoop env fuel ra sch n i nodes flag un s)
        (rawLoop env' fuel rb sch' n i (nodes.map (Node.rename f)) flag un s)
  | 0, _, _, _, _, _ => trivial
  | n + 1, i, nodes, flag, un, s => by
    unfold rawLoop
    simp only [List.length_map]
    split
    · show _ = _
      unfold renamed
      simp only
      split <;> rfl
    · refine SimG.bind (rootsLoop_ren hf he fuel flag _ _ (hr i) [] _) ?_
      rintro ⟨ms, maxRead, cs⟩ _ rfl
      simp only
      rw [hm, pick_ren]
      cases pick (sch.matched i ms) with
      | none => exact rfl
      | ambiguous => exact rfl
      | found r =>
        simp only [Pick.rename, Res.rename_count, Res.rename_sticky, Res.rename_node]
        refine SimG.same (x := sliceFrom maxRead r.countUsed) ?_
        intro u
        have := rawLoop_ren hf he fuel ra rb sch sch' hr hm n (i + 1) (nodes ++ r.node.toList)
          (if r.sticky then SUGGEST_NOT_SKIP else SUGGEST_SKIP) u (cs.popBack un)
        rw [List.map_append] at this
        cases hn : r.node <;> rw [hn] at this <;> exact this

/-! ### Undoing a renaming -/

theorem node_rename_rename (k : Name → Name) (hk : ∀ n, k (f n) = n) (n : Node) : (n.rename f).rename k = n := by
  induction n using node_ind with
  | h rt nm ch cs p st v nd tk ih =>
    simp only [Node.rename, renameNodes_eq, List.map_map, hk]
    congr 1
    conv => rhs; rw [← List.map_id cs]
    exact List.map_congr_left ih

theorem base_rename_rename (k : Name → Name) (hk : ∀ n, k (f n) = n) (b : RuleBase) : (b.rename f).rename k = b := by
  simp [RuleBase.rename, hk]

mutual
theorem rule_rename_rename (k : Name → Name) (hk : ∀ n, k (f n) = n) : (r : Rule) → (r.rename f).rename k = r
  | .eof _ | .char _ _ _ | .range _ _ _ _ _ | .chars _ _ | .str _ _ => by simp only [Rule.rename, base_rename_rename k hk]
  | .ref _ n => by simp only [Rule.rename, base_rename_rename k hk, hk]
  | .group _ r => by simp only [Rule.rename, base_rename_rename k hk, rule_rename_rename k hk r]
  | .option _ r => by simp only [Rule.rename, base_rename_rename k hk, rule_rename_rename k hk r]
  | .rep _ r _ _ => by simp only [Rule.rename, base_rename_rename k hk, rule_rename_rename k hk r]
  | .choice _ gs => by simp only [Rule.rename, base_rename_rename k hk, rulesLL_rename_rename k hk gs]
  | .concat _ rs => by simp only [Rule.rename, base_rename_rename k hk, rulesL_rename_rename k hk rs]
  | .block _ o _ c e xs => by
    simp only [Rule.rename, base_rename_rename k hk, rule_rename_rename k hk o, rule_rename_rename k hk c,
      ruleO_rename_rename k hk e, rulesL_rename_rename k hk xs]
theorem ruleO_rename_rename (k : Name → Name) (hk : ∀ n, k (f n) = n) : (r : Option Rule) → renameO k (renameO f r) = r
  | none => rfl
  | some r => by simp only [renameO, rule_rename_rename k hk r]
theorem rulesL_rename_rename (k : Name → Name) (hk : ∀ n, k (f n) = n) : (rs : List Rule) → renameL k (renameL f rs) = rs
  | [] => rfl
  | r :: rs => by simp only [renameL, rule_rename_rename k hk r, rulesL_rename_rename k hk rs]
theorem rulesLL_rename_rename (k : Name → Name) (hk : ∀ n, k (f n) = n) : (gs : List (List Rule)) → renameLL k (renameLL f gs) = gs
  | [] => rfl
  | g :: gs => by simp only [renameLL, rulesL_rename_rename k hk g, rulesLL_rename_rename k hk gs]
end

theorem err_rename_rename (k : Name → Name) (hk : ∀ n, k (f n) = n) : ∀ e : Err, (e.rename f).rename k = e := by
  intro e
  induction e with
  | inConcat r e ih => simp only [Err.rename, ih, rule_rename_rename k hk]
  | inChoice r e ih => simp only [Err.rename, ih, rule_rename_rename k hk]
  | _ => simp only [Err.rename, rule_rename_rename k hk, base_rename_rename k hk, hk]

theorem res_rename_rename (k : Name → Name) (hk : ∀ n, k (f n) = n) (r : Res) : (r.rename f).rename k = r := by
  have h1 : (Node.rename k ∘ Node.rename f) = id := funext (node_rename_rename k hk)
  have h2 : (Err.rename k ∘ Err.rename f) = id := funext (err_rename_rename k hk)
  simp [Res.rename, Option.map_map, h1, h2]

theorem inverse (hf : Renaming f) : ∃ k : Name → Name, ∀ n, k (f n) = n := by
  classical
  refine ⟨fun m => if h : ∃ n, f n = m then h.choose else m, fun n => ?_⟩
  have h : ∃ n', f n' = f n := ⟨n, rfl⟩
  simp only [dif_pos h]
  exact hf.inj h.choose_spec

theorem map_rename_inj (hf : Renaming f) {a b : List Res} (h : a.map (Res.rename f) = b.map (Res.rename f)) : a = b := by
  obtain ⟨k, hk⟩ := inverse hf
  have := congrArg (List.map (Res.rename k)) h
  rw [List.map_map, List.map_map] at this
  have hid : (Res.rename k ∘ Res.rename f) = id := funext (res_rename_rename k hk)
  rwa [hid, List.map_id, List.map_id] at this

/-! ### `EvalRaw` -/

theorem evalRaw_other (hf : Renaming f) {g g' : Grammar} (he : ∀ n, g'.env (f n) = (g.env n).map (Rule.rename f)) (sch sch' : Sched)
    (hr : ∀ i, (sch'.roots i g'.roots).map Record.rule = ((sch.roots i g.roots).map Record.rule).map (Rule.rename f))
    (hm : ∀ i l, sch'.matched i (l.map (Res.rename f)) = (sch.matched i l).map (Res.rename f)) (fuel : Nat) (s : Stream) :
    g'.evalRaw fuel sch' s = (do let x ← g.evalRaw fuel sch s; .ok (renamed f x)) := by
  refine sim_eq ?_
  unfold evalRaw
  split
  · exact rfl
  · exact rawLoop_ren hf he fuel g.roots g'.roots sch sch' hr hm fuel 0 [] SUGGEST_SKIP [] s

theorem rules_of_content {a b : List Record} (h : content b = (content a).map (other f)) :
    b.map Record.rule = (a.map Record.rule).map (Rule.rename f) := by
  have := congrArg (List.map Prod.snd) h
  unfold content at this
  simp only [List.map_map] at this ⊢
  exact this

/-- What the renamed grammar can make of a document, the grammar can, with the old names … -/
theorem C56_evalRaw (hf : Renaming f) {text text' : List Rune} {g g' : Grammar} (h : Accepted text g) (h' : Accepted text' g')
    (hb : SameBut f g.records g'.records) (sch' : Sched) (hs : sch'.Fair) :
    ∃ sch, sch.Fair ∧ ∀ fuel s, g'.evalRaw fuel sch' s = (do let x ← g.evalRaw fuel sch s; .ok (renamed f x)) := by
  have he := env_other hf (accepted_facts h (splitLines_lines _)).2.1 (accepted_facts h' (splitLines_lines _)).2.1 hb
  have hroots := same_content (C56_roots hf h h' hb)
  have hex : ∀ i, ∃ l : List Record, l.Perm g.roots ∧ content (sch'.roots i g'.roots) = (content l).map (other f) := by
    intro i
    obtain ⟨l, h1, h2⟩ := perm_lift (fun r : Record => other f (r.name, r.rule)) (b := g.roots) (((hs.1 i g'.roots).map _).trans hroots)
      (by unfold content; rw [List.map_map]; rfl)
    refine ⟨l, h1, ?_⟩
    unfold content
    rw [← h2, List.map_map]
    rfl
  have hex2 : ∀ i (l : List Res), ∃ l' : List Res, l'.Perm l ∧ l'.map (Res.rename f) = sch'.matched i (l.map (Res.rename f)) := fun i l =>
    perm_lift (Res.rename f) (hs.2 i _) rfl
  classical
  refine ⟨⟨fun i l => if l = g.roots then (hex i).choose else l, fun i l => (hex2 i l).choose⟩, ⟨?_, fun i l => (hex2 i l).choose_spec.1⟩, ?_⟩
  · intro i l
    simp only
    split
    · rename_i h; rw [h]; exact (hex i).choose_spec.1
    · exact .refl _
  · refine evalRaw_other hf he _ sch' (fun i => ?_) (fun i l => (hex2 i l).choose_spec.2.symm)
    simp only [if_true]
    exact rules_of_content (hex i).choose_spec.2

/-- … and the other way round. -/
theorem C56_evalRaw_back (hf : Renaming f) {text text' : List Rune} {g g' : Grammar} (h : Accepted text g) (h' : Accepted text' g')
    (hb : SameBut f g.records g'.records) (sch : Sched) (hs : sch.Fair) :
    ∃ sch', sch'.Fair ∧ ∀ fuel s, g'.evalRaw fuel sch' s = (do let x ← g.evalRaw fuel sch s; .ok (renamed f x)) := by
  have he := env_other hf (accepted_facts h (splitLines_lines _)).2.1 (accepted_facts h' (splitLines_lines _)).2.1 hb
  have hroots := same_content (C56_roots hf h h' hb)
  have hex : ∀ i, ∃ l : List Record, l.Perm g'.roots ∧ content l = (content (sch.roots i g.roots)).map (other f) := fun i =>
    perm_lift (fun r : Record => (r.name, r.rule)) ((((hs.1 i g.roots).map (fun r : Record => (r.name, r.rule))).map (other f)).trans hroots.symm) rfl
  classical
  refine ⟨⟨fun i l => if l = g'.roots then (hex i).choose else l,
    fun i l => if h : ∃ m : List Res, l = m.map (Res.rename f) then (sch.matched i h.choose).map (Res.rename f) else l⟩, ⟨?_, ?_⟩, ?_⟩
  · intro i l
    simp only
    split
    · rename_i h; rw [h]; exact (hex i).choose_spec.1
    · exact .refl _
  · intro i l
    simp only
    split
    · rename_i h
      conv => rhs; rw [h.choose_spec]
      exact (hs.2 i _).map _
    · exact .refl _
  · refine evalRaw_other hf he sch _ (fun i => ?_) (fun i l => ?_)
    · simp only [if_true]
      exact rules_of_content (hex i).choose_spec.2
    · have hx : ∃ m : List Res, l.map (Res.rename f) = m.map (Res.rename f) := ⟨l, rfl⟩
      simp only [dif_pos hx]
      rw [← map_rename_inj hf hx.choose_spec]

/-! ## Trees -/

theorem node_text_rename (n : Node) : (n.rename f).text = n.text := by
  induction n using node_ind with
  | h rt nm ch cs p st v nd tk ih =>
    simp only [Node.rename, Node.text]
    have key : ∀ (cs : List Node) (_ : ∀ c ∈ cs, (c.rename f).text = c.text) (b : Bool) (acc : List Rune) (pr : Bool),
        textLoop b acc pr (renameNodes f cs) = textLoop b acc pr cs := by
      intro cs
      induction cs with
      | nil => intros; rfl
      | cons c cs ihc =>
        intro h b acc pr
        simp only [renameNodes, textLoop]
        rw [h c List.mem_cons_self, rename_sticky, ihc (fun x hx => h x (List.mem_cons_of_mem _ hx))]
    rw [key cs ih]

theorem node_counts_rename (n : Node) : (n.rename f).countNodes = n.countNodes ∧ (n.rename f).countTokens = n.countTokens ∧
    (n.rename f).countSticky = n.countSticky := by
  induction n using node_ind with
  | h rt nm ch cs p st v nd tk ih =>
    have key : ∀ (cs : List Node) (_ : ∀ c ∈ cs, (c.rename f).countNodes = c.countNodes ∧ (c.rename f).countTokens = c.countTokens ∧
        (c.rename f).countSticky = c.countSticky), countNodesL (renameNodes f cs) = countNodesL cs ∧
        countTokensL (renameNodes f cs) = countTokensL cs ∧ countStickyL (renameNodes f cs) = countStickyL cs := by
      intro cs
      induction cs with
      | nil => intro _; exact ⟨rfl, rfl, rfl⟩
      | cons c cs ihc =>
        intro h
        obtain ⟨a1, a2, a3⟩ := h c List.mem_cons_self
        obtain ⟨b1, b2, b3⟩ := ihc (fun x hx => h x (List.mem_cons_of_mem _ hx))
        simp only [renameNodes, countNodesL, countTokensL, countStickyL, a1, a2, a3, b1, b2, b3, and_self]
    obtain ⟨k1, k2, k3⟩ := key cs ih
    have hl : (renameNodes f cs).length = cs.length := by rw [renameNodes_eq, List.length_map]
    simp only [Node.rename, Node.countNodes, Node.countTokens, Node.countSticky, k1, k2, k3, hl, and_self]

/-- Text and numbers of nodes do not depend on names. -/
theorem C56_tree (n : Node) : (n.rename f).text = n.text ∧ (n.rename f).countNodes = n.countNodes ∧
    (n.rename f).countTokens = n.countTokens ∧ (n.rename f).countSticky = n.countSticky :=
  ⟨node_text_rename n, node_counts_rename n⟩

theorem removeVirtual_rename (n : Node) : (n.rename f).removeVirtual = n.removeVirtual.rename f := by
  induction n using node_ind with
  | h rt nm ch cs p st v nd tk ih =>
    simp only [Node.rename, Node.removeVirtual]
    congr 1
    induction cs with
    | nil => rfl
    | cons c cs ihc =>
      simp only [renameNodes, removeVirtualL, rename_virt]
      rw [ihc (fun x hx => ih x (List.mem_cons_of_mem _ hx)), ih c List.mem_cons_self]
      split <;> rfl

theorem removeVirtualL_rename (ns : List Node) : removeVirtualL (renameNodes f ns) = renameNodes f (removeVirtualL ns) := by
  induction ns with
  | nil => rfl
  | cons c cs ih =>
    simp only [renameNodes, removeVirtualL, rename_virt]
    rw [ih, removeVirtual_rename]
    split <;> rfl

theorem removeNonData_rename (n : Node) : (n.rename f).removeNonData = n.removeNonData.rename f := by
  induction n using node_ind with
  | h rt nm ch cs p st v nd tk ih =>
    simp only [Node.rename, Node.removeNonData]
    congr 1
    induction cs with
    | nil => rfl
    | cons c cs ihc =>
      simp only [renameNodes, removeNonDataL, rename_nonData]
      rw [ihc (fun x hx => ih x (List.mem_cons_of_mem _ hx)), ih c List.mem_cons_self]
      split <;> rfl

theorem removeNonDataL_rename (ns : List Node) : removeNonDataL (renameNodes f ns) = renameNodes f (removeNonDataL ns) := by
  induction ns with
  | nil => rfl
  | cons c cs ih =>
    simp only [renameNodes, removeNonDataL, rename_nonData]
    rw [ih, removeNonData_rename]
    split <;> rfl

theorem renameNodes_append (a b : List Node) : renameNodes f (a ++ b) = renameNodes f a ++ renameNodes f b := by
  simp only [renameNodes_eq, List.map_append]

theorem mergeLoop_rename (ns : List Node) (ih : ∀ c ∈ ns, (c.rename f).mergeSticky = c.mergeSticky.rename f) :
    ∀ (out : List Node) (prev : Option Node),
      mergeLoop (renameNodes f out) (prev.map (Node.rename f)) (renameNodes f ns) = renameNodes f (mergeLoop out prev ns) := by
  induction ns with
  | nil =>
    intro out prev
    cases prev with
    | none => rfl
    | some p => cases p; simp only [renameNodes, mergeLoop, Option.map_some, renameNodes_append, Node.rename]
  | cons c cs ihc =>
    intro out prev
    have ih' := ihc (fun x hx => ih x (List.mem_cons_of_mem _ hx))
    simp only [renameNodes, mergeLoop, rename_sticky]
    split
    · cases prev with
      | none =>
        simp only [Option.map_none]
        rw [← ih']
        cases c
        simp only [node_text_rename, Option.map_some]
        rfl
      | some p =>
        simp only [Option.map_some]
        rw [← ih']
        cases p
        simp only [node_text_rename, Option.map_some]
        rfl
    · cases prev with
      | none =>
        simp only [Option.map_none]
        rw [← ih', renameNodes_append, ih c List.mem_cons_self]
        rfl
      | some p =>
        simp only [Option.map_some]
        rw [← ih', renameNodes_append, ih c List.mem_cons_self]
        cases p
        rfl

theorem mergeSticky_rename (n : Node) : (n.rename f).mergeSticky = n.mergeSticky.rename f := by
  induction n using node_ind with
  | h rt nm ch cs p st v nd tk ih =>
    have hl : (renameNodes f cs).length = cs.length := by rw [renameNodes_eq, List.length_map]
    simp only [Node.rename, Node.mergeSticky, hl]
    split
    · rfl
    · split
      · simp only [Node.rename]
        congr 1
        clear hl
        rename_i h1 h2
        clear h1 h2
        induction cs with
        | nil => rfl
        | cons c cs ihc =>
          simp only [renameNodes, mergeBlockL]
          rw [ihc (fun x hx => ih x (List.mem_cons_of_mem _ hx)), ih c List.mem_cons_self]
          cases c.mergeSticky
          rfl
      · simp only [Node.rename]
        congr 1
        exact mergeLoop_rename cs ih [] none

theorem mergeStickyNodes_rename (ns : List Node) : mergeStickyNodes (renameNodes f ns) = renameNodes f (mergeStickyNodes ns) := by
  have hl : (renameNodes f ns).length = ns.length := by rw [renameNodes_eq, List.length_map]
  unfold mergeStickyNodes
  rw [hl]
  split
  · rfl
  · exact mergeLoop_rename ns (fun c _ => mergeSticky_rename c) [] none

theorem name_nil_iff (hf : Renaming f) (n : Name) : f n = [] ↔ n = [] :=
  ⟨fun h => hf.inj (h.trans hf.empty.symm), fun h => by rw [h]; exact hf.empty⟩

theorem promoteOnly_rename (hf : Renaming f) (n : Node) : promoteOnly (n.rename f) = (promoteOnly n).rename f := by
  obtain ⟨rt, nm, ch, cs, p, st, v, nd, tk⟩ := n
  unfold promoteOnly
  match cs with
  | [] => rfl
  | [c] =>
    simp only [Node.rename, renameNodes, rename_name, rename_chars, name_nil_iff hf]
    split
    · split
      · rfl
      · simp only [rename_children, Node.rename, renameNodes_eq]
    · rfl
  | c :: d :: cs => rfl

theorem promoteLeaf_rename (hf : Renaming f) (n : Node) : promoteLeaf (n.rename f) = (promoteLeaf n).rename f := by
  obtain ⟨rt, nm, ch, cs, p, st, v, nd, tk⟩ := n
  unfold promoteLeaf
  match cs with
  | [] => rfl
  | [c] =>
    simp only [Node.rename, renameNodes, rename_name, rename_chars, rename_children, List.length_map, name_nil_iff hf]
    split <;> rfl
  | c :: d :: cs => rfl

theorem spliceUnnamed_rename (hf : Renaming f) (ns : List Node) : spliceUnnamed (renameNodes f ns) = renameNodes f (spliceUnnamed ns) := by
  induction ns with
  | nil => rfl
  | cons c cs ih =>
    simp only [renameNodes, spliceUnnamed, node_text_rename, rename_name, rename_children, List.length_map, name_nil_iff hf]
    split
    · exact ih
    · split
      · rw [renameNodes_append, ih, renameNodes_eq (ns := c.children)]
      · rw [ih]; rfl

theorem removeRedundant_rename (hf : Renaming f) (n : Node) : (n.rename f).removeRedundant = n.removeRedundant.rename f := by
  induction n using node_ind with
  | h rt nm ch cs p st v nd tk ih =>
    have hl : (renameNodes f cs).length = cs.length := by rw [renameNodes_eq, List.length_map]
    have hcs : removeRedundantL (renameNodes f cs) = renameNodes f (removeRedundantL cs) := by
      clear hl
      induction cs with
      | nil => rfl
      | cons c cs ihc =>
        simp only [renameNodes, removeRedundantL]
        rw [ihc (fun x hx => ih x (List.mem_cons_of_mem _ hx)), ih c List.mem_cons_self]
    simp only [Node.rename, Node.removeRedundant, hl]
    split
    · rfl
    · rw [hcs]
      have h1 := promoteOnly_rename hf ⟨rt, nm, ch, removeRedundantL cs, p, st, v, nd, tk⟩
      simp only [Node.rename] at h1
      rw [h1, ← promoteLeaf_rename hf]
      congr 1
      generalize promoteOnly ⟨rt, nm, ch, removeRedundantL cs, p, st, v, nd, tk⟩ = m
      cases m
      simp only [Node.rename, spliceUnnamed_rename hf]

theorem astRemoveRedundant_rename (hf : Renaming f) (ns : List Node) : astRemoveRedundant (renameNodes f ns) = renameNodes f (astRemoveRedundant ns) := by
  induction ns with
  | nil => rfl
  | cons c cs ih =>
    simp only [renameNodes, astRemoveRedundant, rename_nonData]
    rw [ih, removeRedundant_rename hf]
    split <;> rfl

/-- Simplification does not depend on names. -/
theorem C56_simplify (hf : Renaming f) (level : Int) (ns : List Node) :
    simplify level (ns.map (Node.rename f)) = (simplify level ns).map (Node.rename f) := by
  rw [← renameNodes_eq, ← renameNodes_eq]
  unfold simplify
  simp only
  split
  · rfl
  · rw [← astRemoveRedundant_rename hf]
    congr 1
    split
    · rw [mergeStickyNodes_rename, removeVirtualL_rename, removeNonDataL_rename]
    · split
      · rw [mergeStickyNodes_rename, removeVirtualL_rename]
      · rw [mergeStickyNodes_rename]

theorem evalAST_of_raw (hf : Renaming f) {g g' : Grammar} {sch sch' : Sched} {fuel : Nat} {s : Stream}
    (h : g'.evalRaw fuel sch' s = (do let x ← g.evalRaw fuel sch s; .ok (renamed f x))) (level : Int) :
    g'.evalAST fuel sch' s level = (do let x ← g.evalAST fuel sch s level; .ok (renamed f x)) := by
  unfold evalAST
  rw [h]
  cases g.evalRaw fuel sch s with
  | oof => rfl
  | panic => rfl
  | ok x =>
    obtain ⟨r, s'⟩ := x
    show Exec.ok _ = Exec.ok _
    unfold renamed
    cases r with
    | error e => rfl
    | ok ns =>
      simp only [Except.map]
      rw [C56_simplify hf]

/-- `Eval`, at every level: the trees of the renamed grammar are the trees of the grammar, renamed. -/
theorem C56_eval (hf : Renaming f) {text text' : List Rune} {g g' : Grammar} (h : Accepted text g) (h' : Accepted text' g')
    (hb : SameBut f g.records g'.records) :
    (∀ sch' : Sched, sch'.Fair → ∃ sch : Sched, sch.Fair ∧ ∀ fuel s level,
      g'.evalAST fuel sch' s level = (do let x ← g.evalAST fuel sch s level; .ok (renamed f x))) ∧
    (∀ sch : Sched, sch.Fair → ∃ sch' : Sched, sch'.Fair ∧ ∀ fuel s level,
      g'.evalAST fuel sch' s level = (do let x ← g.evalAST fuel sch s level; .ok (renamed f x))) := by
  constructor
  · intro sch' hs
    obtain ⟨sch, h1, h2⟩ := C56_evalRaw hf h h' hb sch' hs
    exact ⟨sch, h1, fun fuel s level => evalAST_of_raw hf (h2 fuel s) level⟩
  · intro sch hs
    obtain ⟨sch', h1, h2⟩ := C56_evalRaw_back hf h h' hb sch hs
    exact ⟨sch', h1, fun fuel s level => evalAST_of_raw hf (h2 fuel s) level⟩

/-! ## Non-vacuity -/

/-- Two names exchanged. -/
def exchange (a b n : Name) : Name := if n = a then b else if n = b then a else n

theorem exchange_renaming {a b : Name} (ha : a ≠ [] ∧ a ≠ runes "EOF" ∧ a ≠ runes "_") (hb : b ≠ [] ∧ b ≠ runes "EOF" ∧ b ≠ runes "_") :
    Renaming (exchange a b) := by
  have other : ∀ n, n ≠ a → n ≠ b → exchange a b n = n := by
    intro n h1 h2
    unfold exchange
    rw [if_neg h1, if_neg h2]
  refine ⟨?_, other _ ha.1.symm hb.1.symm, other _ ha.2.1.symm hb.2.1.symm, other _ ha.2.2.symm hb.2.2.symm⟩
  intro x y h
  unfold exchange at h
  split at h <;> split at h <;> (try split at h) <;> (try split at h) <;> simp_all

def namedText : List Rune := runes "num = {digit}+ [sign]\ndigit = '0'-'9'\nsign = '+' | '-'"
def otherText : List Rune := runes "// other names, another order\nplus = '+' | '-'\nnum={digit}+ [plus]\n\ndigit = '0'-'9'"

/-- The two texts meet the hypotheses for the exchange of `sign` and `plus`, and the trees have their names. -/
example : Renaming (exchange (runes "sign") (runes "plus")) ∧ (∃ g, madeOf namedText = some g ∧ Accepted namedText g) ∧
    (∃ g', madeOf otherText = some g' ∧ Accepted otherText g') ∧
    (∀ g g', madeOf namedText = some g → madeOf otherText = some g' → SameBut (exchange (runes "sign") (runes "plus")) g.records g'.records) ∧
    (madeOf otherText).map (fun g => g.roots.map Record.name) = some [runes "num"] := by
  refine ⟨exchange_renaming (by decide) (by decide), made_accepted (by decide +kernel), made_accepted (by decide +kernel), ?_, by decide +kernel⟩
  intro g g' h h'
  have : (match madeOf namedText, madeOf otherText with
    | some g, some g' => decide ((g'.records.map (fun r => (r.name, r.rule))).Perm
        (g.records.map (fun r => (exchange (runes "sign") (runes "plus") r.name, r.rule.rename (exchange (runes "sign") (runes "plus"))))))
    | _, _ => false) = true := by decide +kernel
  rw [h, h'] at this
  unfold SameBut
  exact of_decide_eq_true this

/-- The names in a tree: `sign` in the one grammar, `plus` in the other. -/
def namesIn (text : List Rune) (name sample : List Rune) : List Name :=
  match madeOf text with
  | some g => match g.evalRule 30 name sample with
    | .ok r => (r.node.toList.flatMap (fun n => n.children.flatMap (fun c => c.children.map Node.name)))
    | _ => []
  | none => []

example : namesIn namedText (runes "num") (runes "7+") = [runes "digit", runes "sign"] ∧
    namesIn otherText (runes "num") (runes "7+") = [runes "digit", runes "plus"] := by
  constructor <;> decide +kernel

end Xbnf.Props
