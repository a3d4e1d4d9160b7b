import Verif.Spec.Written
import Verif.Props.Grammars
import Verif.Props.Terminals
import Verif.Props.Definitions
import Verif.Lemmas.Document
import Verif.Lemmas.Twin
/-
C66: every text can be written as a literal, and every finite set of texts as a rule of one line.
-/
namespace Xbnf.Props
open Spec

/-! ## The rule that is written -/

/-- The rule a list of texts is. -/
def listRule : List (List Rune) → Rule
  | [t] => .str {} t
  | ts => .choice {} [ts.map (fun t => .str {} t)]

theorem listed_ne {ts : List (List Rune)} {body : List Rune} (h : Listed ts body) : ts ≠ [] := by cases h <;> simp

theorem map_viaUTF8 {val : List Rune} (hv : ∀ c ∈ val, CodePoint c) : val.map viaUTF8 = val :=
  (List.map_congr_left (fun c hc => viaUTF8_id (hv c hc))).trans (List.map_id' val)

theorem string_simple {src t : List Rune} {u : Bool} (h : Spelling 34 src t u) (hv : ∀ c ∈ t, CodePoint c) (out : List Rune) :
    Simple {} (34 :: src ++ 34 :: out) (.str {} t) out := by
  have := Simple.string (b := {}) (out := out) h
  rwa [map_viaUTF8 hv] at this

theorem listed_alternatives {ts : List (List Rune)} {body : List Rune} (h : Listed ts body) (hv : ∀ t ∈ ts, ∀ c ∈ t, CodePoint c) :
    ∀ sp : List Rune, (∀ c ∈ sp, c = 32) → Alternatives (sp ++ 124 :: 32 :: body) (ts.map (fun t => (124, .str {} t))) [] := by
  induction h with
  | @one src t u h hn =>
    intro sp hsp
    refine .cons (m := 32 :: (34 :: src ++ [34])) ⟨sp, rfl, hsp⟩ (.inl rfl) (.white (.inl rfl) .none) (string_simple h (hv t (by simp)) []) ?_
    exact .nil ⟨[], rfl, by simp⟩ (by simp) (by simp) (by simp)
  | @more src t u ts body h hn _ ih =>
    intro sp hsp
    refine .cons (m := 32 :: (34 :: src ++ 34 :: runes " | " ++ body)) ⟨sp, rfl, hsp⟩ (.inl rfl) (.white (.inl rfl) .none) ?_
      (ih (fun t' ht' => hv t' (List.mem_cons_of_mem _ ht')) [32] (by simp))
    have := string_simple h (hv t (by simp)) (32 :: 124 :: 32 :: body)
    simpa [runes] using this

theorem grouped_all (rs : List Rule) : ∀ g, grouped g (rs.map (fun r => (124, r))) = [g ++ rs] := by
  induction rs with
  | nil => intro g; simp [grouped]
  | cons r rs ih => intro g; simp [grouped, ih]

theorem listed_definition {ts : List (List Rune)} {body : List Rune} (h : Listed ts body) (hv : ∀ t ∈ ts, ∀ c ∈ t, CodePoint c) :
    Definition [EOFChar] body (listRule ts) [] := by
  cases h with
  | @one src t u h hn =>
    refine .one (m := 34 :: src ++ [34]) ⟨[], rfl, by simp⟩ (.cons .none (string_simple h (hv t (by simp)) []) .nil .nil) (.ended .none (.inl rfl))
  | @more src t u ts body h hn hs =>
    have ha := listed_alternatives hs (fun t' ht' => hv t' (List.mem_cons_of_mem _ ht')) [] (by simp)
    have h1 := string_simple h (hv t (by simp)) (32 :: 124 :: 32 :: body)
    have e : (34 :: src ++ 34 :: runes " | " ++ body : List Rune) = 34 :: src ++ 34 :: 32 :: 124 :: 32 :: body := by simp [runes]
    rw [e]
    have hr : listRule (t :: ts) = .choice {} (grouped [.str {} t] (ts.map (fun t => (124, .str {} t)))) := by
      have := grouped_all (ts.map (fun t => .str {} t)) [.str {} t]
      rw [List.map_map] at this
      have e2 : ((fun r : Rule => ((124 : Rune), r)) ∘ fun t : List Rune => (Rule.str {} t)) = fun t => (124, .str {} t) := rfl
      rw [e2] at this
      rw [this]
      cases ts with
      | nil => exact absurd rfl (listed_ne hs)
      | cons t' ts => rfl
    rw [hr]
    refine .one (m := 34 :: src ++ 34 :: 32 :: 124 :: 32 :: body) ⟨[], rfl, by simp⟩ (.cons .none h1 ?_ .nil) (.ended .none (.inl rfl))
    refine .cons (b := {}) (.white ⟨by decide, by decide⟩ .none) (.inl rfl) (by decide) ha .nil

/-! ## The grammar of one line -/

theorem name_head {name : Name} (h : RuleName name) : ∃ c cs, name = c :: cs ∧ isWhiteSpace c = false ∧ c ≠ 47 ∧ 61 ∉ name ∧ 10 ∉ name ∧
    ∀ c ∈ name, isWhiteSpace c = false := by
  obtain ⟨c, cs, rfl, hl, hd⟩ := h
  have hall : ∀ d ∈ c :: cs, Letter d ∨ Digit d ∨ d = 95 := by
    intro d hx
    rcases List.mem_cons.1 hx with rfl | hx
    · exact .inl hl
    · exact hd d hx
  have key : ∀ d : Rune, (Letter d ∨ Digit d ∨ d = 95) → isWhiteSpace d = false ∧ d ≠ 61 ∧ d ≠ 10 := by
    intro d hx
    unfold Letter Digit Rune at *
    refine ⟨?_, by omega, by omega⟩
    cases hw : isWhiteSpace d with
    | false => rfl
    | true =>
      simp only [isWhiteSpace, whiteSpaceTable, List.contains_eq_mem, decide_eq_true_eq, List.mem_cons, List.not_mem_nil, or_false] at hw
      unfold Rune at *
      omega
  refine ⟨c, cs, rfl, (key c (hall c (by simp))).1, ?_, fun hx => (key 61 (hall _ hx)).2.1 rfl, fun hx => (key 10 (hall _ hx)).2.2 rfl,
    fun d hx => (key d (hall d hx)).1⟩
  unfold Letter Rune at *
  omega

theorem one_line {name body : List Rune} {r : Rule} (hn : RuleName name) (hb : 10 ∉ body) (hd : Definition [EOFChar] body r [])
    (hh : ∀ c, body.head? = some c → isWhiteSpace c = false) (hl : ∃ b0 c, body = b0 ++ [c] ∧ isWhiteSpace c = false) (hr : refs (r.setName name) = []) :
    ∃ g, Accepted (name ++ runes " = " ++ body) g ∧ g.records = [⟨name, r.setName name, 1⟩] := by
  obtain ⟨c, cs, hnc, hcw, hc47, h61, h10, hall⟩ := name_head hn
  obtain ⟨b0, c', hb0, hc'⟩ := hl
  have hlines : Lines (name ++ runes " = " ++ body) [name ++ runes " = " ++ body] := by
    refine ⟨by simp, by simp, ?_⟩
    intro l hl'
    simp only [List.mem_singleton] at hl'
    subst hl'
    simp only [List.mem_append, not_or]
    exact ⟨⟨h10, by decide⟩, hb⟩
  have hskip : ¬ Skipped (name ++ runes " = " ++ body) := by
    rintro ⟨t, ⟨a, b, h1, h2, h3, h4⟩, h5⟩
    have ha : a = [] := by
      cases a with
      | nil => rfl
      | cons x a =>
        rw [hnc] at h1
        simp only [List.cons_append, List.cons.injEq] at h1
        have := h2 x (by simp)
        rw [← h1.1, hcw] at this
        cases this
    subst ha
    rcases h5 with rfl | ⟨rest, rfl⟩
    · rw [hnc] at h1
      cases b with
      | nil => simp at h1
      | cons x b =>
        simp only [List.cons_append, List.nil_append, List.cons.injEq] at h1
        have := h2 x (by simp)
        rw [← h1.1, hcw] at this
        cases this
    · rw [hnc] at h1
      have : runes "//" = [47, 47] := by decide
      rw [this] at h1
      simp only [List.cons_append, List.nil_append, List.cons.injEq] at h1
      exact hc47 h1.1
  have hdef : Defines (name ++ runes " = " ++ body) name body := by
    refine ⟨name ++ runes " = " ++ body, name ++ [32], 32 :: body, ⟨[], [], by simp, by simp, ?_, ?_⟩, by simp [runes], ?_, ⟨[], [32], by simp, by decide, ?_, ?_⟩,
      ⟨[32], [], by simp, by decide, hh, ?_⟩⟩
    · intro d hx
      rw [hnc] at hx
      simp only [List.cons_append, List.head?_cons, Option.some.injEq] at hx
      rw [← hx]; exact hcw
    · intro d hx
      rw [hb0, ← List.append_assoc, List.getLast?_concat] at hx
      cases hx; exact hc'
    · simp only [List.mem_append, not_or]
      exact ⟨h61, by decide⟩
    · intro d hx
      exact hall d (List.mem_of_head? hx)
    · intro d hx
      exact hall d (List.mem_of_getLast? hx)
    · intro d hx
      rw [hb0, List.getLast?_concat] at hx
      cases hx; exact hc'
  refine (C32_accepts hlines _).2 ⟨.defn hskip hdef hn ⟨r, [], hd, (withName_eq _ _).symm⟩ .nil, by simp, ?_⟩
  intro q hq m hm
  simp only [List.mem_singleton] at hq
  subst hq
  simp only [hr] at hm
  cases hm

/-! ## Evaluation -/

theorem same_end {a b w v : List Rune} (hw : ∀ c ∈ w, isWhiteSpace c = true) (hv : ∀ c ∈ v, isWhiteSpace c = true) (h : w ++ a = v ++ b) :
    WhiteBefore a b ∨ WhiteBefore b a := by
  rcases List.append_eq_append_iff.1 h with ⟨x, h1, h2⟩ | ⟨x, h1, h2⟩
  · exact .inr ⟨x, fun c hc => hv c (by rw [h1]; exact List.mem_append_right _ hc), h2⟩
  · exact .inl ⟨x, fun c hc => hw c (by rw [h1]; exact List.mem_append_right _ hc), h2⟩

theorem list_alts {env : Env} (F : Nat) (l : List Rune) : ∀ (ts : List (List Rune)) (look : Nat) (st : Bool), ∃ hits look' st',
    altsAt (Spec.run env (F + 1)) SUGGEST_SKIP l (ts.map (fun t => .str {} t)) look st = .ok hits look' st' ∧
    (∀ h ∈ hits, ∃ t ∈ ts, ∃ ws, Comes true t l ws ∧ h.1 = leaf .string {} false t ∧ h.2.1 = ws.length + t.length) ∧
    (∀ t ∈ ts, ∀ ws, Comes true t l ws → ∃ h ∈ hits, h.2.1 = ws.length + t.length) ∧
    (Apart ts → (hits.map (fun h => h.2.1)).Nodup)
  | [], look, st => ⟨[], look, st, rfl, by simp, by simp, by simp⟩
  | t :: ts, look, st => by
    have hrun : Spec.run env (F + 1) (.str {} t) SUGGEST_SKIP l = textAt .string {} false true t l := rfl
    by_cases hc : ∃ ws, Comes true t l ws
    · obtain ⟨ws, hc⟩ := hc
      have ht := textAt_comes (rt := .string) (b := {}) (sticky := false) hc
      obtain ⟨hits, look', st', h1, h2, h3, h4⟩ := list_alts (env := env) F l ts (max look (ws.length + t.length)) (st && false)
      refine ⟨(leaf .string {} false t, ws.length + t.length, false) :: hits, look', st', ?_, ?_, ?_, ?_⟩
      · simp only [List.map_cons, altsAt, hrun, ht, h1]
      · intro h hh
        rcases List.mem_cons.1 hh with rfl | hh
        · exact ⟨t, by simp, ws, hc, rfl, rfl⟩
        · obtain ⟨t', ht', x⟩ := h2 h hh
          exact ⟨t', List.mem_cons_of_mem _ ht', x⟩
      · intro t' ht' ws' hc'
        rcases List.mem_cons.1 ht' with rfl | ht'
        · have h' := textAt_comes (rt := .string) (b := {}) (sticky := false) hc'
          rw [ht] at h'
          simp only [Ans.hit.injEq] at h'
          exact ⟨_, List.mem_cons_self, h'.2.1⟩
        · obtain ⟨h, hh, e⟩ := h3 t' ht' ws' hc'
          exact ⟨h, List.mem_cons_of_mem _ hh, e⟩
      · intro ha
        obtain ⟨ha1, ha2⟩ := List.pairwise_cons.1 ha
        refine List.nodup_cons.2 ⟨?_, h4 ha2⟩
        intro hx
        obtain ⟨h, hh, e⟩ := List.mem_map.1 hx
        obtain ⟨t', ht', ws', hc', _, e'⟩ := h2 h hh
        obtain ⟨_, r1, e1, w1, _⟩ := hc
        obtain ⟨_, r2, e2, w2, _⟩ := hc'
        have hlen : (ws ++ t).length = (ws' ++ t').length := by
          rw [List.length_append, List.length_append, ← e', e]
        have := (List.append_inj (e1.symm.trans e2) hlen).1
        rcases same_end w1 w2 this with hb | hb
        · exact (ha1 t' ht').1 hb
        · exact (ha1 t' ht').2 hb
    · obtain ⟨n, ht⟩ := textAt_not (rt := .string) (b := {}) (sticky := false) hc
      obtain ⟨hits, look', st', h1, h2, h3, h4⟩ := list_alts (env := env) F l ts (max look n) (st && false)
      refine ⟨hits, look', st', ?_, ?_, ?_, ?_⟩
      · simp only [List.map_cons, altsAt, hrun, ht, h1]
      · intro h hh
        obtain ⟨t', ht', x⟩ := h2 h hh
        exact ⟨t', List.mem_cons_of_mem _ ht', x⟩
      · intro t' ht' ws' hc'
        rcases List.mem_cons.1 ht' with rfl | ht'
        · exact absurd ⟨ws', hc'⟩ hc
        · exact h3 t' ht' ws' hc'
      · intro ha
        exact h4 (List.pairwise_cons.1 ha).2

theorem best_of_nodup {hits : List (Node × Nat × Bool)} (hne : hits ≠ []) (hn : (hits.map (fun h => h.2.1)).Nodup) :
    ∃ h ∈ hits, (∀ z ∈ hits, z.2.1 ≤ h.2.1) ∧ best hits = .one h.1 h.2.1 h.2.2 := by
  obtain ⟨y, hy, hyl⟩ := L.longest_mem hits hne
  have hmem : y ∈ hits.filter (fun z => z.2.1 == longest hits) := List.mem_filter.2 ⟨hy, by simp [hyl]⟩
  have hf : hits.filter (fun z => z.2.1 == longest hits) = [y] := by
    have hs := List.Nodup.sublist ((List.filter_sublist (p := fun z => z.2.1 == longest hits) (l := hits)).map (fun h => h.2.1)) hn
    have hall : ∀ z ∈ hits.filter (fun z => z.2.1 == longest hits), z.2.1 = longest hits := fun z hz => by
      simpa using (List.mem_filter.1 hz).2
    generalize hits.filter (fun z => z.2.1 == longest hits) = f at hs hall hmem
    match f, hs, hall, hmem with
    | [], _, _, hmem => cases hmem
    | [a], _, _, hmem => simp only [List.mem_singleton] at hmem; rw [hmem]
    | a :: b :: f, hs, hall, _ =>
      simp only [List.map_cons, List.nodup_cons, List.mem_cons, not_or] at hs
      exact absurd ((hall a (by simp)).trans (hall b (by simp)).symm) hs.1.1
  refine ⟨y, hy, fun z hz => ?_, best_nodup hf hn⟩
  rw [hyl]
  exact L.le_longest hz

theorem choice_text {b : RuleBase} {st st' : Bool} {rt : RType} {b' : RuleBase} {t : List Rune} (ht : ∀ c ∈ t, c ≠ EOFChar) :
    (inner .choice b st [leaf rt b' st' t]).text = t := by
  have : (leaf rt b' st' t).text = t := leaf_text (leaf rt b' st' t) ht rfl rfl
  simp [inner, Node.text, textLoop, joinText, this]

theorem listed_body {ts : List (List Rune)} {body : List Rune} (h : Listed ts body) :
    10 ∉ body ∧ (∀ c, body.head? = some c → isWhiteSpace c = false) ∧ ∃ b0 c, body = b0 ++ [c] ∧ isWhiteSpace c = false := by
  have h34 : isWhiteSpace 34 = false := by decide
  induction h with
  | @one src t u h hn =>
    refine ⟨?_, ?_, 34 :: src, 34, rfl, h34⟩
    · simpa using hn
    · intro c hc; cases hc; exact h34
  | @more src t u ts body h hn hs ih =>
    obtain ⟨h1, _, b0, c, hb, hc⟩ := ih
    refine ⟨?_, ?_, 34 :: src ++ 34 :: runes " | " ++ b0, c, by rw [hb]; simp, hc⟩
    · have : (10 : Rune) ∉ runes " | " := by decide
      simp only [List.mem_append, List.mem_cons, not_or]
      exact ⟨⟨⟨by decide, hn⟩, by decide, this⟩, h1⟩
    · intro c hc; cases hc; exact h34

theorem listRule_refs (ts : List (List Rune)) (name : Name) : refs ((listRule ts).setName name) = [] := by
  have key : ∀ ts : List (List Rune), refsL (ts.map (fun t => .str {} t)) = [] := by
    intro ts
    induction ts with
    | nil => rfl
    | cons t ts ih => simp [refsL, refs, ih]
  unfold listRule
  split <;> simp [Rule.setName, Rule.setBase, refs, refsLL, key]

theorem listRule_run {env : Env} {ts : List (List Rune)} (hne : ts ≠ []) (ha : Apart ts) (hv : ∀ t ∈ ts, ∀ c ∈ t, c ≠ EOFChar) (name : Name) (F : Nat)
    (l : List Rune) :
    (∃ t ws nd n st, LongestOf ts l t ws ∧ nd.text = t ∧
      Spec.run env (F + 2) ((listRule ts).setName name) SUGGEST_SKIP l = .hit nd (ws.length + t.length) n st) ∨
    ((∀ t ∈ ts, ¬ ∃ ws, Comes true t l ws) ∧ ∃ n st, Spec.run env (F + 2) ((listRule ts).setName name) SUGGEST_SKIP l = .fail n st) := by
  match ts, hne, ha, hv with
  | [t], _, _, hv =>
    have hrun : Spec.run env (F + 2) ((listRule [t]).setName name) SUGGEST_SKIP l = textAt .string { name := name } false true t l := rfl
    rw [hrun]
    by_cases hc : ∃ ws, Comes true t l ws
    · left
      obtain ⟨ws, hc⟩ := hc
      have ht := textAt_comes (rt := .string) (b := { name := name }) (sticky := false) hc
      refine ⟨t, ws, leaf .string { name := name } false t, _, _, ⟨by simp, hc, ?_⟩, leaf_text _ (hv t (by simp)) rfl rfl, ht⟩
      intro t' ht' ws' hc'
      simp only [List.mem_singleton] at ht'
      subst ht'
      have h' := textAt_comes (rt := .string) (b := { name := name }) (sticky := false) hc'
      rw [ht] at h'
      simp only [Ans.hit.injEq] at h'
      omega
    · right
      refine ⟨?_, ?_⟩
      · intro t' ht'
        simp only [List.mem_singleton] at ht'
        subst ht'
        exact hc
      · obtain ⟨n, hn⟩ := textAt_not (rt := .string) (b := { name := name }) (sticky := false) hc
        exact ⟨n, _, hn⟩
  | t1 :: t2 :: ts, _, ha, hv =>
    obtain ⟨hits, look', st', h1, h2, h3, h4⟩ := list_alts (env := env) F l (t1 :: t2 :: ts) 0 true
    have hrun : Spec.run env (F + 2) ((listRule (t1 :: t2 :: ts)).setName name) SUGGEST_SKIP l =
        choiceAt (Spec.run env (F + 1)) { name := name } SUGGEST_SKIP l [(t1 :: t2 :: ts).map (fun t => .str {} t)] 0 true := rfl
    rw [hrun]
    simp only [choiceAt, h1]
    by_cases hz : hits = []
    · right
      refine ⟨?_, look', st', by rw [hz]; rfl⟩
      rintro t ht ⟨ws, hc⟩
      obtain ⟨h, hh, _⟩ := h3 t ht ws hc
      rw [hz] at hh; cases hh
    · left
      obtain ⟨h, hh, hmax, hb⟩ := best_of_nodup hz (h4 ha)
      obtain ⟨t, ht, ws, hc, e1, e2⟩ := h2 h hh
      refine ⟨t, ws, _, _, _, ⟨ht, hc, ?_⟩, ?_, by rw [hb, e1, e2]⟩
      · intro t' ht' ws' hc'
        obtain ⟨h', hh', e'⟩ := h3 t' ht' ws' hc'
        have := hmax h' hh'
        omega
      · exact choice_text (hv t ht)

theorem apart_mem {ts : List (List Rune)} (h : Apart ts) {a b : List Rune} (ha : a ∈ ts) (hb : b ∈ ts) (hab : a ≠ b) : ¬ WhiteBefore a b := by
  induction h with
  | nil => cases ha
  | @cons t ts h1 _ ih =>
    rcases List.mem_cons.1 ha with rfl | ha'
    · rcases List.mem_cons.1 hb with rfl | hb'
      · exact absurd rfl hab
      · exact (h1 b hb').1
    · rcases List.mem_cons.1 hb with rfl | hb'
      · exact (h1 a ha').2
      · exact ih ha' hb'

/-! ## The property -/

/-- **C66**: list any texts as strings in quotes, with '|' between them, such that none is another with white space before it.  This is the
definition of a rule, and on every sample the rule finds the longest of the texts that come next (white space before it is skipped); it fails
exactly if none comes. -/
theorem C66_longest {name : Name} (hn : RuleName name) {ts : List (List Rune)} {body : List Rune} (h : Listed ts body)
    (hv : ∀ t ∈ ts, ∀ c ∈ t, CodePoint c) (ha : Apart ts) :
    ∃ g, Accepted (name ++ runes " = " ++ body) g ∧ ∀ sample, Valid sample → ∀ fuel, ∃ res, g.evalRule (fuel + 2) name sample = .ok res ∧
      ((∃ t ws n, LongestOf ts sample t ws ∧ res.node = some n ∧ n.text = t ∧ res.countUsed = ws.length + t.length) ∨
       ((∀ t ∈ ts, ¬ ∃ ws, Comes true t sample ws) ∧ res.node = none)) := by
  obtain ⟨b1, b2, b3⟩ := listed_body h
  obtain ⟨g, hg, hrec⟩ := one_line hn b1 (listed_definition h hv) b2 b3 (listRule_refs ts name)
  refine ⟨g, hg, fun sample hs fuel => ?_⟩
  have hget : g.getRecord name = some ⟨name, (listRule ts).setName name, 1⟩ := by
    simp [Grammar.getRecord, hrec]
  have hve : ∀ t ∈ ts, ∀ c ∈ t, c ≠ EOFChar := by
    intro t ht c hc
    have := (hv t ht c hc).1
    unfold EOFChar Rune at *
    omega
  have hl := rem_ofChars sample
  rcases listRule_run (env := g.env) (listed_ne h) ha hve name fuel sample with ⟨t, ws, nd, n, st, hlo, htx, hr⟩ | ⟨hnone, n, st, hr⟩
  · obtain ⟨res, s', k, e1, _, href⟩ := run_eval (env := g.env) (fuel := fuel + 2) (r := (listRule ts).setName name) (flag := SUGGEST_SKIP)
      (ready_ofChars hs) (by rw [hl, hr]; simp) (by rw [hl, hr]; simp)
    rw [hl, hr] at href
    obtain ⟨g1, g2, _⟩ := ref_hit href
    obtain ⟨n', hn', hne⟩ := Option.map_eq_some_iff.1 g1
    refine ⟨res, by simp only [Grammar.evalRule, hget, e1]; rfl, .inl ⟨t, ws, n', hlo, hn', ?_, g2⟩⟩
    rw [← text_erase, hne, htx]
  · obtain ⟨res, s', k, e1, _, href⟩ := run_eval (env := g.env) (fuel := fuel + 2) (r := (listRule ts).setName name) (flag := SUGGEST_SKIP)
      (ready_ofChars hs) (by rw [hl, hr]; simp) (by rw [hl, hr]; simp)
    rw [hl, hr] at href
    exact ⟨res, by simp only [Grammar.evalRule, hget, e1]; rfl, .inr ⟨hnone, (ref_fail href).1⟩⟩

/-- **C66**: such a rule reads a whole sample exactly if the sample is one of the texts, with white space before it or not (and not empty). -/
theorem C66_whole {name : Name} (hn : RuleName name) {ts : List (List Rune)} {body : List Rune} (h : Listed ts body)
    (hv : ∀ t ∈ ts, ∀ c ∈ t, CodePoint c) (ha : Apart ts) :
    ∃ g, Accepted (name ++ runes " = " ++ body) g ∧ ∀ sample, Valid sample → sample ≠ [] → ∀ fuel, ∃ res, g.evalRule (fuel + 2) name sample = .ok res ∧
      ((∃ n, res.node = some n ∧ res.countUsed = sample.length) ↔ ∃ t ∈ ts, WhiteBefore t sample) ∧
      ∀ t ∈ ts, WhiteBefore t sample → ∃ n, res.node = some n ∧ n.text = t := by
  obtain ⟨g, hg, hall⟩ := C66_longest hn h hv ha
  refine ⟨g, hg, fun sample hs hne fuel => ?_⟩
  obtain ⟨res, hres, hcase⟩ := hall sample hs fuel
  have hcomes : ∀ t w, (∀ c ∈ w, isWhiteSpace c = true) → sample = w ++ t → Comes true t sample w := fun t w hw e =>
    ⟨hne, [], by simp [e], hw, by simp, by simp⟩
  refine ⟨res, hres, ?_, ?_⟩
  · constructor
    · rintro ⟨n, hn, hu⟩
      rcases hcase with ⟨t, ws, n', ⟨ht, ⟨_, rest, e, hw, _⟩, _⟩, _, _, hu'⟩ | ⟨_, h0⟩
      · refine ⟨t, ht, ws, hw, ?_⟩
        have hlen := congrArg List.length e
        rw [List.length_append, List.length_append] at hlen
        have : rest = [] := List.eq_nil_of_length_eq_zero (by omega)
        rw [e, this, List.append_nil]
      · rw [h0] at hn; cases hn
    · rintro ⟨t, ht, w, hw, e⟩
      have hc := hcomes t w hw e
      rcases hcase with ⟨t', ws, n', ⟨ht', ⟨_, rest, e', hw', _⟩, hmax⟩, hn', _, hu'⟩ | ⟨h0, _⟩
      · refine ⟨n', hn', ?_⟩
        have h1 := hmax t ht w hc
        have h2 := congrArg List.length e
        have h3 := congrArg List.length e'
        rw [List.length_append] at h2
        rw [List.length_append, List.length_append] at h3
        omega
      · exact absurd ⟨w, hc⟩ (h0 t ht)
  · rintro t ht ⟨w, hw, e⟩
    have hc := hcomes t w hw e
    rcases hcase with ⟨t', ws, n', ⟨ht', ⟨_, rest, e', hw', _⟩, hmax⟩, hn', htx, hu'⟩ | ⟨h0, _⟩
    · refine ⟨n', hn', ?_⟩
      have h1 := hmax t ht w hc
      have h2 := congrArg List.length e
      have h3 := congrArg List.length e'
      rw [List.length_append] at h2
      rw [List.length_append, List.length_append] at h3
      have : rest = [] := List.eq_nil_of_length_eq_zero (by omega)
      rw [this, List.append_nil] at e'
      rw [htx]
      by_cases heq : t' = t
      · exact heq
      · exfalso
        have hp : ∀ {a b : List Rune}, a ∈ ts → b ∈ ts → a ≠ b → ¬ WhiteBefore a b := by
          intro a b ha' hb' hab
          exact apart_mem ha ha' hb' hab
        rcases same_end hw' hw (e'.symm.trans e) with hb | hb
        · exact hp ht' ht heq hb
        · exact hp ht ht' (Ne.symm heq) hb
    · exact absurd ⟨w, hc⟩ (h0 t ht)

/-- **C66**: every text can be written between double or single quotes, as README.md says. -/
theorem C66_written {q : Rune} (hq : q = 34 ∨ q = 39) (t : List Rune) (ht : ∀ c ∈ t, c ≠ EOFChar) :
    (∃ u, Spelling q (written q t) t u) ∧ 10 ∉ written q t := by
  induction t with
  | nil => exact ⟨⟨false, .nil⟩, by simp [written]⟩
  | cons c t ih =>
    obtain ⟨⟨u, h1⟩, h2⟩ := ih (fun d hd => ht d (List.mem_cons_of_mem _ hd))
    have e : written q (c :: t) = writtenChar q c ++ written q t := by simp [written]
    rw [e]
    unfold writtenChar
    split
    · rename_i hc
      subst hc
      rcases hq with rfl | rfl
      · refine ⟨⟨true, ?_⟩, ?_⟩
        · have := Spelling.unicode (ds := runes "0022") (v := 34) h1 ⟨48, 48, 50, 50, 0, 0, 2, 2, by decide, by simp [HexDigit], by simp [HexDigit], by simp [HexDigit], by simp [HexDigit], by decide⟩
          simpa [runes] using this
        · simp only [List.mem_append, not_or]
          exact ⟨by decide, h2⟩
      · refine ⟨⟨true, ?_⟩, ?_⟩
        · have := Spelling.unicode (ds := runes "0027") (v := 39) h1 ⟨48, 48, 50, 55, 0, 0, 2, 7, by decide, by simp [HexDigit], by simp [HexDigit], by simp [HexDigit], by simp [HexDigit], by decide⟩
          simpa [runes] using this
        · simp only [List.mem_append, not_or]
          exact ⟨by decide, h2⟩
    · rename_i hcq
      split
      · rename_i hc
        subst hc
        refine ⟨⟨u, ?_⟩, ?_⟩
        · have := Spelling.escape (d := 92) h1 (by decide)
          simpa [runes] using this
        · simp only [List.mem_append, not_or]
          exact ⟨by decide, h2⟩
      · rename_i hc92
        split
        · rename_i hc
          subst hc
          refine ⟨⟨true, ?_⟩, ?_⟩
          · have := Spelling.unicode (ds := runes "000a") (v := 10) h1 ⟨48, 48, 48, 97, 0, 0, 0, 10, by decide, by simp [HexDigit], by simp [HexDigit], by simp [HexDigit], by simp [HexDigit], by decide⟩
            simpa [runes] using this
          · simp only [List.mem_append, not_or]
            exact ⟨by decide, h2⟩
        · rename_i hc10
          refine ⟨⟨u, .plain h1 hcq hc92 (ht c (by simp))⟩, ?_⟩
          simp only [List.cons_append, List.nil_append, List.mem_cons, not_or]
          exact ⟨fun h => hc10 h.symm, h2⟩

theorem codePoint_valid {t : List Rune} (h : ∀ c ∈ t, CodePoint c) : ∀ c ∈ t, c ≠ EOFChar := by
  intro c hc
  have := (h c hc).1
  unfold EOFChar Rune at *
  omega

theorem writtenList_listed : ∀ (ts : List (List Rune)), ts ≠ [] → (∀ t ∈ ts, ∀ c ∈ t, CodePoint c) → Listed ts (writtenList ts)
  | [], h, _ => absurd rfl h
  | [t], _, hv => by
    obtain ⟨⟨u, h1⟩, h2⟩ := C66_written (.inl rfl) t (codePoint_valid (hv t (by simp)))
    exact .one h1 h2
  | t :: t' :: ts, _, hv => by
    obtain ⟨⟨u, h1⟩, h2⟩ := C66_written (.inl rfl) t (codePoint_valid (hv t (by simp)))
    exact .more h1 h2 (writtenList_listed (t' :: ts) (by simp) (fun x hx => hv x (List.mem_cons_of_mem _ hx)))

/-- **C66**: for every finite set of texts, none of them another with white space before it, there is a grammar of one line that reads exactly
these as a whole (with white space before them or not), and gives the text found. -/
theorem C66_finite {name : Name} (hn : RuleName name) {ts : List (List Rune)} (hne : ts ≠ []) (hv : ∀ t ∈ ts, ∀ c ∈ t, CodePoint c) (ha : Apart ts) :
    ∃ g, Accepted (name ++ runes " = " ++ writtenList ts) g ∧ ∀ sample, Valid sample → sample ≠ [] → ∀ fuel, ∃ res,
      g.evalRule (fuel + 2) name sample = .ok res ∧
      ((∃ n, res.node = some n ∧ res.countUsed = sample.length) ↔ ∃ t ∈ ts, WhiteBefore t sample) ∧
      ∀ t ∈ ts, WhiteBefore t sample → ∃ n, res.node = some n ∧ n.text = t :=
  C66_whole hn (writtenList_listed ts hne hv) hv ha

/-- **C66**: in single quotes, every text that is not empty (lone surrogates too) is read by its rule, as a whole and with this text. -/
theorem C66_chars {name : Name} (hn : RuleName name) {t src : List Rune} {u : Bool} (hs : Spelling 39 src t u) (h10 : 10 ∉ src) (hne : t ≠ [])
    (hv : Valid t) :
    ∃ g, Accepted (name ++ runes " = " ++ (39 :: src ++ [39])) g ∧ ∀ fuel, ∃ res n, g.evalRule (fuel + 1) name t = .ok res ∧ res.node = some n ∧
      n.text = t ∧ res.countUsed = t.length := by
  have h39 : isWhiteSpace 39 = false := by decide
  have line : ∀ r, Simple {} (39 :: src ++ [39]) r [] → refs (r.setName name) = [] →
      ∃ g, Accepted (name ++ runes " = " ++ (39 :: src ++ [39])) g ∧ g.records = [⟨name, r.setName name, 1⟩] := fun r hr hrefs =>
    one_line hn (by simpa using h10) (.one (m := 39 :: src ++ [39]) ⟨[], rfl, by simp⟩ (.cons .none hr .nil .nil) (.ended .none (.inl rfl)))
      (by intro c hc; cases hc; exact h39) ⟨39 :: src, 39, rfl, h39⟩ hrefs
  have hl := rem_ofChars t
  have h0 := ready_ofChars hv
  match t, hne with
  | [c], _ =>
    obtain ⟨g, hg, hrec⟩ := line (.char {} c u) (.char hs (by simp)) rfl
    refine ⟨g, hg, fun fuel => ?_⟩
    obtain ⟨res, s', n, e1, e2, e3, _, e5, _⟩ := C16_char_matches (env := g.env) (b := { name := name }) (t := c) (q := u) (flag := SUGGEST_SKIP)
      (hv c (by simp)) h0 fuel (ws := []) (c := c) (by rw [hl]; exact ⟨rfl, ⟨[], rfl⟩, by simp, by simp⟩)
    have hget : g.getRecord name = some ⟨name, .char { name := name } c u, 1⟩ := by
      simp [Grammar.getRecord, hrec, Rule.setName, Rule.setBase, Rule.base]
    exact ⟨res, n, by simp only [Grammar.evalRule, hget, e1]; rfl, e2, e3, e5⟩
  | a :: b :: t, _ =>
    obtain ⟨g, hg, hrec⟩ := line (.chars {} (a :: b :: t)) (.chars hs (by simp)) rfl
    refine ⟨g, hg, fun fuel => ?_⟩
    obtain ⟨res, s', n, e1, e2, e3, _, e5, e6, _⟩ := C16_literal_matches (env := g.env) (Literal.chars (b := { name := name }) (t := a :: b :: t) (flag := SUGGEST_SKIP))
      h0 fuel (ws := []) (by rw [hl]; exact ⟨by simp, [], by simp, by simp, by simp, by simp⟩)
    have hget : g.getRecord name = some ⟨name, .chars { name := name } (a :: b :: t), 1⟩ := by
      simp [Grammar.getRecord, hrec, Rule.setName, Rule.setBase, Rule.base]
    refine ⟨res, n, by simp only [Grammar.evalRule, hget, e1]; rfl, e2, e3, ?_⟩
    simp [Res.countUsed, e5, e6]

/-! ## Cases -/

/-- A text with a quote, a backslash and a newline, as README.md says it is written. -/
example : written 34 (runes "say \"\\\n") = runes "say \\u0022\\\\\\u000a" := by decide +kernel

/-- Two texts, one of which begins with the other; the hypotheses of `C66_finite` hold of them. -/
def twoTexts : List (List Rune) := [runes "a\"", runes "a\"b"]

theorem twoTexts_apart : Apart twoTexts := by
  refine List.pairwise_cons.2 ⟨?_, List.pairwise_cons.2 ⟨by simp, .nil⟩⟩
  intro b hb
  simp only [List.mem_singleton] at hb
  subst hb
  constructor
  · rintro ⟨w, _, e⟩
    have h1 := congrArg List.length e
    rw [List.length_append] at h1
    have h2 := congrArg List.reverse e
    rw [List.reverse_append] at h2
    have : runes "a\"" = [97, 34] := by decide
    rw [this] at h2
    have : runes "a\"b" = [97, 34, 98] := by decide
    rw [this] at h2
    simp at h2
  · rintro ⟨w, _, e⟩
    have h1 := congrArg List.length e
    rw [List.length_append] at h1
    have : (runes "a\"b").length = 3 := by decide
    have : (runes "a\"").length = 2 := by decide
    omega

/-- The grammar `r = "a"" | "a"b"` reads `a"b` as the second text, and not `a"c`. -/
example : ∃ g, Accepted (runes "r = \"a\\u0022\" | \"a\\u0022b\"") g ∧
    (∃ res n, g.evalRule 2 (runes "r") (runes "a\"b") = .ok res ∧ res.node = some n ∧ n.text = runes "a\"b") ∧
    (∃ res, g.evalRule 2 (runes "r") (runes "a\"c") = .ok res ∧ ¬ ∃ n, res.node = some n ∧ res.countUsed = (runes "a\"c").length) := by
  have hv : ∀ t ∈ twoTexts, ∀ c ∈ t, CodePoint c := by unfold CodePoint; decide +kernel
  obtain ⟨g, h1, h2⟩ := C66_finite (name := runes "r") ⟨114, [], by decide, by unfold Letter; decide, by simp⟩ (ts := twoTexts) (by decide) hv twoTexts_apart
  have e : runes "r" ++ runes " = " ++ writtenList twoTexts = runes "r = \"a\\u0022\" | \"a\\u0022b\"" := by decide +kernel
  rw [e] at h1
  refine ⟨g, h1, ?_, ?_⟩
  · obtain ⟨res, r1, _, r3⟩ := h2 (runes "a\"b") (by unfold Valid; decide +kernel) (by decide) 0
    obtain ⟨n, n1, n2⟩ := r3 (runes "a\"b") (by decide) ⟨[], by simp, rfl⟩
    exact ⟨res, n, r1, n1, n2⟩
  · obtain ⟨res, r1, r2, _⟩ := h2 (runes "a\"c") (by unfold Valid; decide +kernel) (by decide) 0
    refine ⟨res, r1, fun hx => ?_⟩
    obtain ⟨t, ht, w, hw, e⟩ := r2.1 hx
    have h3 := congrArg List.reverse e
    rw [List.reverse_append] at h3
    have e0 : (runes "a\"c").reverse = [99, 34, 97] := by decide
    rw [e0] at h3
    have : ∀ t ∈ twoTexts, t.reverse.head? ≠ some 99 ∧ t.reverse.head?.isSome = true := by decide +kernel
    obtain ⟨k1, k2⟩ := this t ht
    cases hr : t.reverse with
    | nil => rw [hr] at k2; cases k2
    | cons x xs =>
      rw [hr] at h3 k1
      simp only [List.cons_append, List.cons.injEq] at h3
      exact k1 (by rw [← h3.1]; rfl)

/-- What a rule of a text does with a sample: was there a tree, and how much was used. -/
def readOf (text : List Rune) (name : Name) (sample : List Rune) : Option (Bool × Int) :=
  match madeOf text with
  | none => none
  | some g =>
    match g.evalRule 20 name sample with
    | .ok res => some (res.node.isSome, res.countUsed)
    | _ => none

/-- Without `Apart` it is not so: `" a"` can be read as both texts of `"a" | " a"`, and there is no tree (nor are the
characters given back, C20). -/
theorem C66_apart_needed : readOf (runes "r = \"a\" | \" a\"") (runes "r") (runes " a") = some (false, 2) ∧
    readOf (runes "r = \"a\" | \" a\"") (runes "r") (runes "a") = some (true, 1) := by decide +kernel

/-- The empty text can be written, but not read on an empty sample. -/
theorem C66_empty : readOf (runes "r = \"\"") (runes "r") [] = some (false, 0) ∧
    readOf (runes "r = \"\"") (runes "r") (runes "a") = some (true, 0) := by decide +kernel

/-- A newline written as it is ends the definition. -/
theorem C66_newline : readOf (runes "r = \"a\nb\"") (runes "r") (runes "a\nb") = none ∧
    readOf (runes "r = \"a\\u000ab\"") (runes "r") (runes "a\nb") = some (true, 3) := by decide +kernel

end Xbnf.Props
