import Verif.Spec.Command
import Verif.Props.Reasons
import Verif.Props.Report
import Verif.Props.Levels
/-
C64: the command /repo/main/xbnf.go.
-/
namespace Xbnf.Props
open Xbnf Xbnf.Spec Grammar UTF8
open Xbnf.Spec.Cli (Source docs Title Session Adding Presented Run Orders)

/-- **C64**: rules on the command line are of no use without a file: the program always tries to read one, and ends. -/
theorem C64_rules_need_file (w : World) (fuel : Nat) (a : Args) {e : List Rune} (h : w.read [] = .error e) (hh : a.help = false)
    (hg : a.given = true) (hx : a.xbnf = []) (hr : a.rules ≠ []) :
    Command.main w fuel a = .ok [runes "Adding rule(s) from XBNF file: \n", runes "ERROR: can't real file: " ++ e] := by
  unfold Command.main
  rw [if_neg (by simp [hh, hg]), if_neg (by simp [hr]), hx]
  have : Command.fromFile w fuel [] = .ok (.error (runes "can't real file: " ++ e)) := by
    unfold Command.fromFile
    rw [h]
  rw [this]
  have e1 : runes "ERROR: can't real file: " = runes "ERROR: " ++ runes "can't real file: " := by decide +kernel
  have e2 : runes "Adding rule(s) from XBNF file: " ++ decode [] ++ [newline] = runes "Adding rule(s) from XBNF file: \n" := by decide +kernel
  rw [e1, ← e2, List.append_assoc]
  rfl

/-- **C64**: `NewGrammarFromFile` is `NewGrammarFromString` of what is in the file. -/
theorem C64_file {w : World} {name bs : List Nat} {text : List Rune} (hr : w.read name = .ok bs) (ht : ReadAs bs text) (g : Grammar) :
    (∃ fuel, Command.fromFile w fuel name = .ok (.ok g)) ↔ Accepted text g := by
  constructor
  · rintro ⟨fuel, h⟩
    unfold Command.fromFile at h
    rw [hr] at h
    simp only [C62_grammar ht] at h
    cases hf : fromString fuel text with
    | oof => rw [hf] at h; cases h
    | err e g' => rw [hf] at h; cases h
    | ok g' g2 => rw [hf] at h; cases h; exact ⟨fuel, _, hf⟩
  · rintro ⟨fuel, g', h⟩
    refine ⟨fuel, ?_⟩
    unfold Command.fromFile
    rw [hr]
    simp only [C62_grammar ht, h]

/-- **C64**: and its errors are those of `NewGrammarFromString`, behind the name of the file. -/
theorem C64_file_error {w : World} {fuel : Nat} {name bs : List Nat} {text : List Rune} (hr : w.read name = .ok bs) (ht : ReadAs bs text)
    {m : List Rune} (h : Command.fromFile w fuel name = .ok (.error m)) :
    ∃ n e missing, ReadAs name n ∧ Rejected text e ∧ m = n ++ runes ": " ++ e.text missing := by
  unfold Command.fromFile at h
  rw [hr] at h
  simp only [C62_grammar ht] at h
  cases hf : fromString fuel text with
  | oof => rw [hf] at h; cases h
  | err e g' => rw [hf] at h; cases h; exact ⟨_, e, _, (C62_read _ _).2 rfl, ⟨fuel, _, hf⟩, rfl⟩
  | ok g' g2 => rw [hf] at h; cases h

theorem countSticky_of_node (n : Node) (h : Everywhere (·.sticky = false) n) : n.countSticky = 0 := by
  induction n using node_ind with
  | h rt nm ch cs q st v nd tk ih =>
    rw [countSticky_eq]
    have h0 : st = false := h.self
    have : ∀ cs' : List Node, (∀ c ∈ cs', c ∈ cs) → countStickyL cs' = 0 := by
      intro cs'
      induction cs' with
      | nil => intro _; rfl
      | cons c cs' ih' =>
        intro hs
        have hc := hs c List.mem_cons_self
        rw [countStickyL, ih c hc (h.children c hc), ih' fun x hx => hs x (List.mem_cons_of_mem _ hx)]
    simp only [h0, this cs fun _ h => h]
    rfl

theorem countSticky_of {ns : List Node} (h : ∀ n ∈ ns, Everywhere (·.sticky = false) n) : countStickyL ns = 0 := by
  induction ns with
  | nil => rfl
  | cons m ns ih =>
    rw [countStickyL, countSticky_of_node m (h m List.mem_cons_self), ih fun n hn => h n (List.mem_cons_of_mem _ hn)]

/-- Merging sticky nodes again changes nothing. -/
theorem prune_same (ns : List Node) (merge : Bool) :
    Command.prune merge (simplify LevelBasic ns) = astRemoveRedundant (removeNonDataL (removeVirtualL (simplify LevelBasic ns))) := by
  unfold Command.prune
  cases merge with
  | false => rfl
  | true =>
    have h := removeVirtualL_mark own_sticky.children (C30_no_sticky LevelBasic (by decide) ns)
    have : countStickyL (removeVirtualL (simplify LevelBasic ns)) = 0 := countSticky_of h
    simp only [if_true]
    rw [C44_merge_nothing _ this]

theorem document_answer {w : World} {g : Grammar} {fuel : Nat} {o : DocOrder} {cfg : TreeConfig} {merge : Bool} {d : Source} {bs : List Nat}
    {r : Except (List Rune) (List Rune)} (hc : Spec.Cli.Content w d (decode bs)) (h : Command.document o g fuel cfg merge bs = .ok r) :
    Spec.Cli.Outcome w g fuel o cfg d r := by
  unfold Command.document at h
  cases he : g.evalReport fuel o.sched (Stream.ofChars (decode bs)) with
  | oof => rw [he] at h; cases h
  | panic => rw [he] at h; cases h
  | ok x =>
    obtain ⟨x, s'⟩ := x
    rw [he] at h
    cases x with
    | error e =>
      change (do let m ← e.text (o.roots g.roots) o.errors; Exec.ok (Except.error m)) = _ at h
      cases hm : e.text (o.roots g.roots) o.errors with
      | oof => rw [hm] at h; cases h
      | panic => rw [hm] at h; cases h
      | ok m => rw [hm] at h; cases h; exact .rejected hc he hm
    | ok ns =>
      change Exec.ok (Except.ok (astStringTree cfg [] (Command.prune merge (simplify LevelBasic ns)))) = _ at h
      cases h
      rw [prune_same]
      refine .tree (ns := simplify LevelBasic ns) hc (s' := s') ?_
      unfold evalAST
      rw [C61_agrees, he]
      rfl

theorem texts_session {w : World} {g : Grammar} {fuel : Nat} {cfg : TreeConfig} {rest : List Source} : ∀ {ts : List (List Nat)} {i : Nat} {b out},
    Command.texts w g fuel cfg i ts = .ok (b, out) →
    (b = false → Session w g fuel cfg i (ts.map .text ++ rest) out) ∧
    (b = true → ∀ out', Session w g fuel cfg (i + ts.length) rest out' → Session w g fuel cfg i (ts.map .text ++ rest) (out ++ out'))
  | [], i, b, out, h => by
    cases h
    exact ⟨(fun h => by cases h), fun _ out' h => h⟩
  | t :: ts, i, b, out, h => by
    unfold Command.texts at h
    have ht : ReadAs t (decode t) := (C62_read _ _).2 rfl
    cases hd : Command.document (w.doc i) g fuel cfg false t with
    | oof => rw [hd] at h; cases h
    | panic => rw [hd] at h; cases h
    | ok r =>
      have ha := document_answer (w := w) (d := .text t) (.text ht) hd
      rw [hd] at h
      cases r with
      | error m =>
        cases h
        exact ⟨fun _ => .stop (.text ht) ha, (fun h => by cases h)⟩
      | ok tree =>
        change (do let (b, out) ← Command.texts w g fuel cfg (i + 1) ts; Exec.ok (b, (runes "\nParsing text: " ++ decode t ++ [newline]) :: (tree ++ [newline]) :: out)) = _ at h
        cases hr : Command.texts w g fuel cfg (i + 1) ts with
        | oof => rw [hr] at h; cases h
        | panic => rw [hr] at h; cases h
        | ok x =>
          obtain ⟨b', out'⟩ := x
          rw [hr] at h
          cases h
          obtain ⟨h1, h2⟩ := texts_session (rest := rest) hr
          refine ⟨fun hb => .next (.text ht) ha (h1 hb), fun hb o ho => .next (.text ht) ha (h2 hb o ?_)⟩
          rw [List.length_cons] at ho
          rwa [Nat.add_assoc, Nat.add_comm 1]

theorem files_session {w : World} {g : Grammar} {fuel : Nat} {cfg : TreeConfig} : ∀ {fs : List (List Nat)} {i : Nat} {b out},
    Command.files w g fuel cfg i fs = .ok (b, out) → Session w g fuel cfg i (fs.map .file) out
  | [], i, b, out, h => by cases h; exact .done
  | f :: fs, i, b, out, h => by
    unfold Command.files at h
    have ht : ReadAs f (decode f) := (C62_read _ _).2 rfl
    cases hrd : w.read f with
    | error e =>
      rw [hrd] at h
      cases h
      exact .stop (.file ht) (.unreadable hrd)
    | ok bs =>
      simp only [hrd] at h
      cases hd : Command.document (w.doc i) g fuel cfg true bs with
      | oof => rw [hd] at h; cases h
      | panic => rw [hd] at h; cases h
      | ok r =>
        have ha := document_answer (w := w) (d := .file f) (.file hrd ((C62_read _ _).2 rfl)) hd
        rw [hd] at h
        cases r with
        | error m =>
          cases h
          exact .stop (.file ht) ha
        | ok tree =>
          change (do let (b, out) ← Command.files w g fuel cfg (i + 1) fs; Exec.ok (b, (runes "\nParsing file: " ++ decode f ++ [newline]) :: (tree ++ [newline]) :: out)) = _ at h
          cases hr : Command.files w g fuel cfg (i + 1) fs with
          | oof => rw [hr] at h; cases h
          | panic => rw [hr] at h; cases h
          | ok x =>
            obtain ⟨b', out'⟩ := x
            rw [hr] at h
            cases h
            exact .next (.file ht) ha (files_session hr)

theorem documents_session {w : World} {g : Grammar} {fuel : Nat} {a : Args} {out : List (List Rune)}
    (h : Command.documents w g fuel a = .ok out) : Session w g fuel { printRuleType := a.showNodeType } 0 (docs a) out := by
  unfold Command.documents at h
  cases ht : Command.texts w g fuel { printRuleType := a.showNodeType } 0 a.texts with
  | oof => simp only [ht] at h; cases h
  | panic => simp only [ht] at h; cases h
  | ok x =>
    obtain ⟨b, o⟩ := x
    simp only [ht] at h
    obtain ⟨h1, h2⟩ := texts_session (rest := a.files.map .file) ht
    cases b with
    | false => cases h; exact h1 rfl
    | true =>
      cases hf : Command.files w g fuel { printRuleType := a.showNodeType } a.texts.length a.files with
      | oof => rw [hf] at h; cases h
      | panic => rw [hf] at h; cases h
      | ok y =>
        obtain ⟨b', o'⟩ := y
        rw [hf] at h
        cases h
        refine h2 rfl o' ?_
        rw [Nat.zero_add]
        exact files_session hf

/-- The name `Validate` complains about appears in no other message. -/
theorem cause_text {e : PErr} {u r : List Rune} (h : Cause e u r) (m m' : Name) : e.text m = e.text m' := by
  induction h with
  | blockOpen _ _ ih => simp only [PErr.text, ih]
  | _ => rfl

theorem addRule_text {fuel : Nat} {text : List Rune} {g g' : Grammar} {e : PErr} (h : addRule fuel text g = .err e g') (m m' : Name) :
    e.text m = e.text m' := by
  rcases C63_addRule h with ⟨_, rfl⟩ | ⟨_, _, _, _, _, _, _, _, hw⟩
  · rfl
  · cases hw with
    | body _ _ _ _ _ hc => exact cause_text hc m m'
    | _ => rfl

theorem addRules_adding {fuel : Nat} : ∀ {rs : List (List Nat)} {g : Grammar} {o out}, Command.addRules fuel rs g = .ok (o, out) → Adding rs g o out
  | [], g, o, out, h => by cases h; exact .done
  | r :: rs, g, o, out, h => by
    unfold Command.addRules at h
    have ht : ReadAs r (decode r) := (C62_read _ _).2 rfl
    rw [C62_addRule ht] at h
    cases ha : g.addRule fuel (decode r) with
    | oof => rw [ha] at h; cases h
    | err e g' =>
      rw [ha] at h
      cases h
      unfold Command.errText
      rw [addRule_text ha _ []]
      exact .stop ht ha
    | ok x g' =>
      rw [ha] at h
      cases hr : Command.addRules fuel rs g' with
      | oof => simp only [hr] at h; cases h
      | panic => simp only [hr] at h; cases h
      | ok y =>
        obtain ⟨o', out'⟩ := y
        simp only [hr] at h
        cases h
        exact .next ht ha (addRules_adding hr)

theorem wellMade_used {g : Grammar} (h : WellMade g) : ∀ k, k ∈ used g ↔ RefsOf g.records k := by
  refine (wellMade_ind (P := fun recs m _ => ∀ k, k ∈ m.map (·.1) ↔ RefsOf recs k) ?_ ?_ ?_ h).1
  · exact fun k => ⟨fun h => (by cases h), fun ⟨r, h, _⟩ => (by cases h)⟩
  · intro fuel name text g r g' hp hg
    exact parsed_used hp hg
  · intro g g' hv _ hg
    obtain ⟨h1, _, h2⟩ := validate_same hv
    rw [h1, h2]
    exact hg

theorem present_presented {w : World} (hw : Orders w) {g : Grammar} (hg : WellMade g) :
    Presented w g (Command.present w g).1 (Command.present w g).2 := by
  have hu := wellMade_used hg
  unfold Command.present
  cases hv : g.validate with
  | some g' =>
    refine .closed ?_ hv
    intro r hr n hn
    obtain ⟨q, hq, e⟩ := (validate_iff g).1 ⟨g', hv⟩ n ((hu n).2 ⟨r, hr, hn⟩)
    exact ⟨q, hq, e⟩
  | none =>
    have hany : ∃ p ∈ g.nonRoots, (g.getRecord p.1).isNone = true := by
      unfold validate at hv
      split at hv
      · rename_i h; exact List.any_eq_true.1 h
      · cases hv
    obtain ⟨p, hp, hpn⟩ := hany
    have hf : ((w.usages' g.nonRoots).find? (fun p => (g.getRecord p.1).isNone)).isSome := by
      rw [List.find?_isSome]
      exact ⟨p, (hw.2.1 _).mem_iff.2 hp, hpn⟩
    obtain ⟨q, hq⟩ := Option.isSome_iff_exists.1 hf
    have hqm := (hw.2.1 _).mem_iff.1 (List.mem_of_find?_eq_some hq)
    have hqn := List.find?_some hq
    obtain ⟨r, hr, hrn⟩ := (hu q.1).1 (List.mem_map.2 ⟨q, hqm, rfl⟩)
    have hm : g.missing (w.usages' g.nonRoots) = some q.1 := by unfold Grammar.missing; rw [hq]; rfl
    have hd : ∀ x ∈ g.records, x.name ≠ q.1 := by
      intro x hx he
      simp only [Option.isNone_iff_eq_none] at hqn
      unfold getRecord at hqn
      have := List.find?_eq_none.1 hqn x hx
      simp [he] at this
    have := Presented.undefined (w := w) hr hrn hd
    simp only [Command.errText, Command.present.shown, hm, Option.getD_some, PErr.text]
    have e1 : runes "ERROR: rule name '" = runes "ERROR: " ++ runes "rule name '" := by decide +kernel
    have e2 : runes "' referenced but not defined\n" = runes "' referenced but not defined" ++ [newline] := by decide +kernel
    rw [e1, e2] at this
    simpa only [List.append_assoc] using this

theorem adding_made {rs : List (List Nat)} {g : Grammar} {o : Option Grammar} {out : List (List Rune)} (h : Adding rs g o out)
    (hg : WellMade g) : ∀ g', o = some g' → WellMade g' := by
  induction h with
  | done => intro g' h; cases h; exact hg
  | stop => intro g' h; cases h
  | next ht h hs ih =>
    obtain ⟨g0, h0, hc⟩ := hg
    exact ih ⟨g0, h0, .added hc h⟩

/-- **C64**: what the program writes. -/
theorem C64_run {w : World} (hw : Orders w) {fuel : Nat} {a : Args} {out : List (List Rune)} (h : Command.main w fuel a = .ok out) :
    Run w fuel a out := by
  unfold Command.main at h
  split at h
  · rename_i hh; cases h; exact .help hh
  · split at h
    · rename_i hx; cases h; exact .noRules hx.1 hx.2
    · rename_i hx
      have hx : a.xbnf ≠ [] ∨ a.rules ≠ [] := by
        by_cases h1 : a.xbnf = []
        · exact .inr fun h2 => hx ⟨h1, h2⟩
        · exact .inl h1
      have hn : ReadAs a.xbnf (decode a.xbnf) := (C62_read _ _).2 rfl
      unfold Command.fromFile at h
      cases hr : w.read a.xbnf with
      | error e =>
        rw [hr] at h
        cases h
        have e1 : runes "ERROR: can't real file: " = runes "ERROR: " ++ runes "can't real file: " := by decide +kernel
        have := Run.unreadable (fuel := fuel) hx hn hr
        rw [e1, List.append_assoc (runes "ERROR: ")] at this
        exact this
      | ok bs =>
        have ht : ReadAs bs (decode bs) := (C62_read _ _).2 rfl
        rw [hr] at h
        simp only [C62_grammar ht] at h
        cases hf : fromString fuel (decode bs) with
        | oof => rw [hf] at h; cases h
        | err e g =>
          rw [hf] at h
          cases h
          have := Run.badFile (w := w) (fuel := fuel) (m := (g.missing (w.usages g.nonRoots)).getD []) hx hn hr ht hf (by
            rintro rfl
            obtain ⟨name, recs, h1, h2, h3, h4⟩ := C63_undefined hf (hw.1 _) (splitLines_lines _)
            rw [h1]
            exact ⟨_, recs, splitLines_lines _, h2, h3, h4⟩)
          rw [List.append_assoc (runes "ERROR: "), List.append_assoc (runes "ERROR: ")] at this
          exact this
        | ok g g' =>
          rw [hf] at h
          have hg : WellMade g := ⟨g, .inr ⟨_, fuel, g', hf⟩, .done⟩
          simp only at h
          cases hwk : Command.work w fuel a g with
          | oof => rw [hwk] at h; cases h
          | panic => rw [hwk] at h; cases h
          | ok out' =>
            rw [hwk] at h
            cases h
            unfold Command.work at hwk
            cases ha : Command.addRules fuel a.rules g with
            | oof => rw [ha] at hwk; cases hwk
            | panic => rw [ha] at hwk; cases hwk
            | ok x =>
              obtain ⟨o, out1⟩ := x
              have hadd := addRules_adding ha
              rw [ha] at hwk
              cases o with
              | none => cases hwk; exact .badRule hx hn hr ht hf hadd
              | some g1 =>
                have hp := present_presented hw (adding_made hadd hg g1 rfl)
                simp only at hwk
                cases hd : Command.documents w (Command.present w g1).1 fuel a with
                | oof => rw [hd] at hwk; cases hwk
                | panic => rw [hd] at hwk; cases hwk
                | ok docs =>
                  rw [hd] at hwk
                  cases hwk
                  exact .all hx hn hr ht hf hadd hp (documents_session hd)

/-- **C64**: the rules the documents are read with are those of the file, and behind them those of the command line in their order, each
defined as `AddRule` defines it. -/
theorem C64_rules {rs : List (List Nat)} {g : Grammar} {o : Option Grammar} {out : List (List Rune)} (h : Adding rs g o out) :
    ∀ g', o = some g' → ∃ new, g'.records = g.records ++ new ∧ new.length = rs.length ∧
      ∀ (i : Nat) bs r, rs[i]? = some bs → new[i]? = some r → ∃ text n b body, ReadAs bs text ∧ text = n ++ 61 :: b ∧ 61 ∉ n ∧ Trimmed n r.name ∧
        Trimmed b body ∧ Parses r.name body r.rule := by
  induction h with
  | done => intro g' h; cases h; exact ⟨[], by simp, rfl, (fun i bs r h => by simp at h)⟩
  | stop => intro g' h; cases h
  | @next bs rs text g fuel rule g1 o out ht h hs ih =>
    intro g' hg
    obtain ⟨new, h1, h2, h3⟩ := ih g' hg
    obtain ⟨q, h4, h5⟩ : ∃ q : Record, g1.records = g.records ++ [q] ∧ ∃ n b body, text = n ++ 61 :: b ∧ 61 ∉ n ∧ Trimmed n q.name ∧
        Trimmed b body ∧ Parses q.name body q.rule := by
      unfold addRule at h
      split at h
      · cases h
      · rename_i n b hs
        obtain ⟨e1, e2⟩ := splitEq_spec.1 hs
        have hc := parseRule_cases (fuel := fuel) (name := trimSpace n) (text := trimSpace b) (g := g)
        have hm := parseRule_more (m := max fuel ((trimSpace b).length + 2)) (Nat.le_max_left _ _) (n := fuel) (by rw [h]; intro hc; cases hc)
        rw [h] at hc hm
        obtain ⟨_, _, body, hb, hp⟩ := (C48_parseRule _ _ g _ (Nat.le_max_right _ _) rule).1 ⟨g1, hm⟩
        rw [trimmed_unique hb, trim_trim] at hp
        obtain ⟨_, _, r0, _, _, _, rfl⟩ := hc
        exact ⟨⟨trimSpace n, rule, g.maxLine + 1⟩, rfl, n, b, _, e1, e2, trim_trimmed n, trim_trimmed b, hp⟩
    refine ⟨q :: new, by rw [h1, h4, List.append_assoc]; rfl, by rw [List.length_cons, h2, List.length_cons], ?_⟩
    intro i bs' r hi hr
    cases i with
    | zero =>
      simp only [List.getElem?_cons_zero, Option.some.injEq] at hi hr
      subst hi; subst hr
      obtain ⟨n, b, body, h6⟩ := h5
      exact ⟨text, n, b, body, ht, h6⟩
    | succ i =>
      simp only [List.getElem?_cons_succ] at hi hr
      exact h3 i bs' r hi hr

/-- **C64**: no printed node is sticky, virtual or nondata. -/
theorem C64_tree (ns : List Node) : ∀ n ∈ astRemoveRedundant (removeNonDataL (removeVirtualL (simplify LevelBasic ns))),
    Everywhere (fun n => n.sticky = false ∧ n.virt = false ∧ n.nonData = false) n := by
  have h1 := C30_no_sticky LevelBasic (by decide) ns
  intro n hn
  have k1 := astRemoveRedundant_mark own_sticky (removeNonDataL_mark own_sticky.children (removeVirtualL_mark own_sticky.children h1)) n hn
  have k2 := astRemoveRedundant_mark own_virt (removeNonDataL_mark own_virt.children (removeVirtualL_none (simplify LevelBasic ns))) n hn
  have k3 := astRemoveRedundant_mark own_nonData (removeNonDataL_none (removeVirtualL (simplify LevelBasic ns))) n hn
  clear hn h1
  induction k1 with
  | mk h hc ih => exact .mk ⟨h, k2.self, k3.self⟩ fun c hcc => ih c hcc (k2.children c hcc) (k3.children c hcc)

theorem document_safe {g : Grammar} (hg : Reachable g) {fuel : Nat} {o : DocOrder} (ho : o.sched.Fair ∧ (∀ l, (o.roots l).Perm l) ∧ ∀ l, (o.errors l).Perm l)
    {cfg : TreeConfig} {merge : Bool} {bs : List Nat} : Command.document o g fuel cfg merge bs ≠ .panic := by
  unfold Command.document
  have h1 := (C19_evalRaw_never_panics g fuel o.sched ho.1 (Stream.ofChars (decode bs)) (Nat.zero_le _) 0).1
  rw [C61_agrees] at h1
  cases he : g.evalReport fuel o.sched (Stream.ofChars (decode bs)) with
  | oof => intro h; cases h
  | panic => rw [he] at h1; exact absurd rfl h1
  | ok x =>
    obtain ⟨x, s'⟩ := x
    cases x with
    | ok ns => intro h; cases h
    | error e =>
      obtain ⟨m, hm⟩ := C61_text hg ho.1 (Nat.zero_le _) he (ho.2.1 g.roots) ho.2.2
      intro h
      change (do let m ← e.text (o.roots g.roots) o.errors; Exec.ok (Except.error m)) = _ at h
      rw [hm] at h
      cases h

theorem texts_safe {w : World} (hw : Orders w) {g : Grammar} (hg : Reachable g) {fuel : Nat} {cfg : TreeConfig} :
    ∀ (ts : List (List Nat)) (i : Nat), Command.texts w g fuel cfg i ts ≠ .panic
  | [], i => by intro h; cases h
  | t :: ts, i => by
    unfold Command.texts
    have h1 := document_safe hg (fuel := fuel) (hw.2.2.2.2 i) (cfg := cfg) (merge := false) (bs := t)
    cases hd : Command.document (w.doc i) g fuel cfg false t with
    | oof => intro h; cases h
    | panic => exact absurd hd h1
    | ok r =>
      cases r with
      | error m => intro h; cases h
      | ok tree =>
        have h2 := texts_safe hw hg (fuel := fuel) (cfg := cfg) ts (i + 1)
        intro h
        change (do let (b, out) ← Command.texts w g fuel cfg (i + 1) ts; Exec.ok (b, (runes "\nParsing text: " ++ decode t ++ [newline]) :: (tree ++ [newline]) :: out)) = _ at h
        cases hr : Command.texts w g fuel cfg (i + 1) ts with
        | oof => rw [hr] at h; cases h
        | panic => exact h2 hr
        | ok x => rw [hr] at h; cases h

theorem files_safe {w : World} (hw : Orders w) {g : Grammar} (hg : Reachable g) {fuel : Nat} {cfg : TreeConfig} :
    ∀ (fs : List (List Nat)) (i : Nat), Command.files w g fuel cfg i fs ≠ .panic
  | [], i => by intro h; cases h
  | f :: fs, i => by
    unfold Command.files
    cases hrd : w.read f with
    | error e => intro h; cases h
    | ok bs =>
      have h1 := document_safe hg (fuel := fuel) (hw.2.2.2.2 i) (cfg := cfg) (merge := true) (bs := bs)
      simp only
      cases hd : Command.document (w.doc i) g fuel cfg true bs with
      | oof => intro h; cases h
      | panic => exact absurd hd h1
      | ok r =>
        cases r with
        | error m => intro h; cases h
        | ok tree =>
          have h2 := files_safe hw hg (fuel := fuel) (cfg := cfg) fs (i + 1)
          intro h
          change (do let (b, out) ← Command.files w g fuel cfg (i + 1) fs; Exec.ok (b, (runes "\nParsing file: " ++ decode f ++ [newline]) :: (tree ++ [newline]) :: out)) = _ at h
          cases hr : Command.files w g fuel cfg (i + 1) fs with
          | oof => rw [hr] at h; cases h
          | panic => exact h2 hr
          | ok x => rw [hr] at h; cases h

theorem documents_safe {w : World} (hw : Orders w) {g : Grammar} (hg : Reachable g) {fuel : Nat} {a : Args} :
    Command.documents w g fuel a ≠ .panic := by
  unfold Command.documents
  simp only
  have h1 := texts_safe hw hg (fuel := fuel) (cfg := { printRuleType := a.showNodeType }) a.texts 0
  have h2 := files_safe hw hg (fuel := fuel) (cfg := { printRuleType := a.showNodeType }) a.files a.texts.length
  cases ht : Command.texts w g fuel { printRuleType := a.showNodeType } 0 a.texts with
  | oof => intro h; cases h
  | panic => exact absurd ht h1
  | ok x =>
    obtain ⟨b, out⟩ := x
    cases b with
    | false => intro h; cases h
    | true =>
      intro h
      change (do let (_, out') ← Command.files w g fuel { printRuleType := a.showNodeType } a.texts.length a.files; Exec.ok (out ++ out')) = _ at h
      cases hf : Command.files w g fuel { printRuleType := a.showNodeType } a.texts.length a.files with
      | oof => rw [hf] at h; cases h
      | panic => exact h2 hf
      | ok y => rw [hf] at h; cases h

theorem addRules_safe {fuel : Nat} : ∀ (rs : List (List Nat)) (g : Grammar), Command.addRules fuel rs g ≠ .panic
  | [], g => by intro h; cases h
  | r :: rs, g => by
    unfold Command.addRules
    cases ha : g.addRuleBytes fuel r with
    | oof => intro h; cases h
    | err e g' => intro h; cases h
    | ok x g' =>
      have h2 := addRules_safe (fuel := fuel) rs g'
      simp only
      cases hr : Command.addRules fuel rs g' with
      | oof => intro h; cases h
      | panic => exact absurd hr h2
      | ok x => intro h; cases h

theorem present_made {w : World} {g : Grammar} (hg : WellMade g) : WellMade (Command.present w g).1 := by
  unfold Command.present
  cases hv : g.validate with
  | none => exact hg
  | some g' =>
    obtain ⟨g0, h0, hc⟩ := hg
    exact ⟨g0, h0, .validated hc hv⟩

/-- **C64**: the program never panics. -/
theorem C64_no_panic {w : World} (hw : Orders w) (fuel : Nat) (a : Args) : Command.main w fuel a ≠ .panic := by
  unfold Command.main
  split
  · intro h; cases h
  · split
    · intro h; cases h
    · simp only
      cases hf : Command.fromFile w fuel a.xbnf with
      | oof => intro h; cases h
      | panic =>
        unfold Command.fromFile at hf
        cases hr : w.read a.xbnf with
        | error e => rw [hr] at hf; cases hf
        | ok bs =>
          rw [hr] at hf
          cases hb : fromBytes fuel bs with
          | oof => simp only [hb] at hf; cases hf
          | err => simp only [hb] at hf; cases hf
          | ok => simp only [hb] at hf; cases hf
      | ok x =>
        cases x with
        | error e => intro h; cases h
        | ok g =>
          have hg : WellMade g := by
            cases hr : w.read a.xbnf with
            | error e => unfold Command.fromFile at hf; rw [hr] at hf; cases hf
            | ok bs => exact ⟨g, .inr ⟨_, (C64_file hr ((C62_read _ _).2 rfl) g).1 ⟨fuel, hf⟩⟩, .done⟩
          simp only
          cases hwk : Command.work w fuel a g with
          | oof => intro h; cases h
          | ok out => intro h; cases h
          | panic =>
            exfalso
            unfold Command.work at hwk
            cases ha : Command.addRules fuel a.rules g with
            | oof => rw [ha] at hwk; cases hwk
            | panic => exact addRules_safe _ _ ha
            | ok x =>
              obtain ⟨o, out1⟩ := x
              rw [ha] at hwk
              cases o with
              | none => cases hwk
              | some g1 =>
                have h1 := documents_safe hw (present_made (w := w) (adding_made (addRules_adding ha) hg g1 rfl)).reachable (fuel := fuel) (a := a)
                simp only at hwk
                cases hd : Command.documents w (Command.present w g1).1 fuel a with
                | oof => rw [hd] at hwk; cases hwk
                | panic => exact h1 hd
                | ok docs => rw [hd] at hwk; cases hwk

theorem addRules_ends {fuel : Nat} : ∀ (rs : List (List Nat)) (g : Grammar), (∀ r ∈ rs, (decode r).length + 2 ≤ fuel) →
    Command.addRules fuel rs g ≠ .oof
  | [], g, _ => by intro h; cases h
  | r :: rs, g, hl => by
    unfold Command.addRules
    have h1 := C34_addRule_ends (decode r) g fuel (hl r List.mem_cons_self)
    rw [C62_addRule ((C62_read r _).2 rfl)]
    cases ha : g.addRule fuel (decode r) with
    | oof => exact absurd ha h1
    | err e g' => intro h; cases h
    | ok x g' =>
      have h2 := addRules_ends (fuel := fuel) rs g' fun r hr => hl r (List.mem_cons_of_mem _ hr)
      simp only
      cases hr : Command.addRules fuel rs g' with
      | oof => exact absurd hr h2
      | panic => intro h; cases h
      | ok x => intro h; cases h

/-- **C64**: without documents the program ends, whatever is in the file and in the rules.  (With documents it ends when `Eval` does: C22, C24.) -/
theorem C64_ends (w : World) (a : Args) (ht : a.texts = []) (hf : a.files = []) : ∃ n, ∀ fuel, n ≤ fuel → Command.main w fuel a ≠ .oof := by
  obtain ⟨n1, hn1⟩ : ∃ n, ∀ r ∈ a.rules, (decode r).length + 2 ≤ n := by
    generalize a.rules = rs
    induction rs with
    | nil => exact ⟨0, fun r hr => by cases hr⟩
    | cons r rs ih =>
      obtain ⟨n, hn⟩ := ih
      refine ⟨max n ((decode r).length + 2), fun q hq => ?_⟩
      rcases List.mem_cons.1 hq with rfl | hq
      · exact Nat.le_max_right _ _
      · exact Nat.le_trans (hn q hq) (Nat.le_max_left _ _)
  obtain ⟨n2, hn2⟩ : ∃ n, ∀ fuel, n ≤ fuel → Command.fromFile w fuel a.xbnf ≠ .oof := by
    unfold Command.fromFile
    cases hr : w.read a.xbnf with
    | error e => exact ⟨0, fun _ _ h => by cases h⟩
    | ok bs =>
      refine ⟨(decode bs).length + 2, fun fuel hl => ?_⟩
      have := C34_fromString_ends (decode bs) fuel hl
      simp only
      rw [C62_grammar ((C62_read bs _).2 rfl)]
      cases hs : fromString fuel (decode bs) with
      | oof => exact absurd hs this
      | err => intro h; cases h
      | ok => intro h; cases h
  refine ⟨max n1 n2, fun fuel hfu => ?_⟩
  have h1 := hn2 fuel (Nat.le_trans (Nat.le_max_right _ _) hfu)
  unfold Command.main
  split
  · intro h; cases h
  · split
    · intro h; cases h
    · simp only
      cases hff : Command.fromFile w fuel a.xbnf with
      | oof => exact absurd hff h1
      | panic => intro h; cases h
      | ok x =>
        cases x with
        | error e => intro h; cases h
        | ok g =>
          simp only
          unfold Command.work
          have h2 := addRules_ends a.rules g fun r hr => Nat.le_trans (hn1 r hr) (Nat.le_trans (Nat.le_max_left _ _) hfu)
          cases ha : Command.addRules fuel a.rules g with
          | oof => exact absurd ha h2
          | panic => intro h; cases h
          | ok x =>
            obtain ⟨o, out⟩ := x
            cases o with
            | none => intro h; cases h
            | some g1 =>
              simp only
              unfold Command.documents
              rw [ht, hf]
              intro h; cases h

/-! ## Cases -/

/-- Bytes of a text. -/
def asBytes (s : String) : List Nat := encode (runes s)

/-- Maps are visited in the order in which they were made. -/
def plainly' : DocOrder := { sched := forward, roots := id, errors := id }

/-- There is one file. -/
def oneFile (name content : String) : World where
  read n := if n = asBytes name then .ok (asBytes content) else .error (runes "open : no such file or directory")
  usages := id
  usages' := id
  records := id
  records' := id
  doc _ := plainly'

theorem oneFile_orders (name content : String) : Orders (oneFile name content) :=
  ⟨fun l => .refl l, fun l => .refl l, fun l => .refl l, fun l => .refl l,
    fun _ => ⟨forward_fair, fun l => .refl l, fun l => .refl l⟩⟩


deriving instance DecidableEq for Record
deriving instance DecidableEq for Grammar

/-- The result. -/
def gained {α : Type} (x : Exec α) : Option α := match x with
  | .ok a => some a
  | _ => none

theorem gained_ok {α : Type} {x : Exec α} {a : α} (h : gained x = some a) : x = .ok a := by
  cases x with
  | ok b => simp only [gained, Option.some.injEq] at h; rw [h]
  | oof => cases h
  | panic => cases h

def grammarIn (x : Exec (Except (List Rune) Grammar)) : Option Grammar := match x with
  | .ok (.ok g) => some g
  | _ => none

theorem grammarIn_ok {x : Exec (Except (List Rune) Grammar)} {g : Grammar} (h : grammarIn x = some g) : x = .ok (.ok g) := by
  cases x with
  | ok b =>
    cases b with
    | ok g' => simp only [grammarIn, Option.some.injEq] at h; rw [h]
    | error => cases h
  | oof => cases h
  | panic => cases h

/-- The parts of a run. -/
theorem main_parts {w : World} {fuel : Nat} {a : Args} {g g1 g2 : Grammar} {out1 shown d : List (List Rune)} {head : List Rune} (h1 : a.help = false ∧ a.given = true ∧ a.xbnf ≠ [])
    (hf : grammarIn (Command.fromFile w fuel a.xbnf) = some g) (ha : gained (Command.addRules fuel a.rules g) = some (some g1, out1))
    (hp : Command.present w g1 = (g2, shown))
    (hd : gained (Command.documents w g2 fuel a) = some d)
    (hr : runes "Adding rule(s) from XBNF file: " ++ decode a.xbnf ++ [newline] = head) :
    gained (Command.main w fuel a) = some (head :: (out1 ++ shown ++ d)) := by
  unfold Command.main
  rw [if_neg (by simp [h1]), if_neg (by simp [h1])]
  simp only [grammarIn_ok hf]
  unfold Command.work
  simp only [gained_ok ha, hp, gained_ok hd]
  rw [← hr]
  rfl

/-! The grammars of the cases, written out. -/
def recA : Record := ⟨runes "a", .char { name := runes "a" } 120 false, 1⟩
def recB : Record := ⟨runes "b", .ref { name := runes "b" } (runes "a"), 2⟩
def recC : Record := ⟨runes "b", .ref { name := runes "b" } (runes "c"), 2⟩
def recN : Record := ⟨runes "n", .concat { name := runes "n" } [.option {} (.char {} 45 false), .ref {} (runes "d")], 1⟩
def recD : Record := ⟨runes "d", .range { name := runes "d" } 48 false 57 false, 2⟩
def recW : Record := ⟨runes "w", .str { name := runes "w" } (runes "ab"), 3⟩
def recV : Record := ⟨runes "a", .concat { name := runes "a" } [.str {} (runes "p"), .option {} (.str { virt := true } (runes "x"))], 1⟩

/-- A rule of the command line extends the file, the text is read, and the program stops at the file it cannot find. -/
theorem session_case : gained (Command.main (oneFile "g" "n = ['-'] d\nd='0'-'9'") 30
      { xbnf := asBytes "g", rules := [asBytes "w = \"ab\""], texts := [asBytes "ab -7"], files := [asBytes "h", asBytes "g"] }) =
    some [runes "Adding rule(s) from XBNF file: g\n", runes "Adding rule: w = \"ab\"\n", runes "Grammar:\n    Root Rules: n,w,\n    Rule Reference Map: \n        d    : n,\n    Rules:\n        L0001: n     = [ '-' ] d\n        L0002: d[T]  = '0'-'9'\n        L0003: w[T]  = \"ab\"\n        ", runes "\nParsing text: ab -7\n", runes "Abstract Syntax Tree\n├─ file:\n├─ Nodes: 2\n├───L1:1:w: >ab<\n└───L1:4:n: >-7<\n", runes "\nParsing file: h\n", runes "ERROR: open : no such file or directory"] :=
  (by
    apply main_parts (head := runes "Adding rule(s) from XBNF file: g\n") (g := ⟨[recN, recD], [(runes "d", [runes "n"])], [recD], [recN], 2⟩) (g1 := ⟨[recN, recD, recW], [(runes "d", [runes "n"])], [recD], [recN], 3⟩) (out1 := [runes "Adding rule: w = \"ab\"\n"])
      (g2 := ⟨[recN, recD, recW], [(runes "d", [runes "n"])], [recD, recW], [recN, recW], 3⟩)
      (shown := [runes "Grammar:\n    Root Rules: n,w,\n    Rule Reference Map: \n        d    : n,\n    Rules:\n        L0001: n     = [ '-' ] d\n        L0002: d[T]  = '0'-'9'\n        L0003: w[T]  = \"ab\"\n        "])
      (d := [runes "\nParsing text: ab -7\n", runes "Abstract Syntax Tree\n├─ file:\n├─ Nodes: 2\n├───L1:1:w: >ab<\n└───L1:4:n: >-7<\n", runes "\nParsing file: h\n", runes "ERROR: open : no such file or directory"])
    · decide +kernel
    · decide +kernel
    · decide +kernel
    · decide +kernel
    · decide +kernel
    · decide +kernel)

/-- `C64_run` and `C64_rules` apply to it: one rule was added. -/
example : ∃ out, Run (oneFile "g" "n = ['-'] d\nd='0'-'9'") 30
    { xbnf := asBytes "g", rules := [asBytes "w = \"ab\""], texts := [asBytes "ab -7"], files := [asBytes "h", asBytes "g"] } out ∧ out.length = 7 :=
  ⟨_, C64_run (oneFile_orders _ _) (gained_ok session_case), rfl⟩

/-- Rules without a file (`C64_rules_need_file`). -/
example : gained (Command.main (oneFile "g" "") 30 { rules := [asBytes "a = 'x'"], texts := [asBytes "x"] }) =
    some [runes "Adding rule(s) from XBNF file: \n", runes "ERROR: can't real file: open : no such file or directory"] := by
  decide +kernel

/-- A file that is no grammar (`C64_file_error`). -/
example : gained (Command.main (oneFile "g" "a = 'x'\nb = ?") 30 { xbnf := asBytes "g", texts := [asBytes "x"] }) =
    some [runes "Adding rule(s) from XBNF file: g\n", runes "ERROR: g: L#2: rule [b] - invalid char '?'"] := by
  decide +kernel

/-- **C64**: a grammar with an undefined rule is reported, and then used: the first text is read, the second is not. -/
theorem C64_undefined_used :
    gained (Command.main (oneFile "g" "a = 'x'") 30 { xbnf := asBytes "g", rules := [asBytes "b = c"], texts := [asBytes "x", asBytes "y"] }) =
    some [runes "Adding rule(s) from XBNF file: g\n", runes "Adding rule: b = c\n", runes "ERROR: rule name 'c' referenced but not defined\n", runes "Grammar:\n    Root Rules: a,b,\n    Rule Reference Map: \n    Rules:\n        L0001: a[T]  = 'x'\n        L0002: b     = c\n        ", runes "\nParsing text: x\n", runes "Abstract Syntax Tree\n├─ file:\n├─ Nodes: 1\n└───L1:1:a: >x<\n", runes "\nParsing text: y\n", runes "ERROR: must be a: missing a at L1:1; "] :=
  (by
    apply main_parts (head := runes "Adding rule(s) from XBNF file: g\n") (g := ⟨[recA], [], [recA], [recA], 1⟩) (g1 := ⟨[recA, recC], [(runes "c", [runes "b"])], [recA], [recA], 2⟩) (out1 := [runes "Adding rule: b = c\n"])
      (g2 := ⟨[recA, recC], [(runes "c", [runes "b"])], [recA], [recA], 2⟩)
      (shown := [runes "ERROR: rule name 'c' referenced but not defined\n", runes "Grammar:\n    Root Rules: a,b,\n    Rule Reference Map: \n    Rules:\n        L0001: a[T]  = 'x'\n        L0002: b     = c\n        "])
      (d := [runes "\nParsing text: x\n", runes "Abstract Syntax Tree\n├─ file:\n├─ Nodes: 1\n└───L1:1:a: >x<\n", runes "\nParsing text: y\n", runes "ERROR: must be a: missing a at L1:1; "])
    · decide +kernel
    · decide +kernel
    · decide +kernel
    · decide +kernel
    · decide +kernel
    · decide +kernel)

/-- **C64**: whether a rule is in the file or on the command line makes a difference.  `a` was a root rule of the file and stays one, though the
grammar written says that `b` is the only one; so both match. -/
theorem C64_stale_root :
    gained (Command.main (oneFile "g" "a = 'x'\nb = a") 30 { xbnf := asBytes "g", texts := [asBytes "x"] }) =
    some [runes "Adding rule(s) from XBNF file: g\n", runes "Grammar:\n    Root Rules: b,\n    Rule Reference Map: \n        a    : b,\n    Rules:\n        L0001: a[T]  = 'x'\n        L0002: b     = a\n        ", runes "\nParsing text: x\n", runes "Abstract Syntax Tree\n├─ file:\n├─ Nodes: 1\n└───L1:1:a: >x<\n"] ∧
    gained (Command.main (oneFile "g" "a = 'x'") 30 { xbnf := asBytes "g", rules := [asBytes "b = a"], texts := [asBytes "x"] }) =
    some [runes "Adding rule(s) from XBNF file: g\n", runes "Adding rule: b = a\n", runes "Grammar:\n    Root Rules: b,\n    Rule Reference Map: \n        a    : b,\n    Rules:\n        L0001: a[T]  = 'x'\n        L0002: b     = a\n        ", runes "\nParsing text: x\n", runes "ERROR: ambiguity found: a(\"x\") vs a(\"x\")"] :=
  ⟨(by
    apply main_parts (head := runes "Adding rule(s) from XBNF file: g\n") (g := ⟨[recA, recB], [(runes "a", [runes "b"])], [recA], [recB], 2⟩) (g1 := ⟨[recA, recB], [(runes "a", [runes "b"])], [recA], [recB], 2⟩) (out1 := [])
      (g2 := ⟨[recA, recB], [(runes "a", [runes "b"])], [recA], [recB], 2⟩)
      (shown := [runes "Grammar:\n    Root Rules: b,\n    Rule Reference Map: \n        a    : b,\n    Rules:\n        L0001: a[T]  = 'x'\n        L0002: b     = a\n        "])
      (d := [runes "\nParsing text: x\n", runes "Abstract Syntax Tree\n├─ file:\n├─ Nodes: 1\n└───L1:1:a: >x<\n"])
    · decide +kernel
    · decide +kernel
    · decide +kernel
    · decide +kernel
    · decide +kernel
    · decide +kernel),
   (by
    apply main_parts (head := runes "Adding rule(s) from XBNF file: g\n") (g := ⟨[recA], [], [recA], [recA], 1⟩) (g1 := ⟨[recA, recB], [(runes "a", [runes "b"])], [recA], [recA], 2⟩) (out1 := [runes "Adding rule: b = a\n"])
      (g2 := ⟨[recA, recB], [(runes "a", [runes "b"])], [recA], [recA, recB], 2⟩)
      (shown := [runes "Grammar:\n    Root Rules: b,\n    Rule Reference Map: \n        a    : b,\n    Rules:\n        L0001: a[T]  = 'x'\n        L0002: b     = a\n        "])
      (d := [runes "\nParsing text: x\n", runes "ERROR: ambiguity found: a(\"x\") vs a(\"x\")"])
    · decide +kernel
    · decide +kernel
    · decide +kernel
    · decide +kernel
    · decide +kernel
    · decide +kernel)⟩

/-- **C64**: the program removes virtual nodes after `Eval` has joined them with others, so their text is still there.  `Eval` at the level that
does the same in the right order leaves it out. -/
theorem C64_virtual_kept :
    gained (Command.main (oneFile "g" "a = \"p\" [~\"x\"]") 30 { xbnf := asBytes "g", texts := [asBytes "p x"] }) =
    some [runes "Adding rule(s) from XBNF file: g\n", runes "Grammar:\n    Root Rules: a,\n    Rule Reference Map: \n    Rules:\n        L0001: a[T]  = \"p\" [ ~\"x\" ]\n        ", runes "\nParsing text: p x\n", runes "Abstract Syntax Tree\n├─ file:\n├─ Nodes: 1\n└───L1:1:a\n    ├──L1:1:: >p<\n    └──L1:3:: >x<\n"] ∧
    rawTexts ((⟨[recV], [], [recV], [recV], 1⟩ : Grammar).evalAST 30 forward (Stream.ofChars (runes "p x")) LevelDataOnly) = some (.inr [runes "p"]) :=
  ⟨(by
    apply main_parts (head := runes "Adding rule(s) from XBNF file: g\n") (g := ⟨[recV], [], [recV], [recV], 1⟩) (g1 := ⟨[recV], [], [recV], [recV], 1⟩) (out1 := [])
      (g2 := ⟨[recV], [], [recV], [recV], 1⟩)
      (shown := [runes "Grammar:\n    Root Rules: a,\n    Rule Reference Map: \n    Rules:\n        L0001: a[T]  = \"p\" [ ~\"x\" ]\n        "])
      (d := [runes "\nParsing text: p x\n", runes "Abstract Syntax Tree\n├─ file:\n├─ Nodes: 1\n└───L1:1:a\n    ├──L1:1:: >p<\n    └──L1:3:: >x<\n"])
    · decide +kernel
    · decide +kernel
    · decide +kernel
    · decide +kernel
    · decide +kernel
    · decide +kernel), by decide +kernel⟩

end Xbnf.Props
