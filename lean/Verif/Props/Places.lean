import Verif.Lemmas.Places
import Verif.Props.Document
/-
C50: where the nodes are in the text, and the positions they carry.

Full statement: every node of a tree carries the line and the column of the first character of its
text.  It is false: a range reports the position of the character before the place where it was
tried (`C50_range`), or none at the start of the text, and with it every node that begins with a
range; a group never has a position (`C50_group`); a literal that begins with white space reports a
later place (`C50_leading_space`); on the first line a position may be "line 2" with a negative
column (C07).  What is proved, for regular evaluations and orderly documents: the trees are in the
text one after the other with nothing but white space between their leaves, a character and a string
carry the position of their first character (up to C07), a literal does unless it begins with white
space, and the other nodes carry the first position among their children.
-/
namespace Xbnf.Props
open Spec Grammar

variable {env : Env}

/-! ### Documents -/

theorem rootsLoop_laid {fuel : Nat} {flag : Int} {text : List Rune} {p : Nat} (hv : Valid text) (rs : List Record) :
    ∀ (look : Nat) (cs : Stream), look ≤ (text.drop p).length → Here text (p + look) cs →
    (∀ r ∈ rs, definiteA (Spec.run env fuel r.rule flag (text.drop p))) →
    Steady (fun r => looked (Spec.run env fuel r flag (text.drop p))) look (rs.map (·.rule)) →
    ∀ {ms m cs'}, rootsLoop env fuel flag rs ((text.drop p).take look) cs = .ok (ms, m, cs') →
    ∀ x ∈ ms, ∀ nd, x.node = some nd → ∃ u : Nat, x.countUsed = u ∧ Laid text p [nd] (p + u) := by
  induction rs with
  | nil =>
    intro look cs _ _ _ _ ms m cs' h
    simp only [rootsLoop, Exec.ok.injEq, Prod.mk.injEq] at h
    obtain ⟨rfl, _, _⟩ := h
    intro x hx; cases hx
  | cons r rs ih =>
    intro look cs hl hh hd hst ms m cs' h
    have hin : Here text p (cs.pushBack ((text.drop p).take look)) := hh.push (by omega) (L.take_drop_sl _ _ _)
    have hk := know_of (eval_sim env fuel) (L.eval_ref env fuel) r.rule flag _ _ hin.wf hin.rem (hv.drop _)
    have hdr := hd r List.mem_cons_self
    simp only [rootsLoop] at h
    obtain ⟨⟨res, cs1⟩, hq, h⟩ := Exec.of_bind h
    obtain ⟨⟨ms1, m1, cs2⟩, hq2, h⟩ := Exec.of_bind h
    simp only [Exec.ok.injEq, Prod.mk.injEq] at h
    obtain ⟨rfl, _, _⟩ := h
    -- what is read
    have hfacts : ∃ k, k ≤ (text.drop p).length ∧ looked (Spec.run env fuel r.rule flag (text.drop p)) = k ∧
        res.read = (text.drop p).take k ∧ Adv k (cs.pushBack ((text.drop p).take look)) cs1 := by
      cases ha : Spec.run env fuel r.rule flag (text.drop p) with
      | oof => rw [ha] at hdr; exact absurd hdr.1 (by decide)
      | risky => rw [ha] at hdr; exact absurd hdr.2 (by decide)
      | fail n st =>
        rw [ha] at hk
        obtain ⟨k1, res', s', k2, k3, k4, k5, k6⟩ := hk
        rw [hq] at k2
        cases k2
        exact ⟨n, k1, rfl, k5, k3⟩
      | ambiguous n =>
        rw [ha] at hk
        obtain ⟨k1, res', s', k2, k3, k4, k5, k6⟩ := hk
        rw [hq] at k2
        cases k2
        exact ⟨n, k1, rfl, k5, k3⟩
      | hit nd u n st =>
        rw [ha] at hk
        obtain ⟨k0, k1, res', s', nd', k2, k3, k4, k5, k6, k7, k8⟩ := hk
        rw [hq] at k2
        cases k2
        exact ⟨n, k1, rfl, k6, k3⟩
    obtain ⟨k, hk1, hk2, hk3, hk4⟩ := hfacts
    have hrec : ∀ x ∈ ms1, ∀ nd, x.node = some nd → ∃ u : Nat, x.countUsed = u ∧ Laid text p [nd] (p + u) := by
      cases rs with
      | nil =>
        simp only [rootsLoop, Exec.ok.injEq, Prod.mk.injEq] at hq2
        obtain ⟨rfl, _, _⟩ := hq2
        intro x hx; cases hx
      | cons r' rs =>
        simp only [List.map_cons, Steady] at hst
        rw [hk2] at hst
        have hmax : (if ((text.drop p).take look).length < res.read.length then res.read else (text.drop p).take look) =
            (text.drop p).take k := by
          rw [hk3, List.length_take, List.length_take]
          split
          · rfl
          · congr 1; omega
        rw [hmax] at hq2
        exact ih k cs1 hk1 (hin.adv hk4) (fun x hx => hd x (List.mem_cons_of_mem _ hx))
          (by simpa only [List.map_cons] using hst.2) hq2
    intro x hx nd hnd
    split at hx
    · rcases List.mem_cons.1 hx with rfl | hx
      · cases ha : Spec.run env fuel r.rule flag (text.drop p) with
        | oof => rw [ha] at hdr; exact absurd hdr.1 (by decide)
        | risky => rw [ha] at hdr; exact absurd hdr.2 (by decide)
        | fail n st =>
          rw [ha] at hk
          obtain ⟨k1, res', s', k2, k3, k4, k5, k6⟩ := hk
          rw [hq] at k2
          cases k2
          rw [hnd] at k4; cases k4
        | ambiguous n =>
          rw [ha] at hk
          obtain ⟨k1, res', s', k2, k3, k4, k5, k6⟩ := hk
          rw [hq] at k2
          cases k2
          rw [hnd] at k4; cases k4
        | hit nd0 u n st =>
          have hlaid := eval_laid env fuel r.rule flag text p _ nd0 u n st hv hin ha x cs1 nd hq hnd
          rw [ha] at hk
          obtain ⟨k0, k1, res', s', nd', k2, k3, k4, k5, k6, k7, k8⟩ := hk
          rw [hq] at k2
          cases k2
          refine ⟨u, ?_, hlaid⟩
          simp only [Res.countUsed, k6, k7, List.length_take, List.length_drop] at k1 ⊢
          omega
      · exact hrec x hx nd hnd
    · exact hrec x hx nd hnd

theorem rawLoop_laid {fuel : Nat} {roots : List Record} {sch : Sched} (hfair : sch.Fair) {text : List Rune} (hv : Valid text)
    (n : Nat) : ∀ (i p : Nat) (nodes : List Node) (flag : Int) (unused : List Rune) (s : Stream) (x : Except RawErr (List Node)),
    Here text (p + unused.length) s → unused = (text.drop p).take unused.length → Laid text 0 nodes p →
    Doc.outcome (docAt (Spec.run env fuel) (roots.map (·.rule)) n flag unused.length (text.drop p)
      (nodes.map Node.erase)) = some x →
    ∀ ns s', rawLoop env fuel roots sch n i nodes flag unused s = .ok (.ok ns, s') → Laid text 0 ns text.length := by
  induction n with
  | zero => intro i p nodes flag unused s x _ _ _ h; cases h
  | succ n ih =>
    intro i p nodes flag unused s x hh hun hlaid h ns s' hraw
    have hin : Here text p (s.pushBack unused) :=
      hh.push (by omega) (by rw [← L.take_drop_sl]; exact hun)
    have hvd := hv.drop p
    have hrem := hin.rem
    have hpeek : (s.pushBack unused).peek = EOFChar ↔ text.drop p = [] := by
      rw [L.peek_eq hin.wf, hrem]; exact L.peek_eof hvd
    simp only [docAt] at h
    simp only [rawLoop] at hraw
    by_cases hnil : text.drop p = []
    · rw [if_pos (hpeek.2 hnil)] at hraw
      have hp : p = text.length := by
        have h1 := hin.le
        have h2 := List.drop_eq_nil_iff.1 hnil
        omega
      split at hraw
      · cases hraw
      · simp only [Exec.ok.injEq, Prod.mk.injEq, Except.ok.injEq] at hraw
        obtain ⟨rfl, _⟩ := hraw
        rw [hp] at hlaid
        exact hlaid
    · rw [if_neg hnil] at h
      rw [if_neg (fun hc => hnil (hpeek.1 hc))] at hraw
      have hnot : roundAt (Spec.run env fuel) (roots.map (·.rule)) flag unused.length (text.drop p) ≠ .oof ∧
          roundAt (Spec.run env fuel) (roots.map (·.rule)) flag unused.length (text.drop p) ≠ .risky := by
        constructor <;> (intro hc; rw [hc] at h; cases h)
      obtain ⟨hd, hsteady⟩ := rootsAny hnot.1 hnot.2
      have hperm := hfair.1 i roots
      obtain ⟨ms, cs', look, e1, e2, e3, e4, e5, e6⟩ := rootsLoop_ref (env := env) (fuel := fuel) (flag := flag) hvd
        (sch.roots i roots) 0 (s.pushBack unused) hin.wf (Nat.zero_le _) (by rw [hrem, List.drop_zero])
        (fun r hr => hd r (hperm.mem_iff.1 hr)) (hsteady _ hperm)
      have hat := rootsLoop_laid (env := env) (fuel := fuel) (flag := flag) hv (sch.roots i roots) 0 (s.pushBack unused)
        (Nat.zero_le _) hin (fun r hr => hd r (hperm.mem_iff.1 hr)) (hsteady _ hperm) e2
      rw [List.take_zero] at e2
      rw [e2, Exec.ok_bind] at hraw
      have elook : look = (roots.map (fun r => looked (Spec.run env fuel r.rule flag (text.drop p)))).foldr max 0 := by
        rw [e1]; exact foldr_max_perm (hperm.map _) 0
      have hhits := (hperm.map (fun r => Spec.run env fuel r.rule flag (text.drop p))).filterMap hitOf
      obtain ⟨hits', p1, p2⟩ := hitsRef_perm (hfair.2 i ms).symm e5
      obtain ⟨q1, q2, q3⟩ := pick_any (hhits.symm.trans p1) p2
      have hadv := e4.popBack
      rw [Nat.sub_zero] at hadv
      have hround : roundAt (Spec.run env fuel) (roots.map (·.rule)) flag unused.length (text.drop p) =
          match ((roots.map (fun r => Spec.run env fuel r.rule flag (text.drop p))).filterMap hitOf).filter
            (fun h => h.2.1 == longest ((roots.map (fun r => Spec.run env fuel r.rule flag (text.drop p))).filterMap hitOf)) with
          | [] => .noMatch
          | [h] => if look < unused.length then .risky
              else if (((roots.map (fun r => Spec.run env fuel r.rule flag (text.drop p))).filterMap hitOf).map (fun h => h.2.1)).Nodup
              then .step h.1 h.2.1 (look - h.2.1) h.2.2 else .risky
          | _ => .tie := by
        have hn1 := hnot.1
        have hn2 := hnot.2
        unfold roundAt at hn1 hn2 ⊢
        simp only [List.map_map] at hn1 hn2 ⊢
        split at hn1
        · exact absurd rfl hn1
        rename_i ho
        rw [if_neg ho] at hn2 ⊢
        split at hn2
        · exact absurd rfl hn2
        rename_i hr
        rw [if_neg hr]
        split at hn2
        · exact absurd rfl hn2
        rename_i hs
        rw [if_neg hs, elook]
        rfl
      rw [hround] at h
      generalize hF : ((roots.map (fun r => Spec.run env fuel r.rule flag (text.drop p))).filterMap hitOf) = hits at *
      cases hfil : hits.filter (fun h => h.2.1 == longest hits) with
      | nil => simp only [q1 hfil] at hraw; cases hraw
      | cons y ys =>
        cases ys with
        | cons z ys => obtain ⟨_, _, hq⟩ := q2 _ _ _ hfil; simp only [hq] at hraw; cases hraw
        | nil =>
          rw [hfil] at h
          simp only at h
          by_cases hpend : look < unused.length
          · rw [if_pos hpend] at h; cases h
          rw [if_neg hpend] at h
          by_cases hnd : (hits.map (fun h => h.2.1)).Nodup
          · rw [if_pos hnd] at h
            simp only at h
            obtain ⟨r, r1, r2, r3, r4⟩ := q3 y hfil hnd
            simp only [r1] at hraw
            have hyl : y.2.1 ≤ look := by
              have hy : y ∈ hits := (List.mem_filter.1 (show y ∈ hits.filter (fun h => h.2.1 == longest hits) by rw [hfil]; exact List.mem_singleton_self _)).1
              exact e6 y (hhits.mem_iff.2 hy)
            have hslice : sliceFrom ((text.drop p).take look) r.countUsed = .ok (((text.drop p).take look).drop y.2.1) := by
              rw [r3, sliceFrom_all _ _ (by rw [List.length_take]; omega)]
            rw [hslice, Exec.ok_bind] at hraw
            obtain ⟨nd, hn, hnE⟩ : ∃ nd, r.node = some nd ∧ nd.erase = y.1 := by
              cases hn : r.node with
              | none => rw [hn] at r2; cases r2
              | some nd => rw [hn] at r2; exact ⟨nd, rfl, Option.some.inj r2⟩
            obtain ⟨u, hu, hul⟩ := hat r ((hfair.2 i ms).mem_iff.1 (pick_mem r1)) nd hn
            have huy : u = y.2.1 := by rw [hu] at r3; exact Int.ofNat.inj r3
            subst huy
            have hlen : (((text.drop p).take look).drop y.2.1).length = look - y.2.1 := by
              rw [List.length_drop, List.length_take]; omega
            have hpl : Here text (p + look) (cs'.popBack unused) := by
              have := hh.adv hadv
              rwa [show p + unused.length + (look - unused.length) = p + look by omega] at this
            refine ih (i + 1) (p + y.2.1) _ _ _ _ x ?_ ?_ (Laid.append hlaid hul) ?_ ns s' (by rw [hn] at hraw; exact hraw)
            · rw [hlen, show p + y.2.1 + (look - y.2.1) = p + look by omega]
              exact hpl
            · rw [hlen, ← List.drop_drop, List.drop_take]
            · rw [hlen, ← List.drop_drop, r4]
              simp only [List.map_append, List.map_cons, List.map_nil, hnE]
              exact h
          · rw [if_neg hnd] at h
            cases h

/-! ### Theorems -/

/-- The tree that `EvalRule` returns is in the sample: its leaves follow each other from the beginning
to the end of the used text, with only white space between them, and carry the positions of `Laid`.
(Missing from the full claim: see above; and evaluations that are not regular.) -/
theorem C50_evalRule_partial {g : Grammar} {fuel : Nat} {name : Name} {rec : Record} {sample : List Rune} {res : Res} {n : Node}
    (hv : Valid sample) (hrec : g.getRecord name = some rec) (hr : Regular g.env rec.rule SUGGEST_SKIP sample)
    (h : g.evalRule fuel name sample = .ok res) (hn : res.node = some n) :
    ∃ u : Nat, res.countUsed = u ∧ u ≤ sample.length ∧ Laid sample 0 [n] u := by
  unfold evalRule at h
  rw [hrec] at h
  obtain ⟨⟨res', s'⟩, he, h⟩ := Exec.of_bind h
  cases h
  have hs := ready_ofChars hv
  have hl := rem_ofChars sample
  obtain ⟨F, k, h1, h2, h3, h4, h5⟩ := regular_eval hs (by rw [hl]; exact hr) he
  rw [hl] at h1 h2 h5
  cases ha : Spec.run g.env F rec.rule SUGGEST_SKIP sample with
  | oof => exact absurd ha h1
  | risky => exact absurd ha h2
  | fail m st => rw [ha] at h5; have := (ref_fail h5).1; rw [hn] at this; cases this
  | ambiguous m => rw [ha] at h5; have := (ref_ambiguous h5).1; rw [hn] at this; cases this
  | hit nd u m st =>
    have := eval_laid g.env F rec.rule SUGGEST_SKIP sample 0 _ nd u m st hv (here_ofChars sample) ha _ _ n h3 hn
    rw [Nat.zero_add] at this
    rw [ha] at h5
    obtain ⟨g1, g2, g3, g4, g5, g6, g7⟩ := ref_hit h5
    exact ⟨u, g2, by omega, this⟩

/-- The trees that `EvalRaw` returns are in the document, from its beginning to its end. -/
theorem C50_document_partial {g : Grammar} {fuel : Nat} {sch : Sched} (hfair : sch.Fair) {text : List Rune} (hv : Valid text)
    {s' : Stream} {nodes : List Node} (ho : Orderly g.env (g.roots.map (·.rule)) text)
    (h : g.evalRaw fuel sch (Stream.ofChars text) = .ok (.ok nodes, s')) : Laid text 0 nodes text.length := by
  have hs := ready_ofChars hv
  have hl := rem_ofChars text
  have hne : text ≠ [] := by
    intro hc
    unfold evalRaw at h
    rw [if_pos (by rw [L.peek_eq hs.wf, L.peek_eof hs.valid, hl]; exact hc)] at h
    cases h
  obtain ⟨F, x, hx⟩ := orderly_outcome ho
  obtain ⟨y', s'', e1, e2⟩ := evalRaw_ref hfair hs.wf hs.valid (by rw [hl]; exact hne) (by rw [hl]; exact hx)
  have := raw_det h e1
  simp only [Prod.mk.injEq] at this
  obtain ⟨rfl, rfl⟩ := this
  unfold evalRaw at e1
  rw [if_neg (by rw [L.peek_eq hs.wf, L.peek_eof hs.valid, hl]; exact hne)] at e1
  exact rawLoop_laid hfair hv F 0 0 [] SUGGEST_SKIP [] (Stream.ofChars text) x (here_ofChars text) rfl .nil hx _ _ e1

theorem everywhere_leaf {p : Node → Prop} {n : Node} (hc : n.children = []) (h : p n) : Everywhere p n :=
  ⟨h, fun c hm => by rw [hc] at hm; cases hm⟩

theorem placed_all {text : List Rune} {i j : Nat} {ns : List Node} (h : Laid text i ns j) :
    ∀ n ∈ ns, Everywhere (Placed text) n := by
  induction h with
  | nil => intro n hn; cases hn
  | char ht hc hg hk h hp hs ih =>
    intro m hm
    rcases List.mem_cons.1 hm with rfl | hm
    · refine everywhere_leaf hc fun _ _ => ⟨_, ?_, hp⟩
      rw [h]
      obtain ⟨hlt, rfl⟩ := List.getElem?_eq_some_iff.1 hk
      rw [List.drop_eq_getElem_cons hlt]
      exact ⟨_, rfl⟩
    · exact ih m hm
  | string ht hc hg h hp hs ih =>
    intro m hm
    rcases List.mem_cons.1 hm with rfl | hm
    · exact everywhere_leaf hc fun _ hne => ⟨_, h, hp hne⟩
    · exact ih m hm
  | literal ht hc hg h hp hs ih =>
    intro m hm
    rcases List.mem_cons.1 hm with rfl | hm
    · refine everywhere_leaf hc fun ht' _ => ?_
      rw [ht] at ht'
      rcases ht' with h | h <;> cases h
    · exact ih m hm
  | range ht hc hg hk h hp hs ih =>
    intro m hm
    rcases List.mem_cons.1 hm with rfl | hm
    · refine everywhere_leaf hc fun ht' _ => ?_
      rw [ht] at ht'
      rcases ht' with h | h <;> cases h
    · exact ih m hm
  | eof ht hc hg h hp hs ih =>
    intro m hm
    rcases List.mem_cons.1 hm with rfl | hm
    · refine everywhere_leaf hc fun ht' _ => ?_
      rw [ht] at ht'
      rcases ht' with h | h <;> cases h
    · exact ih m hm
  | group ht h hc hm' hp hs ih1 ih2 =>
    intro m hm
    rcases List.mem_cons.1 hm with rfl | hm
    · refine ⟨fun _ hne => absurd h hne, fun c hc' => ?_⟩
      rw [hc] at hc'
      exact ih1 c hc'
    · exact ih2 m hm
  | inner ht h hm' hp hs ih1 ih2 =>
    intro m hm
    rcases List.mem_cons.1 hm with rfl | hm
    · exact ⟨fun _ hne => absurd h hne, fun c hc' => ih1 c hc'⟩
    · exact ih2 m hm
  | block ht h hc ho hmt hmc hm' hmp hcl hp hs ih1 ih2 ih3 =>
    intro m hm
    rcases List.mem_cons.1 hm with rfl | hm
    · refine ⟨fun _ hne => absurd h hne, fun c hc' => ?_⟩
      rw [hc] at hc'
      rcases List.mem_cons.1 hc' with rfl | hc'
      · exact ih1 c (List.mem_singleton_self _)
      · rcases List.mem_cons.1 hc' with rfl | hc'
        · refine everywhere_leaf hmc fun ht' _ => ?_
          rw [hmt] at ht'
          rcases ht' with h | h <;> cases h
        · exact ih2 c hc'
    · exact ih3 m hm

/-- Every character and every string in the tree of `EvalRule` is a piece of the sample and carries the
position of its first character. -/
theorem C50_leaves_evalRule_partial {g : Grammar} {fuel : Nat} {name : Name} {rec : Record} {sample : List Rune} {res : Res}
    {n : Node} (hv : Valid sample) (hrec : g.getRecord name = some rec) (hr : Regular g.env rec.rule SUGGEST_SKIP sample)
    (h : g.evalRule fuel name sample = .ok res) (hn : res.node = some n) : Everywhere (Placed sample) n := by
  obtain ⟨u, _, _, hl⟩ := C50_evalRule_partial hv hrec hr h hn
  exact placed_all hl n (List.mem_singleton_self _)

/-- The same for documents. -/
theorem C50_leaves_document_partial {g : Grammar} {fuel : Nat} {sch : Sched} (hfair : sch.Fair) {text : List Rune} (hv : Valid text)
    {s' : Stream} {nodes : List Node} (ho : Orderly g.env (g.roots.map (·.rule)) text)
    (h : g.evalRaw fuel sch (Stream.ofChars text) = .ok (.ok nodes, s')) : ∀ n ∈ nodes, Everywhere (Placed text) n :=
  placed_all (C50_document_partial hfair hv ho h)

/-! ### Cases -/

/-- The positions of the leaves of the tree, in order. -/
def leafPositions (x : Exec Res) : Option (List (List Rune × Option Position)) :=
  match x with
  | .ok res => res.node.map fun n => ((Spec.chains n).filterMap (·.getLast?)).filterMap fun m =>
      if m.chars = [] then none else some (m.chars, m.pos)
  | _ => none

/-- `"item" { 'n' ':' }` -/
def itemRule : Rule := .concat {} [.str {} (runes "item"), .rep {} (.concat {} [.char {} 110 false, .char {} 58 false]) 0 0]

def itemGrammar : Grammar := rootGrammar [("item", itemRule)]

/-- Non-vacuity: a regular evaluation over three lines; every position is that of the first character. -/
example : (itemGrammar.getRecord (runes "item")).map (·.rule) = some itemRule ∧
    Regular itemGrammar.env itemRule SUGGEST_SKIP (runes "\nitem\nn:") ∧
    leafPositions (itemGrammar.evalRule 12 (runes "item") (runes "\nitem\nn:")) =
      some [(runes "item", some ⟨2, 1⟩), (runes "n", some ⟨3, 1⟩), (runes ":", some ⟨3, 2⟩)] :=
  ⟨rfl, regular_of (fuel := 12) (by decide +kernel), by decide +kernel⟩

/-- The positions of the roots of an `EvalRaw`. -/
def rootPositions (x : Exec (Except RawErr (List Node) × Stream)) : Option (List (Option Position)) :=
  match x with
  | .ok (.ok ns, _) => some (ns.map (·.pos))
  | _ => none

/-- Non-vacuity: an orderly document of three roots. -/
example : Orderly itemsAndStops.env (itemsAndStops.roots.map (·.rule)) (runes "stop\nitem 1\nstop") ∧
    rootPositions (itemsAndStops.evalRaw 12 forward (Stream.ofChars (runes "stop\nitem 1\nstop"))) =
      some [some ⟨1, 1⟩, some ⟨2, 1⟩, some ⟨3, 1⟩] :=
  ⟨orderly_of (fuel := 12) (by decide +kernel), by decide +kernel⟩

/-- `'0' ~ '9'` -/
def digitGrammar : Grammar := rootGrammar [("digit", .range {} 48 false 57 false), ("two", .concat {} [.char {} 97 false, .range {} 48 false 57 false])]

/-- A range does not carry the position of its text: none at the beginning, and otherwise that of the
character before. -/
theorem C50_range :
    leafPositions (digitGrammar.evalRule 9 (runes "digit") (runes "7")) = some [(runes "7", none)] ∧
    leafPositions (digitGrammar.evalRule 9 (runes "two") (runes "\na7")) = some [(runes "a", some ⟨2, 1⟩), (runes "7", some ⟨2, 1⟩)] := by
  decide +kernel

/-- `( "a" )` -/
def groupGrammar : Grammar := rootGrammar [("group", .group {} (.str {} (runes "a"))), ("space", .chars {} (runes " b"))]

/-- The position of the root of a tree. -/
def rootPosition (x : Exec Res) : Option (Option Position) :=
  match x with
  | .ok res => res.node.map (·.pos)
  | _ => none

/-- A group has no position, though its content has. -/
theorem C50_group :
    rootPosition (groupGrammar.evalRule 9 (runes "group") (runes "a")) = some none ∧
    leafPositions (groupGrammar.evalRule 9 (runes "group") (runes "a")) = some [(runes "a", some ⟨1, 1⟩)] := by
  decide +kernel

/-- A character sequence that begins with white space carries the position of the first character
behind the white space of the text. -/
theorem C50_leading_space :
    leafPositions (groupGrammar.evalRule 9 (runes "space") (runes "\n b")) = some [(runes " b", some ⟨2, 2⟩)] := by
  decide +kernel

end Xbnf.Props
