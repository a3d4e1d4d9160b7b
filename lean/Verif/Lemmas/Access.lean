import Verif.Model.Access
/-
The programs of Model/Access.lean, undisturbed, do what Model/HeapEval.lean says.
-/
namespace Xbnf.Par
open Xbnf.Mem Xbnf.Grammar

variable {grow : Growth}

/-! ### Running -/

theorem run_bind {α β : Type} (p : Prog α) (f : α → Prog β) : ∀ h : Heap, (p >>= f).run grow h = (p.run grow h).bind fun a => (f a.1).run grow a.2 := by
  show ∀ h : Heap, (p.bind f).run grow h = _
  induction p with
  | ret a => intro h; rfl
  | panic => intro h; rfl
  | oof => intro h; rfl
  | read s k ih => intro h; exact ih _ h
  | append s xs k ih => intro h; exact ih _ _
  | alloc xs k ih => intro h; exact ih _ _
  | load cs k ih => intro h; exact ih _ h
  | store cs o k ih => intro h; exact ih _
  | new o k ih => intro h; exact ih _ _

theorem run_bind' {α β : Type} (p : Prog α) (f : α → Prog β) (h : Heap) : (p.bind f).run grow h = (p.run grow h).bind fun a => (f a.1).run grow a.2 :=
  run_bind p f h

theorem run_pure {α : Type} (a : α) (h : Heap) : (pure a : Prog α).run grow h = .ok (a, h) := rfl

theorem run_lift {α : Type} (x : Exec α) (h : Heap) : (Prog.lift x).run grow h = x.bind fun a => .ok (a, h) := by cases x <;> rfl

theorem run_ite {α : Type} (c : Prop) [Decidable c] (p q : Prog α) (h : Heap) : (if c then p else q).run grow h = if c then p.run grow h else q.run grow h := by
  split <;> rfl

theorem ok_bind {α β : Type} (a : α) (f : α → Exec β) : (Exec.ok a).bind f = f a := rfl
theorem ok_bind' {α β : Type} (a : α) (f : α → Exec β) : (Exec.ok a >>= f) = f a := rfl

/-! ### Accesses -/

variable (h : Heap)

theorem rd_run (s : Slice) : (rd s).run grow h = .ok (h.read s, h) := rfl
theorem app_run (s : Slice) (xs : List Rune) : (app s xs).run grow h = .ok (h.append grow s xs) := rfl
theorem appS_run (s t : Slice) : (appS s t).run grow h = .ok (h.append grow s (h.read t)) := rfl
theorem mk_run (xs : List Rune) : (mk xs).run grow h = .ok (h.alloc xs) := rfl

theorem newStream_run (text : List Rune) : (newStream text).run grow h = .ok (h.newStream grow text) := by
  have e : (h.append grow {} text).2.streams = h.streams := by
    unfold Heap.append Heap.write
    split
    · split <;> rfl
    · rfl
  simp only [newStream, Prog.run, Heap.newStream, e]

theorem newPre_run (cs : Nat) (p : Slice) : (newPre cs p).run grow h = .ok (h.newPre cs p) := by
  unfold newPre Heap.newPre
  split <;> rfl

theorem peek_run (cs : Nat) : (peek cs).run grow h = .ok (h.peek cs, h) := by
  induction cs using Nat.strongRecOn with
  | _ cs ih =>
    rw [peek, Heap.peek, Prog.run]
    rcases e : h.streams[cs]? with _ | (⟨t, c, l⟩ | ⟨p, c, u⟩)
    · rfl
    · rfl
    · by_cases hc : c < p.len
      · simp only [hc, if_true]; rfl
      · by_cases hu : u < cs
        · simp only [hc, hu, if_true, if_false]; exact ih _ hu
        · simp only [hc, hu, if_false]; rfl

theorem next_run (cs : Nat) : (next cs).run grow h = .ok (h.next cs) := by
  induction cs using Nat.strongRecOn with
  | _ cs ih =>
    rw [next, Heap.next, Prog.run]
    rcases e : h.streams[cs]? with _ | (⟨t, c, l⟩ | ⟨p, c, u⟩)
    · rfl
    · by_cases hc : c ≥ t.len
      · simp only [hc, if_true]; rfl
      · simp only [hc, if_false]; rfl
    · by_cases hc : c < p.len
      · simp only [hc, if_true]; rfl
      · by_cases hu : u < cs
        · simp only [hc, hu, if_true, if_false]; exact ih _ hu
        · simp only [hc, hu, if_false]; rfl

theorem size_run (cs : Nat) : (size cs).run grow h = .ok (h.size cs, h) := by
  induction cs using Nat.strongRecOn with
  | _ cs ih =>
    rw [size, Heap.size, Prog.run]
    rcases e : h.streams[cs]? with _ | (⟨t, c, l⟩ | ⟨p, c, u⟩)
    · rfl
    · rfl
    · by_cases hu : u < cs
      · simp only [hu, if_true]
        rw [run_bind', ih _ hu]
        rfl
      · simp only [hu, if_false]; rfl

theorem cursor_run (cs : Nat) : (cursor cs).run grow h = .ok (h.cursor cs, h) := by
  induction cs using Nat.strongRecOn with
  | _ cs ih =>
    rw [cursor, Heap.cursor, Prog.run]
    rcases e : h.streams[cs]? with _ | (⟨t, c, l⟩ | ⟨p, c, u⟩)
    · rfl
    · rfl
    · by_cases hu : u < cs
      · simp only [hu, if_true]
        rw [run_bind', ih _ hu]
        rfl
      · simp only [hu, if_false]; rfl

theorem positionLookup_run (idx : Int) (cs : Nat) : (positionLookup cs idx).run grow h = .ok (h.positionLookup cs idx, h) := by
  induction cs using Nat.strongRecOn with
  | _ cs ih =>
    rw [positionLookup, Heap.positionLookup, Prog.run]
    rcases e : h.streams[cs]? with _ | (⟨t, c, l⟩ | ⟨p, c, u⟩)
    · rfl
    · rfl
    · by_cases hu : u < cs
      · simp only [hu, if_true]; exact ih _ hu
      · simp only [hu, if_false]; rfl

theorem position_run (cs : Nat) : (position cs).run grow h = .ok (h.position cs) := by
  induction cs using Nat.strongRecOn with
  | _ cs ih =>
    rw [position, Heap.position, Prog.run]
    rcases e : h.streams[cs]? with _ | (⟨t, c, l⟩ | ⟨p, c, u⟩)
    · rfl
    · by_cases hc : c ≥ t.len
      · simp only [hc, if_true]; rfl
      · by_cases h0 : c = 0
        · subst h0; simp only [hc, if_true, if_false]; rfl
        · simp only [hc, h0, if_false]; rfl
    · by_cases hu : u < cs
      · by_cases hc : c ≥ p.len
        · simp only [hc, hu, if_true]; exact ih _ hu
        · simp only [hc, hu, if_true, if_false]
          rw [run_bind', cursor_run]
          exact positionLookup_run h _ _
      · simp only [hu, if_false]; rfl

theorem skipLoop_run : ∀ (n cs : Nat) (out : Slice) (h : Heap), (skipLoop n cs out).run grow h = .ok (h.skipLoop grow n cs out)
  | 0, _, _, _ => rfl
  | n + 1, cs, out, h => by
    rw [skipLoop, Heap.skipLoop, run_bind, peek_run, ok_bind, run_ite]
    split
    · rfl
    · rw [run_ite]
      split
      · rfl
      · rw [run_bind, next_run, ok_bind, run_bind, app_run, ok_bind]
        exact skipLoop_run n cs _ _

theorem skipSpaces_run (cs : Nat) : (skipSpaces cs).run grow h = .ok (h.skipSpaces grow cs) := by
  rw [skipSpaces, Heap.skipSpaces, Prog.run]
  rcases e : h.streams[cs]? with _ | (⟨t, c, l⟩ | ⟨p, c, u⟩)
  · rfl
  · simp only [Prog.run]
    split <;> rfl
  · show ((size cs).bind _).run grow h = _
    rw [run_bind', size_run]
    exact skipLoop_run _ _ _ _

theorem matchLoop_run : ∀ (t : List Rune) (cs : Nat) (out : Slice) (h : Heap),
    (matchLoop t cs out).run grow h = .ok (((h.matchLoop grow t cs out).1, (h.matchLoop grow t cs out).2.1), (h.matchLoop grow t cs out).2.2)
  | [], _, _, _ => rfl
  | w :: t, cs, out, h => by
    rw [matchLoop, Heap.matchLoop, run_bind, next_run, ok_bind, run_ite]
    split
    · rfl
    · rw [run_bind, app_run, ok_bind, run_ite]
      split
      · rfl
      · exact matchLoop_run t cs _ _

/-! ### Terminals -/

/-- How the proofs below begin: run the accesses one after the other. -/
macro "go" : tactic => `(tactic| simp only [run_bind, run_pure, ok_bind, rd_run, app_run, appS_run, mk_run, newPre_run, newStream_run, peek_run, next_run, cursor_run, positionLookup_run,
  position_run, skipSpaces_run, matchLoop_run, run_lift])

theorem pEOF_run (b : RuleBase) (flag : Int) (cs : Nat) : (pEOF b flag cs).run grow h = .ok (hEOF grow b flag cs h) := by
  unfold pEOF hEOF
  by_cases hf : flag = SUGGEST_SKIP
  · simp only [hf, if_true]
    go
    rw [run_ite]
    split <;> go
  · simp only [hf, if_false]
    go
    rw [run_ite]
    split <;> go

theorem pSkip_run (flag : Int) (cs : Nat) :
    (pSkip flag cs).run grow h = .ok (((hSkip grow flag cs h).1, (hSkip grow flag cs h).2.1), (hSkip grow flag cs h).2.2) := by
  unfold pSkip hSkip
  split
  · go
  · rfl

theorem pChar_run (b : RuleBase) (text : Rune) (flag : Int) (cs : Nat) : (pChar b text flag cs).run grow h = .ok (hChar grow b text flag cs h) := by
  unfold pChar hChar
  go
  rw [run_ite]
  split
  · go
  · go
    simp only [pSkip_run, ok_bind]
    rw [run_ite]
    split
    · go
      split <;> rename_i e <;> (simp only [e]; go)
    · go
      rw [run_ite]
      split <;> go

theorem pRange_run (b : RuleBase) (first last : Rune) (flag : Int) (cs : Nat) : (pRange b first last flag cs).run grow h = .ok (hRange grow b first last flag cs h) := by
  unfold pRange hRange
  go
  rw [run_ite]
  split
  · go
  · go
    simp only [pSkip_run, ok_bind]
    split <;> rename_i e
    · simp only [e]
      go
    · simp only [e]
      go
      rw [run_ite]
      split <;> go

theorem pText_run (text : List Rune) (skip : Bool) (cs : Nat) :
    (pText text skip cs).run grow h = .ok (((hText grow text skip cs h).1, (hText grow text skip cs h).2.1, (hText grow text skip cs h).2.2.1), (hText grow text skip cs h).2.2.2) := by
  unfold pText hText
  split
  · go
    rw [run_ite]
    split
    · rfl
    · go
      rw [run_ite]
      split
      · rfl
      · go
  · go

theorem pChars_run (b : RuleBase) (text : List Rune) (flag : Int) (cs : Nat) : (pChars b text flag cs).run grow h = .ok (hChars grow b text flag cs h) := by
  unfold pChars hChars
  go
  rw [run_ite]
  split
  · go
  · go
    simp only [pText_run, ok_bind]
    rw [run_ite]
    split <;> go

theorem pString_run (b : RuleBase) (text : List Rune) (flag : Int) (cs : Nat) : (pString b text flag cs).run grow h = .ok (hString grow b text flag cs h) := by
  unfold pString hString
  go
  rw [run_ite]
  split
  · go
  · go
    simp only [pText_run, ok_bind]
    rw [run_ite]
    split <;> go

/-! ### Sequences -/

theorem pAccount_run (read unused : Slice) (r : HRes) :
    (pAccount read unused r).run grow h = (hAccount grow read unused r h).bind fun x => .ok ((x.1, x.2.1), x.2.2) := by
  unfold pAccount hAccount
  split
  · go
    cases r.read.fromIdx unused.len <;> rfl
  · go
    cases r.charsUsed with
    | ok used =>
      cases e : unused.fromIdx used.len with
      | ok left =>
        simp only [ok_bind, ok_bind', e, run_ite]
        split <;> rfl
      | panic => simp only [ok_bind, ok_bind', e]; rfl
      | oof => simp only [ok_bind, ok_bind', e]; rfl
    | panic => rfl
    | oof => rfl

/-- The program for the parts does what the parts do. -/
def Runs (grow : Growth) (ev : HEvaluator) (pv : PEvaluator) : Prop := ∀ r flag cs h, (pv r flag cs).run grow h = ev r flag cs h

variable {ev : HEvaluator} {pv : PEvaluator}

theorem pConcat_run (hv : Runs grow ev pv) (self : Rule) : ∀ (rs : List Rule) (st : HSeq) (cs : Nat) (h : Heap),
    (pConcat pv self rs st cs).run grow h = hConcat grow ev self rs st cs h
  | [], _, _, _ => rfl
  | r :: rs, st, cs, h => by
    rw [pConcat, hConcat]
    go
    rw [hv]
    cases ev r st.flag (h.newPre cs st.unused).1 (h.newPre cs st.unused).2 with
    | panic => rfl
    | oof => rfl
    | ok a =>
      simp only [ok_bind, ok_bind', pAccount_run]
      cases hAccount grow st.read st.unused a.1 a.2 with
      | panic => rfl
      | oof => rfl
      | ok x =>
        simp only [ok_bind, ok_bind']
        cases a.1.node with
        | none => rfl
        | some n => exact pConcat_run hv self rs _ _ _

theorem pRepLoop_run (hv : Runs grow ev pv) (r : Rule) (max : Nat) : ∀ (fuel : Nat) (st : HSeq) (cs : Nat) (h : Heap),
    (pRepLoop pv r max fuel st cs).run grow h = (hRepLoop grow ev r max fuel st cs h).bind fun x => .ok ((x.1, x.2.1), x.2.2)
  | 0, _, _, _ => rfl
  | fuel + 1, st, cs, h => by
    rw [pRepLoop, hRepLoop]
    go
    rw [run_ite]
    split
    · rfl
    · go
      rw [hv]
      cases ev r st.flag (h.newPre cs st.unused).1 (h.newPre cs st.unused).2 with
      | panic => rfl
      | oof => rfl
      | ok a =>
        simp only [ok_bind, ok_bind', pAccount_run]
        cases hAccount grow st.read st.unused a.1 a.2 with
        | panic => rfl
        | oof => rfl
        | ok x =>
          simp only [ok_bind, ok_bind']
          cases a.1.node with
          | none => rfl
          | some n =>
            simp only [run_ite]
            split
            · rfl
            · exact pRepLoop_run hv r max fuel _ _ _

theorem pRep_run (hv : Runs grow ev pv) (fuel : Nat) (b : RuleBase) (r : Rule) (min max : Nat) (flag : Int) (cs : Nat) :
    (pRep pv fuel b r min max flag cs).run grow h = hRep grow ev fuel b r min max flag cs h := by
  rw [pRep, hRep, run_bind, pRepLoop_run hv]
  cases hRepLoop grow ev r max fuel { flag := flag } cs h with
  | panic => rfl
  | oof => rfl
  | ok x =>
    simp only [ok_bind, ok_bind']
    go
    rw [run_ite]
    split <;> rfl

/-! ### Choices -/

theorem pGroupLoop_run (hv : Runs grow ev pv) (flag : Int) (cs : Nat) : ∀ (rs : List Rule) (st : HChoice) (h : Heap),
    (pGroupLoop pv flag cs rs st).run grow h = (hGroupLoop ev flag cs rs st h).bind fun x => .ok ((x.1, x.2.1), x.2.2)
  | [], _, _ => rfl
  | r :: rs, st, h => by
    rw [pGroupLoop, hGroupLoop]
    go
    rw [hv]
    cases ev r flag (h.newPre cs st.read).1 (h.newPre cs st.read).2 with
    | panic => rfl
    | oof => rfl
    | ok a =>
      simp only [ok_bind, ok_bind']
      cases a.1.node with
      | some n =>
        simp only [run_bind, pGroupLoop_run hv flag cs rs]
        cases hGroupLoop ev flag cs rs _ a.2 <;> rfl
      | none =>
        simp only [run_ite]
        split
        · exact pGroupLoop_run hv flag cs rs _ _
        · exact pGroupLoop_run hv flag cs rs _ _

mutual
theorem pView_run (n : HNode) (h : Heap) : (pView n).run grow h = .ok (n.view h, h) := by
  match n with
  | ⟨rt, nm, ch, cs, p, st, v, nd, tk⟩ =>
    rw [pView, HNode.view]
    go
    rw [pViewL_run cs h]
    rfl
theorem pViewL_run (ns : List HNode) (h : Heap) : (pViewL ns).run grow h = .ok (viewL h ns, h) := by
  match ns with
  | [] => rw [pViewL, viewL]; rfl
  | n :: ns =>
    rw [pViewL, viewL, run_bind, pView_run n h, ok_bind, run_bind, pViewL_run ns h]
    rfl
end

theorem pShow_run (r : HRes) : (pShow r).run grow h = .ok (r.view h, h) := by
  unfold pShow HRes.view
  cases r.node with
  | none => rfl
  | some n =>
    simp only [run_bind, pView_run, ok_bind, run_pure]
    rfl

theorem pChoiceLoop_run (hv : Runs grow ev pv) (self : Rule) (flag : Int) (cs : Nat) : ∀ (gs : List (List Rule)) (st : HChoice) (h : Heap),
    (pChoiceLoop pv self flag cs gs st).run grow h = hChoiceLoop ev self flag cs gs st h
  | [], _, _ => rfl
  | g :: gs, st, h => by
    rw [pChoiceLoop, hChoiceLoop, run_bind, pGroupLoop_run hv]
    cases hGroupLoop ev flag cs g st h with
    | panic => rfl
    | oof => rfl
    | ok x =>
      simp only [ok_bind, ok_bind']
      cases hPick x.1 with
      | none => exact pChoiceLoop_run hv self flag cs gs _ _
      | ambiguous y z =>
        simp only [run_bind, pShow_run, ok_bind]
        rfl
      | found r =>
        simp only [run_bind, run_lift]
        cases x.2.1.read.fromIdx r.countUsed <;> rfl

theorem pGreedyLoop_run (hv : Runs grow ev pv) (flag : Int) (cs : Nat) : ∀ (rs : List Rule) (maxRead : Slice) (h : Heap),
    (pGreedyLoop pv flag cs rs maxRead).run grow h = (hGreedyLoop ev flag cs rs maxRead h).bind fun x => .ok ((x.1, x.2.1), x.2.2)
  | [], _, _ => rfl
  | r :: rs, maxRead, h => by
    rw [pGreedyLoop, hGreedyLoop]
    go
    rw [hv]
    cases ev r flag (h.newPre cs maxRead).1 (h.newPre cs maxRead).2 with
    | panic => rfl
    | oof => rfl
    | ok a =>
      simp only [ok_bind, ok_bind', pGreedyLoop_run hv flag cs rs]
      cases hGreedyLoop ev flag cs rs _ a.2 with
      | panic => rfl
      | oof => rfl
      | ok x =>
        simp only [ok_bind, ok_bind']
        cases a.1.node <;> rfl

theorem pMostGreedy_run (hv : Runs grow ev pv) (flag : Int) (rs : List Rule) (cs : Nat) :
    (pMostGreedy pv flag rs cs).run grow h = hMostGreedy ev flag rs cs h := by
  rw [pMostGreedy, hMostGreedy, run_bind, pGreedyLoop_run hv]
  cases hGreedyLoop ev flag cs rs {} h with
  | panic => rfl
  | oof => rfl
  | ok x =>
    simp only [ok_bind, ok_bind']
    cases hPick x.1 with
    | none => rfl
    | ambiguous y z =>
      simp only [run_bind, pShow_run, ok_bind]
      rfl
    | found r =>
      simp only [run_bind, run_lift]
      cases x.2.1.fromIdx r.countUsed <;> rfl

/-! ### Blocks -/

theorem pEscape_run (hv : Runs grow ev pv) (escape : Option Rule) (st : HBlock) (cs : Nat) :
    (pEscape pv escape st cs).run grow h
      = (hEscape grow ev escape st cs h).bind fun x => .ok ((x.1, x.2.1, x.2.2.1, x.2.2.2.1), x.2.2.2.2) := by
  unfold pEscape hEscape
  cases escape with
  | none => rfl
  | some e =>
    simp only [run_bind]
    rw [hv]
    cases ev e NOT_SKIP cs h with
    | panic => rfl
    | oof => rfl
    | ok a =>
      simp only [ok_bind, ok_bind', run_ite]
      split
      · simp only [run_bind, run_lift]
        cases a.1.charsUsed <;> rfl
      · rfl

theorem pExclude_run (hv : Runs grow ev pv) (excludes : List Rule) (cs : Nat) :
    (pExclude pv excludes cs).run grow h = hExclude ev excludes cs h := by
  unfold pExclude hExclude
  rw [run_ite]
  split
  · simp only [run_bind, pMostGreedy_run h hv]
    cases hMostGreedy ev NOT_SKIP excludes cs h <;> rfl
  · rfl

theorem pBlockLoop_run (hv : Runs grow ev pv) (close : Rule) (escape : Option Rule) (excludes : List Rule) :
    ∀ (fuel : Nat) (st : HBlock) (cs : Nat) (h : Heap),
      (pBlockLoop pv close escape excludes fuel st cs).run grow h = hBlockLoop grow ev close escape excludes fuel st cs h
  | 0, _, _, _ => rfl
  | fuel + 1, st, cs, h => by
    have ih := pBlockLoop_run hv close escape excludes fuel
    rw [pBlockLoop, hBlockLoop]
    simp only [run_bind]
    rw [pEscape_run h hv]
    cases hEscape grow ev escape st cs h with
    | panic => rfl
    | oof => rfl
    | ok e =>
      obtain ⟨escaped, chars, used, u1, h⟩ := e
      simp only [ok_bind, ok_bind', newPre_run]
      rw [pExclude_run _ hv]
      cases hExclude ev excludes (h.newPre cs u1).1 (h.newPre cs u1).2 with
      | panic => rfl
      | oof => rfl
      | ok x =>
        obtain ⟨rx, h⟩ := x
        simp only [ok_bind, ok_bind']
        split <;> rename_i eq
        · simp only [eq, run_bind, run_lift]
          rename_i rx
          cases rx.charsUsed with
          | panic => rfl
          | oof => rfl
          | ok c =>
            simp only [ok_bind, ok_bind', run_ite]
            split
            · simp only [run_bind, appS_run, ok_bind]
              exact ih _ _ _
            · rfl
        · simp only [eq]
          rcases rx with _ | rx <;> simp only [run_bind, newPre_run, ok_bind] <;> rw [hv]
          all_goals
           generalize ev close NOT_SKIP _ _ = z
           cases z with
           | panic => rfl
           | oof => rfl
           | ok y =>
            obtain ⟨rc, h⟩ := y
            simp only [ok_bind, ok_bind']
            cases rc.node with
            | some n =>
              simp only [run_bind, run_lift]
              cases rc.charsUsed with
              | panic => rfl
              | oof => rfl
              | ok c =>
                simp only [ok_bind, ok_bind', run_ite]
                split
                · simp only [run_bind, appS_run, ok_bind]
                  exact ih _ _ _
                · rfl
            | none =>
              simp only [run_bind, appS_run, newPre_run, peek_run, ok_bind, run_ite]
              split
              · rfl
              · simp only [next_run, app_run, ok_bind]
                exact ih _ _ _

theorem pBlock_run (hv : Runs grow ev pv) (fuel : Nat) (b : RuleBase) (opn : Rule) (v : Bool) (close : Rule) (escape : Option Rule)
    (excludes : List Rule) (flag : Int) (cs : Nat) :
    (pBlock pv fuel b opn v close escape excludes flag cs).run grow h = hBlock grow ev fuel b opn v close escape excludes flag cs h := by
  rw [pBlock, hBlock, run_bind, hv]
  cases ev opn flag cs h with
  | panic => rfl
  | oof => rfl
  | ok a =>
    obtain ⟨ro, h⟩ := a
    simp only [ok_bind, ok_bind']
    cases ro.node with
    | none => simp only [run_bind, cursor_run, ok_bind]; rfl
    | some n =>
      simp only [run_bind, run_lift]
      cases ro.charsUsed with
      | panic => rfl
      | oof => rfl
      | ok c =>
        simp only [ok_bind, ok_bind', appS_run, newPre_run, position_run]
        rw [pBlockLoop_run hv]
        generalize hBlockLoop grow ev close escape excludes fuel _ _ _ = z
        cases z with
        | panic => rfl
        | oof => rfl
        | ok y =>
          obtain ⟨e, h⟩ := y
          simp only [ok_bind, ok_bind']
          cases e with
          | excluded => simp only [run_bind, cursor_run, ok_bind]; rfl
          | eof => simp only [run_bind, cursor_run, ok_bind]; rfl
          | closed => rfl

/-! ### Evaluation -/

theorem pEval_runs (env : Env) : ∀ fuel, Runs grow (hEval grow env fuel) (pEval env fuel)
  | 0 => fun _ _ _ _ => rfl
  | fuel + 1 => by
    intro rule flag cs h
    have ih := pEval_runs env fuel
    cases rule with
    | eof b => exact pEOF_run h b flag cs
    | char b text l => exact pChar_run h b text flag cs
    | range b first fl last ll => exact pRange_run h b first last flag cs
    | chars b text => exact pChars_run h b text flag cs
    | str b text => exact pString_run h b text flag cs
    | group b r =>
      simp only [pEval, hEval, run_bind]
      rw [ih]
      cases hEval grow env fuel r flag cs h <;> rfl
    | option b r =>
      simp only [pEval, hEval, run_bind]
      rw [ih]
      cases hEval grow env fuel r flag cs h <;> rfl
    | rep b r mn mx => exact pRep_run h ih fuel b r mn mx flag cs
    | choice b groups => exact pChoiceLoop_run ih _ flag cs groups {} h
    | concat b rules => exact pConcat_run ih _ rules _ cs h
    | block b opn v close escape excludes => exact pBlock_run h ih fuel b opn v close escape excludes flag cs
    | ref b name =>
      simp only [pEval, hEval]
      cases env name with
      | none => rfl
      | some r =>
        simp only [run_bind]
        rw [ih]
        cases hEval grow env fuel r flag cs h <;> rfl

theorem pEvalRule_run (g : Grammar) (fuel : Nat) (name : Name) (sample : List Rune) :
    (pEvalRule g fuel name sample).run grow h = hEvalRule grow g fuel name sample h := by
  unfold pEvalRule hEvalRule
  cases g.getRecord name with
  | none => rfl
  | some r =>
    simp only [run_bind, newStream_run, ok_bind]
    exact pEval_runs _ _ _ _ _ _

theorem pEmbedLoop_run (env : Env) (fuel : Nat) (rule : Rule) : ∀ (n : Nat) (kids : List HNode) (text : Slice) (cs : Nat) (h : Heap),
    (pEmbedLoop env fuel rule n kids text cs).run grow h = hEmbedLoop grow env fuel rule n kids text cs h
  | 0, _, _, _, _ => rfl
  | n + 1, kids, text, cs, h => by
    rw [pEmbedLoop, hEmbedLoop, run_bind, pEval_runs]
    cases hEval grow env fuel rule NOT_SKIP cs h with
    | panic => rfl
    | oof => rfl
    | ok a =>
      simp only [ok_bind, ok_bind', run_bind, newPre_run]
      cases a.1.node with
      | none =>
        simp only [run_bind, next_run, ok_bind, run_ite]
        split
        · rfl
        · simp only [app_run, ok_bind]
          exact pEmbedLoop_run env fuel rule n _ _ _ _
      | some node => exact pEmbedLoop_run env fuel rule n _ _ _ _

theorem pEvalEmbed_run (g : Grammar) (fuel : Nat) (name : Name) (sample : List Rune) :
    (pEvalEmbed g fuel name sample).run grow h = hEvalEmbed grow g fuel name sample h := by
  unfold pEvalEmbed hEvalEmbed
  cases g.getRecord name with
  | none => rfl
  | some r =>
    simp only [run_bind, newStream_run, ok_bind, pEmbedLoop_run]
    generalize hEmbedLoop grow g.env fuel r.rule fuel _ _ _ _ = z
    cases z <;> rfl

theorem pRootsLoop_run (env : Env) (fuel : Nat) (flag : Int) : ∀ (rs : List Record) (maxRead : Slice) (cs : Nat) (h : Heap),
    (pRootsLoop env fuel flag rs maxRead cs).run grow h
      = (hRootsLoop grow env fuel flag rs maxRead cs h).bind fun x => .ok ((x.1, x.2.1), x.2.2)
  | [], _, _, _ => rfl
  | r :: rs, maxRead, cs, h => by
    rw [pRootsLoop, hRootsLoop]
    simp only [run_bind, newPre_run, ok_bind]
    rw [pEval_runs]
    generalize hEval grow env fuel r.rule flag _ _ = z
    cases z with
    | panic => rfl
    | oof => rfl
    | ok a =>
      simp only [ok_bind, ok_bind', pRootsLoop_run env fuel flag rs]
      generalize hRootsLoop grow env fuel flag rs _ _ _ = z
      cases z <;> rfl

theorem pRawLoop_run (env : Env) (fuel : Nat) (roots : List Record) (o : Order) :
    ∀ (n i : Nat) (nodes : List HNode) (flag : Int) (unused : Slice) (cs : Nat) (h : Heap),
      (pRawLoop env fuel roots o n i nodes flag unused cs).run grow h = hRawLoop grow env fuel roots o n i nodes flag unused cs h
  | 0, _, _, _, _, _, _ => rfl
  | n + 1, i, nodes, flag, unused, cs, h => by
    rw [pRawLoop, hRawLoop]
    simp only [run_bind, newPre_run, peek_run, ok_bind, run_ite]
    split
    · rfl
    · simp only [pRootsLoop_run]
      generalize hRootsLoop grow env fuel flag _ _ _ _ = z
      cases z with
      | panic => rfl
      | oof => rfl
      | ok a =>
        simp only [ok_bind, ok_bind']
        cases hPick (select (o.matched i a.1.length) a.1) with
        | none => rfl
        | ambiguous y z => rfl
        | found r =>
          simp only [run_bind, run_lift]
          cases a.2.1.fromIdx r.countUsed with
          | panic => rfl
          | oof => rfl
          | ok u =>
            simp only [ok_bind, ok_bind']
            exact pRawLoop_run env fuel roots o n _ _ _ _ _ _

theorem pEvalRaw_run (g : Grammar) (fuel : Nat) (o : Order) (cs : Nat) :
    (pEvalRaw g fuel o cs).run grow h = hEvalRaw grow g fuel o cs h := by
  unfold pEvalRaw hEvalRaw
  simp only [run_bind, peek_run, ok_bind, run_ite, pRawLoop_run]
  rfl

/-! ### Trees -/

theorem pJoin_run (inBlock : Bool) (acc : Slice) (ps : Bool) (t : Slice) (ns : Bool) :
    (pJoin inBlock acc ps t ns).run grow h = .ok (hJoin grow inBlock acc ps t ns h) := by
  unfold pJoin hJoin
  simp only [run_bind, rd_run, ok_bind]
  cases (h.read acc).getLast? with
  | none => cases (h.read t).head? <;> rfl
  | some a =>
    cases (h.read t).head? with
    | none => rfl
    | some b =>
      simp only [run_ite]
      split <;> rfl

mutual
theorem pNodeText_run (n : HNode) (h : Heap) : (pNodeText n).run grow h = .ok (n.text grow h) := by
  match n with
  | ⟨rt, nm, ch, cs, p, st, v, nd, tk⟩ =>
    rw [pNodeText, HNode.text, run_ite]
    split
    · simp only [run_bind, rd_run, ok_bind, run_ite]
      split <;> rfl
    · exact pTextLoop_run _ _ _ cs h
theorem pTextLoop_run (inBlock : Bool) (acc : Slice) (ps : Bool) (ns : List HNode) (h : Heap) :
    (pTextLoop inBlock acc ps ns).run grow h = .ok (hTextLoop grow inBlock acc ps ns h) := by
  match ns with
  | [] => rw [pTextLoop, hTextLoop]; rfl
  | n :: ns =>
    rw [pTextLoop, hTextLoop, run_bind, pNodeText_run n h, ok_bind, run_bind, pJoin_run, ok_bind]
    exact pTextLoop_run _ _ _ ns _
end

theorem pAstText_run : ∀ (ns : List HNode) (acc : Slice) (h : Heap), (pAstText acc ns).run grow h = .ok (hAstText grow acc ns h)
  | [], _, _ => rfl
  | n :: ns, acc, h => by
    rw [pAstText, hAstText, run_bind, pNodeText_run, ok_bind, run_bind, appS_run, ok_bind]
    exact pAstText_run ns _ _

mutual
theorem pMergeSticky_run (n : HNode) (h : Heap) : (pMergeSticky n).run grow h = .ok (n.mergeSticky grow h) := by
  match n with
  | ⟨rt, nm, ch, cs, p, st, v, nd, tk⟩ =>
    rw [pMergeSticky, HNode.mergeSticky, run_ite]
    split
    · rfl
    · rw [run_ite]
      split
      · rw [run_bind, pMergeBlockL_run cs h]
        rfl
      · rw [run_bind, pMergeLoop_run [] none cs h]
        rfl
theorem pMergeBlockL_run (ns : List HNode) (h : Heap) : (pMergeBlockL ns).run grow h = .ok (hMergeBlockL grow ns h) := by
  match ns with
  | [] => rw [pMergeBlockL, hMergeBlockL]; rfl
  | n :: ns =>
    rw [pMergeBlockL, hMergeBlockL, run_bind, pMergeSticky_run n h, ok_bind, run_bind, pMergeBlockL_run ns]
    rfl
theorem pMergeLoop_run (out : List HNode) (prev : Option HNode) (ns : List HNode) (h : Heap) :
    (pMergeLoop out prev ns).run grow h = .ok (hMergeLoop grow out prev ns h) := by
  match ns with
  | [] =>
    cases prev <;> (rw [pMergeLoop.eq_def, hMergeLoop.eq_def]; rfl)
  | n :: ns =>
    rw [pMergeLoop.eq_def, hMergeLoop.eq_def]
    simp only [run_ite]
    split
    · rw [run_bind, pNodeText_run n h, ok_bind]
      cases prev with
      | none => exact pMergeLoop_run _ _ ns _
      | some p =>
        simp only [run_bind, appS_run, ok_bind]
        exact pMergeLoop_run _ _ ns _
    · rw [run_bind, pMergeSticky_run n h, ok_bind]
      cases prev with
      | none => exact pMergeLoop_run _ _ ns _
      | some p => exact pMergeLoop_run _ _ ns _
end

theorem pMergeStickyNodes_run (nodes : List HNode) : (pMergeStickyNodes nodes).run grow h = .ok (hMergeStickyNodes grow nodes h) := by
  unfold pMergeStickyNodes hMergeStickyNodes
  rw [run_ite]
  split
  · rfl
  · exact pMergeLoop_run _ _ _ _

theorem pSpliceUnnamed_run : ∀ (cs : List HNode) (h : Heap), (pSpliceUnnamed cs).run grow h = .ok (hSpliceUnnamed grow cs h)
  | [], _ => rfl
  | c :: cs, h => by
    rw [pSpliceUnnamed, hSpliceUnnamed, run_bind, pNodeText_run, ok_bind, run_bind, pSpliceUnnamed_run cs, ok_bind, run_pure]
    split
    · rfl
    · split <;> rfl

mutual
theorem pRemoveRedundant_run (n : HNode) (h : Heap) : (pRemoveRedundant n).run grow h = .ok (n.removeRedundant grow h) := by
  match n with
  | ⟨rt, nm, ch, cs, p, st, v, nd, tk⟩ =>
    rw [pRemoveRedundant, HNode.removeRedundant, run_ite]
    split
    · rfl
    · rw [run_bind, pRemoveRedundantL_run cs h, ok_bind, run_bind, pSpliceUnnamed_run, ok_bind]
      rfl
theorem pRemoveRedundantL_run (ns : List HNode) (h : Heap) : (pRemoveRedundantL ns).run grow h = .ok (hRemoveRedundantL grow ns h) := by
  match ns with
  | [] => rw [pRemoveRedundantL, hRemoveRedundantL]; rfl
  | n :: ns =>
    rw [pRemoveRedundantL, hRemoveRedundantL, run_bind, pRemoveRedundant_run n h, ok_bind, run_bind, pRemoveRedundantL_run ns]
    rfl
end

theorem pAstRemoveRedundant_run : ∀ (ns : List HNode) (h : Heap), (pAstRemoveRedundant ns).run grow h = .ok (hAstRemoveRedundant grow ns h)
  | [], _ => rfl
  | n :: ns, h => by
    rw [pAstRemoveRedundant, hAstRemoveRedundant, run_ite]
    split
    · simp only [run_bind, run_pure, ok_bind, pAstRemoveRedundant_run ns]
    · simp only [run_bind, run_pure, ok_bind, pRemoveRedundant_run, pAstRemoveRedundant_run ns]

theorem pSimplify_run (level : Int) (nodes : List HNode) : (pSimplify level nodes).run grow h = .ok (hSimplify grow level nodes h) := by
  unfold pSimplify hSimplify
  rw [run_ite]
  split
  · rfl
  · rw [run_bind, pMergeStickyNodes_run, ok_bind]
    exact pAstRemoveRedundant_run _ _

theorem pEvalAST_run (g : Grammar) (fuel : Nat) (o : Order) (cs : Nat) (level : Int) :
    (pEvalAST g fuel o cs level).run grow h = hEvalAST grow g fuel o cs level h := by
  rw [pEvalAST, hEvalAST, run_bind, pEvalRaw_run]
  cases hEvalRaw grow g fuel o cs h with
  | panic => rfl
  | oof => rfl
  | ok a =>
    obtain ⟨r, h⟩ := a
    cases r with
    | error e => rfl
    | ok nodes =>
      simp only [ok_bind, ok_bind', run_bind, pSimplify_run]
      rfl

end Xbnf.Par
