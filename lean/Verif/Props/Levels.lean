import Verif.Props.Redundant
import Verif.Model.Grammar
/-
C30: what the simplification levels of `Eval` do, and C45: text and marks of merged tokens.
-/
namespace Xbnf.Props
open Spec

/-! ### Marks are kept -/

/-- `p` only looks at the node itself, not at its text or children. -/
def OwnMark (p : Node → Prop) : Prop :=
  ∀ (n : Node) ch cs, p n → p { n with chars := ch, children := cs }

theorem everywhere_iff {p : Node → Prop} {n : Node} : Everywhere p n ↔
    p n ∧ ∀ c ∈ n.children, Everywhere p c :=
  ⟨fun h => ⟨h.self, h.children⟩, fun h => .mk h.1 h.2⟩

theorem promoteOnly_mark {p : Node → Prop} (hp : OwnMark p) {n : Node} (h : Everywhere p n) :
    Everywhere p (promoteOnly n) := by
  unfold promoteOnly
  split
  · rename_i c hc
    have hcc := h.children c (by rw [hc]; exact List.mem_cons_self)
    split
    · split
      · exact .mk (hp n _ _ h.self) fun c hc => (by cases hc)
      · exact .mk (hp n n.chars _ h.self) hcc.children
    · exact h
  · exact h

theorem splice_mark {p : Node → Prop} {cs : List Node} (h : ∀ c ∈ cs, Everywhere p c) :
    ∀ c ∈ spliceUnnamed cs, Everywhere p c := by
  induction cs with
  | nil => intro c hc; cases hc
  | cons d cs ih =>
    have ih := ih fun x hx => h x (List.mem_cons_of_mem _ hx)
    have hd := h d List.mem_cons_self
    intro c hc
    rw [spliceUnnamed] at hc
    split at hc
    · exact ih c hc
    · split at hc
      · rcases List.mem_append.1 hc with hc | hc
        · exact hd.children c hc
        · exact ih c hc
      · rcases List.mem_cons.1 hc with rfl | hc
        · exact hd
        · exact ih c hc

theorem promoteLeaf_mark {p : Node → Prop} (hp : OwnMark p) {n : Node} (h : Everywhere p n) :
    Everywhere p (promoteLeaf n) := by
  unfold promoteLeaf
  split
  · split
    · exact .mk (hp n _ _ h.self) fun c hc => (by cases hc)
    · exact h
  · exact h

theorem removeRedundant_mark {p : Node → Prop} (hp : OwnMark p) (n : Node) :
    Everywhere p n → Everywhere p n.removeRedundant := by
  induction n using node_ind with
  | h rt nm ch cs q st v nd tk ih =>
    intro h
    rw [removeRedundant_eq]
    split
    · exact h
    · apply promoteLeaf_mark hp
      have h1 : Everywhere p ⟨rt, nm, ch, cs.map Node.removeRedundant, q, st, v, nd, tk⟩ := by
        refine .mk (hp _ ch _ h.self) fun x hx => ?_
        obtain ⟨c, hc, rfl⟩ := List.mem_map.1 hx
        exact ih c hc (h.children c hc)
      have h2 := promoteOnly_mark hp h1
      exact .mk (hp _ _ _ h2.self) (splice_mark h2.children)

theorem astRemoveRedundant_mark {p : Node → Prop} (hp : OwnMark p) {ns : List Node}
    (h : ∀ n ∈ ns, Everywhere p n) : ∀ n ∈ astRemoveRedundant ns, Everywhere p n := by
  induction ns with
  | nil => intro n hn; cases hn
  | cons m ns ih =>
    intro n hn
    rw [astRemoveRedundant] at hn
    rcases List.mem_cons.1 hn with rfl | hn
    · split
      · exact h m List.mem_cons_self
      · exact removeRedundant_mark hp m (h m List.mem_cons_self)
    · exact ih (fun x hx => h x (List.mem_cons_of_mem _ hx)) n hn

theorem removeVirtualL_eq (ns : List Node) :
    removeVirtualL ns = (ns.filter (!·.virt)).map Node.removeVirtual := by
  induction ns with
  | nil => rfl
  | cons n ns ih =>
    rw [removeVirtualL, List.filter_cons]
    cases n.virt <;> simp [ih]

theorem removeNonDataL_eq (ns : List Node) :
    removeNonDataL ns = (ns.filter (!·.nonData)).map Node.removeNonData := by
  induction ns with
  | nil => rfl
  | cons n ns ih =>
    rw [removeNonDataL, List.filter_cons]
    cases n.nonData <;> simp [ih]

theorem removeVirtual_eq (n : Node) : n.removeVirtual = { n with children := removeVirtualL n.children } := by
  obtain ⟨rt, nm, ch, cs, q, st, v, nd, tk⟩ := n
  rw [Node.removeVirtual]

theorem removeNonData_eq (n : Node) : n.removeNonData = { n with children := removeNonDataL n.children } := by
  obtain ⟨rt, nm, ch, cs, q, st, v, nd, tk⟩ := n
  rw [Node.removeNonData]

theorem removeVirtual_mark {p : Node → Prop} (hp : ∀ (n : Node) cs, (n.children = [] → cs = []) →
      p n → p { n with children := cs }) (n : Node) :
    Everywhere p n → Everywhere p n.removeVirtual := by
  induction n using node_ind with
  | h rt nm ch cs q st v nd tk ih =>
    intro h
    rw [removeVirtual_eq, removeVirtualL_eq]
    refine .mk (hp _ _ (fun e => ?_) h.self) fun x hx => ?_
    · rw [e]; rfl
    · obtain ⟨c, hc, rfl⟩ := List.mem_map.1 hx
      exact ih c (List.mem_filter.1 hc).1 (h.children c (List.mem_filter.1 hc).1)

theorem removeNonData_mark {p : Node → Prop} (hp : ∀ (n : Node) cs, (n.children = [] → cs = []) →
      p n → p { n with children := cs }) (n : Node) :
    Everywhere p n → Everywhere p n.removeNonData := by
  induction n using node_ind with
  | h rt nm ch cs q st v nd tk ih =>
    intro h
    rw [removeNonData_eq, removeNonDataL_eq]
    refine .mk (hp _ _ (fun e => ?_) h.self) fun x hx => ?_
    · rw [e]; rfl
    · obtain ⟨c, hc, rfl⟩ := List.mem_map.1 hx
      exact ih c (List.mem_filter.1 hc).1 (h.children c (List.mem_filter.1 hc).1)

theorem removeVirtualL_mark {p : Node → Prop} (hp : ∀ (n : Node) cs, (n.children = [] → cs = []) →
      p n → p { n with children := cs }) {ns : List Node} (h : ∀ n ∈ ns, Everywhere p n) :
    ∀ n ∈ removeVirtualL ns, Everywhere p n := by
  intro x hx
  rw [removeVirtualL_eq] at hx
  obtain ⟨c, hc, rfl⟩ := List.mem_map.1 hx
  exact removeVirtual_mark hp c (h c (List.mem_filter.1 hc).1)

theorem removeNonDataL_mark {p : Node → Prop} (hp : ∀ (n : Node) cs, (n.children = [] → cs = []) →
      p n → p { n with children := cs }) {ns : List Node} (h : ∀ n ∈ ns, Everywhere p n) :
    ∀ n ∈ removeNonDataL ns, Everywhere p n := by
  intro x hx
  rw [removeNonDataL_eq] at hx
  obtain ⟨c, hc, rfl⟩ := List.mem_map.1 hx
  exact removeNonData_mark hp c (h c (List.mem_filter.1 hc).1)

theorem OwnMark.children {p : Node → Prop} (h : OwnMark p) (n : Node) (cs : List Node)
    (_ : n.children = [] → cs = []) (hn : p n) : p { n with children := cs } :=
  h n n.chars cs hn

theorem removeVirtual_none (n : Node) : ∀ c ∈ n.removeVirtual.children, Everywhere (·.virt = false) c := by
  induction n using node_ind with
  | h rt nm ch cs q st v nd tk ih =>
    intro x hx
    rw [removeVirtual_eq, removeVirtualL_eq] at hx
    obtain ⟨c, hc, rfl⟩ := List.mem_map.1 hx
    obtain ⟨hc, hv⟩ := List.mem_filter.1 hc
    refine .mk ?_ (ih c hc)
    rw [removeVirtual_eq]; simpa using hv

theorem removeNonData_none (n : Node) : ∀ c ∈ n.removeNonData.children, Everywhere (·.nonData = false) c := by
  induction n using node_ind with
  | h rt nm ch cs q st v nd tk ih =>
    intro x hx
    rw [removeNonData_eq, removeNonDataL_eq] at hx
    obtain ⟨c, hc, rfl⟩ := List.mem_map.1 hx
    obtain ⟨hc, hv⟩ := List.mem_filter.1 hc
    refine .mk ?_ (ih c hc)
    rw [removeNonData_eq]; simpa using hv

theorem removeVirtualL_none (ns : List Node) : ∀ c ∈ removeVirtualL ns, Everywhere (·.virt = false) c := by
  have := removeVirtual_none { ruleType := .group, children := ns }
  rwa [removeVirtual_eq] at this

theorem removeNonDataL_none (ns : List Node) :
    ∀ c ∈ removeNonDataL ns, Everywhere (·.nonData = false) c := by
  have := removeNonData_none { ruleType := .group, children := ns }
  rwa [removeNonData_eq] at this

theorem countStickyL_zero {ns : List Node} (h : countStickyL ns = 0) : ∀ n ∈ ns, n.countSticky = 0 := by
  induction ns with
  | nil => intro n hn; cases hn
  | cons m ns ih =>
    rw [countStickyL] at h
    intro n hn
    rcases List.mem_cons.1 hn with rfl | hn
    · omega
    · exact ih (by omega) n hn

theorem countSticky_everywhere (n : Node) : n.countSticky = 0 → Everywhere (·.sticky = false) n := by
  induction n using node_ind with
  | h rt nm ch cs q st v nd tk ih =>
    intro h
    rw [countSticky_eq] at h
    simp only at h
    have h0 : countStickyL cs = 0 := by omega
    refine .mk ?_ fun c hc => ih c hc (countStickyL_zero h0 c hc)
    cases st with
    | false => rfl
    | true => simp at h

theorem merge_none (ns : List Node) : ∀ n ∈ mergeStickyNodes ns, Everywhere (·.sticky = false) n :=
  fun n hn => countSticky_everywhere n (countStickyL_zero (C28_no_sticky ns) n hn)

theorem own_virt : OwnMark (·.virt = false) := fun _ _ _ h => h
theorem own_nonData : OwnMark (·.nonData = false) := fun _ _ _ h => h
theorem own_sticky : OwnMark (·.sticky = false) := fun _ _ _ h => h

/-! ### C30 -/

/-- The level `-1` leaves the tree as it is. -/
theorem C30_raw (ns : List Node) : Grammar.simplify (-1) ns = ns := rfl

/-- At every other level no node is sticky. -/
theorem C30_no_sticky (level : Int) (h : level ≠ -1) (ns : List Node) :
    ∀ n ∈ Grammar.simplify level ns, Everywhere (·.sticky = false) n := by
  unfold Grammar.simplify
  rw [if_neg h]
  apply astRemoveRedundant_mark own_sticky
  split
  · exact removeNonDataL_mark own_sticky.children (removeVirtualL_mark own_sticky.children (merge_none ns))
  · split
    · exact removeVirtualL_mark own_sticky.children (merge_none ns)
    · exact merge_none ns

/-- At the levels 1 and 2 no node is virtual. -/
theorem C30_no_virtual (level : Int) (h : level = 1 ∨ level = 2) (ns : List Node) :
    ∀ n ∈ Grammar.simplify level ns, Everywhere (·.virt = false) n := by
  unfold Grammar.simplify
  rw [if_neg (by rcases h with rfl | rfl <;> decide)]
  apply astRemoveRedundant_mark own_virt
  rcases h with rfl | rfl
  · exact removeVirtualL_none _
  · exact removeNonDataL_mark own_virt.children (removeVirtualL_none _)

/-- At level 2 no node is nondata. -/
theorem C30_no_nondata (ns : List Node) :
    ∀ n ∈ Grammar.simplify 2 ns, Everywhere (·.nonData = false) n :=
  astRemoveRedundant_mark own_nonData (removeNonDataL_none _)

/-- `Eval` returns the simplified tree `EvalRaw` returns, with the same errors, and leaves the stream
as `EvalRaw` does. -/
theorem C30_eval {g : Grammar} {fuel : Nat} {sch : Grammar.Sched} {s s' : Stream} {level : Int}
    {r : Except Grammar.RawErr (List Node)} (h : g.evalAST fuel sch s level = .ok (r, s')) :
    ∃ raw, g.evalRaw fuel sch s = .ok (raw, s') ∧
      match raw with
      | .error e => r = .error e
      | .ok ns => r = .ok (Grammar.simplify level ns) := by
  unfold Grammar.evalAST at h
  cases hr : g.evalRaw fuel sch s with
  | oof => rw [hr] at h; cases h
  | panic => rw [hr] at h; cases h
  | ok x =>
    obtain ⟨raw, s1⟩ := x
    rw [hr] at h
    cases h
    exact ⟨raw, rfl, by cases raw <;> rfl⟩

/-- What the user of `Eval` sees. -/
theorem C30_levels {g : Grammar} {fuel : Nat} {sch : Grammar.Sched} {s s' : Stream} {level : Int}
    {ns : List Node} (h : g.evalAST fuel sch s level = .ok (.ok ns, s')) :
    (level ≠ -1 → ∀ n ∈ ns, Everywhere (·.sticky = false) n) ∧
    (level = 1 ∨ level = 2 → ∀ n ∈ ns, Everywhere (·.virt = false) n) ∧
    (level = 2 → ∀ n ∈ ns, Everywhere (·.nonData = false) n) ∧
    (level = -1 → g.evalRaw fuel sch s = .ok (.ok ns, s')) := by
  obtain ⟨raw, hr, hm⟩ := C30_eval h
  cases raw with
  | error e => cases hm
  | ok ms =>
    cases hm
    exact ⟨fun hl => C30_no_sticky level hl ms, fun hl => C30_no_virtual level hl ms,
      fun hl => by rw [hl]; exact C30_no_nondata ms, fun hl => by rw [hl]; exact hr⟩

/-- Non-vacuity: the three levels on one tree. -/
example : (chainsL (Grammar.simplify 0 sampleTree)).map (·.map (·.name)) =
    [[runes "a"], [[]], [[], runes "c"], [[], runes "d"], [[], runes "e"]] := by decide +kernel
example : (chainsL (Grammar.simplify 1 sampleTree)).map (·.map (·.name)) =
    [[runes "a"], [[]], [[], runes "d"], [[], runes "e"]] := by decide +kernel
example : (chainsL (Grammar.simplify 2 sampleTree)).map (·.map (·.name)) =
    [[runes "a"], [[]], [[], runes "e"]] := by decide +kernel

/-! ### Text at level 0 -/

/-- The trees rules allow have characters at their leaves only. -/
theorem _root_.Xbnf.Spec.Conforms.leafy {env : Rules} {inR : Rune → Rune → Rune → Prop} {r : Rule} {n : Node}
    (h : Conforms env inR r n) : Leafy n := by
  have hleaf : ∀ {t : List Rune} {n : Node}, Leaf t n → Leafy n := fun h =>
    leafy_iff.2 ⟨.inr h.children, by rw [h.children]; intro c hc; cases hc⟩
  have hinner : ∀ {ms : List Node} {n : Node}, Inner ms n → (∀ m ∈ ms, Leafy m) → Leafy n := fun h hm =>
    leafy_iff.2 ⟨.inl h.chars, by rw [h.children]; exact hm⟩
  have one : ∀ {m : Node}, Leafy m → ∀ x ∈ [m], Leafy x := fun h x hx => by
    rw [List.mem_singleton.1 hx]; exact h
  induction h with
  | eof _ _ hl => exact hleaf hl
  | char _ hl => exact hleaf hl
  | range _ hl => exact hleaf hl
  | chars _ hl => exact hleaf hl
  | str _ hl => exact hleaf hl
  | group _ hi _ ih => exact hinner hi (one ih)
  | absent _ hi => exact hinner hi fun m hm => (by cases hm)
  | present _ hi _ ih => exact hinner hi (one ih)
  | rep _ hi _ _ _ ih => exact hinner hi ih
  | choice _ hi _ _ _ ih => exact hinner hi (one ih)
  | @concat b rs n ms _ hi hlen _ ih =>
    refine hinner hi fun m hm => ?_
    obtain ⟨i, hi, rfl⟩ := List.mem_iff_getElem.1 hm
    refine ih (rs[i]'(by omega), ms[i]) ?_
    have : (rs.zip ms)[i]'(by simp; omega) = (rs[i]'(by omega), ms[i]) := by simp
    rw [← this]
    exact List.getElem_mem _
  | block _ hi _ _ _ hl _ _ iho ihc =>
    refine hinner hi fun m hm => ?_
    rcases List.mem_append.1 hm with hm | hm
    · rcases List.mem_cons.1 hm with rfl | hm
      · exact iho
      · rw [List.mem_singleton.1 hm]; exact hleaf hl
    · exact ihc m hm
  | @ref b name r n m _ _ hf ih =>
    have := leafy_iff.1 ih
    exact leafy_iff.2 ⟨by rw [hf.chars, hf.children]; exact this.1, by rw [hf.children]; exact this.2⟩

theorem merge_leafy (ns : List Node) (h : ∀ n ∈ ns, Leafy n) : ∀ n ∈ mergeStickyNodes ns, Leafy n := by
  refine merged_ind (P := fun n m => Leafy n → Leafy m)
    (Q := fun ns ms => (∀ n ∈ ns, Leafy n) → ∀ m ∈ ms, Leafy m)
    (R := fun ns ms => (∀ n ∈ ns, Leafy n) → ∀ m ∈ ms, Leafy m)
    (fun _ h => h)
    (fun {n cs} hc _ h hn => leafy_iff.2 ⟨?_, h (leafy_iff.1 hn).2⟩)
    (fun {n cs} hc _ h hn => leafy_iff.2 ⟨?_, h (leafy_iff.1 hn).2⟩)
    (fun h => h)
    (fun {n m ns ms} h hs hn => ?_)
    (fun h => h)
    (fun {n m ns ms} _ _ h hs hn => ?_)
    (fun {n run ns ms} _ _ _ hs hn => ?_)
    (C28_merge ns) h
  · exact .inl ((leafy_iff.1 hn).1.resolve_right hc)
  · exact .inl ((leafy_iff.1 hn).1.resolve_right hc)
  · intro x hx
    rcases List.mem_cons.1 hx with rfl | hx
    · have := leafy_iff.1 (h (hn n List.mem_cons_self))
      exact leafy_iff.2 this
    · exact hs (fun y hy => hn y (List.mem_cons_of_mem _ hy)) x hx
  · intro x hx
    rcases List.mem_cons.1 hx with rfl | hx
    · exact h (hn n List.mem_cons_self)
    · exact hs (fun y hy => hn y (List.mem_cons_of_mem _ hy)) x hx
  · intro x hx
    rcases List.mem_cons.1 hx with rfl | hx
    · exact leafy_iff.2 ⟨.inr rfl, fun c hc => (by cases hc)⟩
    · exact hs (fun y hy => hn y (List.mem_append_right _ hy)) x hx

theorem astRemoveRedundant_yield {ns : List Node} (h : ∀ n ∈ ns, Leafy n) :
    yieldL (astRemoveRedundant ns) = yieldL ns ∧ namedL (astRemoveRedundant ns) = namedL ns := by
  induction ns with
  | nil => exact ⟨rfl, rfl⟩
  | cons n ns ih =>
    have ih := ih fun x hx => h x (List.mem_cons_of_mem _ hx)
    have hn := C29_kept n (h n List.mem_cons_self)
    rw [astRemoveRedundant, yieldL, yieldL, namedL, namedL, ih.1, ih.2]
    split
    · exact ⟨rfl, rfl⟩
    · rw [hn.1, hn.2]; exact ⟨rfl, rfl⟩

/-- The same for an AST: `AST.RemoveRedundantNodes` keeps characters and named nodes. -/
theorem C29_ast (ns : List Node) (h : ∀ n ∈ ns, Leafy n) :
    yieldL (astRemoveRedundant ns) = yieldL ns ∧ namedL (astRemoveRedundant ns) = namedL ns :=
  astRemoveRedundant_yield h

/-- Simplifying without removing virtual or nondata nodes keeps the text apart from white space, for
trees as the parser builds them. -/
theorem C30_basic_text (level : Int) (h1 : level ≠ 1) (h2 : level ≠ 2) (ns : List Node)
    (h : ∀ n ∈ ns, Leafy n) : solid (astText (Grammar.simplify level ns)) = solid (astText ns) := by
  unfold Grammar.simplify
  split
  · rfl
  · simp only
    rw [← (astText_spaced _).solid, (astRemoveRedundant_yield (merge_leafy ns h)).1,
      ← (C28_characters ns).solid, (astText_spaced _).solid]

/-! ### C45 -/

theorem removeVirtual_id (n : Node) : Everywhere (·.virt = false) n → n.removeVirtual = n := by
  induction n using node_ind with
  | h rt nm ch cs q st v nd tk ih =>
    intro h
    have hc : removeVirtualL cs = cs := by
      rw [removeVirtualL_eq, List.filter_eq_self.2 fun c hc => by simp [(h.children c hc).self]]
      conv => rhs; rw [← List.map_id cs]
      exact List.map_congr_left fun c hc => ih c hc (h.children c hc)
    rw [removeVirtual_eq, hc]

theorem removeNonData_id (n : Node) : Everywhere (·.nonData = false) n → n.removeNonData = n := by
  induction n using node_ind with
  | h rt nm ch cs q st v nd tk ih =>
    intro h
    have hc : removeNonDataL cs = cs := by
      rw [removeNonDataL_eq, List.filter_eq_self.2 fun c hc => by simp [(h.children c hc).self]]
      conv => rhs; rw [← List.map_id cs]
      exact List.map_congr_left fun c hc => ih c hc (h.children c hc)
    rw [removeNonData_eq, hc]

theorem removeVirtualL_id {ns : List Node} (h : ∀ n ∈ ns, Everywhere (·.virt = false) n) :
    removeVirtualL ns = ns := by
  have := removeVirtual_id { ruleType := .group, children := ns } (.mk rfl h)
  rw [removeVirtual_eq] at this
  exact congrArg Node.children this

theorem removeNonDataL_id {ns : List Node} (h : ∀ n ∈ ns, Everywhere (·.nonData = false) n) :
    removeNonDataL ns = ns := by
  have := removeNonData_id { ruleType := .group, children := ns } (.mk rfl h)
  rw [removeNonData_eq] at this
  exact congrArg Node.children this

theorem removeVirtualL_append (a b : List Node) :
    removeVirtualL (a ++ b) = removeVirtualL a ++ removeVirtualL b := by
  simp [removeVirtualL_eq]

theorem removeNonDataL_append (a b : List Node) :
    removeNonDataL (a ++ b) = removeNonDataL a ++ removeNonDataL b := by
  simp [removeNonDataL_eq]

theorem yieldL_singleton (n : Node) : yieldL [n] = yield n := by simp [yieldL]

/-- A filter on nodes and what it leaves of the children; stands for the removal of virtual and of
nondata nodes. -/
structure Removal where
  mark : Node → Bool
  one : Node → Node
  all : List Node → List Node
  one_eq : ∀ n, one n = { n with children := all n.children }
  all_eq : ∀ ns, all ns = (ns.filter (fun n => !mark n)).map one
  own : ∀ (n : Node) ch cs b, mark { n with chars := ch, children := cs, sticky := b } = mark n
  id : ∀ ns, (∀ n ∈ ns, Everywhere (fun m => mark m = false) n) → all ns = ns

/-- The removal of virtual nodes. -/
def virtualRemoval : Removal :=
  ⟨(·.virt), Node.removeVirtual, removeVirtualL, removeVirtual_eq, removeVirtualL_eq,
    fun _ _ _ _ => rfl, fun _ h => removeVirtualL_id h⟩

/-- The removal of nondata nodes. -/
def nonDataRemoval : Removal :=
  ⟨(·.nonData), Node.removeNonData, removeNonDataL, removeNonData_eq, removeNonDataL_eq,
    fun _ _ _ _ => rfl, fun _ h => removeNonDataL_id h⟩

theorem Removal.yield_one (f : Removal) {n m : Node} (hc : m.chars = n.chars)
    (h : Spaced (yieldL (f.all n.children)) (yieldL (f.all m.children))) :
    Spaced (yield (f.one n)) (yield (f.one m)) := by
  rw [f.one_eq, f.one_eq, yield_eq, yield_eq]
  simp only [hc]
  split
  · exact h
  · exact .refl _

theorem Removal.yield_cons (f : Removal) {n m : Node} {ns ms : List Node} (hv : f.mark m = f.mark n)
    (h : Spaced (yield (f.one n)) (yield (f.one m))) (hs : Spaced (yieldL (f.all ns)) (yieldL (f.all ms))) :
    Spaced (yieldL (f.all (n :: ns))) (yieldL (f.all (m :: ms))) := by
  rw [f.all_eq] at hs ⊢
  rw [f.all_eq] at hs
  rw [f.all_eq, List.filter_cons, List.filter_cons, hv]
  cases f.mark n with
  | true => simpa using hs
  | false =>
    simp only [Bool.not_false, if_true, List.map_cons, yieldL]
    exact h.append hs

theorem Removal.merge (f : Removal) (ns : List Node) (h : ∀ n ∈ ns, StickyWithout f.mark n) :
    Spaced (yieldL (f.all ns)) (yieldL (f.all (mergeStickyNodes ns))) := by
  refine merged_ind
    (P := fun n m => f.mark m = f.mark n ∧ (StickyWithout f.mark n → Spaced (yield (f.one n)) (yield (f.one m))))
    (Q := fun ns ms => (∀ n ∈ ns, StickyWithout f.mark n) → Spaced (yieldL (f.all ns)) (yieldL (f.all ms)))
    (R := fun ns ms => (∀ n ∈ ns, StickyWithout f.mark n) → Spaced (yieldL (f.all ns)) (yieldL (f.all ms)))
    (fun _ => ⟨rfl, fun _ => .refl _⟩)
    (fun {n cs} _ _ h => ⟨f.own n _ _ _, fun hn => f.yield_one rfl (h hn.children)⟩)
    (fun {n cs} _ _ h => ⟨f.own n n.chars _ n.sticky, fun hn => f.yield_one rfl (h hn.children)⟩)
    (fun _ => .refl _)
    (fun {n m ns ms} h hs hn => ?_)
    (fun _ => .refl _)
    (fun {n m ns ms} _ _ h hs hn => ?_)
    (fun {n run ns ms} hn hr _ hs hst => ?_)
    (C28_merge ns) h
  · have h1 := h.2 (hn n List.mem_cons_self)
    refine f.yield_cons ((f.own m m.chars m.children false).trans h.1) ?_
      (hs fun x hx => hn x (List.mem_cons_of_mem _ hx))
    rw [f.one_eq m, yield_eq { m with children := _ }] at h1
    rw [f.one_eq { m with sticky := false }, yield_eq { ({ m with sticky := false } : Node) with children := _ }]
    exact h1
  · exact f.yield_cons h.1 (h.2 (hn n List.mem_cons_self)) (hs fun x hx => hn x (List.mem_cons_of_mem _ hx))
  · have hrun : ∀ x ∈ n :: run, Everywhere (fun m => f.mark m = false) x := by
      intro x hx
      refine (hst x (List.mem_append_left _ hx)).self ?_
      rcases List.mem_cons.1 hx with rfl | hx
      · exact hn
      · exact hr x hx
    have e1 : f.all (n :: run ++ ns) = (n :: run) ++ f.all ns := by
      have e0 := f.id _ hrun
      rw [f.all_eq] at e0
      rw [f.all_eq, f.all_eq, List.filter_append, List.map_append, e0]
    have e2 : ∀ (k : Node), f.mark k = false → k.children = [] → f.all (k :: ms) = k :: f.all ms := by
      intro k hk hc
      rw [f.all_eq, f.all_eq, List.filter_cons, hk]
      simp only [Bool.not_false, if_true, List.map_cons]
      rw [f.one_eq, hc, f.id [] fun x hx => (by cases hx), ← hc]
      cases k; rfl
    rw [e1, e2 _ ((f.own n _ _ _).trans (hrun n List.mem_cons_self).self) rfl, yieldL_append, yieldL.eq_2 (n := { n with chars := _, children := _, sticky := _ }),
      yield_eq { n with chars := _, children := _, sticky := _ }, leaf_yield (flatten_text_ne_eof _)]
    exact (flatten_text_spaced _).append (hs fun x hx => hst x (List.mem_append_right _ hx))

/-- Removing virtual nodes after merging leaves the same characters as removing them before, if no
sticky node is virtual or has a virtual node below it.  Missing for the full statement: virtual nodes
in a run of sticky nodes; see `C45_counterexample`. -/
theorem C45_virtual_partial (ns : List Node) (h : ∀ n ∈ ns, StickyWithout (·.virt) n) :
    Spaced (yieldL (removeVirtualL ns)) (yieldL (removeVirtualL (mergeStickyNodes ns))) :=
  virtualRemoval.merge ns h

/-- The same for nondata nodes. -/
theorem C45_nonData_partial (ns : List Node) (h : ∀ n ∈ ns, StickyWithout (·.nonData) n) :
    Spaced (yieldL (removeNonDataL ns)) (yieldL (removeNonDataL (mergeStickyNodes ns))) :=
  nonDataRemoval.merge ns h

/-- Non-vacuity: no sticky node of this tree is virtual, there is something to merge and something to
remove. -/
example : (∀ n ∈ sampleTree.drop 2, StickyWithout (·.virt) n) ∧
    countStickyL (sampleTree.drop 2) = 1 ∧
    yieldL (removeVirtualL (sampleTree.drop 2)) = runes "de" ∧
    yieldL (sampleTree.drop 2) = runes "cde" := by
  refine ⟨?_, by decide +kernel, by decide +kernel, by decide +kernel⟩
  have leaf : ∀ n : Node, n.children = [] → n.virt = false ∨ n.sticky = false → StickyWithout (·.virt) n :=
    fun n h1 h2 => .mk (fun hs => .mk (by rcases h2 with h | h; exact h; rw [h] at hs; cases hs)
      (by rw [h1]; intro c hc; cases hc)) (by rw [h1]; intro c hc; cases hc)
  intro n hn
  simp only [sampleTree, List.drop_succ_cons, List.drop_zero, List.mem_cons, List.not_mem_nil, or_false] at hn
  subst hn
  refine .mk (fun h => by cases h) ?_
  intro c hc
  simp only [List.mem_cons, List.not_mem_nil, or_false] at hc
  rcases hc with rfl | rfl | rfl
  · exact leaf _ rfl (by decide)
  · exact leaf _ rfl (by decide)
  · refine .mk (fun h => by cases h) ?_
    intro c hc
    simp only [List.mem_cons, List.not_mem_nil, or_false] at hc
    subst hc
    exact leaf _ rfl (by decide)

/-- A merged token takes the marks of its first node: text that is not virtual is lost with a virtual
first node, and virtual text stays with a first node that is not. -/
theorem C45_counterexample :
    (∃ ns : List Node, astText (removeVirtualL ns) = runes "b" ∧
      astText (Grammar.simplify 1 ns) = []) ∧
    (∃ ns : List Node, astText (removeVirtualL ns) = runes "a" ∧
      astText (Grammar.simplify 1 ns) = runes "ab") :=
  ⟨⟨[{ ruleType := .char, chars := [97], sticky := true, virt := true },
      { ruleType := .char, chars := [98], sticky := true }], by decide +kernel, by decide +kernel⟩,
    ⟨[{ ruleType := .char, chars := [97], sticky := true },
      { ruleType := .char, chars := [98], sticky := true, virt := true }],
      by decide +kernel, by decide +kernel⟩⟩

end Xbnf.Props
