import Verif.Lemmas.PredictiveRun
import Verif.Props.Terminate
import Verif.Spec.Document
/-
What the certificates of Spec/Predictive.lean say: no left recursion, no repetition of nothing, shapes
that are right.
-/
namespace Xbnf.Props
open Spec

/-! ### Rules that can match nothing -/

theorem nulAny_iff {N : List Name} {rs : List Rule} : nulAny N rs = true ↔ ∃ r ∈ rs, nulB N r = true := by
  induction rs with
  | nil => simp [nulAny]
  | cons r rs ih => simp [nulAny, ih]

theorem nulSome_iff {N : List Name} {gs : List (List Rule)} : nulSome N gs = true ↔ ∃ g ∈ gs, ∃ r ∈ g, nulB N r = true := by
  induction gs with
  | nil => simp [nulSome]
  | cons g gs ih => simp only [nulSome, Bool.or_eq_true, nulAny_iff, ih, List.mem_cons, exists_eq_or_imp]

theorem nulAll_iff {N : List Name} {rs : List Rule} : nulAll N rs = true ↔ ∀ r ∈ rs, nulB N r = true := by
  induction rs with
  | nil => simp [nulAll]
  | cons r rs ih => simp [nulAll, ih]

theorem nulB_of {env : Env} {N : List Name} (hN : ∀ name r, env name = some r → nulB N r = true → N.contains name = true)
    {r : Rule} (h : Nullable env r) : nulB N r = true := by
  induction h with
  | eof => simp [nulB]
  | chars => simp [nulB]
  | str => simp [nulB]
  | group _ ih => simpa [nulB] using ih
  | option => simp [nulB]
  | repZero => simp [nulB]
  | rep _ ih => simp [nulB, ih]
  | choice hg hr _ ih => rw [nulB, nulSome_iff]; exact ⟨_, hg, _, hr, ih⟩
  | concat _ ih => rw [nulB, nulAll_iff]; exact ih
  | block _ ih => simpa [nulB] using ih
  | ref hn _ ih => rw [nulB]; exact hN _ _ hn ih

/-! ### Left recursion -/

theorem mem_leftRefsL {N : List Name} {rs : List Rule} {m : Name} : m ∈ leftRefsL N rs ↔ ∃ r ∈ rs, m ∈ leftRefs N r := by
  induction rs with
  | nil => simp [leftRefsL]
  | cons r rs ih => simp [leftRefsL, ih]

theorem mem_leftRefsLL {N : List Name} {gs : List (List Rule)} {m : Name} :
    m ∈ leftRefsLL N gs ↔ ∃ g ∈ gs, ∃ r ∈ g, m ∈ leftRefs N r := by
  induction gs with
  | nil => simp [leftRefsLL]
  | cons g gs ih => simp only [leftRefsLL, List.mem_append, mem_leftRefsL, ih, List.mem_cons, exists_eq_or_imp]

theorem mem_leftRefsSeq {N : List Name} {rs1 rs2 : List Rule} {r : Rule} {m : Name} (h : ∀ r' ∈ rs1, nulB N r' = true)
    (hm : m ∈ leftRefs N r) : m ∈ leftRefsSeq N (rs1 ++ r :: rs2) := by
  induction rs1 with
  | nil => simp [leftRefsSeq, hm]
  | cons x rs1 ih =>
    rw [List.cons_append, leftRefsSeq, if_pos (h x List.mem_cons_self), List.mem_append]
    exact .inr (ih fun r' hr' => h r' (List.mem_cons_of_mem _ hr'))

/-- A rule evaluated at the same place begins with no other names. -/
theorem leftCall_refs {env : Env} {N : List Name}
    (hN : ∀ name r, env name = some r → nulB N r = true → N.contains name = true) {r r' : Rule} (h : LeftCall env r r') :
    (∃ b name, r = .ref b name ∧ env name = some r') ∨ ∀ m ∈ leftRefs N r', m ∈ leftRefs N r := by
  cases h with
  | ref hn => exact .inl ⟨_, _, rfl, hn⟩
  | group => right; intro m hm; simpa [leftRefs] using hm
  | option => right; intro m hm; simpa [leftRefs] using hm
  | rep => right; intro m hm; simpa [leftRefs] using hm
  | choice hg hr => right; intro m hm; rw [leftRefs, mem_leftRefsLL]; exact ⟨_, hg, _, hr, hm⟩
  | concat h =>
    right; intro m hm; rw [leftRefs]
    exact mem_leftRefsSeq (fun r' hr' => nulB_of hN (h r' hr')) hm
  | opn => right; intro m hm; rw [leftRefs, List.mem_append]; exact .inl hm
  | close h =>
    right; intro m hm
    rw [leftRefs, if_pos (nulB_of hN h)]
    simp [hm]
  | escape h =>
    right; intro m hm
    rw [leftRefs, if_pos (nulB_of hN h)]
    simp [leftRefsO, hm]
  | exclude h hx =>
    right; intro m hm
    rw [leftRefs, if_pos (nulB_of hN h)]
    simp only [List.mem_append]
    exact .inr (.inr (mem_leftRefsL.2 ⟨_, hx, hm⟩))

theorem acc_of_refs {env : Env} {N : List Name}
    (hN : ∀ name r, env name = some r → nulB N r = true → N.contains name = true) (r : Rule)
    (h : ∀ m ∈ leftRefs N r, ∀ r', env m = some r' → Acc (fun r' r => LeftCall env r r') r') :
    Acc (fun r' r => LeftCall env r r') r := by
  generalize hk : sizeOf r = k
  induction k using Nat.strongRecOn generalizing r with
  | ind k ih =>
    refine ⟨r, fun r' hc => ?_⟩
    rcases leftCall_refs hN hc with ⟨b, name, rfl, hn⟩ | hsub
    · exact h name (by simp [leftRefs]) r' hn
    · rcases leftCall_small hc with hlt | ⟨b, name, rfl, hn⟩
      · exact ih _ (by omega) r' (fun m hm => h m (hsub m hm)) rfl
      · exact h name (by simp [leftRefs]) r' hn

theorem acc_of_ordered {g : Grammar} {N : List Name}
    (hN : ∀ name r, g.env name = some r → nulB N r = true → N.contains name = true) {order : List Name}
    (h : ordered g N order = true) : ∀ name ∈ order, ∀ r, g.env name = some r → Acc (fun r' r => LeftCall g.env r r') r := by
  induction order with
  | nil => intro name hn; cases hn
  | cons n rest ih =>
    rw [ordered, Bool.and_eq_true] at h
    intro name hn r hr
    rcases List.mem_cons.1 hn with rfl | hn
    · refine acc_of_refs hN r (fun m hm r' hr' => ?_)
      simp only [Grammar.env, Option.map_eq_some_iff] at hr
      obtain ⟨rc, hrc, rfl⟩ := hr
      rw [hrc] at h
      have := List.all_eq_true.1 h.1 m hm
      exact ih h.2 m (by simpa using this) r' hr'
    · exact ih h.2 name hn r hr

/-! ### Repetitions -/

theorem repsOkL_iff {N : List Name} {rs : List Rule} : repsOkL N rs = true ↔ ∀ r ∈ rs, repsOk N r = true := by
  induction rs with
  | nil => simp [repsOkL]
  | cons r rs ih => simp [repsOkL, ih]

theorem repsOkLL_iff {N : List Name} {gs : List (List Rule)} : repsOkLL N gs = true ↔ ∀ g ∈ gs, ∀ r ∈ g, repsOk N r = true := by
  induction gs with
  | nil => simp [repsOkLL]
  | cons g gs ih => simp [repsOkLL, repsOkL_iff, ih]

theorem repsOk_part {N : List Name} {r r' : Rule} (h : repsOk N r = true) (hp : Part r r') : repsOk N r' = true := by
  cases hp with
  | group => simpa [repsOk] using h
  | option => simpa [repsOk] using h
  | rep => rw [repsOk, Bool.and_eq_true] at h; exact h.2
  | choice hg hr => rw [repsOk, repsOkLL_iff] at h; exact h _ hg _ hr
  | concat hr => rw [repsOk, repsOkL_iff] at h; exact h _ hr
  | opn => simp only [repsOk, Bool.and_eq_true] at h; exact h.1.1.1
  | close => simp only [repsOk, Bool.and_eq_true] at h; exact h.1.1.2
  | escape => simp only [repsOk, Bool.and_eq_true, repsOkO] at h; exact h.1.2
  | exclude hx => simp only [repsOk, Bool.and_eq_true, repsOkL_iff] at h; exact h.2 _ hx

theorem soundReps_of {env : Env} {N : List Name}
    (hN : ∀ name r, env name = some r → nulB N r = true → N.contains name = true) {r : Rule} (h : repsOk N r = true) :
    SoundReps env r := by
  intro b x mn hi hn
  have : ∀ {r r'}, Inside r r' → repsOk N r = true → repsOk N r' = true := by
    intro r r' hi
    induction hi with
    | refl => exact id
    | step hp _ ih => exact fun h => ih (repsOk_part h hp)
  have := this hi h
  rw [repsOk, nulB_of hN hn] at this
  simp at this

/-! ### Certificates -/

theorem lookup_mem {α β : Type} [BEq α] [LawfulBEq α] {l : List (α × β)} {k : α} {v : β} (h : l.lookup k = some v) :
    (k, v) ∈ l := by
  induction l with
  | nil => cases h
  | cons x l ih =>
    obtain ⟨a, b⟩ := x
    rw [List.lookup_cons] at h
    cases hk : k == a with
    | true =>
      rw [hk] at h
      simp only [Option.some.injEq] at h
      rw [eq_of_beq hk, h]; exact List.mem_cons_self
    | false => rw [hk] at h; exact List.mem_cons_of_mem _ (ih h)

/-- What a certificate gives. -/
structure Certified (c : Certificate) (g : Grammar) : Prop where
  shapes : Consistent c.get g.env
  all : ∀ rc ∈ g.records, ∀ f ∈ flags, (c.get rc.name f).isSome = true
  nul : ∀ name r, g.env name = some r → nulB c.nullable r = true → c.nullable.contains name = true
  reps : ∀ name r, g.env name = some r → repsOk c.nullable r = true
  left : NoLeftRecursion g.env

theorem certified {c : Certificate} {g : Grammar} (h : c.ok g = true) : Certified c g := by
  simp only [Certificate.ok, Bool.and_eq_true] at h
  obtain ⟨⟨⟨⟨h1, h2⟩, h3⟩, h4⟩, h5⟩ := h
  have hrec : ∀ name r, g.env name = some r → ∃ rc ∈ g.records, rc.name = name ∧ rc.rule = r := by
    intro name r hr
    simp only [Grammar.env, Option.map_eq_some_iff] at hr
    obtain ⟨rc, hrc, rfl⟩ := hr
    unfold Grammar.getRecord at hrc
    exact ⟨rc, List.mem_of_find?_eq_some hrc, (by simpa using List.find?_some hrc), rfl⟩
  have hnul : ∀ name r, g.env name = some r → nulB c.nullable r = true → c.nullable.contains name = true := by
    intro name r hr hn
    obtain ⟨rc, hrc, rfl, rfl⟩ := hrec name r hr
    have := List.all_eq_true.1 h3 rc hrc
    simp only [Bool.and_eq_true, Bool.or_eq_true, Bool.not_eq_true'] at this
    rcases this.1 with h | h
    · rw [hn] at h; cases h
    · exact h
  refine ⟨?_, fun rc hrc f hf => List.all_eq_true.1 (List.all_eq_true.1 h2 rc hrc) f hf, hnul, ?_, ?_⟩
  · intro name flag s hs
    have := List.all_eq_true.1 h1 _ (lookup_mem hs)
    simp only at this
    cases hg : g.getRecord name with
    | none => rw [hg] at this; cases this
    | some rc =>
      rw [hg] at this
      exact ⟨rc.rule, by simp [Grammar.env, hg], of_decide_eq_true this⟩
  · intro name r hr
    obtain ⟨rc, hrc, rfl, rfl⟩ := hrec name r hr
    have := List.all_eq_true.1 h3 rc hrc
    rw [Bool.and_eq_true] at this
    exact this.2
  · refine noLeftRecursion_of fun name r hr => ?_
    obtain ⟨rc, hrc, rfl, rfl⟩ := hrec name r hr
    have := List.all_eq_true.1 h4 rc hrc
    exact acc_of_ordered hnul h5 rc.name (by simpa using this) rc.rule hr

/-- With enough fuel all covered rules are answered plainly, on all texts up to a length. -/
theorem Certified.ends {c : Certificate} {g : Grammar} (h : Certified c g) {r : Rule} (hr : repsOk c.nullable r = true) (n : Nat) :
    ∃ F, ∀ fuel, F ≤ fuel → ∀ flag s, shapeOf c.get r flag = some s → ∀ l, Valid l → Tidy l → l.length ≤ n →
      s.Fits l (Spec.run g.env fuel r flag l) ∧ plain (Spec.run g.env fuel r flag l) = true := by
  obtain ⟨F, hF⟩ := Props.ends h.left (fun name r hr => soundReps_of h.nul (h.reps name r hr)) n r (soundReps_of h.nul hr)
  refine ⟨F, fun fuel hf flag s hs l hv ht hl => ?_⟩
  have h1 := hF fuel hf flag l hv hl
  have h2 := Shape.run_fits h.shapes fuel r flag s hs l ht
  refine ⟨h2, ?_⟩
  generalize Spec.run g.env fuel r flag l = x at h1 h2
  cases x with
  | oof => exact absurd rfl h1
  | risky => exact h2.elim
  | ambiguous => exact h2.elim
  | fail => rfl
  | hit => rfl

theorem Certified.clean {c : Certificate} {g : Grammar} (h : Certified c g) {r : Rule} {flag : Int} (hr : c.covers r flag = true)
    {l : List Rune} (hv : Valid l) (ht : Tidy l) : Clean g.env r flag l := by
  simp only [Certificate.covers, Bool.and_eq_true, Option.isSome_iff_exists] at hr
  obtain ⟨⟨s, hs⟩, hr⟩ := hr
  obtain ⟨F, hF⟩ := h.ends hr l.length
  exact ⟨F, (hF F (Nat.le_refl _) flag s hs l hv ht (Nat.le_refl _)).2⟩

theorem Clean.regular {env : Env} {r : Rule} {flag : Int} {l : List Rune} (h : Clean env r flag l) : Regular env r flag l := by
  obtain ⟨F, hF⟩ := h
  exact ⟨F, (fun hc => by rw [hc] at hF; cases hF), (fun hc => by rw [hc] at hF; cases hF)⟩

/-- A named rule of the grammar is covered. -/
theorem Certified.covers {c : Certificate} {g : Grammar} (h : Certified c g) {name : Name} {rc : Record}
    (hrc : g.getRecord name = some rc) {flag : Int} (hf : flag ∈ flags) : c.covers rc.rule flag = true := by
  have hmem := List.mem_of_find?_eq_some hrc
  have hname : rc.name = name := by simpa using List.find?_some hrc
  have henv : g.env name = some rc.rule := by simp [Grammar.env, hrc]
  have := h.all rc hmem flag hf
  rw [hname, Option.isSome_iff_exists] at this
  obtain ⟨s, hs⟩ := this
  obtain ⟨r, hr, hs'⟩ := h.shapes name flag s hs
  rw [henv] at hr
  cases hr
  simp only [Certificate.covers, hs', Option.isSome_some, Bool.true_and]
  exact h.reps name rc.rule henv

end Xbnf.Props
