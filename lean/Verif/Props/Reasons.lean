import Verif.Model.DefMessage
import Verif.Spec.Shown
import Verif.Props.Faults
import Verif.Props.Bytes
import Verif.Props.Drawing
/-
C63: the errors of definitions say what is wrong with the text (grammar.go:95-143, 214-222, 697-721 and the parsers of
the rules), and the message can be read back.
-/
namespace Xbnf.Props
open Xbnf Xbnf.Spec Grammar

/-- What is wrong, when the name is `name`, the definition `body` and the definitions so far are `known`. -/
inductive Wrong (known : List Record) (name body : List Rune) : PErr → Prop
  | badName (h : ¬ RuleName name) : Wrong known name body (.badName name)
  | duplicate {q : Record} (hn : RuleName name) (hq : q ∈ known) (h : q.name = name) : Wrong known name body (.duplicate name q.line)
  | body {e t used rest} (hn : RuleName name) (hq : ∀ q ∈ known, q.name ≠ name) (ht : Trimmed body t) (h : ¬ ∃ r, Parses name t r)
      (hb : t = used ++ rest) (hc : Cause e used rest) : Wrong known name body e

/-- The error of `ParseRule`, for any grammar, name and text. -/
theorem C63_parseRule {fuel : Nat} {name : Name} {text : List Rune} {g g' : Grammar} {e : PErr}
    (h : parseRule fuel name text g = .err e g') : Wrong g.records name text e := by
  have hpr := parseRule_cases (fuel := fuel) (name := name) (text := text) (g := g)
  rw [h] at hpr
  rcases hpr with ⟨hbad, rfl, _⟩ | ⟨q, hq, rfl, _⟩ | ⟨hrn, hnone, us, ⟨st, hst, _⟩, _⟩
  · exact .badName hbad
  · have hqm : q ∈ g.records := by unfold getRecord at hq; exact List.mem_of_find?_eq_some hq
    have hqn : q.name = name := by
      unfold getRecord at hq
      simpa using List.find?_some hq
    by_cases hrn : RuleName name
    · exact .duplicate hrn hqm hqn
    · have hv : validName name = false := by
        cases hv : validName name with
        | false => rfl
        | true => exact absurd ((validName_iff _).1 hv) hrn
      unfold parseRule at h
      rw [if_pos hv] at h
      cases h
  · have hnp : ¬ ∃ r, Parses name (trimSpace text) r := by
      rintro ⟨r, hps⟩
      obtain ⟨f, r0, st', hp', _⟩ := (parses_iff _ _ _).1 hps
      have h1 := parse_more (m := max fuel f) (Nat.le_max_left fuel f)
        (show parse fuel name [EOFChar] ⟨trimSpace text, []⟩ ≠ .oof by rw [hst]; simp)
      have h2 := parse_more (m := max fuel f) (Nat.le_max_right fuel f)
        (show parse f name [EOFChar] ⟨trimSpace text, []⟩ ≠ .oof by rw [hp']; simp)
      rw [h1, hst, hp'] at h2
      cases h2
    obtain ⟨used, hus, hca⟩ := Blame.parse_truth hst
    refine .body hrn (fun q hq hqn => ?_) (trim_trimmed text) hnp hus hca
    unfold getRecord at hnone
    have := List.find?_eq_none.1 hnone q hq
    simp [hqn] at this

theorem no_eq : ∀ {t : List Rune}, splitEq t = none → 61 ∉ t
  | [], _ => by simp
  | c :: cs, h => by
    unfold splitEq at h
    split at h
    · cases h
    · rename_i hc
      intro hm
      rcases List.mem_cons.1 hm with rfl | hm
      · exact hc rfl
      · cases hs : splitEq cs with
        | none => exact no_eq hs hm
        | some p => rw [hs] at h; cases h

/-- The error of `AddRule`: there is no '=', or `ParseRule` complains about what is before and after the first '='. -/
theorem C63_addRule {fuel : Nat} {text : List Rune} {g g' : Grammar} {e : PErr} (h : addRule fuel text g = .err e g') :
    (61 ∉ text ∧ e = .missingEq text) ∨
      ∃ n b name body, text = n ++ 61 :: b ∧ 61 ∉ n ∧ Trimmed n name ∧ Trimmed b body ∧ Wrong g.records name body e := by
  unfold addRule at h
  cases he : splitEq text with
  | none =>
    rw [he] at h
    cases h
    refine .inl ⟨fun hm => ?_, rfl⟩
    exact no_eq he hm
  | some p =>
    obtain ⟨n, b⟩ := p
    rw [he] at h
    obtain ⟨h1, h2⟩ := splitEq_spec.1 he
    exact .inr ⟨n, b, _, _, h1, h2, trim_trimmed n, trim_trimmed b, C63_parseRule h⟩

theorem cause_heard {e : PErr} {u r : List Rune} (h : Cause e u r) : ¬ Unheard e := by
  induction h with
  | blockOpen _ _ ih => exact ih
  | _ => exact id

theorem wrong_heard {known : List Record} {name body : List Rune} {e : PErr} (h : Wrong known name body e) : ¬ Unheard e := by
  cases h with
  | body _ _ _ _ _ hc => exact cause_heard hc
  | _ => exact id

/-- Ten of the messages are never seen. -/
theorem C63_unheard_parseRule {fuel : Nat} {name : Name} {text : List Rune} {g g' : Grammar} {e : PErr}
    (h : parseRule fuel name text g = .err e g') : ¬ Unheard e := wrong_heard (C63_parseRule h)

theorem C63_unheard_addRule {fuel : Nat} {text : List Rune} {g g' : Grammar} {e : PErr} (h : addRule fuel text g = .err e g') :
    ¬ Unheard e := by
  rcases C63_addRule h with ⟨_, rfl⟩ | ⟨_, _, _, _, _, _, _, _, hw⟩
  · exact id
  · exact wrong_heard hw

theorem C63_unheard_text {text : List Rune} {e : PErr} (h : Rejected text e) : ¬ Unheard e := by
  obtain ⟨ls, hl⟩ : ∃ ls, Lines text ls := ⟨_, splitLines_lines text⟩
  rcases (rejected_facts h hl).2 with ⟨k, l, recs, o, e', rfl, _, _, _, hf⟩ | ⟨rfl, _⟩
  · show ¬ Unheard e'
    cases hf with
    | body _ _ _ _ _ _ hc => exact cause_heard hc
    | _ => exact id
  · exact id

theorem undefined_facts {fuel : Nat} {text : List Rune} {g : Grammar} (h : fromString fuel text = .err .undefinedRef g)
    {ls : List (List Rune)} (hl : Lines text ls) :
    Denotes 1 ls g.records ∧ (∀ k, k ∈ g.nonRoots.map (·.1) ↔ ∃ r ∈ g.records, k ∈ refs r.rule) ∧
      ∃ p ∈ g.nonRoots, (g.getRecord p.1).isNone = true := by
  have h1 := fromString_more (m := max fuel (text.length + 2)) (Nat.le_max_left _ _) (text := text) (n := fuel) (by rw [h]; simp)
  rw [h] at h1
  have h2 := linesLoop_cases (max fuel (text.length + 2)) ls 0 {} rfl (by simp) (fun l hm => by have := lines_short hl l hm; omega)
  have hspl := lines_unique hl
  unfold fromString at h1
  rw [← hspl] at h1
  cases hlo : linesLoop (max fuel (text.length + 2)) 0 ls {} with
  | oof => rw [hlo] at h2; exact h2.elim
  | err e g' =>
    rw [hlo] at h1 h2
    obtain ⟨_, k, l, recs, o, e', rfl, _⟩ := h2
    cases h1
  | ok u g' =>
    rw [hlo] at h1 h2
    obtain ⟨recs, d1, _, d3, _, _, d6, _⟩ := h2
    simp only [List.nil_append] at d3
    simp only at h1
    cases hv : g'.validate with
    | some g2 => rw [hv] at h1; cases h1
    | none =>
      rw [hv] at h1
      cases h1
      unfold validate at hv
      split at hv
      · rename_i hany
        refine ⟨d3 ▸ d1, fun k => ?_, List.any_eq_true.1 hany⟩
        refine (d6 k).trans ⟨?_, fun h => .inr (d3 ▸ h)⟩
        rintro (h | h)
        · cases h
        · exact d3 ▸ h
      · cases hv

/-- The name `Validate` complains about, whatever the order of the map: it is referred to and not defined. -/
theorem C63_undefined {fuel : Nat} {text : List Rune} {g : Grammar} (h : fromString fuel text = .err .undefinedRef g)
    {order : List (Name × List Name)} (ho : order.Perm g.nonRoots) {ls : List (List Rune)} (hl : Lines text ls) :
    ∃ name recs, g.missing order = some name ∧ Denotes 1 ls recs ∧ (∃ r ∈ recs, name ∈ refs r.rule) ∧ (∀ r ∈ recs, r.name ≠ name) := by
  obtain ⟨d1, d6, p, hp, hpn⟩ := undefined_facts h hl
  have hf : (order.find? (fun p => (g.getRecord p.1).isNone)).isSome := by
    rw [List.find?_isSome]
    exact ⟨p, ho.mem_iff.2 hp, hpn⟩
  obtain ⟨q, hq⟩ := Option.isSome_iff_exists.1 hf
  have hqm := ho.mem_iff.1 (List.mem_of_find?_eq_some hq)
  have hqn := List.find?_some hq
  refine ⟨q.1, _, by unfold Grammar.missing; rw [hq]; rfl, d1, (d6 q.1).1 (List.mem_map.2 ⟨q, hqm, rfl⟩), ?_⟩
  intro r hr hn
  simp only [Option.isNone_iff_eq_none] at hqn
  unfold getRecord at hqn
  have := List.find?_eq_none.1 hqn r hr
  simp [hn] at this

/-- Every name that is referred to and not defined can be the one. -/
theorem C63_undefined_any {fuel : Nat} {text : List Rune} {g : Grammar} (h : fromString fuel text = .err .undefinedRef g)
    {ls : List (List Rune)} (hl : Lines text ls) {recs : List Record} (hd : Denotes 1 ls recs) {name : Name}
    (hr : ∃ r ∈ recs, name ∈ refs r.rule) (hn : ∀ r ∈ recs, r.name ≠ name) :
    ∃ order, order.Perm g.nonRoots ∧ g.missing order = some name := by
  obtain ⟨d1, d6, _⟩ := undefined_facts h hl
  have := denotes_unique hd d1
  subst this
  obtain ⟨q, hq, rfl⟩ := List.mem_map.1 ((d6 name).2 hr)
  refine ⟨q :: g.nonRoots.erase q, (List.perm_cons_erase hq).symm, ?_⟩
  have hnone : g.getRecord q.1 = none := by
    unfold getRecord
    rw [List.find?_eq_none]
    intro r hr
    simpa using hn r hr
  unfold Grammar.missing
  rw [List.find?_cons_of_pos (by rw [hnone]; rfl)]
  rfl

/-! ## The message can be read back -/

/-- The errors that are about the definition of a rule with a proper name. -/
def Plain : PErr → Prop
  | .badName _ | .missingEq _ | .undefinedRef | .atLine _ _ _ => False
  | .duplicate name _ => RuleName name
  | .specNumber ds => ∀ c ∈ ds, isDigit c = true
  | .blockOpen e => Plain e
  | _ => True

/-- How the messages begin. -/
def heads : List (List Rune) :=
  ["no rule found for choice", "no rule found", "invalid char '", "EOF encountered", "annotation symbol '", "Choice operator",
   "terminal char must start", "terminal char must end", "terminal char(s)", "terminal string must start", "terminal string must end",
   "unicode terminal", "unicode escape must start with '\\u' and", "unicode escape must start with '\\u'",
   "char range must be 2 chars connected by a range symbol '-':", "char range must be 2 chars connected by a range symbol '-'",
   "char range: ", "group must start", "group must end", "option must start", "option must end",
   "repetition must start", "repetition must end", "block must start", "missing block open rule: ",
   "block must end with a '>': encountered '", "repetition specification", "invalid char in repetition specification: ",
   "invalid repetition specification: ",
   "choice rule", "rule name", "rule '"].map runes

/-- The number of the beginning that is in the list first. -/
def kindOf (t : List Rune) : Nat := heads.findIdx (·.isPrefixOf t)

def kind : PErr → Nat
  | .choiceGroup => 0 | .noRule => 1 | .invalidChar _ => 2 | .notARule _ => 2 | .eof => 3 | .annotation _ => 4 | .choiceOperand => 5
  | .charStart => 6 | .charEnd => 7 | .charEmpty => 8 | .strStart => 9 | .strEnd => 10 | .uniStart => 11 | .uniDigits => 12
  | .uniEscape => 13 | .rangeSecond => 14 | .rangeForm => 15 | .rangeEscape => 16 | .groupStart => 17 | .groupEnd => 18
  | .optionStart => 19 | .optionEnd => 20 | .repStart => 21 | .repEnd => 22 | .blockStart => 23 | .blockOpen _ => 24
  | .blockEnd _ => 25 | .specStart => 26 | .specChar _ => 27 | .specOrder _ _ => 28 | .specNumber _ => 28 | .choiceFew => 29
  | .reference => 30 | .duplicate _ _ => 31 | _ => 32

theorem prefix_clash : ∀ {p q : List Rune} (x : List Rune), (p.isPrefixOf q || q.isPrefixOf p) = false → p.isPrefixOf (q ++ x) = false
  | [], q, x, h => by simp at h
  | a :: p, [], x, h => by simp at h
  | a :: p, b :: q, x, h => by
    rw [List.cons_append]
    simp only [List.isPrefixOf] at h ⊢
    by_cases hab : a = b
    · subst hab
      simp only [beq_self_eq_true, Bool.true_and] at h ⊢
      exact prefix_clash x h
    · have : (a == b) = false := by simpa using hab
      rw [this, Bool.false_and]

theorem findIdx_clash {q x : List Rune} : ∀ {hs : List (List Rune)} {k : Nat}, hs[k]? = some q →
    (hs.take k).all (fun p => !(p.isPrefixOf q || q.isPrefixOf p)) = true → hs.findIdx (·.isPrefixOf (q ++ x)) = k
  | [], k, h, _ => by simp at h
  | p :: hs, 0, h, _ => by
    simp only [List.getElem?_cons_zero, Option.some.injEq] at h
    subst h
    have : p.isPrefixOf (p ++ x) = true := List.isPrefixOf_iff_prefix.2 (List.prefix_append _ _)
    rw [List.findIdx_cons, this]
    rfl
  | p :: hs, k + 1, h, hc => by
    simp only [List.getElem?_cons_succ] at h
    simp only [List.take_succ_cons, List.all_cons, Bool.and_eq_true, Bool.not_eq_true'] at hc
    rw [List.findIdx_cons, prefix_clash x hc.1]
    show _ + 1 = _
    rw [findIdx_clash h (by simpa using hc.2)]

theorem kindOf_param {q x : List Rune} {k : Nat} (h : heads[k]? = some q)
    (hc : (heads.take k).all (fun p => !(p.isPrefixOf q || q.isPrefixOf p)) = true) : kindOf (q ++ x) = k := findIdx_clash h hc

theorem order_head : runes "invalid repetition specification: max repeat less than min repeat: <" =
    runes "invalid repetition specification: " ++ runes "max repeat less than min repeat: <" := by decide +kernel

theorem viaUTF8_names {name : Name} (h : RuleName name) : name.map viaUTF8 = name ∧ 39 ∉ name ∧ 93 ∉ name := by
  have hs : ∀ c ∈ name, 48 ≤ c ∧ c < 128 ∧ c ≠ 93 := by
    obtain ⟨c, cs, rfl, h1, h2⟩ := h
    intro d hd
    rcases List.mem_cons.1 hd with rfl | hd
    · unfold Letter Rune at *
      omega
    · have := h2 d hd
      unfold Letter Digit Rune at *
      omega
  refine ⟨?_, fun h => ?_, fun h => ?_⟩
  · refine (List.map_congr_left (fun c hc => viaUTF8_keep ?_)).trans (List.map_id' name)
    have := hs c hc
    unfold Scalar Rune at *
    omega
  · have := hs _ h
    unfold Rune at *
    omega
  · exact absurd rfl (hs _ h).2.2

/-- A text up to the first `d`. -/
theorem cut_unique {d : Rune} : ∀ {a b x y : List Rune}, d ∉ a → d ∉ b → a ++ d :: x = b ++ d :: y → a = b ∧ x = y
  | [], [], _, _, _, _, h => by simpa using h
  | [], c :: b, _, _, _, hb, h => by
    simp only [List.nil_append, List.cons_append, List.cons.injEq] at h
    exact absurd (h.1 ▸ List.mem_cons_self) hb
  | c :: a, [], _, _, ha, _, h => by
    simp only [List.nil_append, List.cons_append, List.cons.injEq] at h
    exact absurd (h.1 ▸ List.mem_cons_self) ha
  | c :: a, e :: b, _, _, ha, hb, h => by
    simp only [List.cons_append, List.cons.injEq] at h
    obtain ⟨h1, h2⟩ := cut_unique (fun hm => ha (List.mem_cons_of_mem _ hm)) (fun hm => hb (List.mem_cons_of_mem _ hm)) h.2
    exact ⟨by rw [h.1, h1], h2⟩

theorem percentD_no {c : Rune} (h : c ≠ 45) (h2 : ¬ (48 ≤ c ∧ c ≤ 57)) (i : Int) : c ∉ percentD i := fun hm => by
  rcases percentD_chars hm with h' | h'
  · exact h h'
  · exact h2 h'

theorem kind_text (m : Name) {e : PErr} (h : Plain e) : kindOf (e.text m) = kind e := by
  cases e with
  | invalidChar c => simp only [PErr.text, List.append_assoc]; exact kindOf_param (k := 2) (by decide +kernel) (by decide +kernel)
  | notARule c => simp only [PErr.text, List.append_assoc]; exact kindOf_param (k := 2) (by decide +kernel) (by decide +kernel)
  | annotation c => simp only [PErr.text, List.append_assoc]; exact kindOf_param (k := 4) (by decide +kernel) (by decide +kernel)
  | blockOpen e => simp only [PErr.text]; exact kindOf_param (k := 24) (by decide +kernel) (by decide +kernel)
  | blockEnd c => simp only [PErr.text, List.append_assoc]; exact kindOf_param (k := 25) (by decide +kernel) (by decide +kernel)
  | specChar c => simp only [PErr.text, List.append_assoc]; exact kindOf_param (k := 27) (by decide +kernel) (by decide +kernel)
  | specOrder c d => simp only [PErr.text, order_head, List.append_assoc]; exact kindOf_param (k := 28) (by decide +kernel) (by decide +kernel)
  | specNumber ds => simp only [PErr.text]; exact kindOf_param (k := 28) (by decide +kernel) (by decide +kernel)
  | duplicate n l => simp only [PErr.text, List.append_assoc]; exact kindOf_param (k := 31) (by decide +kernel) (by decide +kernel)
  | badName => exact h.elim
  | missingEq => exact h.elim
  | undefinedRef => exact h.elim
  | atLine => exact h.elim
  | _ => simp only [PErr.text]; decide +kernel

theorem same_kind (m m' : Name) {e e' : PErr} (h : Plain e) (h' : Plain e') (ht : e.text m = e'.text m') : kind e = kind e' := by
  rw [← kind_text m h, ← kind_text m' h', ht]

theorem percentC_inj {c c' : Rune} (h : Scalar c) (h' : Scalar c') {x y : List Rune} (e : percentC c ++ x = percentC c' ++ y) : c = c' ∧ x = y := by
  unfold percentC at e
  rw [viaUTF8_keep h, viaUTF8_keep h'] at e
  simpa using e

theorem cancel {a x y : List Rune} (h : a ++ x = a ++ y) : x = y := List.append_cancel_left h

theorem invalid_texts (m m' : Name) {c d : Rune} (hc : Scalar c) (hd : Scalar d) : (PErr.invalidChar c).text m ≠ (PErr.notARule d).text m' := by
  intro h
  simp only [PErr.text, List.append_assoc] at h
  have := (percentC_inj hc hd (cancel h)).2
  revert this
  decide +kernel

theorem digits_same {ds : List Rune} (h : ∀ c ∈ ds, isDigit c = true) : ds.map viaUTF8 = ds := by
  refine (List.map_congr_left (fun c hc => viaUTF8_keep ?_)).trans (List.map_id' ds)
  have := (digit_iff c).1 (h c hc)
  unfold Digit at this
  unfold Scalar
  unfold Rune at *
  omega

theorem order_texts (m m' : Name) {ds : List Rune} {a b : Nat} (h : ∀ c ∈ ds, isDigit c = true) : (PErr.specNumber ds).text m ≠ (PErr.specOrder a b).text m' := by
  intro ht
  simp only [PErr.text, order_head, List.append_assoc] at ht
  have ht := cancel ht
  rw [digits_same h] at ht
  have hm : (109 : Rune) ∈ ds := by
    rw [ht]
    exact List.mem_append_left _ (by decide +kernel)
  exact absurd (h _ hm) (by decide)

/-- Different reasons have different messages. -/
theorem plain_inj (m m' : Name) : ∀ {e e' : PErr}, Plain e → Plain e' → (∀ c ∈ shown e, Scalar c) → (∀ c ∈ shown e', Scalar c) →
    e.text m = e'.text m' → e = e' := by
  intro e
  induction e with
  | invalidChar c =>
    intro e' h h' hs hs' ht
    have hk := same_kind m m' h h' ht
    have hc := hs c (by simp [shown])
    cases e' with
    | invalidChar d =>
      simp only [PErr.text, List.append_assoc] at ht
      rw [(percentC_inj hc (hs' d (by simp [shown])) (cancel ht)).1]
    | notARule d => exact (invalid_texts m m' hc (hs' d (by simp [shown])) ht).elim
    | _ => simp [kind] at hk
  | notARule c =>
    intro e' h h' hs hs' ht
    have hk := same_kind m m' h h' ht
    have hc := hs c (by simp [shown])
    cases e' with
    | notARule d =>
      simp only [PErr.text, List.append_assoc] at ht
      rw [(percentC_inj hc (hs' d (by simp [shown])) (cancel ht)).1]
    | invalidChar d => exact (invalid_texts m' m (hs' d (by simp [shown])) hc ht.symm).elim
    | _ => simp [kind] at hk
  | annotation c =>
    intro e' h h' hs hs' ht
    have hk := same_kind m m' h h' ht
    have hc := hs c (by simp [shown])
    cases e' with
    | annotation d =>
      simp only [PErr.text, List.append_assoc] at ht
      rw [(percentC_inj hc (hs' d (by simp [shown])) (cancel ht)).1]
    | _ => simp [kind] at hk
  | blockEnd c =>
    intro e' h h' hs hs' ht
    have hk := same_kind m m' h h' ht
    have hc := hs c (by simp [shown])
    cases e' with
    | blockEnd d =>
      simp only [PErr.text, List.append_assoc] at ht
      rw [(percentC_inj hc (hs' d (by simp [shown])) (cancel ht)).1]
    | _ => simp [kind] at hk
  | specChar c =>
    intro e' h h' hs hs' ht
    have hk := same_kind m m' h h' ht
    have hc := hs c (by simp [shown])
    cases e' with
    | specChar d =>
      simp only [PErr.text] at ht
      have := cancel ht
      rw [(percentC_inj (x := []) (y := []) hc (hs' d (by simp [shown])) (by simpa using this)).1]
    | _ => simp [kind] at hk
  | blockOpen e ih =>
    intro e' h h' hs hs' ht
    have hk := same_kind m m' h h' ht
    cases e' with
    | blockOpen d =>
      simp only [PErr.text] at ht
      rw [ih (e' := d) h h' hs hs' (cancel ht)]
    | _ => simp [kind] at hk
  | specNumber ds =>
    intro e' h h' hs hs' ht
    have hk := same_kind m m' h h' ht
    cases e' with
    | specNumber d =>
      simp only [PErr.text] at ht
      have hx := cancel ht
      rw [digits_same h, digits_same h'] at hx
      rw [hx]
    | specOrder a b => exact (order_texts m m' h ht).elim
    | _ => simp [kind] at hk
  | specOrder a b =>
    intro e' h h' hs hs' ht
    have hk := same_kind m m' h h' ht
    cases e' with
    | specNumber d => exact (order_texts m' m h' ht.symm).elim
    | specOrder a' b' =>
      simp only [PErr.text, List.append_assoc] at ht
      obtain ⟨h1, h2⟩ := cut_unique (percentD_no (by decide) (by decide) _) (percentD_no (by decide) (by decide) _) (show _ ++ 44 :: _ = _ ++ 44 :: _ from cancel ht)
      have h2 := (cut_unique (percentD_no (by decide) (by decide) _) (percentD_no (by decide) (by decide) _) (show _ ++ 62 :: [] = _ ++ 62 :: [] from h2)).1
      have h1 := percentD_inj h1
      have h2 := percentD_inj h2
      simp only [PErr.specOrder.injEq]
      omega
    | _ => simp [kind] at hk
  | duplicate n l =>
    intro e' h h' hs hs' ht
    have hk := same_kind m m' h h' ht
    cases e' with
    | duplicate n' l' =>
      simp only [PErr.text, List.append_assoc] at ht
      obtain ⟨a1, a2, _⟩ := viaUTF8_names h
      obtain ⟨b1, b2, _⟩ := viaUTF8_names h'
      rw [a1, b1] at ht
      obtain ⟨h1, h2⟩ := cut_unique a2 b2 (show _ ++ 39 :: (runes " already defined at line " ++ _) = _ ++ 39 :: (runes " already defined at line " ++ _) from cancel ht)
      have h2 := percentD_inj (cancel h2)
      simp only [PErr.duplicate.injEq]
      exact ⟨h1, by omega⟩
    | _ => simp [kind] at hk
  | badName => intro e' h; exact h.elim
  | missingEq => intro e' h; exact h.elim
  | undefinedRef => intro e' h; exact h.elim
  | atLine => intro e' h; exact h.elim
  | _ =>
    intro e' h h' hs hs' ht
    have hk := same_kind m m' h h' ht
    cases e' <;> first | rfl | (simp [kind] at hk; done) | exact h'.elim

theorem cause_plain {e : PErr} {u r : List Rune} (h : Cause e u r) : Plain e := by
  induction h with
  | blockOpen _ _ ih => exact ih
  | specNumber => intro c hc; exact (List.mem_filter.1 hc).2
  | _ => trivial

theorem line_text {n n' : Nat} {x y : List Rune} (h : runes "L#" ++ (percentD n ++ (runes ": " ++ x)) = runes "L#" ++ (percentD n' ++ (runes ": " ++ y))) :
    n = n' ∧ x = y := by
  obtain ⟨h1, h2⟩ := cut_unique (percentD_no (by decide) (by decide) _) (percentD_no (by decide) (by decide) _)
    (show percentD n ++ 58 :: (32 :: x) = percentD n' ++ 58 :: (32 :: y) from cancel h)
  have := percentD_inj h1
  exact ⟨by omega, by simpa using h2⟩

theorem atLine_text (m : Name) (n : Nat) (o : Option Name) (e : PErr) :
    ∃ x, (PErr.atLine n o e).text m = runes "L#" ++ (percentD n ++ (runes ": " ++ x)) := by
  cases o with
  | none => exact ⟨e.text m, by simp only [PErr.text, List.append_assoc]⟩
  | some name =>
    refine ⟨runes "rule [" ++ (name.map viaUTF8 ++ (runes "] - " ++ e.text m)), ?_⟩
    have : runes ": rule [" = runes ": " ++ runes "rule [" := by decide +kernel
    simp only [PErr.text, List.append_assoc, this]

/-- The form of the message: "L#", the number of the line, the name in brackets (if there is one), and the reason. -/
theorem C63_line_text (m : Name) (n : Nat) (o : Option Name) (e : PErr) : ∃ name,
    (PErr.atLine n o e).text m = runes "L#" ++ runes (toString (n : Int)) ++ runes ": " ++ name ++ e.text m ∧
      (o = none → name = []) ∧ (∀ x, o = some x → RuleName x → name = runes "rule [" ++ x ++ runes "] - ") := by
  cases o with
  | none => exact ⟨[], by simp only [PErr.text, List.append_nil]; rfl, fun _ => rfl, (fun x h => by cases h)⟩
  | some name =>
    refine ⟨runes "rule [" ++ (name.map viaUTF8 ++ runes "] - "), ?_, (fun h => by cases h), fun x h hn => ?_⟩
    · have : runes ": rule [" = runes ": " ++ runes "rule [" := by decide +kernel
      simp only [PErr.text, List.append_assoc, this]
      rfl
    · cases h
      rw [(viaUTF8_names hn).1, List.append_assoc]

/-- What is shown is in the message: the character, or the number that does not fit. -/
theorem C63_shown_text (m : Name) {e : PErr} : (∀ c ∈ shown e, Scalar c) → ∃ a b, e.text m = a ++ shown e ++ b := by
  induction e with
  | invalidChar c =>
    intro h
    exact ⟨runes "invalid char '", runes "'", by rw [PErr.text, percentC, viaUTF8_keep (h c (by simp [shown]))]; rfl⟩
  | notARule c =>
    intro h
    exact ⟨runes "invalid char '", runes "' for any rule", by rw [PErr.text, percentC, viaUTF8_keep (h c (by simp [shown]))]; rfl⟩
  | annotation c =>
    intro h
    exact ⟨runes "annotation symbol '", _, by rw [PErr.text, percentC, viaUTF8_keep (h c (by simp [shown]))]; rfl⟩
  | blockEnd c =>
    intro h
    exact ⟨runes "block must end with a '>': encountered '", _, by rw [PErr.text, percentC, viaUTF8_keep (h c (by simp [shown]))]; rfl⟩
  | specChar c =>
    intro h
    exact ⟨runes "invalid char in repetition specification: ", [],
      by rw [PErr.text, percentC, viaUTF8_keep (h c (by simp [shown])), List.append_nil]; rfl⟩
  | blockOpen e ih =>
    intro h
    obtain ⟨a, b, hab⟩ := ih h
    exact ⟨runes "missing block open rule: " ++ a, b, by rw [PErr.text, hab]; simp [shown]⟩
  | atLine n o e ih =>
    intro h
    obtain ⟨a, b, hab⟩ := ih h
    obtain ⟨name, ht, _⟩ := C63_line_text m n o e
    exact ⟨runes "L#" ++ runes (toString (n : Int)) ++ runes ": " ++ name ++ a, b, by rw [ht, hab]; simp [shown]⟩
  | _ => intro _; exact ⟨[], _, rfl⟩

/-- Every error of `NewGrammarFromString` that is about a line begins with "L#" and the number of the line: two messages that
are the same are about the same line. -/
theorem C63_line_read {m m' : Name} {n n' : Nat} {o o' : Option Name} {e e' : PErr}
    (h : (PErr.atLine n o e).text m = (PErr.atLine n' o' e').text m') : n = n' := by
  obtain ⟨x, hx⟩ := atLine_text m n o e
  obtain ⟨y, hy⟩ := atLine_text m' n' o' e'
  rw [hx, hy] at h
  exact (line_text h).1

/-- Two texts with the same message, about rules with proper names: it is the same line, the same rule and the same reason —
unless the message shows the end of the text as a character. -/
theorem C63_message {text text' : List Rune} {m m' name name' : Name} {n n' : Nat} {e e' : PErr}
    (h : Rejected text (.atLine n (some name) e)) (h' : Rejected text' (.atLine n' (some name') e'))
    (hn : RuleName name) (hn' : RuleName name') (hs : ∀ c ∈ shown e, Scalar c) (hs' : ∀ c ∈ shown e', Scalar c)
    (ht : (PErr.atLine n (some name) e).text m = (PErr.atLine n' (some name') e').text m') : n = n' ∧ name = name' ∧ e = e' := by
  have hl : n = n' := C63_line_read ht
  have plain : ∀ {text name n e}, Rejected text (.atLine n (some name) e) → RuleName name → Plain e := by
    intro text name n e h hn
    obtain ⟨k, l, recs, _, _, _, _, hf⟩ := C49_line (splitLines_lines text) h
    cases hf with
    | badName _ _ hb => exact (hb hn).elim
    | duplicate => exact hn
    | body _ _ _ _ _ _ hc => exact cause_plain hc
  have h1 := plain h hn
  have h2 := plain h' hn'
  obtain ⟨a1, _, a2⟩ := viaUTF8_names hn
  obtain ⟨b1, _, b2⟩ := viaUTF8_names hn'
  subst hl
  simp only [PErr.text, List.append_assoc, a1, b1] at ht
  obtain ⟨c1, c2⟩ := cut_unique a2 b2 (show name ++ 93 :: (runes " - " ++ e.text m) = name' ++ 93 :: (runes " - " ++ e'.text m') from
    cancel (cancel (cancel ht)))
  exact ⟨rfl, c1, plain_inj m m' h1 h2 hs hs' (cancel c2)⟩

theorem cause_shown {e : PErr} {u r : List Rune} (h : Cause e u r) : ∀ c ∈ shown e, c ∈ u ++ r ∨ c = EOFChar := by
  have head : ∀ {c : Rune} {u r : List Rune}, r.head? = some c → c ∈ u ++ r := by
    intro c u r h
    exact List.mem_append_right _ (List.mem_of_mem_head? h)
  have met : ∀ {c : Rune} {u r : List Rune}, Met c u r → c ∈ u ++ r ∨ c = EOFChar := by
    rintro c u r (h | ⟨h, _⟩)
    · exact .inl (List.mem_append_left _ (List.mem_of_getLast? h))
    · exact .inr h
  induction h with
  | blockOpen _ _ ih => exact ih
  | invalidChar h => intro c hc; cases List.mem_singleton.1 hc; exact .inl (head h)
  | notARule h => intro c hc; cases List.mem_singleton.1 hc; exact .inl (head h)
  | slash h =>
    intro c hc
    cases List.mem_singleton.1 hc
    obtain ⟨a, rfl⟩ := h
    exact .inl (by simp)
  | lastSlash h =>
    intro c hc
    cases List.mem_singleton.1 hc
    obtain ⟨a, rfl⟩ := h
    exact .inl (by simp)
  | annotation _ h =>
    intro c hc
    cases List.mem_singleton.1 hc
    obtain ⟨a, rfl⟩ := h
    exact .inl (by simp)
  | blockEnd _ _ h => intro c hc; cases List.mem_singleton.1 hc; exact met h
  | specChar _ _ _ h => intro c hc; cases List.mem_singleton.1 hc; exact met h
  | _ => intro c hc; cases hc

theorem mem_lines : ∀ {ls : List (List Rune)} {l : List Rune}, l ∈ ls → ∀ c ∈ l, c ∈ List.intercalate [newline] ls
  | [], _, h, _, _ => by cases h
  | [x], l, h, c, hc => by
    cases List.mem_singleton.1 h
    simpa [List.intercalate] using hc
  | x :: y :: ls, l, h, c, hc => by
    have e : List.intercalate [newline] (x :: y :: ls) = x ++ (newline :: List.intercalate [newline] (y :: ls)) := by
      simp [List.intercalate, List.intersperse]
    rw [e]
    rcases List.mem_cons.1 h with rfl | h
    · exact List.mem_append_left _ hc
    · exact List.mem_append_right _ (List.mem_cons_of_mem _ (mem_lines h c hc))

theorem mem_trimmed {l t : List Rune} (h : Trimmed l t) : ∀ c ∈ t, c ∈ l := by
  obtain ⟨a, b, rfl, _⟩ := h
  intro c hc
  simp [hc]

/-- The characters shown are characters of the text, or the end of it. -/
theorem C63_shown {text : List Rune} {e : PErr} (h : Rejected text e) : ∀ c ∈ shown e, c ∈ text ∨ c = EOFChar := by
  have hl := splitLines_lines text
  rcases (rejected_facts h hl).2 with ⟨k, l, recs, o, e', rfl, hk, _, _, hf⟩ | ⟨rfl, _⟩
  · have hlm : ∀ c ∈ l, c ∈ text := fun c hc => by
      have := mem_lines (List.mem_of_getElem? hk) c hc
      rwa [hl.2.1] at this
    show ∀ c ∈ shown e', _
    cases hf with
    | body _ hd _ _ _ hb hc =>
      intro c hm
      refine (cause_shown hc c hm).imp (fun hm => hlm c ?_) id
      obtain ⟨t, n, b, h1, rfl, _, _, h2⟩ := hd
      refine mem_trimmed h1 c (List.mem_append_right _ (List.mem_cons_of_mem _ (mem_trimmed h2 c ?_)))
      rw [hb]
      exact hm
    | _ => intro c hc; cases hc
  · intro c hc; cases hc

/-- The message about a name that is none: an ASCII character that is no letter is shown as it is. -/
theorem C63_first_char_partial {c : Rune} {cs : List Rune} (h : 0 ≤ c ∧ c < 128) (hl : ¬ Letter c) (m : Name) :
    (PErr.badName (c :: cs)).text m = runes "rule name must starts with a letter character: '" ++ [c] ++ runes "' is invalid" := by
  have h1 : isLetter c = false := by
    rw [← Bool.not_eq_true, letter_iff]
    exact hl
  have h2 : (UTF8.encode1 c).headD 0 = c.toNat := by
    have hs : Scalar c := by unfold Scalar; unfold Rune at *; omega
    rw [show UTF8.encode1 c = [c.toNat] by unfold UTF8.encode1; rw [viaUTF8_keep hs]; simp only; rw [if_pos (by unfold Rune at *; omega)]]
    rfl
  have h3 : ((c.toNat : Nat) : Int) = c := by unfold Rune at *; omega
  show nameText (c :: cs) = _
  unfold nameText percentC
  simp only [h1, if_true, h2]
  rw [h3, viaUTF8_keep (by unfold Scalar; unfold Rune at *; omega)]

/-- What `NewGrammarFromString` returns as error text, with the entries of the map in the order they were made. -/
def messageOf (text : List Rune) : Option (List Rune) :=
  match fromString 40 text with
  | .err e g => some (e.text ((g.missing g.nonRoots).getD []))
  | _ => none

/-- The full claim fails for other characters: the message shows the character whose number is the first byte.  (rule.go:254) -/
theorem C63_first_char_wrong : messageOf (runes "é = 'a'") =
    some (runes "L#1: rule [é] - rule name must starts with a letter character: 'Ã' is invalid") := by decide +kernel

/-- The end of the text is shown as the character U+FFFD, as if that were in the text; `C63_message` fails for these. -/
theorem C63_end_shown : messageOf (runes "a = {'a'}<1") = messageOf (runes "a = {'a'}<1\uFFFD") ∧
    errorOf (runes "a = {'a'}<1") ≠ errorOf (runes "a = {'a'}<1\uFFFD") := by
  constructor <;> decide +kernel

/-- Non-vacuity of C63: one message of each sort. -/
example : messageOf (runes "a = 'x'\n\nb = ('x'") = some (runes "L#3: rule [b] - group must end with a round bracket ')'") ∧
    messageOf (runes "a = 'x' ?") = some (runes "L#1: rule [a] - invalid char '?'") ∧
    messageOf (runes "a = 'x' | ?") = some (runes "L#1: rule [a] - invalid char '?' for any rule") ∧
    messageOf (runes "a = {'x'}<3,2>") = some (runes "L#1: rule [a] - invalid repetition specification: max repeat less than min repeat: <3,2>") ∧
    messageOf (runes "a = <%") = some (runes "L#1: rule [a] - missing block open rule: invalid char '%'") ∧
    messageOf (runes "a = 'x'\na = 'y'") = some (runes "L#2: rule [a] - rule 'a' already defined at line 1") ∧
    messageOf (runes "\n nothing ") = some (runes "L#2: invalid(missing =): nothing") ∧
    messageOf (runes "a_b- = 'x'") = some (runes "L#1: rule [a_b-] - rule name must consist of letters, 0-9 digits, or '_': 'a_b-' is invalid") ∧
    messageOf (runes "a = b c\nc = d") = some (runes "rule name 'b' referenced but not defined") := by
  refine ⟨?_, ?_, ?_, ?_, ?_, ?_, ?_, ?_, ?_⟩ <;> decide +kernel

/-- `AddRule`, and then `ParseRule`. -/
def second (defn name text : List Rune) : Option PErr :=
  match addRule 30 defn {} with
  | .ok _ g =>
    match parseRule 30 name text g with
    | .err e _ => some e
    | _ => none
  | _ => none

/-- The names that `Validate` complains about when the map is visited forwards and backwards. -/
def bothWays (text : List Rune) : Option (Option Name × Option Name) :=
  match fromString 40 text with
  | .err _ g => some (g.missing g.nonRoots, g.missing g.nonRoots.reverse)
  | _ => none

/-- Non-vacuity: `ParseRule` on a grammar that is not empty; another order of the map gives another name. -/
example : second (runes "a = 'x' b") (runes "c") (runes "'x' | 'y") = some .charEnd ∧
    second (runes "a = 'x' b") (runes "a") (runes "'x'") = some (.duplicate (runes "a") 1) ∧
    bothWays (runes "a = b c\nc = d") = some (some (runes "b"), some (runes "d")) := by
  refine ⟨?_, ?_, ?_⟩ <;> decide +kernel

end Xbnf.Props
