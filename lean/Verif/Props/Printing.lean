import Verif.Lemmas.Printing
import Verif.Props.Grammars
/-
C36: a printed rule parses back to the same rule.
-/
namespace Xbnf.Props
open Spec Grammar

theorem print_setName (n : Name) (r : Rule) : (r.setName n).print = r.print := by
  cases r with
  | block b o v c e x => cases e <;> rfl
  | _ => rfl

theorem setName_setName (n m : Name) (r : Rule) : (r.setName m).setName n = r.setName n := by
  cases r <;> rfl

theorem def_trimmed {r : Rule} (h : FaithfulDef r) : Trimmed r.print r.print := by
  refine ⟨[], [], by simp, (fun _ h => by cases h), ?_, ?_⟩
  · obtain ⟨c, t, e, hc⟩ := def_begins h
    intro d hd
    rw [e] at hd
    cases hd
    exact hc.1
  · obtain ⟨t, c, e, hc⟩ := def_ends h
    intro d hd
    rw [e, List.getLast?_append] at hd
    cases hd
    exact hc

/-- What is printed is in the notation, and writes the rule. -/
theorem C36_notation_partial {r : Rule} (h : FaithfulDef r) : Definition [EOFChar] r.print r [] :=
  faithfulDef_readable h [EOFChar] _ [] [] (free_of (by decide)) (.inl ⟨rfl, rfl⟩) (by rw [List.append_nil]; exact blank_refl _)

/-- For a rule that was parsed and is printed faithfully, parsing what `String` gives, in any grammar that does
not have the name yet, gives the rule again. -/
theorem C36_round_trip_partial {fuel : Nat} {name : Name} {text : List Rune} {g g1 : Grammar} {r : Rule}
    (h : parseRule fuel name text g = .ok r g1) (hr : FaithfulDef (r.setName []))
    (g2 : Grammar) (hnew : ∀ q ∈ g2.records, q.name ≠ name) (fuel2 : Nat) (hf : r.print.length + 2 ≤ fuel2) :
    ∃ g3, parseRule fuel2 name r.print g2 = .ok r g3 := by
  have hc := parseRule_cases (fuel := fuel) (name := name) (text := text) (g := g)
  rw [h] at hc
  obtain ⟨h1, _, r0, _, h4, _, _⟩ := hc
  refine (C48_parseRule name r.print g2 fuel2 hf r).2 ⟨h1, hnew, r.print, ?_, r.setName [], [], ?_, ?_⟩
  · have := def_trimmed hr
    rwa [print_setName] at this
  · have := C36_notation_partial hr
    rwa [print_setName] at this
  · rw [withName_eq, setName_setName, h4, setName_setName]

/-- The rule of an answer. -/
def answer : Out Grammar Rule → Option Rule
  | .ok r _ => some r
  | _ => none

theorem answer_some {o : Out Grammar Rule} {r : Rule} (h : answer o = some r) : ∃ g, o = .ok r g := by
  cases o with
  | ok r' g => cases h; exact ⟨g, rfl⟩
  | err e g => cases h
  | oof => cases h

/-- A text with every kind of part, and its rule. -/
def faithfulText : List Rune :=
  runes "$#a 'x'-\\u007A | \"s t\" > ~{ EOF }<2, 5> [\\u0041] <'(' '\\\\' ^ b ')' !> ( c 'd\\'e' ) #'\\''-'z' // rest"

def faithfulRule : Rule :=
  .concat { name := runes "x" } [
    .ref { tokenized := true, nondata := true } (runes "a"),
    .choice {} [[.range {} 120 false 122 true, .str {} (runes "s t")], [.rep { virt := true } (.eof {}) 2 5]],
    .option {} (.char {} 65 true),
    .block {} (.char {} 40 false) true (.char {} 41 false) (some (.char {} 92 false)) [.ref {} (runes "b")],
    .group {} (.concat {} [.ref {} (runes "c"), .chars {} (runes "d'e")]),
    .range { nondata := true } 39 false 122 false]

theorem faithfulRule_faithful : FaithfulDef (faithfulRule.setName []) := by
  have name {c : Rune} (h : Letter c) (hn : [c] ≠ runes "EOF") : RefName [c] := ⟨⟨c, [], rfl, .inl h, by simp⟩, hn⟩
  have fa : Faithful (.ref { tokenized := true, nondata := true } (runes "a")) := .ref rfl (name (by unfold Letter; decide) (by decide))
  have fb : Faithful (.ref {} (runes "b")) := .ref rfl (name (by unfold Letter; decide) (by decide))
  have fc : Faithful (.ref {} (runes "c")) := .ref rfl (name (by unfold Letter; decide) (by decide))
  have f1 : Faithful (.range {} 120 false 122 true) := .rangeCode (fun _ => by unfold Scalar; decide) (fun h => by cases h) (by unfold Code; decide)
  have f2 : Faithful (.str {} (runes "s t")) := .str rfl (by unfold Scalar; decide)
  have f3 : Faithful (.rep { virt := true } (.eof {}) 2 5) := .rep rfl (.part (.simple (.eof rfl))) (by decide) (by decide) (by decide)
  have f4 : Faithful (.option {} (.char {} 65 true)) := .option rfl (.part (.simple (.code rfl (by unfold Code; decide))))
  have f5 : Faithful (.block {} (.char {} 40 false) true (.char {} 41 false) (some (.char {} 92 false)) [.ref {} (runes "b")]) :=
    .blockEscape rfl (.char rfl (by unfold Scalar; decide)) (.char rfl (by unfold Scalar; decide)) (.char rfl (by unfold Scalar; decide))
      (by simpa using fb)
  have f6 : Faithful (.group {} (.concat {} [.ref {} (runes "c"), .chars {} (runes "d'e")])) := by
    refine .group rfl (.concat (fun r hr => .simple ?_) (by decide))
    simp only [List.mem_cons, List.not_mem_nil, or_false] at hr
    rcases hr with rfl | rfl
    · exact fc
    · exact .chars rfl (by decide) (by unfold Scalar; decide)
  have f7 : Faithful (.range { nondata := true } 39 false 122 false) :=
    .range rfl (fun _ => by unfold Scalar; decide) (fun h => by cases h) (by unfold Scalar; decide) (by decide) (by decide)
  refine .concat (fun r hr => ?_) (by decide)
  simp only [List.mem_cons, List.not_mem_nil, or_false] at hr
  rcases hr with rfl | rfl | rfl | rfl | rfl | rfl
  · exact .simple fa
  · refine .choice (by simp) (fun g hg r hr => ?_) (by decide)
    simp only [List.mem_cons, List.not_mem_nil, or_false] at hg
    rcases hg with rfl | rfl
    · simp only [List.mem_cons, List.not_mem_nil, or_false] at hr
      rcases hr with rfl | rfl
      · exact f1
      · exact f2
    · simp only [List.mem_cons, List.not_mem_nil, or_false] at hr
      subst hr
      exact f3
  · exact .simple f4
  · exact .simple f5
  · exact .simple f6
  · exact .simple f7

example : faithfulRule.print =
    runes "$#a 'x'-\\u007A | \"s t\" > ~{ EOF }<2,5> [ \\u0041 ] <'(' '\\\\' ^b ')' !> ( c 'd\\'e' ) #'\\''-'z'" := by
  decide +kernel

example : ∃ g, parseRule 200 (runes "x") faithfulRule.print {} = .ok faithfulRule g := by
  obtain ⟨g1, h⟩ := answer_some (show answer (parseRule 120 (runes "x") faithfulText {}) = some faithfulRule by decide +kernel)
  exact C36_round_trip_partial h faithfulRule_faithful {} (fun _ h => by cases h) 200 (by decide +kernel)

/-! ## What is not printed faithfully -/

/-- Whether what is printed for the rule of a text is read as the same rule. -/
def survives (t : List Rune) : Bool :=
  match parseRule (t.length + 2) (runes "x") t {} with
  | .ok r _ =>
    match parseRule (r.print.length + 2) (runes "x") r.print {} with
    | .ok r' _ => decide (r' = r)
    | _ => false
  | _ => true

theorem survives_false {t : List Rune} (h : survives t = false) :
    ∃ r g', parseRule (t.length + 2) (runes "x") t {} = .ok r g' ∧
      ∀ g'', parseRule (r.print.length + 2) (runes "x") r.print {} ≠ .ok r g'' := by
  unfold survives at h
  cases h1 : parseRule (t.length + 2) (runes "x") t {} with
  | ok r g' =>
    rw [h1] at h
    refine ⟨r, g', rfl, fun g'' h2 => ?_⟩
    simp only [h2, decide_true] at h
    cases h
  | err e g' => rw [h1] at h; cases h
  | oof => rw [h1] at h; cases h

/-- Texts whose rules are not printed faithfully, one for each condition of `Faithful`. -/
def unfaithful : List (List Rune) :=
  [runes "'\\\\a'",            -- a backslash among several characters is printed alone
   runes "\"\\\\\"",           -- the same in a string
   runes "\"a\\\"b\"",         -- a quote in a string is printed alone
   runes "'\\\\'-'a'",         -- a backslash as the first character of a range
   runes "'!'-'''",            -- a quote as the last character of a range
   runes "$\\u0041-\\u005A",   -- marks are printed again before the last character of a range
   runes "{ 'a' }<3,3>",       -- exactly three is printed as at least three
   runes "'a' $ | 'b'",        -- a choice with a mark is printed as a group
   runes "'a' | 'b'\n| 'c'",   -- a choice as an alternative
   runes "<'a''b' 'c'>",       -- a concatenation as part of a block
   runes "<'x' 'a'|'b'!>"]     -- a choice as part of a block

/-- The full claim fails: each of these texts is accepted, but what its rule is printed as is rejected or
is read as another rule. -/
theorem C36_counterexample : ∀ t ∈ unfaithful, ∃ r g', parseRule (t.length + 2) (runes "x") t {} = .ok r g' ∧
    ∀ g'', parseRule (r.print.length + 2) (runes "x") r.print {} ≠ .ok r g'' := by
  have h : ∀ t ∈ unfaithful, survives t = false := by decide +kernel
  exact fun t ht => survives_false (h t ht)

end Xbnf.Props
