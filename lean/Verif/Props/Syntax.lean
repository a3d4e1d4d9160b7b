import Verif.Lemmas.Notation
import Verif.Lemmas.RuleEq
/-
C48: a definition is accepted exactly if it is written in the notation of `Spec/Syntax.lean`, and gives
the rule written.
-/
namespace Xbnf.Props
open Spec

/-! ## C48 -/

/-- A text is accepted as a definition exactly if it is written in the notation, and the rule is the one
written; what follows the definition (after a comment) is left. -/
theorem C48_notation (name : Name) (text : List Rune) (r : Rule) (out : List Rune) :
    (∃ fuel us, parse fuel name [EOFChar] { rest := text } = .ok r { rest := out, usages := us }) ↔ Definition [EOFChar] text r out := by
  constructor
  · rintro ⟨fuel, us, h⟩
    exact parse_reads name fuel _ _ _ _ h
  · intro h
    obtain ⟨N, h⟩ := def_ok h good_eof
    obtain ⟨us, h⟩ := h N (Nat.le_refl _) name []
    exact ⟨N, us, h⟩

/-- The notation is unambiguous: a text writes one rule. -/
theorem C48_unambiguous {text : List Rune} {r r' : Rule} {out out' : List Rune} (h : Definition [EOFChar] text r out)
    (h' : Definition [EOFChar] text r' out') : r = r' ∧ out = out' := by
  obtain ⟨f, us, e⟩ := (C48_notation [] text r out).2 h
  obtain ⟨f', us', e'⟩ := (C48_notation [] text r' out').2 h'
  have e1 := parse_more (Nat.le_max_left f f') (by rw [e]; simp)
  have e2 := parse_more (Nat.le_max_right f f') (by rw [e']; simp)
  rw [e1, e, e'] at e2
  cases e2
  exact ⟨rfl, rfl⟩

/-- With as much fuel as the text is long (the code has no fuel), the answer is an error exactly for the texts
that are no definitions. -/
theorem C48_rejected (name : Name) (text : List Rune) (fuel : Nat) (hf : text.length + 2 ≤ fuel) :
    (∃ e st, parse fuel name [EOFChar] { rest := text } = .err e st) ↔ ∀ r out, ¬ Definition [EOFChar] text r out := by
  obtain ⟨hne, _⟩ := C34_parse_ends name [EOFChar] { rest := text } fuel hf
  constructor
  · rintro ⟨e, st, h⟩ r out hd
    obtain ⟨f, us, h'⟩ := (C48_notation name text r out).2 hd
    have e1 := parse_more (Nat.le_max_left fuel f) hne
    have e2 := parse_more (Nat.le_max_right fuel f) (show parse f name [EOFChar] { rest := text } ≠ .oof by rw [h']; simp)
    rw [e1, h, h'] at e2
    cases e2
  · intro h
    cases hp : parse fuel name [EOFChar] { rest := text } with
    | oof => exact absurd hp hne
    | err e st => exact ⟨e, st, rfl⟩
    | ok r st => exact absurd ((C48_notation name text r st.rest).1 ⟨fuel, st.usages, hp⟩) (h r st.rest)

/-- The same for acceptance. -/
theorem C48_accepted (name : Name) (text : List Rune) (fuel : Nat) (hf : text.length + 2 ≤ fuel) (r : Rule) (out : List Rune) :
    (∃ us, parse fuel name [EOFChar] { rest := text } = .ok r { rest := out, usages := us }) ↔ Definition [EOFChar] text r out := by
  obtain ⟨hne, _⟩ := C34_parse_ends name [EOFChar] { rest := text } fuel hf
  constructor
  · rintro ⟨us, h⟩
    exact (C48_notation name text r out).1 ⟨fuel, us, h⟩
  · intro hd
    obtain ⟨f, us, h'⟩ := (C48_notation name text r out).2 hd
    have e1 := parse_more (Nat.le_max_left fuel f) hne
    have e2 := parse_more (Nat.le_max_right fuel f) (show parse f name [EOFChar] { rest := text } ≠ .oof by rw [h']; simp)
    exact ⟨us, by rw [← e1, e2, h']⟩

/-- `a |'b'`: a choice between a reference and a character. -/
example : Definition [EOFChar] (runes "a |'b'") (.choice {} [[.ref {} (runes "a"), .char {} 98 false]]) [] := by
  refine .one (blank_refl _) (m2 := []) (.cons (m1 := runes "a |'b'") .none (.ref (n := runes "a") (out := runes " |'b'") ?_ (by decide))
    (.cons (op := 124) (m1 := runes "'b'") (alts := [(124, .char {} 98 false)]) (b := {}) (.white ⟨by decide, by decide⟩ .none) (.inl rfl) (by decide)
      (.cons (m := runes "'b'") (spaces_refl _) (.inl rfl) .none (.char (src := runes "b") (out := []) ?_ (by decide))
        (.nil (spaces_refl _) (by decide) (by decide) (by decide))) .nil) .nil) (.ended .none (.inl rfl))
  · refine ⟨⟨97, [], rfl, .inl (by unfold Letter; decide), (fun _ h => by cases h)⟩, ?_⟩
    intro d hd
    cases hd
    unfold Letter Digit
    decide
  · exact .plain .nil (by decide) (by decide) (by decide)

/-- All of the notation at once. -/
def everything : List Rune :=
  runes "$#a 'x'-\\u007A | \"s\\\"t\" > ~{ EOF }<2, 5> [\\u0041] <'(' '\\\\' ^ b ')' !> ( c 'de' ) // rest"

def everythingRule : Rule :=
  .concat {} [
    .ref { tokenized := true, nondata := true } (runes "a"),
    .choice {} [[.range {} 120 false 122 true, .str {} (runes "s\"t")], [.rep { virt := true } (.eof {}) 2 5]],
    .option {} (.char {} 65 true),
    .block {} (.char {} 40 false) true (.char {} 41 false) (some (.char {} 92 false)) [.ref {} (runes "b")],
    .group {} (.concat {} [.ref {} (runes "c"), .chars {} (runes "de")])]

example : Definition [EOFChar] everything everythingRule [] :=
  (C48_notation [] everything everythingRule []).1 ⟨40, [(runes "a", []), (runes "b", []), (runes "c", [])], by decide +kernel⟩

/-- A text that is no definition, for no rule: an annotation before '|'. -/
example : ∀ r out, ¬ Definition [EOFChar] (runes "a #| b") r out :=
  (C48_rejected [] (runes "a #| b") 30 (by decide)).1 ⟨_, _, rfl⟩

theorem withName_eq (n : Name) (r : Rule) : withName n r = r.setName n := by
  cases r <;> rfl

/-- What a line of a grammar writes is what the parser makes of it. -/
theorem parses_iff (name body : List Rune) (r : Rule) :
    Parses name body r ↔ ∃ fuel r0 st, parse fuel name [EOFChar] { rest := body } = .ok r0 st ∧ r = r0.setName name := by
  constructor
  · rintro ⟨r0, out, h, rfl⟩
    obtain ⟨f, us, e⟩ := (C48_notation name body r0 out).2 h
    exact ⟨f, r0, _, e, withName_eq _ _⟩
  · rintro ⟨f, r0, st, e, rfl⟩
    exact ⟨r0, st.rest, (C48_notation name body r0 st.rest).1 ⟨f, st.usages, e⟩, (withName_eq _ _).symm⟩

end Xbnf.Props
