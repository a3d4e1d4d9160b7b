import Verif.Props.Bounds
import Verif.Props.Added
/-
C87: where it is false, and cases.
-/
namespace Xbnf.Props
open Xbnf Xbnf.Spec Grammar

/-- A bound that is just reached is not like one that is not: `{i}<0,1>` and `{i}` both find one `x` in the text, but only the second looks
for another, and what fails then reports that white space may follow. -/
theorem C87_counterexample :
    readOf (runes "r = {i}<0,1> 'z'\ni = 'x' > \"w\"") (runes "r") (runes "x z") = some (false, 0) ∧
    readOf (runes "r = {i} 'z'\ni = 'x' > \"w\"") (runes "r") (runes "x z") = some (true, 3) := by decide +kernel

/-- What `C87_option` says of the rule itself does not hold for the rules around it: if there is no `b`, the white space after `"a"` may
still be skipped after `['b']`, but not after `{'b'}<0,1>`. -/
theorem C87_option_counterexample :
    readOf (runes "r = \"a\" ['b'] 'c'") (runes "r") (runes "a c") = some (true, 3) ∧
    readOf (runes "r = \"a\" {'b'}<0,1> 'c'") (runes "r") (runes "a c") = some (false, 0) := by decide +kernel

/-! ## Cases -/

/-- `['ab']` on "ababc", like `{'ab'}<0,1>` below. -/
example : (Stream.ofChars (runes "ababc")).peek ≠ EOFChar ∧
    seen (eval noRules 9 (.option {} (lit "ab")) SUGGEST_SKIP (Stream.ofChars (runes "ababc"))) =
      some (some (runes "ab", 1), runes "ab", [], runes "abc") := ⟨by decide +kernel, by decide +kernel⟩

/-- `{'ab'}<0,0>` finds two on "ababc"; `<2,0>`, `<1,3>` the same; `<3,0>` none; `<0,1>` the first. -/
example : seen (eval noRules 9 (.rep {} (lit "ab") 0 0) SUGGEST_SKIP (Stream.ofChars (runes "ababc"))) =
      some (some (runes "abab", 2), runes "ababc", runes "c", []) ∧
    seen (eval noRules 9 (.rep {} (lit "ab") 1 3) SUGGEST_SKIP (Stream.ofChars (runes "ababc"))) =
      some (some (runes "abab", 2), runes "ababc", runes "c", []) ∧
    seen (eval noRules 9 (.rep {} (lit "ab") 3 0) SUGGEST_SKIP (Stream.ofChars (runes "ababc"))) =
      some (none, runes "ababc", runes "ababc", []) ∧
    seen (eval noRules 9 (.rep {} (lit "ab") 0 1) SUGGEST_SKIP (Stream.ofChars (runes "ababc"))) =
      some (some (runes "ab", 1), runes "ab", [], runes "abc") :=
  ⟨by decide +kernel, by decide +kernel, by decide +kernel, by decide +kernel⟩

end Xbnf.Props
