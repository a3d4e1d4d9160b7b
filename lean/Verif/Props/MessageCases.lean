import Verif.Props.Messages
/-
C57, cases: texts of errors of a small grammar.
-/
namespace Xbnf.Props

example : told threeDigits "A" "ab12" = some (runes "A: 3 or more time(s) of 0-9: 2 less than minimal 3") := by decide +kernel
example : told threeDigits "A" " \n ay" = some (runes "A: missing \"ab\" at L1:1") := by decide +kernel
example : told threeDigits "B" "x w" = some (runes "B: missing '/*' at L1:2") := by decide +kernel
example : told threeDigits "z" "/* " = some (runes "missing '*/' at EOF") := by decide +kernel
example : told threeDigits "C" "/* " = some (runes "rule 'C' not defined") := by decide +kernel

end Xbnf.Props
