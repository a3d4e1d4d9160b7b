import Verif.Props.Added
/-
C48: the marks of EOF.
-/
namespace Xbnf.Props
open Xbnf Xbnf.Spec

/-- `EOF()` makes a rule that is nondata and virtual, but in a definition the marks written before it, here none, take their place. -/
theorem C48_eof_marks : eofRule = .eof { nondata := true, virt := true } ∧
    content ((madeOf (runes "r = 'x' EOF")).getD {}).records =
      [(runes "r", .concat { name := runes "r" } [.char {} 120 false, .eof {}])] ∧
    content ((madeOf (runes "r = 'x' ~EOF")).getD {}).records =
      [(runes "r", .concat { name := runes "r" } [.char {} 120 false, .eof { virt := true }])] := by decide +kernel

end Xbnf.Props
