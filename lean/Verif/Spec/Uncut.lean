import Verif.Spec.Deep
import Verif.Spec.Stacks
import Verif.Spec.Peg

/-!
# Removing cut points
-/

namespace Wbnf

/-- The wrapper definitions of the grammar have no cut points in them. -/
def Grammar.WrapUncut (g : Grammar) : Prop := ∀ w, (str ".wrapRE", w) ∈ g → w.uncut = w

/-- What is under a cut point is not a name or rule (under which a value could be bound) and not a stack, and
wrappers have no cut points. The cut points inserted by compiling a wbnf text are on literals. -/
def Term.PlainCut : Term → Prop
  | .cut u => identFromTerm u.uncut = [] ∧ ∀ ls, u.uncut ≠ .stack ls
  | .scope _ g => Grammar.WrapUncut g
  | _ => True

end Wbnf
