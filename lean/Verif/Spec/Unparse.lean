import Verif.Spec.Deep

/-!
# Terms that `Unparse` writes back
-/

namespace Wbnf

/-- Literals, regexps, sequences, choices, repetitions, look-aheads, names, rules, cut points and plain
delimited lists; stacks at the top of a rule are rewritten into rules before. -/
def Term.Writable : Term → Prop
  | .ref _ _ => False
  | .ext _ => False
  | .scope _ _ => False
  | .delim _ _ a cs ce => a ≠ 1 ∧ a ≠ -1 ∧ cs = false ∧ ce = false
  | _ => True

end Wbnf
