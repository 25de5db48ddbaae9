import Verif.Model.Term

/-!
# Conditions on all subterms
-/

namespace Wbnf

mutual
/-- `P` holds of the term and of all terms in it, in grammars in braces too. -/
def Term.Deep (P : Term → Prop) : Term → Prop
  | .seq ts => P (.seq ts) ∧ deepList P ts
  | .oneof ts => P (.oneof ts) ∧ deepList P ts
  | .stack ts => P (.stack ts) ∧ deepList P ts
  | .delim t sep a cs ce => P (.delim t sep a cs ce) ∧ t.Deep P ∧ sep.Deep P
  | .look t => P (.look t) ∧ t.Deep P
  | .quant t lo hi => P (.quant t lo hi) ∧ t.Deep P
  | .named n t => P (.named n t) ∧ t.Deep P
  | .cut t => P (.cut t) ∧ t.Deep P
  | .scope t g => P (.scope t g) ∧ t.Deep P ∧ deepDefs P g
  | .rule r => P (.rule r)
  | .s l => P (.s l)
  | .re l => P (.re l)
  | .ref i d => P (.ref i d)
  | .ext x => P (.ext x)
def deepList (P : Term → Prop) : List Term → Prop
  | [] => True
  | t :: ts => t.Deep P ∧ deepList P ts
def deepDefs (P : Term → Prop) : List (Str × Term) → Prop
  | [] => True
  | (_, t) :: g => t.Deep P ∧ deepDefs P g
end

/-- `P` holds of all terms in the definitions of the grammar. -/
def Grammar.Deep (P : Term → Prop) (g : Grammar) : Prop := deepDefs P g

end Wbnf
