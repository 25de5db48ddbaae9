import Verif.Spec.Stacks
import Verif.Model.Compile

/-!
# Grammars whose wrappers are simple
-/

namespace Wbnf

mutual
/-- Wherever `.wrapRE` is defined in braces, there are neither braces nor a stack in the definition. -/
def Term.FlatWraps : Term → Prop
  | .seq ts => flatWrapsList ts
  | .oneof ts => flatWrapsList ts
  | .stack ts => flatWrapsList ts
  | .delim t sep _ _ _ => t.FlatWraps ∧ sep.FlatWraps
  | .look t => t.FlatWraps
  | .quant t _ _ => t.FlatWraps
  | .named _ t => t.FlatWraps
  | .cut t => t.FlatWraps
  | .scope t g => t.FlatWraps ∧ flatWrapsDefs g
  | .rule _ => True
  | .s _ => True
  | .re _ => True
  | .ref _ _ => True
  | .ext _ => True
def flatWrapsList : List Term → Prop
  | [] => True
  | t :: ts => t.FlatWraps ∧ flatWrapsList ts
def flatWrapsDefs : List (Str × Term) → Prop
  | [] => True
  | (r, t) :: g => (r = wrapRE → t.flat = true) ∧ t.FlatWraps ∧ flatWrapsDefs g
end

/-- Wherever `.wrapRE` is defined, there are neither braces nor a stack in the definition. -/
def Grammar.FlatWraps (g : Grammar) : Prop := flatWrapsDefs g

end Wbnf
