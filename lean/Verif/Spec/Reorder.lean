import Verif.Spec.Stacks

/-!
# The same grammar in another order

A Go map has no order; the model lists its entries. `Reord` relates terms that differ in the order of the
entries of grammars in braces, `ReordDefs` grammars that differ in the order of entries, at any level.
-/

namespace Wbnf

mutual
inductive Reord : Term → Term → Prop
  | rule {r} : Reord (.rule r) (.rule r)
  | s {l} : Reord (.s l) (.s l)
  | re {p} : Reord (.re p) (.re p)
  | ref {i d} : Reord (.ref i d) (.ref i d)
  | ext {x} : Reord (.ext x) (.ext x)
  | seq {ts ts'} : ReordList ts ts' → Reord (.seq ts) (.seq ts')
  | oneof {ts ts'} : ReordList ts ts' → Reord (.oneof ts) (.oneof ts')
  | stack {ts ts'} : ReordList ts ts' → Reord (.stack ts) (.stack ts')
  | delim {t t' sep sep' a cs ce} : Reord t t' → Reord sep sep' → Reord (.delim t sep a cs ce) (.delim t' sep' a cs ce)
  | look {t t'} : Reord t t' → Reord (.look t) (.look t')
  | quant {t t' lo hi} : Reord t t' → Reord (.quant t lo hi) (.quant t' lo hi)
  | named {n t t'} : Reord t t' → Reord (.named n t) (.named n t')
  | scope {t t' g g'} : Reord t t' → ReordDefs g g' → Reord (.scope t g) (.scope t' g')
  | cut {t t'} : Reord t t' → Reord (.cut t) (.cut t')
inductive ReordList : List Term → List Term → Prop
  | nil : ReordList [] []
  | cons {t t' ts ts'} : Reord t t' → ReordList ts ts' → ReordList (t :: ts) (t' :: ts')
/-- Like `List.Perm`, and also inside the definitions. -/
inductive ReordDefs : Grammar → Grammar → Prop
  | nil : ReordDefs [] []
  | cons {k t t' g g'} : Reord t t' → ReordDefs g g' → ReordDefs ((k, t) :: g) ((k, t') :: g')
  | swap {a b g} : ReordDefs (a :: b :: g) (b :: a :: g)
  | trans {g₁ g₂ g₃} : ReordDefs g₁ g₂ → ReordDefs g₂ g₃ → ReordDefs g₁ g₃
end

mutual
/-- In every grammar in braces, rules have distinct names, none of which is the name of a layer of a
stack. -/
def Term.Tidy : Term → Prop
  | .seq ts => tidyList ts
  | .oneof ts => tidyList ts
  | .stack ts => tidyList ts
  | .delim t sep _ _ _ => t.Tidy ∧ sep.Tidy
  | .look t => t.Tidy
  | .quant t _ _ => t.Tidy
  | .named _ t => t.Tidy
  | .cut t => t.Tidy
  | .scope t g => t.Tidy ∧ tidyDefs g ∧ Grammar.Distinct g ∧ Grammar.LayersFresh g
  | .rule _ => True
  | .s _ => True
  | .re _ => True
  | .ref _ _ => True
  | .ext _ => True
def tidyList : List Term → Prop
  | [] => True
  | t :: ts => t.Tidy ∧ tidyList ts
def tidyDefs : List (Str × Term) → Prop
  | [] => True
  | (_, t) :: g => t.Tidy ∧ tidyDefs g
end

/-- Rules have distinct names, none of which is the name of a layer of a stack, here and in all grammars in
braces. -/
def Grammar.Tidy (g : Grammar) : Prop := tidyDefs g ∧ g.Distinct ∧ g.LayersFresh

end Wbnf
