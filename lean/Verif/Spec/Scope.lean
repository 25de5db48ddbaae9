import Verif.Spec.Stacks

/-!
# Names used by terms and names defined by grammars
-/

namespace Wbnf

/-- `g` defines the name `x`: as one of its rules, or as a layer of one of its stacks. -/
def Grammar.Has (g : Grammar) (x : Str) : Prop :=
  (∃ t, (x, t) ∈ g) ∨ ∃ r ls i, (r, .stack ls) ∈ g ∧ i < ls.length ∧ x = layer r i

mutual
/-- The term refers to a rule `x` defined outside of it. In braces, names that the grammar in braces defines
do not count; in a stack, `@` does not. -/
def Term.Uses (x : Str) : Term → Prop
  | .rule r => r = x
  | .seq ts => usesList x ts
  | .oneof ts => usesList x ts
  | .stack ts => x ≠ str "@" ∧ usesList x ts
  | .delim t sep _ _ _ => t.Uses x ∨ sep.Uses x
  | .look t => t.Uses x
  | .quant t _ _ => t.Uses x
  | .named _ t => t.Uses x
  | .cut t => t.Uses x
  | .scope t g => ¬ Grammar.Has g x ∧ (t.Uses x ∨ usesDefs x g)
  | .s _ => False
  | .re _ => False
  | .ref _ _ => False
  | .ext _ => False
def usesList (x : Str) : List Term → Prop
  | [] => False
  | t :: ts => t.Uses x ∨ usesList x ts
def usesDefs (x : Str) : List (Str × Term) → Prop
  | [] => False
  | (_, t) :: g => t.Uses x ∨ usesDefs x g
end

mutual
/-- There is no external reference in the term, not in braces either. -/
def Term.noExt : Term → Bool
  | .ext _ => false
  | .seq ts => noExtList ts
  | .oneof ts => noExtList ts
  | .stack ts => noExtList ts
  | .delim t sep _ _ _ => t.noExt && sep.noExt
  | .look t => t.noExt
  | .quant t _ _ => t.noExt
  | .named _ t => t.noExt
  | .cut t => t.noExt
  | .scope t g => t.noExt && noExtDefs g
  | .rule _ => true
  | .s _ => true
  | .re _ => true
  | .ref _ _ => true
def noExtList : List Term → Bool
  | [] => true
  | t :: ts => t.noExt && noExtList ts
def noExtDefs : List (Str × Term) → Bool
  | [] => true
  | (_, t) :: g => t.noExt && noExtDefs g
end

/-- The rules `h` in braces of `r -> t {h};` can stand beside the other rules `rest` instead, without a name
clash: no two rules (or layers) share a name, and what `h` defines is neither the wrapper nor used in `rest`. -/
structure Liftable (r : Str) (t : Term) (h rest : Grammar) : Prop where
  distinct : Grammar.Distinct ((r, t) :: (h ++ rest))
  fresh : Grammar.LayersFresh ((r, t) :: (h ++ rest))
  notRule : ∀ r', t ≠ .rule r'
  notStack : ∀ ls, t ≠ .stack ls
  notWrap : r ≠ str ".wrapRE"
  hidden : ∀ x, h.Has x → x ≠ str ".wrapRE" ∧ x ≠ r ∧ ¬ rest.Has x ∧ ¬ usesDefs x rest

end Wbnf
