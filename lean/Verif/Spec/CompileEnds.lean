import Verif.Spec.Compiles

/-!
# Grammars whose compilation ends
-/

namespace Wbnf

/-- Going from a rule that is just the name of another rule to that rule comes to an end, from every rule. -/
def Grammar.AliasesEnd (g : Grammar) : Prop := ∀ r, Acc (fun b a => lookup a g = some (.rule b)) r

/-- Aliases end in all the grammars in braces in the term, when the wrapper `wrap` is in force. -/
inductive ScopesEnd : Option Term → Term → Prop
  | rule {w r} : ScopesEnd w (.rule r)
  | ref {w i d} : ScopesEnd w (.ref i d)
  | ext {w x} : ScopesEnd w (.ext x)
  | lit {w l} : ScopesEnd w (.s l)
  | regexp {w l} : ScopesEnd w (.re l)
  | stack {w ts} : ScopesEnd w (.stack ts)
  | seq {w ts} : (∀ t ∈ ts, ScopesEnd w t) → ScopesEnd w (.seq ts)
  | oneof {w ts} : (∀ t ∈ ts, ScopesEnd w t) → ScopesEnd w (.oneof ts)
  | delim {w t sep a cs ce} : ScopesEnd w t → ScopesEnd w sep → ScopesEnd w (.delim t sep a cs ce)
  | look {w t} : ScopesEnd w t → ScopesEnd w (.look t)
  | quant {w t lo hi} : ScopesEnd w t → ScopesEnd w (.quant t lo hi)
  | named {w n t} : ScopesEnd w t → ScopesEnd w (.named n t)
  | cut {w t} : ScopesEnd w t → ScopesEnd w (.cut t)
  /-- stacks that cannot be resolved are an error right away -/
  | scope {w t g} : (∀ g1, Grammar.resolveStacks g = some g1 → (inheritWrap w g1).AliasesEnd) →
      (∀ g1, Grammar.resolveStacks g = some g1 → ∀ e ∈ inheritWrap w g1, ∀ t', StandsFor (inheritWrap w g1) e.2 t' →
        ScopesEnd (lookup wrapRE (inheritWrap w g1)) t') →
      (∀ g1, Grammar.resolveStacks g = some g1 → ScopesEnd (lookup wrapRE (inheritWrap w g1)) t) → ScopesEnd w (.scope t g)

/-- Aliases end in the grammar and in those in braces in it. -/
def Grammar.CompileEnds (g : Grammar) : Prop :=
  ∀ g1, g.resolveStacks = some g1 → g1.AliasesEnd ∧ ∀ e ∈ g1, ∀ t', StandsFor g1 e.2 t' → ScopesEnd (lookup wrapRE g1) t'

end Wbnf
