import Verif.Spec.Peg

/-!
# Grammars that can be compiled
-/

namespace Wbnf

/-- The definition `t` of a rule of `g` comes down to `t'`, going through definitions that are just
another rule name. -/
def StandsFor (g : Grammar) (t t' : Term) : Prop :=
  (t' = t ∧ ∀ r, t ≠ .rule r) ∨ ∃ r, t = .rule r ∧ Defines g r t'

/-- The regexp of a leaf with source text `text` and own group `group` exists and is valid. -/
def LeafValid (E : Engine) (wrap : Option Term) (text group : Str) : Prop :=
  ∃ p, LeafPattern wrap text group p ∧ E.valid (anchor ++ p) = true

/-- The term can be compiled when the wrapper `wrap` is in force: every regexp in it is valid, there is
no stack below a rule's top level, and grammars in braces can be compiled, all their rules included.
Rule references, back references and external references are not looked at when compiling. -/
inductive Compilable (E : Engine) : Option Term → Term → Prop
  | rule {w r} : Compilable E w (.rule r)
  | ref {w i d} : Compilable E w (.ref i d)
  | ext {w x} : Compilable E w (.ext x)
  | lit {w l} : LeafValid E w l (str "(" ++ quoteMeta l ++ str ")") → Compilable E w (.s l)
  | regexp {w l} : LeafValid E w l (str "(" ++ l ++ str ")") → Compilable E w (.re l)
  | seq {w ts} : (∀ t ∈ ts, Compilable E w t) → Compilable E w (.seq ts)
  | oneof {w ts} : (∀ t ∈ ts, Compilable E w t) → Compilable E w (.oneof ts)
  | delim {w t sep a cs ce} : Compilable E w t → Compilable E w sep → Compilable E w (.delim t sep a cs ce)
  | look {w t} : Compilable E w t → Compilable E w (.look t)
  | quant {w t lo hi} : Compilable E w t → Compilable E w (.quant t lo hi)
  | named {w n t} : Compilable E w t → Compilable E w (.named n t)
  | cut {w t} : Compilable E w t → Compilable E w (.cut t)
  | scope {w t g g1} : Grammar.resolveStacks g = some g1 →
      (∀ e ∈ inheritWrap w g1, ∃ t', StandsFor (inheritWrap w g1) e.2 t') →
      (∀ e ∈ inheritWrap w g1, ∀ t', StandsFor (inheritWrap w g1) e.2 t' →
        Compilable E (lookup wrapRE (inheritWrap w g1)) t') →
      Compilable E (lookup wrapRE (inheritWrap w g1)) t → Compilable E w (.scope t g)

/-- The grammar can be compiled: its stacks can be resolved, every definition comes down to a term
(no alias to a missing rule, no circle of aliases), and that term can be compiled. -/
def Grammar.Compilable (E : Engine) (g : Grammar) : Prop :=
  ∃ g1, g.resolveStacks = some g1 ∧
    ∀ e ∈ g1, ∃ t', StandsFor g1 e.2 t' ∧ Wbnf.Compilable E (lookup wrapRE g1) t'

end Wbnf
