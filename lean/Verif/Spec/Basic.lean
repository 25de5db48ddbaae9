import Verif.Model.Parse
import Verif.Lemmas.Scanner

/-!
# Specification vocabulary shared by the property theorems
-/

namespace Wbnf

/-- What every regexp engine guarantees about match positions: the whole match lies in the text, and
each group is unset or lies in the whole match. -/
structure Engine.Sane (E : Engine) : Prop where
  whole : ∀ p x locs, E.find p x = some locs →
    ∃ a b gs, locs = (a, b) :: gs ∧ 0 ≤ a ∧ a ≤ b ∧ b ≤ (x.length : Int)
  groups : ∀ p x a b gs g, E.find p x = some ((a, b) :: gs) → g ∈ gs →
    g = (-1, -1) ∨ (a ≤ g.1 ∧ g.1 ≤ g.2 ∧ g.2 ≤ b)

/-- `b` is what is left of scanner `a` after consuming some of its text from the front: same source,
same end, start not before `a`'s start and not after its end. -/
structure Advances (a b : Scanner) : Prop where
  src : b.src = a.src
  start : a.start ≤ b.start
  stop : b.start + b.len = a.start + a.len
  nonneg : 0 ≤ b.len

/-- External handlers are required to consume text from the front only, also when they fail or
report unconsumed input. -/
def Handler.Sane (f : Call → Scanner → ExtRes) : Prop :=
  ∀ c inp, inp.InRange → Advances inp (f c inp).inp ∧
    ∀ t r, (f c inp).err = some (.unconsumed t r) → Advances inp r

structure Externals.Sane (X : Externals) : Prop where
  refs : ∀ name f, X.refs name = some f → Handler.Sane f
  esc : ∀ e, X.esc = some e → Handler.Sane e.external

end Wbnf
