import Verif.Model.Parse

/-! # Hypotheses about cut tokens and external handlers -/

namespace Wbnf

/-- Token `c` can come out of an external handler (or is the fixed token used for a missing one). -/
def Externals.Emits (X : Externals) (c : Nat) : Prop :=
  c = 1 ∨ (∃ name f call inp, X.refs name = some f ∧ (f call inp).err = some (.fatal c)) ∨
  (∃ e call inp, X.esc = some e ∧ (e.external call inp).err = some (.fatal c))

/-- The first `K` random draws are pairwise distinct, and none is a token external handlers use. -/
structure DistinctDraws (X : Externals) (ρ : Nat → Nat) (K : Nat) : Prop where
  inj : ∀ i j, i < K → j < K → ρ i = ρ j → i = j
  foreign : ∀ i, i < K → ¬ X.Emits (ρ i)

/-- A handler that does not look at the cut token of the scope it is given. -/
def Handler.Blind (f : Call → Scanner → ExtRes) : Prop :=
  ∀ (c : Call) (cp : Option Nat) inp, f { c with cp := cp } inp = f c inp

structure Externals.Blind (X : Externals) : Prop where
  refs : ∀ name f, X.refs name = some f → Handler.Blind f
  esc : ∀ e, X.esc = some e → Handler.Blind e.external

end Wbnf
