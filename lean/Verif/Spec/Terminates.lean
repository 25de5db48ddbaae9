import Verif.Spec.Derives
import Verif.Spec.Basic

/-!
# Grammars on which the parser terminates
-/

namespace Wbnf

/-- A term, with the grammars it stands under. -/
abbrev Place := List Grammar × Term

/-- The terms a term directly consists of; for a rule name, its definition; for a delimited list, the
sequence it stands for. -/
inductive Uses : Place → Place → Prop
  | rule {Γ r Γ' t} : Resolves Γ r Γ' t → Uses (Γ, .rule r) (Γ', t)
  | named {Γ n t} : Uses (Γ, .named n t) (Γ, t)
  | cut {Γ t} : Uses (Γ, .cut t) (Γ, t)
  | scope {Γ t g g'} : Enters Γ g g' → Uses (Γ, .scope t g) (g' :: Γ, t)
  | seq {Γ ts t} : t ∈ ts → Uses (Γ, .seq ts) (Γ, t)
  | oneof {Γ ts t} : t ∈ ts → Uses (Γ, .oneof ts) (Γ, t)
  | quant {Γ t lo hi} : Uses (Γ, .quant t lo hi) (Γ, t)
  | look {Γ t} : Uses (Γ, .look t) (Γ, t)
  | delim {Γ t sep a cs ce} : Uses (Γ, .delim t sep a cs ce) (Γ, .seq (delimSeq t sep cs ce))

/-- The term can match somewhere without consuming anything. -/
def CanBeEmpty (E : Engine) (X : Externals) (Γ : List Grammar) (t : Term) : Prop :=
  ∃ rule vals i v, i.InRange ∧ Derives E X (.term Γ rule t vals) i [v] i

/-- `Starts E X p q`: `q` is a direct part of `p` that may be tried at the very position where `p` is
tried. In a sequence these are the items before which only items stand that can be empty. -/
inductive Starts (E : Engine) (X : Externals) : Place → Place → Prop
  | rule {Γ r Γ' t} : Resolves Γ r Γ' t → Starts E X (Γ, .rule r) (Γ', t)
  | named {Γ n t} : Starts E X (Γ, .named n t) (Γ, t)
  | cut {Γ t} : Starts E X (Γ, .cut t) (Γ, t)
  | scope {Γ t g g'} : Enters Γ g g' → Starts E X (Γ, .scope t g) (g' :: Γ, t)
  | seq {Γ a t b} : (∀ u ∈ a, CanBeEmpty E X Γ u) → Starts E X (Γ, .seq (a ++ t :: b)) (Γ, t)
  | oneof {Γ ts t} : t ∈ ts → Starts E X (Γ, .oneof ts) (Γ, t)
  | quant {Γ t lo hi} : Starts E X (Γ, .quant t lo hi) (Γ, t)
  | look {Γ t} : Starts E X (Γ, .look t) (Γ, t)
  | delim {Γ t sep a cs ce} : Starts E X (Γ, .delim t sep a cs ce) (Γ, .seq (delimSeq t sep cs ce))

/-- `q` is `p` or used in it, directly or through other terms. -/
inductive UsedIn (p : Place) : Place → Prop
  | self : UsedIn p p
  | step {q q'} : UsedIn p q → Uses q q' → UsedIn p q'

/-- `q` may be tried where `p` is tried, after one or more steps. -/
inductive StartsWith (E : Engine) (X : Externals) : Place → Place → Prop
  | one {p q} : Starts E X p q → StartsWith E X p q
  | step {p q q'} : StartsWith E X p q → Starts E X q q' → StartsWith E X p q'

/-- No term used in `p` can come back to itself without consuming anything: no left recursion. -/
def NoLeftRecursion (E : Engine) (X : Externals) (p : Place) : Prop :=
  ∀ q, UsedIn p q → ¬ StartsWith E X q q

/-- No repetition without upper bound used in `p` repeats something that can be empty. -/
def NoEmptyLoop (E : Engine) (X : Externals) (p : Place) : Prop :=
  ∀ Γ t lo, UsedIn p (Γ, .quant t lo 0) → ¬ CanBeEmpty E X Γ t

end Wbnf
