import Verif.Spec.Parts

/-!
# Grammars on which the parser cannot panic
-/

namespace Wbnf

/-- Every rule name used is defined, in the scope in which it is used. -/
def Closed (Γ : List Grammar) (t : Term) : Prop :=
  ∀ Γ' r, PartOf Γ t Γ' (.rule r) → ∃ Γ'' t', Resolves Γ' r Γ'' t'

/-- The pattern has one or two groups – the leaf's own and at most one more – and matches at the start
of the text only. -/
def LeafSafe (E : Engine) (p : Str) : Prop :=
  ∀ x locs, E.find p x = some locs → ∃ b g, locs = [(0, b), g] ∨ ∃ g', locs = [(0, b), g, g']

/-- The pattern never matches the empty text. -/
def NeverEmpty (E : Engine) (p : Str) : Prop := ∀ x b gs, E.find p x = some ((0, b) :: gs) → b ≠ 0

/-- No back references at all. -/
def NoRef (Γ : List Grammar) (t : Term) : Prop := ∀ Γ' x d, ¬ PartOf Γ t Γ' (.ref x d)

/-- Text that can be matched again: quoted, it is a valid regexp. (In Go: valid UTF-8.) -/
def Repeatable (E : Engine) (l : Str) : Prop :=
  E.valid (anchor ++ (str "(" ++ quoteMeta l ++ str ")")) = true

/-- The engine treats quoted `l` as a literal: it matches exactly the texts that start with `l`, at their
start, and the group is the match. (Go's regexp does, for valid UTF-8 without U+FFFD.) -/
def MatchesLiterally (E : Engine) (l : Str) : Prop :=
  Repeatable E l ∧ ∀ x, E.find (anchor ++ (str "(" ++ quoteMeta l ++ str ")")) x =
    if l <+: x then some [(0, (l.length : Int)), (0, (l.length : Int))] else none

/-- What is needed of a grammar and a text `x` for back references: values have no Empty markers and
nothing from external handlers in them, groups that are reported took part in the match, and any part
of the text can be matched again. -/
structure RefsSafe (E : Engine) (Γ : List Grammar) (t : Term) (x : Str) : Prop where
  noExt : NoExt Γ t
  noEnds : ∀ Γ' t' sep a cs ce, PartOf Γ t Γ' (.delim t' sep a cs ce) → cs = false ∧ ce = false
  groups : PatternsSatisfy (ReportsGroup E) Γ t
  text : ∀ a l b, x = a ++ l ++ b → Repeatable E l
  default : ∀ Γ' i d, PartOf Γ t Γ' (.ref i (some d)) → d.quotable E = true

end Wbnf
