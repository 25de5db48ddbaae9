import Verif.Spec.Peg

/-!
# Which terms and regexps a rule may use

`PartOf Γ t Γ' t'`: `t'`, standing under the grammars `Γ'`, is a part of `t` (standing under `Γ`) or of
a rule used in it, directly or through other rules.
-/

namespace Wbnf

inductive PartOf : List Grammar → Term → List Grammar → Term → Prop
  | refl {Γ t} : PartOf Γ t Γ t
  | rule {Γ r Γ₁ t₁ Γ' t'} : Resolves Γ r Γ₁ t₁ → PartOf Γ₁ t₁ Γ' t' → PartOf Γ (.rule r) Γ' t'
  | named {Γ n t Γ' t'} : PartOf Γ t Γ' t' → PartOf Γ (.named n t) Γ' t'
  | cut {Γ t Γ' t'} : PartOf Γ t Γ' t' → PartOf Γ (.cut t) Γ' t'
  | scope {Γ t g g' Γ' t'} : Enters Γ g g' → PartOf (g' :: Γ) t Γ' t' → PartOf Γ (.scope t g) Γ' t'
  | seq {Γ ts t Γ' t'} : t ∈ ts → PartOf Γ t Γ' t' → PartOf Γ (.seq ts) Γ' t'
  | oneof {Γ ts t Γ' t'} : t ∈ ts → PartOf Γ t Γ' t' → PartOf Γ (.oneof ts) Γ' t'
  | quant {Γ t lo hi Γ' t'} : PartOf Γ t Γ' t' → PartOf Γ (.quant t lo hi) Γ' t'
  | look {Γ t Γ' t'} : PartOf Γ t Γ' t' → PartOf Γ (.look t) Γ' t'
  | delimTerm {Γ t sep a cs ce Γ' t'} : PartOf Γ t Γ' t' → PartOf Γ (.delim t sep a cs ce) Γ' t'
  | delimSep {Γ t sep a cs ce Γ' t'} : PartOf Γ sep Γ' t' → PartOf Γ (.delim t sep a cs ce) Γ' t'

/-- The regexps (after the anchor) a term itself may match with: its own one for a literal or regexp,
any quoted text for a back reference. -/
inductive Matches : List Grammar → Term → Str → Prop
  | lit {Γ l p} : LeafPattern (wrapOf Γ) l (str "(" ++ quoteMeta l ++ str ")") p → Matches Γ (.s l) p
  | regexp {Γ l p} : LeafPattern (wrapOf Γ) l (str "(" ++ l ++ str ")") p → Matches Γ (.re l) p
  | ref {Γ ident d} (l : Str) : Matches Γ (.ref ident d) (str "(" ++ quoteMeta l ++ str ")")

/-- Every regexp the term `t` under `Γ` may match with has property `Q` (the argument includes the
anchor). -/
def PatternsSatisfy (Q : Str → Prop) (Γ : List Grammar) (t : Term) : Prop :=
  ∀ Γ' t' p, PartOf Γ t Γ' t' → Matches Γ' t' p → Q (anchor ++ p)

/-- Whenever the pattern matches, the last group – the one reported as the leaf – took part. -/
def ReportsGroup (E : Engine) (p : Str) : Prop :=
  ∀ x locs, E.find p x = some locs → locs.getLast? ≠ some (-1, -1)

/-- Whenever the pattern matches, its only group is the whole match: no wrapper around the leaf and no
group in the leaf's own regexp. -/
def ReportsAll (E : Engine) (p : Str) : Prop :=
  ∀ x locs, E.find p x = some locs → ∃ b, locs = [(0, b), (0, b)]

/-- No part used is a look-ahead. -/
def NoLook (Γ : List Grammar) (t : Term) : Prop := ∀ Γ' t', ¬ PartOf Γ t Γ' (.look t')

/-- No part used is an external reference. -/
def NoExt (Γ : List Grammar) (t : Term) : Prop := ∀ Γ' x, ¬ PartOf Γ t Γ' (.ext x)

/-- The bindings agree on every name a part of `t` refers back to (and, if external handlers, who can ask
for any name, may be called, on all names). -/
def Agree (Γ : List Grammar) (t : Term) (vals vals' : List (Str × Tree)) : Prop :=
  (∀ x d Γ', PartOf Γ t Γ' (.ref x d) → lookup x vals = lookup x vals') ∧
  ∀ Γ' x, PartOf Γ t Γ' (.ext x) → ∀ y, lookup y vals = lookup y vals'

end Wbnf
