import Verif.Model.Types
import Verif.Spec.Types
import Verif.Spec.Deep

/-!
# When generated Go code declares each type and method once

A Go compiler rejects a method that a type has twice, and a type that is used but not declared.
-/

namespace Wbnf

/-- What an accessor is for: the alternative chosen, children that come from `@`, back references, other named children,
tokens. -/
inductive Purpose
  | choice
  | self
  | ref
  | child
  | token
  deriving DecidableEq, Repr

/-- A use of a name in a grammar: in the node of which type, which name, what for, and for which type the accessor is
declared. -/
structure Usage where
  type : Str
  name : Str
  purpose : Purpose
  receiver : Str
  deriving DecidableEq, Repr

/-- The names that accessors may have. -/
def Usage.accessors (camel : Str → Str) (u : Usage) : List Str :=
  match u.purpose with
  | .choice => [str "Choice"]
  | .self => [str "All" ++ goName camel u.name]
  | .ref => [goName camel u.name ++ str "Ref"]
  | .child => [str "One" ++ goName camel u.name, str "All" ++ goName camel u.name]
  | .token => [str "OneToken", str "AllToken"]

mutual
/-- The uses of names in a term, in the type for `p`. Named groups, some separators and rules in braces have types of their
own. `@` is for the rule `self`, with the type for `home`. -/
def Term.usages (camel : Str → Str) (self home : Str) : Term → Str → List Usage
  | .s _, p => [⟨goTypeName camel p, str "Token", .token, goTypeName camel p⟩]
  | .re _, p => [⟨goTypeName camel p, str "Token", .token, goTypeName camel p⟩]
  | .rule r, p =>
    if r = atRule then [⟨goTypeName camel p, self, .self, goTypeName camel home⟩]
    else [⟨goTypeName camel p, r, .child, goTypeName camel p⟩]
  | .ref i _, p => [⟨goTypeName camel p, i, .ref, goTypeName camel p⟩]
  | .scope t g, p => usagesRules camel p g ++ t.usages camel self home p
  | .seq ts, p => usagesList camel self home ts p
  | .oneof ts, p => ⟨goTypeName camel p, str "@choice", .choice, goTypeName camel p⟩ :: usagesList camel self home ts p
  | .stack ts, p => usagesList camel self home ts p
  | .delim t sep _ _ _, p =>
    t.usages camel self home p ++
    match sep with
    | .named _ _ => sep.usages camel self home p
    | .rule r => sep.usages camel self home (p ++ goName camel r)
    | .cut _ => []
    | .s _ => []
    | _ => sep.usages camel self home (p ++ str "Delim")
  | .named n t, p =>
    match t with
    | .rule r =>
      if r = atRule then [⟨goTypeName camel p, n, .self, goTypeName camel home⟩]
      else [⟨goTypeName camel p, n, .child, goTypeName camel p⟩]
    | .re _ => [⟨goTypeName camel p, n, .child, goTypeName camel p⟩]
    | .s _ => [⟨goTypeName camel p, n, .child, goTypeName camel p⟩]
    | .cut _ => [⟨goTypeName camel p, n, .child, goTypeName camel p⟩]
    | t => t.usages camel self home (p ++ goName camel n) ++ [⟨goTypeName camel p, n, .child, goTypeName camel p⟩]
  | .quant t _ _, p => t.usages camel self home p
  | .cut t, p => t.usages camel self home p
  | .look t, p => t.usages camel self home p
  | .ext _, _ => []
def usagesList (camel : Str → Str) (self home : Str) : List Term → Str → List Usage
  | [], _ => []
  | t :: ts, p => t.usages camel self home p ++ usagesList camel self home ts p
def usagesRules (camel : Str → Str) (pre : Str) : List (Str × Term) → List Usage
  | [] => []
  | (r, t) :: g => t.usages camel r (pre ++ goName camel r) (pre ++ goName camel r) ++ usagesRules camel pre g
end

mutual
/-- The rules in braces in a term, with what their types are for. -/
def Term.innerRules (camel : Str → Str) : Term → Str → List (Str × Str)
  | .scope t g, p => innerDefs camel p g ++ t.innerRules camel p
  | .seq ts, p => innerRulesList camel ts p
  | .oneof ts, p => innerRulesList camel ts p
  | .stack ts, p => innerRulesList camel ts p
  | .delim t sep _ _ _, p =>
    t.innerRules camel p ++
    match sep with
    | .named _ _ => sep.innerRules camel p
    | .rule r => sep.innerRules camel (p ++ goName camel r)
    | .cut _ => []
    | .s _ => []
    | _ => sep.innerRules camel (p ++ str "Delim")
  | .named n t, p =>
    match t with
    | .cut _ => []
    | t => t.innerRules camel (p ++ goName camel n)
  | .quant t _ _, p => t.innerRules camel p
  | .cut t, p => t.innerRules camel p
  | .look t, p => t.innerRules camel p
  | .s _, _ => []
  | .re _, _ => []
  | .rule _, _ => []
  | .ref _ _, _ => []
  | .ext _, _ => []
def innerRulesList (camel : Str → Str) : List Term → Str → List (Str × Str)
  | [], _ => []
  | t :: ts, p => t.innerRules camel p ++ innerRulesList camel ts p
def innerDefs (camel : Str → Str) (pre : Str) : List (Str × Term) → List (Str × Str)
  | [] => []
  | (r, t) :: g => (r, pre ++ goName camel r) :: (t.innerRules camel (pre ++ goName camel r) ++ innerDefs camel pre g)
end

/-- All uses of names. A rule with `@` in it may also be a child of itself by its own name. -/
def Grammar.usages (camel : Str → Str) (g : Grammar) : List Usage :=
  let us := usagesRules camel [] g
  us ++ ((innerDefs camel [] g).filter fun q => us.any fun u => decide (u.purpose = .self ∧ u.type = goTypeName camel q.2)).map fun q =>
    ⟨goTypeName camel q.2, q.1, .self, goTypeName camel q.2⟩

/-- After the uses `done`: a back reference is not written twice, unless there is a child of its name before. -/
def onceFrom (done : List Usage) : List Usage → Bool
  | [] => true
  | u :: us =>
    (u.purpose ≠ .ref || !done.contains u || done.any fun v => decide (v.purpose = .child ∧ v.type = u.type ∧ v.name = u.name)) &&
    onceFrom (done ++ [u]) us

/-- In every type, different uses of names have different names of accessors, and a back reference is written once, or after
a child of its name; `@` stands only where its accessor belongs. -/
structure Untangled (camel : Str → Str) (us : List Usage) : Prop where
  accessors : ∀ u ∈ us, ∀ v ∈ us, u.type = v.type → (u.name, u.purpose) ≠ (v.name, v.purpose) → ∀ a ∈ u.accessors camel, a ∉ v.accessors camel
  refs : onceFrom [] us = true
  receivers : ∀ u ∈ us, u.receiver = u.type

instance (camel : Str → Str) (us : List Usage) : Decidable (Untangled camel us) :=
  have _i1 : Decidable (∀ u ∈ us, ∀ v ∈ us, u.type = v.type → (u.name, u.purpose) ≠ (v.name, v.purpose) →
    ∀ a ∈ u.accessors camel, a ∉ v.accessors camel) := inferInstance
  have _i2 : Decidable (∀ u ∈ us, u.receiver = u.type) := inferInstance
  decidable_of_iff (_ ∧ onceFrom [] us = true ∧ _) ⟨fun h => ⟨h.1, h.2.1, h.2.2⟩, fun h => ⟨h.accessors, h.refs, h.receivers⟩⟩

/-! ## Types that are used -/

/-- The type that an accessor returns. -/
def GoMethod.returns : GoMethod → Option Str
  | .oneNode _ ty => some ty
  | .allNodes _ ty => some ty
  | _ => none

mutual
/-- The node of the term has something for its type. -/
def Term.adds : Term → Bool
  | .seq ts => addsAny ts
  | .stack ts => addsAny ts
  | .delim t sep _ _ _ => t.adds || match sep with
    | .named _ _ => true
    | _ => false
  | .quant t _ _ => t.adds
  | .cut t => t.adds
  | .look t => t.adds
  | .scope t _ => t.adds
  | .ext _ => false
  | .s _ => true
  | .re _ => true
  | .rule _ => true
  | .ref _ _ => true
  | .oneof _ => true
  | .named _ _ => true
def addsAny : List Term → Bool
  | [] => false
  | t :: ts => t.adds || addsAny ts
end

/-- Rules in braces have something for their types. -/
def Term.Fruitful : Term → Prop
  | .scope _ g => ∀ e ∈ g, e.2.adds = true
  | _ => True

/-- Of the types of the grammar: a name is given to `@`, or to a rule whose type is made from its name, or to something
that is not empty. -/
def Term.Makes (types : List Str) (camel : Str → Str) : Term → Prop
  | .named _ t =>
    match t with
    | .rule r => r = atRule ∨ goTypeName camel r ∈ types
    | t => t.adds = true
  | _ => True

mutual
/-- Every reference is to a rule around, and no rule in braces is called `@`. -/
def Term.inSight (names : List Str) : Term → Bool
  | .rule r => r = atRule || names.contains r
  | .seq ts => inSightAll names ts
  | .oneof ts => inSightAll names ts
  | .stack ts => inSightAll names ts
  | .delim t sep _ _ _ => t.inSight names && sep.inSight names
  | .look t => t.inSight names
  | .quant t _ _ => t.inSight names
  | .named _ t => t.inSight names
  | .cut t => t.inSight names
  | .scope t g => !(g.map Prod.fst).contains atRule && t.inSight (g.map Prod.fst ++ names) && inSightRules (g.map Prod.fst ++ names) g
  | .s _ => true
  | .re _ => true
  | .ref _ _ => true
  | .ext _ => true
def inSightAll (names : List Str) : List Term → Bool
  | [] => true
  | t :: ts => t.inSight names && inSightAll names ts
def inSightRules (names : List Str) : List (Str × Term) → Bool
  | [] => true
  | (_, t) :: g => t.inSight names && inSightRules names g
end

end Wbnf
