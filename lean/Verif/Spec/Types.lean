import Verif.Model.Types
import Verif.Spec.Ast
import Verif.Spec.Stacks

/-!
# What generated Go types are for

A value of a generated type wraps a node of an AST. What the node has under a name is to be read with the methods of the type.
-/

namespace Wbnf

/-- A name that the grammar gives: not the one of tokens, and none of those that AST nodes use for themselves. -/
def IsName (k : Str) : Prop := k ≠ [] ∧ isTagName k = false

instance (k : Str) : Decidable (IsName k) := inferInstanceAs (Decidable (_ ∧ _))

/-- The value gives what there is under a name: all nodes or the first one, as they are, or wrapped in the type `ty`, or as
texts. -/
def GoValue.Gives (ty : Option Str) (kids : Kids) : GoValue → Prop
  | .nodes ty' ns => ty = some ty' ∧ ns = kids.nodes
  | .node ty' n => ty = some ty' ∧ n.isSome ∧ n = kids.nodes.head?
  | .texts xs => ty = none ∧ mapO Ast.text kids.nodes = some xs
  | .text x => ty = none ∧ ∃ n, kids.nodes.head? = some n ∧ n.text = some x
  | .ast n => ty = none ∧ n.isSome ∧ n = kids.nodes.head?
  | .int _ => False

/-- A node wrapped in the type `ty` can be read with its methods: there is one for the text of the whole node, or one for
each name, and the nodes that these return can be read with the methods of their types, and so on. -/
inductive Legible (camel : Str → Str) (tm : TypeMap) : Str → Ast → Prop
  | text {ty n d x} : d ∈ allMethods camel tm → d.receiver = ty → d.does.run n = some (.text x) → n.text = some x →
      Legible camel tm ty n
  | node {ty b} (inner : Str → Option Str) :
      (∀ k kids, lookup k b = some kids → IsName k → ∃ d ∈ allMethods camel tm, d.receiver = ty ∧
        ∃ v, d.does.run (.branch b) = some v ∧ v.Gives (inner k) kids) →
      (∀ k kids ty' n, lookup k b = some kids → IsName k → inner k = some ty' → n ∈ kids.nodes → Legible camel tm ty' n) →
      Legible camel tm ty (.branch b)

/-- There is a method of the type `ty` that returns all that a node has under the name `k`. -/
def ReadsAll (camel : Str → Str) (tm : TypeMap) (ty k : Str) : Prop :=
  ∃ d ∈ allMethods camel tm, d.receiver = ty ∧ ((∃ ty', d.does = .allNodes k ty') ∨ d.does = .allTexts k)

/-! ## How names are used -/

/-- What is under a name, as the types see it: texts, nodes of a type, nodes from `name=@` in a rule of that type, or nodes as
they are. -/
inductive Use
  | text
  | node (ty : Str)
  | self (ty : Str)
  | raw
  deriving DecidableEq, Repr

/-- The type made for a rule. -/
def typeOf (camel : Str → Str) (r : Str) : Str := goTypeName camel (goName camel r)

/-- The rule that a reference is to, in the rule `self`. -/
def referent (self r : Str) : Str := if r = atRule then self else shownName r

mutual
/-- Which names of which types a term in the rule `self` uses, and how. The names of the term itself are in the type for `p`;
named groups have types of their own. -/
def Term.nameUses (camel : Str → Str) (self : Str) : Term → Str → List (Str × Str × Use)
  | .rule r, p => [(goTypeName camel p, referent self r, .node (typeOf camel (referent self r)))]
  | .ref i _, p => [(goTypeName camel p, i, .raw)]
  | .seq ts, p => nameUsesList camel self ts p
  | .oneof ts, p => nameUsesList camel self ts p
  | .stack ts, p => nameUsesList camel self ts p
  | .delim t sep _ _ _, p => t.nameUses camel self p ++ sep.nameUses camel self p
  | .named n t, p =>
    match t with
    | .rule r => [(goTypeName camel p, n, if r = atRule then .self (typeOf camel self) else .node (typeOf camel (shownName r)))]
    | .s _ => [(goTypeName camel p, n, .text)]
    | .re _ => [(goTypeName camel p, n, .text)]
    | .cut _ => [(goTypeName camel p, n, .text)]
    | t => (goTypeName camel p, n, .node (goTypeName camel (p ++ goName camel n))) :: t.nameUses camel self (p ++ goName camel n)
  | .quant t _ _, p => t.nameUses camel self p
  | .cut t, p => t.nameUses camel self p
  | .look t, p => t.nameUses camel self p
  | .s _, _ => []
  | .re _, _ => []
  | .ext _, _ => []
  | .scope _ _, _ => []
def nameUsesList (camel : Str → Str) (self : Str) : List Term → Str → List (Str × Str × Use)
  | [], _ => []
  | t :: ts, p => t.nameUses camel self p ++ nameUsesList camel self ts p
end

/-- The same for all rules. Each may be a child of itself. -/
def Grammar.nameUses (camel : Str → Str) (g : Grammar) : List (Str × Str × Use) :=
  g.flatMap fun e => (typeOf camel e.1, e.1, .node (typeOf camel e.1)) :: e.2.nameUses camel e.1 (goName camel e.1)

/-- No name of a type is used in two ways. -/
def OneWay (us : List (Str × Str × Use)) : Prop := ∀ a ∈ us, ∀ b ∈ us, a.1 = b.1 → a.2.1 = b.2.1 → a.2.2 = b.2.2

instance (us : List (Str × Str × Use)) : Decidable (OneWay us) :=
  inferInstanceAs (Decidable (∀ a ∈ us, ∀ b ∈ us, a.1 = b.1 → a.2.1 = b.2.1 → a.2.2 = b.2.2))

/-! ## Grammars whose types can be used -/

/-- A name for a child: `Token` is what the code generator itself calls tokens. -/
def ChildName (k : Str) : Prop := IsName k ∧ k ≠ str "Token"

instance (k : Str) : Decidable (ChildName k) := inferInstanceAs (Decidable (_ ∧ _))

/-- What stands after `:`: a literal, or something named. -/
def Term.PlainSep : Term → Prop
  | .s _ => True
  | .cut (.s _) => True
  | .named _ _ => True
  | _ => False

/-- A literal or a regexp. -/
def Term.IsToken : Term → Prop
  | .s _ => True
  | .re _ => True
  | _ => False

/-- The rule is a token, and its type is one for tokens. -/
def Grammar.TokenRule (camel : Str → Str) (tm : TypeMap) (g : Grammar) (r : Str) : Prop :=
  (∃ x, lookup (typeOf camel r) tm = some (.basic x)) ∧ ∃ t, (r, t) ∈ g ∧ t.IsToken

/-- The rule has itself as a child. -/
def Grammar.SelfRule (camel : Str → Str) (g : Grammar) (r : Str) : Prop :=
  ∃ t, (r, t) ∈ g ∧ (typeOf camel r, r, .node (typeOf camel r)) ∈ t.nameUses camel r (goName camel r)

/-- The terms of which a rule may be made. A name for a rule must be a name for a rule that is just a token, or that has
itself as a child: the node under the name has the node of the rule as its child, but is given the type of the rule. In a
named group there may be no `@`. -/
def Term.Typed (camel : Str → Str) (tm : TypeMap) (g : Grammar) : Term → Prop
  | .rule r => r = atRule ∨ (ChildName r ∧ shownName r = r)
  | .ref i _ => ChildName i
  | .named n t => ChildName n ∧
    match t with
    | .rule r => r = atRule ∨ (shownName r = r ∧ goTypeName camel r = typeOf camel r ∧ (g.TokenRule camel tm r ∨ g.SelfRule camel r))
    | .cut t => ∃ l, t = .s l
    | t => t.Deep (· ≠ .rule atRule)
  | .delim _ sep _ _ _ => sep.PlainSep
  | .scope _ _ => False
  | _ => True

/-- Grammars (as written, with their stacks) whose types can be used to read all nodes. -/
structure Grammar.Typed (camel : Str → Str) (tm : TypeMap) (g : Grammar) : Prop where
  rules : g.Distinct
  names : ∀ r t, (r, t) ∈ g → ChildName r ∧ shownName r = r
  layers : ∀ r ls, (r, .stack ls) ∈ g → ∀ i, i < ls.length → shownName (layer r i) = r
  ats : ∀ r t, (r, t) ∈ g → t.isStack = false → t.Deep (· ≠ .rule atRule)
  deep : g.Deep (Term.Typed camel tm g)
  oneWay : OneWay (g.nameUses camel)

end Wbnf
