import Verif.Spec.Peg
import Verif.Spec.WellFormed

/-!
# The shape of parse trees

`Conforms Γ rule t v`: tree `v` is of the shape term `t` prescribes, when matched under the name `rule`
(the empty name if there is none).
-/

namespace Wbnf

mutual
/-- The leaves of a tree, left to right. -/
def Tree.leaves : Tree → List Scanner
  | .node _ _ cs => leavesList cs
  | .leaf s => [s]
  | .empty => []
  | .foreign _ => []
def leavesList : List Tree → List Scanner
  | [] => []
  | v :: vs => v.leaves ++ leavesList vs
end

mutual
/-- Number of Empty markers and foreign values in a tree. -/
def Tree.marks : Tree → Nat
  | .node _ _ cs => marksList cs
  | .leaf _ => 0
  | .empty => 1
  | .foreign _ => 1
def marksList : List Tree → Nat
  | [] => 0
  | v :: vs => v.marks + marksList vs
end

/-- `t s t s t`, nested to the left: all but the last operator are in the first child. -/
inductive LeftNest (tag : Str) : List Tree → Tree → Prop
  | three {x op y} : LeftNest tag [x, op, y] (.node tag (.assoc 1) [x, op, y])
  | more {items v op y} : LeftNest tag items v →
      LeftNest tag (items ++ [op, y]) (.node tag (.assoc 1) [v, op, y])

/-- `t s t s t`, nested to the right: all but the first operator are in the last child. -/
inductive RightNest (tag : Str) : List Tree → Tree → Prop
  | three {x op y} : RightNest tag [x, op, y] (.node tag (.assoc (-1)) [x, op, y])
  | more {items v op x} : RightNest tag items v →
      RightNest tag (x :: op :: items) (.node tag (.assoc (-1)) [x, op, v])

/-- The node for a delimited list with the given terms and separators: one flat node, or nested
three-child nodes if there is a separator and the list associates to the left (1) or right (-1). -/
inductive ListNode (tag : Str) (a : Int) (items : List Tree) : Tree → Prop
  | flat : (a ≠ 1 ∧ a ≠ -1) ∨ items.length = 1 → ListNode tag a items (.node tag (.assoc 0) items)
  | left {v} : a = 1 → LeftNest tag items v → ListNode tag a items v
  | right {v} : a = -1 → RightNest tag items v → ListNode tag a items v

/-- A leading separator, if there is one, comes after an Empty marker for the missing term. -/
def leading : Option Tree → List Tree
  | none => []
  | some s => [.empty, s]

/-- A trailing separator, if there is one, comes before an Empty marker for the missing term. -/
def trailing : Option Tree → List Tree
  | none => []
  | some s => [s, .empty]

/-- All terms and separators of a delimited list, in order. -/
def listItems (lead : Option Tree) (first : Tree) (rest : List (Tree × Tree)) (trail : Option Tree) :
    List Tree :=
  leading lead ++ first :: rest.flatMap (fun p => [p.1, p.2]) ++ trailing trail

/-- The tree of `sep? (t (sep t)*) sep?` (the optional separators only with the flags). -/
def joinTree (tag : Str) (ltag rtag : Str) (cs ce : Bool) (lead : Option Tree) (first : Tree)
    (rest : List (Tree × Tree)) (trail : Option Tree) : Tree :=
  .node tag .nil ((if cs then [.node ltag .nil lead.toList] else []) ++
    [.node (str "_") .nil [first, .node (str "?") .nil (rest.map fun p => .node (str "_") .nil [p.1, p.2])]] ++
    (if ce then [.node rtag .nil trail.toList] else []))

inductive Conforms : List Grammar → Str → Term → Tree → Prop
  | rule {Γ rule r Γ' t v} : Resolves Γ r Γ' t → Conforms Γ' r t v → Conforms Γ rule (.rule r) v
  | named {Γ rule n t v} : Conforms Γ n t v → Conforms Γ rule (.named n t) v
  | cut {Γ rule t v} : Conforms Γ rule t v → Conforms Γ rule (.cut t) v
  | scope {Γ rule t g g' v} : Enters Γ g g' → Conforms (g' :: Γ) rule t v → Conforms Γ rule (.scope t g) v
  | lit {Γ rule l s} : Conforms Γ rule (.s l) (.leaf s)
  | regexp {Γ rule l s} : Conforms Γ rule (.re l) (.leaf s)
  | seq {Γ rule ts vs} : vs.length = ts.length →
      (∀ (i : Nat) t v, ts[i]? = some t → vs[i]? = some v → Conforms Γ [] t v) →
      Conforms Γ rule (.seq ts) (.node (ruleOrAlt rule (str "_")) .nil vs)
  | oneof {Γ rule ts n t v} : ts[n]? = some t → Conforms Γ [] t v →
      Conforms Γ rule (.oneof ts) (.node (ruleOrAlt rule (str "|")) (.choice n) [v])
  | quant {Γ rule t lo hi vs} : lo ≤ vs.length → (hi = 0 ∨ vs.length ≤ hi) →
      (∀ v ∈ vs, Conforms Γ [] t v) →
      Conforms Γ rule (.quant t lo hi) (.node (ruleOrAlt rule (str "?")) .nil vs)
  | look {Γ rule t v} : Conforms Γ [] t v →
      Conforms Γ rule (.look t) (.node (ruleOrAlt rule (str "?=")) .nil [v])
  | delim {Γ rule t sep a cs ce lead first rest trail v} : Conforms Γ [] t first →
      (∀ p ∈ rest, Conforms Γ [] sep p.1) → (∀ p ∈ rest, Conforms Γ [] t p.2) →
      (∀ s, lead = some s → Conforms Γ [] sep s) → (lead.isSome = true → cs = true) →
      (∀ s, trail = some s → Conforms Γ [] sep s) → (trail.isSome = true → ce = true) →
      ListNode (ruleOrAlt rule (str ":")) a (listItems lead first rest trail) v →
      Conforms Γ rule (.delim t sep a cs ce) v
  | ref {Γ rule ident d t v} : t.isText = true → Conforms [] ident t v →
      Conforms Γ rule (.ref ident d) v
  | ext {Γ rule x v} : Conforms Γ rule (.ext x) v

end Wbnf
