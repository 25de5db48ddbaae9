import Verif.Model.AstQuery
import Verif.Spec.Ast

/-!
# When two ASTs have the same content, and the span of an AST
-/

namespace Wbnf

mutual
/-- Same content: leaves have the same text wherever they are, extra data is the same, branches have the same names
and the same content under each. -/
inductive Same : Ast → Ast → Prop
  | leaf {s s' x} : s.toStr = some x → s'.toStr = some x → Same (.leaf s) (.leaf s')
  | extra {d} : Same (.extra d) (.extra d)
  | branch {b b' : Branch} : (∀ k, lookup k b = none ↔ lookup k b' = none) →
      (∀ k c c', lookup k b = some c → lookup k b' = some c' → SameKids c c') → Same (.branch b) (.branch b')
/-- Both single nodes, or lists of the same length, same content in order. -/
inductive SameKids : Kids → Kids → Prop
  | one {n n'} : Same n n' → SameKids (.one n) (.one n')
  | many {ns ns'} : SameNodes ns ns' → SameKids (.many ns) (.many ns')
inductive SameNodes : List Ast → List Ast → Prop
  | nil : SameNodes [] []
  | cons {n ns n' ns'} : Same n n' → SameNodes ns ns' → SameNodes (n :: ns) (n' :: ns')
end

mutual
/-- Names are distinct (a Go map), leaves have a text (`String` does not panic), and there are no empty lists. -/
def Ast.Tidy : Ast → Prop
  | .leaf s => ∃ x, s.toStr = some x
  | .extra _ => True
  | .branch b => (b.map Prod.fst).Nodup ∧ tidyBranch b
def Kids.Tidy : Kids → Prop
  | .one n => n.Tidy
  | .many ns => ns ≠ [] ∧ tidyNodes ns
def tidyNodes : List Ast → Prop
  | [] => True
  | n :: ns => n.Tidy ∧ tidyNodes ns
def tidyBranch : List (Str × Kids) → Prop
  | [] => True
  | (_, c) :: b => c.Tidy ∧ tidyBranch b
end

mutual
/-- The same AST with other scanners in its leaves. -/
def Ast.move (f : Scanner → Scanner) : Ast → Ast
  | .leaf s => .leaf (f s)
  | .extra d => .extra d
  | .branch b => .branch (moveBranch f b)
def Kids.move (f : Scanner → Scanner) : Kids → Kids
  | .one n => .one (n.move f)
  | .many ns => .many (moveList f ns)
def moveList (f : Scanner → Scanner) : List Ast → List Ast
  | [] => []
  | n :: ns => n.move f :: moveList f ns
def moveBranch (f : Scanner → Scanner) : List (Str × Kids) → List (Str × Kids)
  | [] => []
  | (k, c) :: b => (k, c.move f) :: moveBranch f b
end

mutual
/-- Extra data is under names that begin with `@`, leaves and branches are not. -/
def Ast.Tagged : Ast → Prop
  | .leaf _ => True
  | .extra _ => False
  | .branch b => taggedBranch b
def Kids.Tagged : Kids → Prop
  | .one n => n.Tagged
  | .many ns => taggedList ns
def taggedList : List Ast → Prop
  | [] => True
  | n :: ns => n.Tagged ∧ taggedList ns
def taggedBranch : List (Str × Kids) → Prop
  | [] => True
  | (k, c) :: b => (if isTagName k = true then c.leaves = [] else c.Tagged) ∧ taggedBranch b
end

mutual
/-- In every list (but those under names that begin with `@`), all nodes have leaves or none has. -/
def Ast.Even : Ast → Prop
  | .leaf _ => True
  | .extra _ => True
  | .branch b => evenBranch b
def Kids.Even : Kids → Prop
  | .one n => n.Even
  | .many ns => ((∀ n ∈ ns, n.leaves = []) ∨ ∀ n ∈ ns, n.leaves ≠ []) ∧ evenList ns
def evenList : List Ast → Prop
  | [] => True
  | n :: ns => n.Even ∧ evenList ns
def evenBranch : List (Str × Kids) → Prop
  | [] => True
  | (k, c) :: b => (isTagName k = true ∨ c.Even) ∧ evenBranch b
end

/-- The smallest scanner over all of these; the zero scanner if there is none. -/
def Spans (xs : List Scanner) (m : Scanner) : Prop :=
  (xs = [] ∧ m = .zero) ∨
  ((∀ x ∈ xs, x.src = m.src ∧ m.start ≤ x.start ∧ x.start + x.len ≤ m.start + m.len) ∧
    (∃ x ∈ xs, x.start = m.start) ∧ ∃ x ∈ xs, x.start + x.len = m.start + m.len)

/-! ## Grammars -/

/-- No part is stored under a name that begins with `@`. -/
def Term.PlainName : Term → Prop
  | .rule r => isTagName (shownName r) = false
  | .named n _ => isTagName n = false
  | .ref i _ => isTagName i = false
  | _ => True

mutual
/-- Whatever it matches, the term leaves a leaf: a literal, a regexp, a rule, a name, and what must have one of
these. -/
def Term.Fills : Term → Prop
  | .s _ | .re _ | .rule _ | .named _ _ => True
  | .cut t | .look t | .scope t _ => t.Fills
  | .quant t lo _ => 0 < lo ∧ t.Fills
  | .delim t _ _ _ _ => t.Fills
  | .seq ts => someFills ts
  | .oneof ts => allFill ts
  | .ref _ _ | .ext _ | .stack _ => False
def someFills : List Term → Prop
  | [] => False
  | t :: ts => t.Fills ∨ someFills ts
def allFill : List Term → Prop
  | [] => True
  | t :: ts => t.Fills ∧ allFill ts
end

/-- Named terms leave a leaf; there are no back references. -/
def Term.NamesFill : Term → Prop
  | .named _ t => t.Fills
  | .ref _ _ => False
  | _ => True

/-- Every rule and every named term leaves a leaf, and there are no back references. -/
def Grammar.Fills (G : Grammar) : Prop := G.Deep Term.NamesFill ∧ ∀ k t, (k, t) ∈ G → t.Fills

end Wbnf
