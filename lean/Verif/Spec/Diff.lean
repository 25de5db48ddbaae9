import Verif.Model.Diff

/-!
# When trees and grammars are the same
-/

namespace Wbnf

mutual
/-- The nodes of two trees are the same: tags, extras and children. Elements that are not nodes are not told apart. -/
def Tree.Alike : Tree → Tree → Prop
  | .node tag e cs, .node tag' e' cs' => tag = tag' ∧ e = e' ∧ alikeAll cs cs'
  | .node _ _ _, _ => False
  | _, .node _ _ _ => False
  | _, _ => True
def alikeAll : List Tree → List Tree → Prop
  | [], [] => True
  | x :: xs, y :: ys => x.Alike y ∧ alikeAll xs ys
  | _, _ => False
end

mutual
/-- The second tree has the nodes of the first, with the same tags, extras and numbers of children. Where the first has
something that is not a node, the second may have anything. -/
def Tree.Covers : Tree → Tree → Prop
  | .node tag e cs, .node tag' e' cs' => tag = tag' ∧ e = e' ∧ coversAll cs cs'
  | .node _ _ _, _ => False
  | _, _ => True
def coversAll : List Tree → List Tree → Prop
  | [], [] => True
  | x :: xs, y :: ys => x.Covers y ∧ coversAll xs ys
  | _, _ => False
end

/-- Somewhere the first tree has a node and the second something else, below nodes that both have. -/
inductive Clash : Tree → Tree → Prop
  | here {tag e cs tag' e' cs'} {i : Nat} {x y : Tree} :
    cs[i]? = some x → cs'[i]? = some y → x.isNode = true → y.isNode = false → Clash (.node tag e cs) (.node tag' e' cs')
  | inside {tag e cs tag' e' cs'} {i : Nat} {x y : Tree} :
    cs[i]? = some x → cs'[i]? = some y → Clash x y → Clash (.node tag e cs) (.node tag' e' cs')

/-- The tag of a node. -/
def Tree.tagged : Tree → Str → Prop
  | .node tag _ _, t => t = tag
  | _, _ => False

/-- The trees differ in `what`, at the end of the path: each step goes to a child, given by its tag in the first tree and its
index, and both trees have a node there. -/
inductive DiffersAt : Tree → Tree → List (Str × Nat) → Str → Prop
  | tag {tag e cs tag' e' cs'} : tag ≠ tag' → DiffersAt (.node tag e cs) (.node tag' e' cs') [] (str "Tag")
  | extra {tag e cs tag' e' cs'} : e ≠ e' → DiffersAt (.node tag e cs) (.node tag' e' cs') [] (str "Extra")
  | count {tag e cs tag' e' cs'} : cs.length ≠ cs'.length →
      DiffersAt (.node tag e cs) (.node tag' e' cs') [] (str "len(Children)")
  | child {tag e cs tag' e' cs'} {i : Nat} {x y : Tree} {t p w} : cs[i]? = some x → cs'[i]? = some y → x.tagged t →
      DiffersAt x y p w → DiffersAt (.node tag e cs) (.node tag' e' cs') ((t, i) :: p) w

mutual
/-- Two terms are the same; the rules of a grammar may be listed in any order. If `ext` is false, the names of external
references do not count, but for those in the rules of a scoped grammar. -/
def Term.Same (ext : Bool) : Term → Term → Prop
  | .rule a, .rule b => a = b
  | .s a, .s b => a = b
  | .re a, .re b => a = b
  | .ref a d, .ref b e => a = b ∧ sameDflt ext d e
  | .ext a, .ext b => ext = true → a = b
  | .seq a, .seq b => sameTerms ext a b
  | .oneof a, .oneof b => sameTerms ext a b
  | .stack a, .stack b => sameTerms ext a b
  | .delim t s a cs ce, .delim t' s' a' cs' ce' => t.Same ext t' ∧ s.Same ext s' ∧ a = a' ∧ cs = cs' ∧ ce = ce'
  | .look a, .look b => a.Same ext b
  | .quant t lo hi, .quant t' lo' hi' => t.Same ext t' ∧ lo = lo' ∧ hi = hi'
  | .named n t, .named n' t' => n = n' ∧ t.Same ext t'
  | .scope t g, .scope t' g' => t.Same ext t' ∧ inDefs true g g' ∧ ∀ e ∈ g', ∃ t, (e.1, t) ∈ g
  | .cut a, .cut b => a.Same ext b
  | _, _ => False
def sameDflt (ext : Bool) : Option Term → Option Term → Prop
  | none, none => True
  | some a, some b => a.Same ext b
  | _, _ => False
def sameTerms (ext : Bool) : List Term → List Term → Prop
  | [], [] => True
  | a :: as, b :: bs => a.Same ext b ∧ sameTerms ext as bs
  | _, _ => False
/-- The rules of the first grammar are in the second. -/
def inDefs (ext : Bool) : List (Str × Term) → Grammar → Prop
  | [], _ => True
  | (r, t) :: g, g' => (∃ t', lookup r g' = some t' ∧ t.Same ext t') ∧ inDefs ext g g'
end

/-- Two grammars are the same: they have the same rules, for the same terms. -/
def Grammar.Same (g g' : Grammar) : Prop := inDefs true g g' ∧ ∀ e ∈ g', ∃ t, (e.1, t) ∈ g

mutual
/-- The term has no external references; and if `plain`, no back references with a default. -/
def Term.Internal (plain : Bool) : Term → Prop
  | .ext _ => False
  | .ref _ d => internalDflt plain d
  | .seq ts => internalAll plain ts
  | .oneof ts => internalAll plain ts
  | .stack ts => internalAll plain ts
  | .delim t s _ _ _ => t.Internal plain ∧ s.Internal plain
  | .look t => t.Internal plain
  | .quant t _ _ => t.Internal plain
  | .named _ t => t.Internal plain
  | .scope t g => t.Internal plain ∧ internalDefs plain g
  | .cut t => t.Internal plain
  | _ => True
def internalDflt (plain : Bool) : Option Term → Prop
  | none => True
  | some t => plain = false ∧ t.Internal plain
def internalAll (plain : Bool) : List Term → Prop
  | [] => True
  | t :: ts => t.Internal plain ∧ internalAll plain ts
def internalDefs (plain : Bool) : List (Str × Term) → Prop
  | [] => True
  | e :: g => e.2.Internal plain ∧ internalDefs plain g
end

mutual
/-- There is no scoped grammar in the term. -/
def Term.Unscoped : Term → Prop
  | .scope _ _ => False
  | .ref _ d => unscopedDflt d
  | .seq ts => unscopedAll ts
  | .oneof ts => unscopedAll ts
  | .stack ts => unscopedAll ts
  | .delim t s _ _ _ => t.Unscoped ∧ s.Unscoped
  | .look t => t.Unscoped
  | .quant t _ _ => t.Unscoped
  | .named _ t => t.Unscoped
  | .cut t => t.Unscoped
  | _ => True
def unscopedDflt : Option Term → Prop
  | none => True
  | some t => t.Unscoped
def unscopedAll : List Term → Prop
  | [] => True
  | t :: ts => t.Unscoped ∧ unscopedAll ts
end

end Wbnf
