import Verif.Model.ShowQuoted
import Verif.Spec.AstString

/-!
# Parse trees that print alike
-/

namespace Wbnf

/-- What is used of Go's `strconv.QuoteRune`: what it writes for numbers below `n` begins with `'` and can be read back, whatever follows it. -/
structure RuneQuoting (n : Nat) (quoteRune : Nat → Str) : Prop where
  opens : ∀ i, ∃ t, quoteRune i = 39 :: t
  reads : ∀ i j x y, i < n → j < n → quoteRune i ++ x = quoteRune j ++ y → i = j ∧ x = y

/-- A tag without `[` and without the first byte of `║`, that does not begin with `"`, `{` or `]`. -/
def PlainTag (tag : Str) : Prop := (∀ c ∈ tag, c ≠ 91 ∧ c ≠ 0xe2) ∧ ∀ c ∈ tag.head?, c ≠ 34 ∧ c ≠ 123 ∧ c ≠ 93

/-- The same number of an alternative, or the same direction of a list. -/
def Extra.Same : Extra → Extra → Prop
  | .nil, .nil => True
  | .choice i, .choice j => i = j
  | .assoc a, .assoc b => a.sign = b.sign
  | _, _ => False

mutual
/-- All tags in the tree are plain; numbers of alternatives are below `n`. -/
def Tree.PlainTags (n : Nat) : Tree → Prop
  | .node tag e cs => PlainTag tag ∧ (∀ i, e = .choice i → i < n) ∧ allPlainTags n cs
  | _ => True
def allPlainTags (n : Nat) : List Tree → Prop
  | [] => True
  | t :: ts => t.PlainTags n ∧ allPlainTags n ts
end

/-- Names in the grammar are plain and no choice has more than `n` alternatives; there are no nested grammars and no references to externals. -/
def Term.PlainNames (n : Nat) : Term → Prop
  | .rule r => PlainTag r
  | .named m _ => PlainTag m
  | .ref i _ => PlainTag i
  | .oneof ts => ts.length ≤ n
  | .scope _ _ => False
  | .ext _ => False
  | _ => True

mutual
/-- The same tree but for where the leaves are: the same tags, extras and numbers of children, and leaves with the same texts. -/
def Tree.SameTexts : Tree → Tree → Prop
  | .node tag e cs, .node tag' e' cs' => tag = tag' ∧ e.Same e' ∧ sameTextsAll cs cs'
  | .leaf s, .leaf s' => s.slice = s'.slice
  | .empty, .empty => True
  | .foreign m, .foreign n => m = n
  | _, _ => False
def sameTextsAll : List Tree → List Tree → Prop
  | [], [] => True
  | x :: xs, y :: ys => x.SameTexts y ∧ sameTextsAll xs ys
  | _, _ => False
end

end Wbnf
