import Verif.Model.Term

/-!
# Equality of terms and trees is decidable
-/

namespace Wbnf

mutual
def Term.same : Term → Term → Bool
  | .rule a, .rule b => a == b
  | .s a, .s b => a == b
  | .re a, .re b => a == b
  | .ref a none, .ref b none => a == b
  | .ref a (some c), .ref b (some d) => a == b && c.same d
  | .ext a, .ext b => a == b
  | .seq a, .seq b => sameList a b
  | .oneof a, .oneof b => sameList a b
  | .stack a, .stack b => sameList a b
  | .delim a b c d e, .delim a' b' c' d' e' => a.same a' && b.same b' && c == c' && d == d' && e == e'
  | .look a, .look b => a.same b
  | .quant a l h, .quant b l' h' => a.same b && l == l' && h == h'
  | .named a t, .named b u => a == b && t.same u
  | .scope t g, .scope u g' => t.same u && sameGrammar g g'
  | .cut t, .cut u => t.same u
  | _, _ => false
def sameList : List Term → List Term → Bool
  | [], [] => true
  | a :: as, b :: bs => a.same b && sameList as bs
  | _, _ => false
def sameGrammar : List (Str × Term) → List (Str × Term) → Bool
  | [], [] => true
  | (x, a) :: as, (y, b) :: bs => x == y && a.same b && sameGrammar as bs
  | _, _ => false
end

mutual
theorem Term.same_iff : (a b : Term) → (a.same b = true ↔ a = b)
  | .rule _, b => by cases b <;> simp [Term.same]
  | .s _, b => by cases b <;> simp [Term.same]
  | .re _, b => by cases b <;> simp [Term.same]
  | .ref _ none, b => by
    cases b with
    | ref x d => cases d <;> simp [Term.same]
    | _ => simp [Term.same]
  | .ref _ (some c), b => by
    cases b with
    | ref x d =>
      cases d with
      | none => simp [Term.same]
      | some d => simp [Term.same, c.same_iff d]
    | _ => simp [Term.same]
  | .ext _, b => by cases b <;> simp [Term.same]
  | .seq ts, b => by
    cases b with
    | seq us => simp [Term.same, sameList_iff ts us]
    | _ => simp [Term.same]
  | .oneof ts, b => by
    cases b with
    | oneof us => simp [Term.same, sameList_iff ts us]
    | _ => simp [Term.same]
  | .stack ts, b => by
    cases b with
    | stack us => simp [Term.same, sameList_iff ts us]
    | _ => simp [Term.same]
  | .delim t s _ _ _, b => by
    cases b with
    | delim t' s' => simp [Term.same, t.same_iff t', s.same_iff s', and_assoc]
    | _ => simp [Term.same]
  | .look t, b => by
    cases b with
    | look u => simp [Term.same, t.same_iff u]
    | _ => simp [Term.same]
  | .quant t _ _, b => by
    cases b with
    | quant u => simp [Term.same, t.same_iff u, and_assoc]
    | _ => simp [Term.same]
  | .named _ t, b => by
    cases b with
    | named x u => simp [Term.same, t.same_iff u]
    | _ => simp [Term.same]
  | .scope t g, b => by
    cases b with
    | scope u h => simp [Term.same, t.same_iff u, sameGrammar_iff g h]
    | _ => simp [Term.same]
  | .cut t, b => by
    cases b with
    | cut u => simp [Term.same, t.same_iff u]
    | _ => simp [Term.same]
theorem sameList_iff : (a b : List Term) → (sameList a b = true ↔ a = b)
  | [], b => by cases b <;> simp [sameList]
  | x :: xs, b => by
    cases b with
    | nil => simp [sameList]
    | cons y ys => simp [sameList, x.same_iff y, sameList_iff xs ys]
theorem sameGrammar_iff : (a b : List (Str × Term)) → (sameGrammar a b = true ↔ a = b)
  | [], b => by cases b <;> simp [sameGrammar]
  | (n, x) :: xs, b => by
    cases b with
    | nil => simp [sameGrammar]
    | cons y ys => obtain ⟨k, y⟩ := y; simp [sameGrammar, x.same_iff y, sameGrammar_iff xs ys]
end

instance : DecidableEq Term := fun a b => decidable_of_iff _ (a.same_iff b)

mutual
def Tree.same : Tree → Tree → Bool
  | .node a e cs, .node b f ds => a == b && e == f && sameTrees cs ds
  | .leaf a, .leaf b => a == b
  | .empty, .empty => true
  | .foreign a, .foreign b => a == b
  | _, _ => false
def sameTrees : List Tree → List Tree → Bool
  | [], [] => true
  | a :: as, b :: bs => a.same b && sameTrees as bs
  | _, _ => false
end

mutual
theorem Tree.same_iff : (a b : Tree) → (a.same b = true ↔ a = b)
  | .node _ _ cs, b => by
    cases b with
    | node x y ds => simp [Tree.same, sameTrees_iff cs ds, and_assoc]
    | _ => simp [Tree.same]
  | .leaf _, b => by cases b <;> simp [Tree.same]
  | .empty, b => by cases b <;> simp [Tree.same]
  | .foreign _, b => by cases b <;> simp [Tree.same]
theorem sameTrees_iff : (a b : List Tree) → (sameTrees a b = true ↔ a = b)
  | [], b => by cases b <;> simp [sameTrees]
  | x :: xs, b => by
    cases b with
    | nil => simp [sameTrees]
    | cons y ys => simp [sameTrees, x.same_iff y, sameTrees_iff xs ys]
end

instance : DecidableEq Tree := fun a b => decidable_of_iff _ (a.same_iff b)

end Wbnf
