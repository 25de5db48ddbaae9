import Verif.Model.Term

/-!
# Model of the differences between trees and between grammars

parser/diff/nodes.go and parser/diff/terms.go. `none` is a panic.
-/

namespace Wbnf

/-! ## Trees -/

/-- parser/diff/nodes.go:12-16 `NodeDiff`. Of `A` and `B` the model keeps what `Equal` and `report` look at: their tags,
their extras and their numbers of children. Maps from indices are lists. -/
inductive NodeDiff
  | mk (tags : Str × Str) (extras : Extra × Extra) (lens : Nat × Nat) (children : List (Nat × NodeDiff)) (types : List Nat)
  deriving Repr

def NodeDiff.tagA : NodeDiff → Str
  | .mk tags _ _ _ _ => tags.1
def NodeDiff.children : NodeDiff → List (Nat × NodeDiff)
  | .mk _ _ _ cs _ => cs

/-- parser/diff/nodes.go:49-55 `Equal`. -/
def NodeDiff.equal : NodeDiff → Bool
  | .mk tags extras lens children types =>
    lens.1 == lens.2 && tags.1 == tags.2 && decide (extras.1 = extras.2) && children.isEmpty && types.isEmpty

/-- `_, ok := x.(parser.Node)`. -/
def Tree.isNode : Tree → Bool
  | .node _ _ _ => true
  | _ => false

mutual
/-- parser/diff/nodes.go:57-82 `NewNodeDiff`. Both arguments are nodes (`none` also stands for what Go does not allow). -/
def nodeDiff : Tree → Tree → Option NodeDiff
  | .node tag e cs, .node tag' e' cs' =>
    match nodeDiffs 0 cs cs' with
    | none => none
    | some ds => some (.mk (tag, tag') (e, e') (cs.length, cs'.length) ds [])
  | _, _ => none
/-- parser/diff/nodes.go:64-75: the loop from index `i`, over as many children as both have. The types compared at 65-66 are
both that of `a`, so they never differ. -/
def nodeDiffs (i : Nat) : List Tree → List Tree → Option (List (Nat × NodeDiff))
  | x :: xs, y :: ys =>
    match nodeDiffs (i + 1) xs ys with
    | none => none
    | some ds =>
      if x.isNode then
        match nodeDiff x y with
        | none => none
        | some d => some (if d.equal then ds else (i, d) :: ds)
      else some ds
  | _, _ => some []
end

/-- What parser/diff/nodes.go:32-43 writes: on which path, and what. -/
structure DiffNote where
  path : List (Str × Nat)
  what : Str
  deriving DecidableEq, Repr

mutual
/-- parser/diff/nodes.go:24-47 `report`, with the children in the order of the list (in Go the order is that of a map). The
texts are left out but for what they are about. -/
def NodeDiff.report (path : List (Str × Nat)) : NodeDiff → List DiffNote
  | .mk tags extras lens children types =>
    if (NodeDiff.mk tags extras lens children types).equal then []
    else
      (if tags.1 ≠ tags.2 then [⟨path, str "Tag"⟩] else []) ++
      (if extras.1 ≠ extras.2 then [⟨path, str "Extra"⟩] else []) ++
      (if lens.1 ≠ lens.2 then [⟨path, str "len(Children)"⟩] else []) ++
      types.map (fun _ => ⟨path, str "Type"⟩) ++
      reports path children
/-- parser/diff/nodes.go:44-46. -/
def reports (path : List (Str × Nat)) : List (Nat × NodeDiff) → List DiffNote
  | [] => []
  | (i, d) :: ds => d.report (path ++ [(d.tagA, i)]) ++ reports path ds
end

/-! ## Terms -/

mutual
/-- Go's `reflect.DeepEqual` on terms. Simplification: nil and empty slices or maps are not told apart. -/
def deepEqual : Term → Term → Bool
  | .rule a, .rule b => a == b
  | .s a, .s b => a == b
  | .re a, .re b => a == b
  | .ref a d, .ref b e => a == b && deepEqualDflt d e
  | .ext a, .ext b => a == b
  | .seq a, .seq b => deepEqualList a b
  | .oneof a, .oneof b => deepEqualList a b
  | .stack a, .stack b => deepEqualList a b
  | .delim t s a cs ce, .delim t' s' a' cs' ce' =>
    deepEqual t t' && deepEqual s s' && a == a' && cs == cs' && ce == ce'
  | .look a, .look b => deepEqual a b
  | .quant t lo hi, .quant t' lo' hi' => deepEqual t t' && lo == lo' && hi == hi'
  | .named n t, .named n' t' => n == n' && deepEqual t t'
  | .scope t g, .scope t' g' => deepEqual t t' && (deepEqualDefs g g' && g'.all (fun e => hasKey e.1 g))
  | .cut a, .cut b => deepEqual a b
  | _, _ => false
def deepEqualDflt : Option Term → Option Term → Bool
  | none, none => true
  | some a, some b => deepEqual a b
  | _, _ => false
def deepEqualList : List Term → List Term → Bool
  | [], [] => true
  | a :: as, b :: bs => deepEqual a b && deepEqualList as bs
  | _, _ => false
/-- The entries of the first map are in the second. -/
def deepEqualDefs : List (Str × Term) → List (Str × Term) → Bool
  | [], _ => true
  | (r, t) :: g, g' =>
    (match lookup r g' with
      | some t' => deepEqual t t'
      | none => false) && deepEqualDefs g g'
end

/-- `reflect.DeepEqual` on grammars. Go compares the numbers of entries; as keys are unique, that is to say that the second
has no other keys. -/
def deepEqualGrammar (g g' : Grammar) : Bool := deepEqualDefs g g' && g'.all (fun e => hasKey e.1 g)

/-- parser/diff/terms.go: the implementations of `TermDiff`. An `InterfaceDiff` (14-27) is a pair. A `RefDiff` (168-177)
compares the defaults only when `Equal` is called; `dflt` is what that gives. -/
inductive TermDiff
  | types
  | rule (d : Str × Str)
  | s (d : Str × Str)
  | re (d : Str × Str)
  | ref (ident : Str × Str) (dflt : Option Bool)
  | terms (len : Nat × Nat) (ds : List TermDiff)
  | delim (t sep : TermDiff) (assoc : Int × Int) (canStart canEnd : Bool × Bool)
  | quant (t : TermDiff) (min max : Nat × Nat)
  | named (name : Str × Str) (t : TermDiff)
  | scope (t : TermDiff) (onlyInA onlyInB : List Str) (prods : List (Str × TermDiff))

/-- Go's `&&` where the operands may panic. -/
def andAlso : Option Bool → Option Bool → Option Bool
  | some true, y => y
  | x, _ => x

/-- `Equal` of the types of parser/diff/terms.go: 77-79, 130-132, 144-146, 158-160, 172-177, 190-192, 253-259, 279-281,
298-300, 316-318, 37-39. -/
def TermDiff.equal : TermDiff → Option Bool
  | .types => some false
  | .rule d => some (d.1 == d.2)
  | .s d => some (d.1 == d.2)
  | .re d => some (d.1 == d.2)
  | .ref i d => if i.1 = i.2 then d else some false
  | .terms len ds => some (len.1 == len.2 && ds.isEmpty)
  | .delim t sep a cs ce =>
    andAlso t.equal (andAlso sep.equal (some (a.1 == a.2 && cs.1 == cs.2 && ce.1 == ce.2)))
  | .quant t lo hi => andAlso t.equal (some (lo.1 == lo.2 && hi.1 == hi.2))
  | .named n t => andAlso (some (n.1 == n.2)) t.equal
  | .scope t a b ps => andAlso t.equal (some (a.isEmpty && b.isEmpty && ps.isEmpty))

/-- parser/diff/terms.go:31-39 `GrammarDiff`. -/
structure GrammarDiff where
  onlyInA : List Str
  onlyInB : List Str
  prods : List (Str × TermDiff)

def GrammarDiff.equal (d : GrammarDiff) : Bool := d.onlyInA.isEmpty && d.onlyInB.isEmpty && d.prods.isEmpty

/-- parser/diff/terms.go:194-196, 210 `diffTermses`; `ds` is what its loop gives. -/
def diffTermses (a b : List Term) (ds : Option (List TermDiff)) : Option TermDiff :=
  ds.map (.terms (a.length, b.length))

mutual
/-- parser/diff/terms.go:81-122 `Terms`. -/
def diffTerms : Term → Term → Option TermDiff
  | .rule a, .rule b => some (.rule (a, b))
  | .s a, .s b => some (.s (a, b))
  | .re a, .re b => some (.re (a, b))
  | .seq a, .seq b => diffTermses a b (diffLoop a b)
  | .oneof a, .oneof b => diffTermses a b (diffLoop a b)
  | .stack a, .stack b => diffTermses a b (diffLoop a b)
  | .delim t s a cs ce, .delim t' s' a' cs' ce' =>
    match diffTerms t t', diffTerms s s' with
    | some d, some e => some (.delim d e (a, a') (cs, cs') (ce, ce'))
    | _, _ => none
  | .quant t lo hi, .quant t' lo' hi' =>
    match diffTerms t t' with
    | some d => some (.quant d (lo, lo') (hi, hi'))
    | none => none
  | .named n t, .named n' t' =>
    match diffTerms t t' with
    | some d => some (.named (n, n') d)
    | none => none
  | .scope t g, .scope t' g' =>
    match diffTerms t t', diffDefs g g' with
    | some d, some (onlyA, prods) =>
      let gd : GrammarDiff := ⟨onlyA, (g'.filter (fun e => !hasKey e.1 g)).map Prod.fst, prods⟩
      if gd.equal ≠ deepEqualGrammar g g' then none else some (.scope d gd.onlyInA gd.onlyInB gd.prods)
    | _, _ => none
  | .cut a, .cut b => diffTerms a b
  | .ext a, .ext _ => some (.s (a, a))
  | .ref a d, .ref b e => some (.ref (a, b) (diffDflt d e))
  | .look a, .look b => diffTerms a b
  | _, _ => some .types
/-- parser/diff/terms.go:174: comparing the defaults. If one only is nil, asking for its type (85-86) panics. -/
def diffDflt : Option Term → Option Term → Option Bool
  | none, none => some true
  | some a, some b =>
    match diffTerms a b with
    | some d => d.equal
    | none => none
  | _, _ => none
/-- parser/diff/terms.go:197-209: over as many terms as both have. -/
def diffLoop : List Term → List Term → Option (List TermDiff)
  | a :: as, b :: bs =>
    match diffTerms a b, diffLoop as bs with
    | some d, some ds =>
      match d.equal with
      | some true => some ds
      | some false => some (d :: ds)
      | none => none
    | _, _ => none
  | _, _ => some []
/-- parser/diff/terms.go:45-53: the loop over the rules of `a`, in the order of the list (in Go the order is that of a map).
The rules that only `a` has, and the differences. -/
def diffDefs : List (Str × Term) → Grammar → Option (List Str × List (Str × TermDiff))
  | [], _ => some ([], [])
  | (r, t) :: g, g' =>
    match diffDefs g g' with
    | none => none
    | some (onlyA, prods) =>
      match lookup r g' with
      | none => some (r :: onlyA, prods)
      | some t' =>
        match diffTerms t t' with
        | none => none
        | some d =>
          match d.equal with
          | none => none
          | some true => some (onlyA, prods)
          | some false => some (onlyA, (r, d) :: prods)
end

/-- parser/diff/terms.go:41-65 `Grammars`: it panics if it finds that its answer is not that of `reflect.DeepEqual`. -/
def diffGrammars (g g' : Grammar) : Option GrammarDiff :=
  match diffDefs g g' with
  | none => none
  | some (onlyA, prods) =>
    let gd : GrammarDiff := ⟨onlyA, (g'.filter (fun e => !hasKey e.1 g)).map Prod.fst, prods⟩
    if gd.equal ≠ deepEqualGrammar g g' then none else some gd

/-- `Terms(a, b).Equal()`. -/
def termsEqual (a b : Term) : Option Bool :=
  match diffTerms a b with
  | some d => d.equal
  | none => none

end Wbnf
