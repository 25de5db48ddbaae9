import Verif.Model.Term

/-!
# Model of the accessors of `Node`

parser/parsernodes.go:28-68. `none` is a panic. The methods have a `Node` as receiver; here they take any tree, of which a `Node` is one.
-/

namespace Wbnf

/-- parsernodes.go:50 `v.(Node).Children[i]`: panics if `v` is no `Node` (a failed type assertion) or `i` is out of range. -/
def Tree.childAt (v : Tree) (i : Int) : Option Tree :=
  match v with
  | .node _ _ cs => if i < 0 then none else cs[i.toNat]?
  | _ => none

/-- parsernodes.go:47-53 `Node.Get`. -/
def Tree.get : Tree → List Int → Option Tree
  | v, [] => some v
  | v, i :: path =>
    match v.childAt i with
    | some w => w.get path
    | none => none

/-- parsernodes.go:55-57 `Node.GetNode`: panics if there is something else. -/
def Tree.getNode (v : Tree) (path : List Int) : Option Tree :=
  match v.get path with
  | some (.node tag x cs) => some (.node tag x cs)
  | _ => none

/-- parsernodes.go:59-61 `Node.GetScanner`: panics if there is something else. -/
def Tree.getScanner (v : Tree) (path : List Int) : Option Scanner :=
  match v.get path with
  | some (.leaf s) => some s
  | _ => none

/-- parsernodes.go:63-65 `Node.GetString`. -/
def Tree.getString (v : Tree) (path : List Int) : Option Str :=
  match v.getScanner path with
  | some s => s.toStr
  | none => none

/-- parsernodes.go:28-30 `Node.Count` (no other tree has the method). -/
def Tree.count : Tree → Nat
  | .node _ _ cs => cs.length
  | _ => 0

mutual
/-- parsernodes.go:32-45 `Node.Normalize`; what is no `Node` stays (line 35). -/
def Tree.normalize : Tree → Tree
  | .node tag x cs => .node tag x (normalizeList cs)
  | v => v
/-- The loop of parsernodes.go:34-39. -/
def normalizeList : List Tree → List Tree
  | [] => []
  | v :: vs => v.normalize :: normalizeList vs
end

end Wbnf
