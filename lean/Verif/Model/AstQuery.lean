import Verif.Model.Ast

/-!
# Model of ast/node.go (ContentEquals), ast/node_string.go (Scanner) and ast/helpers.go

`.error .panic` is a panic. Ranges over the map `Branch` go in the order of the list.
-/

namespace Wbnf

/-! ## ContentEquals -/

/-- Go `a.Scanner().String() == b.Scanner().String()`. -/
def sameText (s s' : Scanner) : Except Stop Bool :=
  match s.toStr, s'.toStr with
  | some x, some y => .ok (x = y)
  | _, _ => .error .panic

mutual
/-- ast/node.go:181-226 `ContentEquals` of the three kinds of node; the other node may be nil (`none`). -/
def Ast.contentEq : Ast → Option Ast → Except Stop Bool
  | .leaf s, some (.leaf s') => sameText s s'                                       -- 181-187
  | .leaf _, _ => .ok false
  | .extra d, some (.extra d') => .ok (d = d')                                      -- 220-226
  | .extra _, _ => .ok false
  | .branch b, some (.branch b') =>                                                 -- 189-218
    if b.length ≠ b'.length then .ok false else branchEq b b'
  | .branch _, _ => .ok false
/-- node.go:195-214, the loop over the map. -/
def branchEq : List (Str × Kids) → Branch → Except Stop Bool
  | [], _ => .ok true
  | (k, c) :: rest, b' => (c.contentEq k b').bind fun r => if r then branchEq rest b' else .ok false
/-- node.go:196-213, the body of the loop; 202: `Many` is nil for a missing name or a single node. -/
def Kids.contentEq : Kids → Str → Branch → Except Stop Bool
  | .one n, k, b' => n.contentEq (Branch.one? b' k)
  | .many ns, k, b' =>
    if ns.length ≠ (Branch.many? b' k).length then .ok false else nodesEq ns (Branch.many? b' k)
/-- node.go:206-210. -/
def nodesEq : List Ast → List Ast → Except Stop Bool
  | n :: ns, m :: ms => (n.contentEq (some m)).bind fun r => if r then nodesEq ns ms else .ok false
  | _, _ => .ok true
end

/-! ## Scanner -/

/-- Go `strings.HasPrefix(name, "@")`. -/
def isTagName (name : Str) : Bool := (str "@").isPrefixOf name

/-- node_string.go:123-131 and 163-171: merge if there are any, panic if they cannot be merged. -/
def mergeAny : List Scanner → Except Stop Scanner
  | [] => .ok .zero
  | ss => match mergeScanners ss with
    | some m => .ok m
    | none => .error .panic

mutual
/-- ast/node_string.go:134-172 `Scanner` of the three kinds of node. Lines 143-145 with
from_parsernode.go:60-81 `oneChild`, for a branch with one name: the node stored alone, or the only one of a list,
under a name that does not begin with `@`. -/
def Ast.scanner : Ast → Except Stop Scanner
  | .leaf s => .ok s
  | .extra _ => .error .panic
  | .branch b =>
    let all := (branchScanners b).bind mergeAny
    match b with
    | [(k, .one n)] => if isTagName k then all else n.scanner
    | [(k, .many [n])] => if isTagName k then all else n.scanner
    | _ => all
/-- ast/node_string.go:113-132. -/
def Kids.scanner : Kids → Except Stop Scanner
  | .one n => n.scanner
  | .many ns => (astScanners ns).bind mergeAny
/-- node_string.go:118-121, the loop. -/
def astScanners : List Ast → Except Stop (List Scanner)
  | [] => .ok []
  | n :: ns => n.scanner.bind fun s => (astScanners ns).bind fun ss => .ok (s :: ss)
/-- node_string.go:147-161, the loop over the map. -/
def branchScanners : List (Str × Kids) → Except Stop (List Scanner)
  | [] => .ok []
  | (k, c) :: b =>
    if isTagName k then branchScanners b
    else c.scanner.bind fun s => (branchScanners b).bind fun ss => .ok (if s.isNil then ss else s :: ss)
end

/-! ## Helpers -/

/-- ast/node.go:59-61, 73-80, 95-97: `One` of the three kinds of node; `none` is nil. -/
def Ast.one? : Ast → Str → Option Ast
  | .branch b, k => Branch.one? b k
  | _, _ => none

/-- ast/node.go:63-65, 82-89, 99-101: `Many`. -/
def Ast.many? : Ast → Str → List Ast
  | .branch b, k => Branch.many? b k
  | _, _ => []

/-- ast/helpers.go:33-44 `First`. -/
def Ast.first (n : Ast) (k : Str) : Option Ast :=
  match n.one? k with
  | some x => some x
  | none => (n.many? k).head?

/-- ast/helpers.go:47-58 `All`. -/
def Ast.all (n : Ast) (k : Str) : List Ast :=
  match n.one? k with
  | some x => [x]
  | none => n.many? k

/-- ast/helpers.go:22-30 `Choice`; -1: there is no choice, `none`: panic. -/
def Ast.choice (n : Ast) : Option Int :=
  match n.first choiceTag with
  | some (.extra (.choice i)) => some i
  | some _ => none
  | none => some (-1)

end Wbnf
