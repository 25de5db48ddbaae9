import Verif.Model.AstString
import Verif.Model.GoTree

/-!
# Model of ast/treeview.go, and of the ranks in gotree/gotree.go
-/

namespace Wbnf

/-- gotree.go:87 `^[1-9][0-9]*`: what the regexp finds at the start of the text. -/
def numberPrefix : Str → Option Str
  | c :: s => if 49 ≤ c && c ≤ 57 then some (c :: s.takeWhile isDigitByte) else none
  | [] => none

mutual
/-- gotree.go:86-107 `Rank`; `none` is the panic where `strconv.Atoi` finds the number out of range. -/
def GTree.rank : GTree → Option Int
  | .mk text items =>
    match numberPrefix text with
    | some ds => if digitsValue ds < 2 ^ 63 then some (digitsValue ds) else none
    | none =>
      match items with
      | [] => some (-1)
      | i :: is => minRank (2 ^ 63 - 1) (i :: is)
/-- gotree.go:99-105, the loop. -/
def minRank : Int → List GTree → Option Int
  | r, [] => some r
  | r, i :: is =>
    match i.rank with
    | some k => minRank (if k < r then k else r) is
    | none => none
end

/-- gotree.go:79-83 `SortItems`. `sort` is Go's `sort.Slice`, that puts the items in some order by rank; it compares each of two or more items, and
the rank of any of them may panic. -/
def sortItems (sort : List GTree → List GTree) (text : Str) (items : List GTree) : Option GTree :=
  if 1 < items.length && items.any (·.rank.isNone) then none else some (.mk text (sort items))

/-- treeview.go:13. -/
def collapsedNodeSep : Str := [32] ++ bullet ++ [32]

/-- Go `strings.Split(s, sep)`, for `sep` that is not empty; so many bytes still belong to the last separator. -/
def splitSep (sep : Str) : Nat → Str → List Str
  | _, [] => [[]]
  | k + 1, _ :: s => splitSep sep k s
  | 0, c :: s =>
    if sep.isPrefixOf (c :: s) then [] :: splitSep sep (sep.length - 1) s
    else
      match splitSep sep 0 s with
      | [] => [[c]]
      | l :: ls => (c :: l) :: ls

/-- treeview.go:18-27, the loop; `i` is whether the index is greater than zero. -/
def collapseParts (pre : Str) : Bool → List Str → List Str
  | _, [] => [pre]
  | i, s :: parts =>
    if s = str "..." ∨ s = pre then collapseParts pre true parts
    else [pre] ++ (if i then [str "..."] else []) ++ (s :: parts)

/-- treeview.go:15-29 `collapseNodeText`. -/
def collapseNodeText (pre : Str) (tree : GTree) : Str :=
  separated collapsedNodeSep (collapseParts pre false (splitSep collapsedNodeSep 0 tree.text))

/-- treeview.go:48-54: the tree has one item with one item. -/
def collapseTree (sort : List GTree → List GTree) (name : Str) : List GTree → Option GTree
  | [.mk text [i]] => some (.mk (collapseNodeText name (.mk text [i])) [i])
  | items => sortItems sort name items

mutual
/-- treeview.go:31-65 `fromAst`; `none` is a panic. The map is gone through in the order of the list. -/
def fromAst (quote : Str → Str) (sort : List GTree → List GTree) (skip : Bool) : Str → Ast → Option GTree
  | name, .branch b => (branchItems quote sort skip b).bind (collapseTree sort name)
  | name, .extra d => some (.mk name [.mk d.string []])
  | _, .leaf s => (leafString quote s).map fun t => .mk t []
/-- 36-48, the loop over the names. -/
def branchItems (quote : Str → Str) (sort : List GTree → List GTree) (skip : Bool) : List (Str × Kids) → Option (List GTree)
  | [] => some []
  | (name, c) :: b =>
    if skip && name.head? = some 64 then branchItems quote sort skip b
    else
      match kidsItems quote sort skip name c, branchItems quote sort skip b with
      | some ts, some us => some (ts ++ us)
      | _, _ => none
/-- 40-47, the switch. -/
def kidsItems (quote : Str → Str) (sort : List GTree → List GTree) (skip : Bool) : Str → Kids → Option (List GTree)
  | name, .one n => (fromAst quote sort skip name n).map fun t => [t]
  | name, .many ns => manyItems quote sort skip name ns
/-- 44-46, the loop. -/
def manyItems (quote : Str → Str) (sort : List GTree → List GTree) (skip : Bool) : Str → List Ast → Option (List GTree)
  | _, [] => some []
  | name, n :: ns =>
    match fromAst quote sort skip name n, manyItems quote sort skip name ns with
    | some t, some ts => some (t :: ts)
    | _, _ => none
end

/-- treeview.go:9-11 `BuildTreeView`. -/
def buildTreeView (quote : Str → Str) (sort : List GTree → List GTree) (room : Nat → Nat) (rootname : Str) (root : Ast) (skipAtNodes : Bool) : Option Str :=
  (fromAst quote sort skipAtNodes rootname root).map (·.print room)

end Wbnf
