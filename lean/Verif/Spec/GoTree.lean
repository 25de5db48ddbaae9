import Verif.Model.GoTree

/-!
# What a printed tree shows
-/

namespace Wbnf

/-- A node below the root: for each of its ancestors below the root and for itself, from the top down, whether it is the
last child; and its label. -/
abbrev Row := List Bool × Str

mutual
/-- The nodes of a subtree that hangs at `path`, depth-first, each before its children. -/
def GTree.rows (path : List Bool) : GTree → List Row
  | .mk label kids => (path, label) :: rowsOf path kids
/-- The nodes of the children of the node at `path`. -/
def rowsOf (path : List Bool) : List GTree → List Row
  | [] => []
  | [k] => k.rows (path ++ [true])
  | k :: ks => k.rows (path ++ [false]) ++ rowsOf path ks
end

/-- What is under an ancestor: nothing if it is the last child, else a line down to its next sibling. -/
def rail : Bool → Str
  | true => "    ".toUTF8.data.toList
  | false => "│   ".toUTF8.data.toList

/-- What leads to the node. -/
def branch : Bool → Str
  | true => "└── ".toUTF8.data.toList
  | false => "├── ".toUTF8.data.toList

/-- Text has no line break. -/
def OneLine (s : Str) : Prop := (10 : UInt8) ∉ s

/-- Put lines together. -/
def unlines : List Str → Str
  | [] => []
  | l :: ls => l ++ [10] ++ unlines ls

/-- `ls` are the lines of `s`. -/
def LinesOf (s : Str) (ls : List Str) : Prop :=
  (∀ l ∈ ls, OneLine l) ∧ s ++ [10] = unlines ls

/-- The lines for a node whose label has the lines `l :: ls`. -/
def block (path : List Bool) (l : Str) (ls : List Str) : List Str :=
  match path.getLast? with
  | none => l :: ls
  | some last =>
    (path.dropLast.flatMap rail ++ branch last ++ l) :: ls.map (path.flatMap rail ++ ·)

mutual
/-- No label has a line break. -/
def GTree.OneLined : GTree → Prop
  | .mk label kids => OneLine label ∧ oneLinedAll kids
def oneLinedAll : List GTree → Prop
  | [] => True
  | k :: ks => k.OneLined ∧ oneLinedAll ks
end

mutual
/-- How many nodes a tree has. -/
def GTree.size : GTree → Nat
  | .mk _ kids => 1 + sizeOf' kids
def sizeOf' : List GTree → Nat
  | [] => 0
  | k :: ks => k.size + sizeOf' ks
end

/-- The text consists of these blocks, one for each node. -/
inductive Shows : List Row → Str → Prop
  | nil : Shows [] []
  | cons {path label l ls rows out} :
    LinesOf label (l :: ls) → Shows rows out → Shows ((path, label) :: rows) (unlines (block path l ls) ++ out)

end Wbnf
