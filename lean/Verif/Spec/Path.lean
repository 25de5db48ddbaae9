import Verif.Model.Path

/-!
# Where paths lead

In a tree of directories (no symbolic links).
-/

namespace Wbnf

/-- A place in the tree of files: the names on the way to it, last first. The root is `[]`. -/
abbrev Loc := List Str

/-- A name of a file or directory. -/
def ProperName (x : Str) : Prop := x ≠ [] ∧ x ≠ str "." ∧ x ≠ str ".." ∧ 47 ∉ x

/-- Places have proper names. -/
def Loc.Proper (l : Loc) : Prop := ∀ x ∈ l, ProperName x

/-- The directory a file is in. -/
def Loc.dir (l : Loc) : Loc := l.tail

/-- Going one element of a path: `..` goes up, also from the root, where it leads back to the root. -/
def Loc.step (l : Loc) (e : Str) : Loc :=
  if e = [] ∨ e = str "." then l
  else if e = str ".." then l.tail
  else e :: l

/-- Where a path leads to from a place. -/
def Loc.go (l : Loc) (p : Str) : Loc := (pathElems p).foldl Loc.step (if rooted p then [] else l)

/-- Where the path of an import leads to: the words are names and slashes. A slash at the start means nothing. -/
def Loc.follow (l : Loc) (p : List Str) : Loc := p.foldl (fun l x => if x = str "/" then l else l.step x) l

/-- The words of the path of an import. -/
def ImportPath (p : List Str) : Prop := p ≠ [] ∧ ∀ x ∈ p, x = str "/" ∨ (x ≠ [] ∧ 47 ∉ x)

/-- The path ends with the name of a file. -/
def NamesFile (p : Str) : Prop := ∃ pre x, p = pre ++ x ∧ ProperName x ∧ (pre = [] ∨ ∃ d, pre = d ++ [47])

end Wbnf
