import Verif.Model.Import

/-!
# What importing means
-/

namespace Wbnf

mutual
/-- The paths of the imports in a tree, in the order of the walk. -/
def WTree.imports : WTree → List (List Str)
  | .mk (.imp p) ks => p :: importsOf ks
  | .mk _ ks => importsOf ks
def importsOf : List WTree → List (List Str)
  | [] => []
  | t :: ts => t.imports ++ importsOf ts
end

/-- The paths a grammar imports, wherever in it. -/
def GrammarN.imports (g : GrammarN) : List (List Str) := g.tree.imports

namespace Files

/-- The grammar in a file. -/
def file (F : Files) (q : Str) : Option GrammarN := (F.read q).bind F.parse

/-- The file an import in `f` is of. -/
def target (F : Files) (f : Str) (p : List Str) : Str := F.clean (F.path f p)

mutual
/-- The statements of a grammar in the file `f` with those of its imports: its own, then what each import includes, in order. -/
inductive Includes (F : Files) : Str → GrammarN → List StmtN → Prop
  | mk {f g ps} : IncludesAll F f g.imports ps → Includes F f g (g.stmts ++ ps)
inductive IncludesAll (F : Files) : Str → List (List Str) → List StmtN → Prop
  | nil {f} : IncludesAll F f [] []
  | cons {f p is g ss ps} : F.file (F.target f p) = some g → Includes F (F.target f p) g ss → IncludesAll F f is ps →
      IncludesAll F f (p :: is) (ss ++ ps)
end

/-- The file `a` imports the file `b`. -/
def Imports (F : Files) (a b : Str) : Prop := ∃ g p, F.file a = some g ∧ p ∈ g.imports ∧ b = F.target a p

/-- The files a grammar in the file `f` imports, directly or through others. -/
inductive Needs (F : Files) (f : Str) (g : GrammarN) : Str → Prop
  | direct {p} : p ∈ g.imports → Needs F f g (F.target f p)
  | indirect {a b} : Needs F f g a → F.Imports a b → Needs F f g b

/-- Following imports from a file comes to an end. -/
def Ends (F : Files) (a : Str) : Prop := Acc (fun b a => F.Imports a b) a

end Files

end Wbnf
