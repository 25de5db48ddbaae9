import Verif.Model.Basic

/-!
# Model of the syntax trees of wbnf sources

wbnf/wbnfgrammar.go: the node types and their accessors, as the grammar of that file (10-108) fills them. The generated
types are views of `ast.Node`; here they are inductive types with one field per accessor. What an accessor cannot return
for a tree the parser produces is left out: a term has either terms (with an operator or grammars in braces) or one
named atom with quantifiers, an atom exactly one of its alternatives, a quantifier one of three. The text of a node
(`String()`) is a byte string; where in the source it is, is not modelled.
-/

namespace Wbnf

mutual
/-- wbnf/wbnfgrammar.go:639-686 `TermNode`: 97-108. -/
inductive TermN
  /-- `OneOp` (`""` for a sequence), `AllGrammar`, `AllTerm`. -/
  | many (op : Str) (grammars : List GrammarN) (terms : List TermN)
  /-- `OneNamed`, `AllQuant`. -/
  | one (named : NamedN) (quants : List QuantN)
/-- wbnf/wbnfgrammar.go:322-345 `NamedNode`: 47-50; `OneIdent` (none is nil) and `OneAtom`. -/
inductive NamedN
  | mk (ident : Option Str) (atom : AtomN)
/-- wbnf/wbnfgrammar.go:157-238 `AtomNode`: 22-38. -/
inductive AtomN
  | ident (i : Str)
  | str (text : Str)
  | re (text : Str)
  /-- `MacrocallNode` 281-320: `OneName`, `AllTerm`. -/
  | macrocall (name : Str) (terms : List TermN)
  /-- `AtomExtRefNode` 132-155. -/
  | ext (i : Str)
  /-- `RefNode` 571-601: `OneIdent`, `OneDefault`. -/
  | ref (i : Str) (dflt : Option Str)
  | look (t : TermN)
  | term (t : TermN)
  | unit
/-- wbnf/wbnfgrammar.go:492-559 `QuantNode`: 78-93, by `Choice()`. -/
inductive QuantN
  | op (o : Str)
  | range (min max : Option Str)
  | sep (op : Str) (leading trailing : Bool) (named : NamedN)
/-- wbnf/wbnfgrammar.go:603-627 `StmtNode`: 94-96, and the nodes below it: `CommentNode`, `ProdNode` 451-490 (`OneIdent`,
`AllTerm`), `PragmaNode` 432-449 with `PragmaImportNode` 347-383 (the tokens of `OnePath`) or `PragmaMacrodefNode` 385-430
(`OneName`, `AllArgs`, `OneTerm`). -/
inductive StmtN
  | comment (text : Str)
  | prod (i : Str) (terms : List TermN)
  | imp (path : List Str)
  | macrodef (name : Str) (args : List Str) (body : TermN)
/-- wbnf/wbnfgrammar.go:250-259 `GrammarNode`: `AllStmt`. -/
inductive GrammarN
  | mk (stmts : List StmtN)
end

def GrammarN.stmts : GrammarN → List StmtN
  | .mk ss => ss

end Wbnf
