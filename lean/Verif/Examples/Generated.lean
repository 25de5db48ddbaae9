import Verif.Model.TypesWalk
import Verif.Model.Core

/-!
# The generated types and walkers of wbnf itself

wbnf/wbnfgrammar.go was generated from the grammar of wbnf (examples/wbnf.wbnf). What the model of the code generator makes of the
grammar is compared with what that file declares: types, accessors with what they do, and the functions of the walker.
-/

namespace Wbnf.Ex

/-- `strcase.ToCamel` of github.com/iancoleman/strcase, for letters, digits and separators. -/
def toCamel (next : Bool) : Str → Str
  | [] => []
  | c :: s =>
    if 97 ≤ c && c ≤ 122 then (if next then c - 32 else c) :: toCamel false s
    else if 65 ≤ c && c ≤ 90 then c :: toCamel false s
    else if 48 ≤ c && c ≤ 57 then c :: toCamel true s
    else toCamel (c = 95 || c = 32 || c = 45 || c = 46) s

/-- `strings.ToUpper`, for ASCII. -/
def capitals (s : Str) : Str := s.map fun c => if 97 ≤ c && c ≤ 122 then c - 32 else c

/-- The order of children: by their names in capitals (types.go:342-345). -/
def insertMember (m : Member) : List Member → List Member
  | [] => [m]
  | x :: xs =>
    if capitals m.ident < capitals x.ident then m :: x :: xs
    else x :: insertMember m xs

def sortMembers (ms : List Member) : List Member := ms.foldr insertMember []

/-- The grammar of wbnf as it is written: `.wrapRE` comes into the braces of `pragma` only when it is compiled. -/
def coreWritten : Grammar := Core.grammar.map fun e =>
  match e with
  | (r, .scope t g) => (r, .scope t (g.filter fun d => d.1 ≠ str ".wrapRE"))
  | e => e

/-- The types that the model makes (`coreTypes_made`). -/
def coreTypes : TypeMap := [
  (str "WrapReNode", .basic (str "WrapReNode")),
  (str "CommentNode", .basic (str "CommentNode")),
  (str "IdentNode", .basic (str "IdentNode")),
  (str "IntNode", .basic (str "IntNode")),
  (str "ReNode", .basic (str "ReNode")),
  (str "RefNode", .rule (str "RefNode") [.unnamedToken (str "RefNode") ⟨true, false, [5]⟩, .namedRule (str "IDENT") (str "Ref") (str "Ident") ⟨true, false, [5]⟩, .namedRule (str "default") (str "Ref") (str "STR") ⟨true, false, []⟩]),
  (str "StrNode", .basic (str "StrNode")),
  (str "AtomNode", .rule (str "AtomNode") [.choice (str "Atom"), .namedRule (str "IDENT") (str "Atom") (str "Ident") ⟨true, false, [8]⟩, .namedRule (str "STR") (str "Atom") (str "Str") ⟨true, false, [9]⟩, .namedRule (str "RE") (str "Atom") (str "Re") ⟨true, false, [10]⟩, .namedRule (str "macrocall") (str "Atom") (str "Macrocall") ⟨true, false, [11]⟩, .namedRule (str "ExtRef") (str "Atom") (str "AtomExtRef") ⟨true, false, []⟩, .namedRule (str "REF") (str "Atom") (str "Ref") ⟨true, false, [13]⟩, .unnamedToken (str "Atom") ⟨true, true, [14]⟩, .namedRule (str "lookahead") (str "Atom") (str "term") ⟨true, false, []⟩, .namedRule (str "term") (str "Atom") (str "Term") ⟨true, false, [15]⟩]),
  (str "AtomExtRefNode", .rule (str "AtomExtRefNode") [.unnamedToken (str "AtomExtRefNode") ⟨true, false, []⟩, .namedRule (str "IDENT") (str "AtomExtRef") (str "Ident") ⟨true, false, [12]⟩]),
  (str "GrammarNode", .rule (str "GrammarNode") [.namedRule (str "stmt") (str "Grammar") (str "Stmt") ⟨false, true, []⟩]),
  (str "MacrocallNode", .rule (str "MacrocallNode") [.unnamedToken (str "MacrocallNode") ⟨true, true, [18]⟩, .namedRule (str "name") (str "Macrocall") (str "IDENT") ⟨true, false, []⟩, .namedRule (str "term") (str "Macrocall") (str "Term") ⟨false, true, []⟩]),
  (str "NamedNode", .rule (str "NamedNode") [.namedRule (str "IDENT") (str "Named") (str "Ident") ⟨true, false, [19]⟩, .namedToken (str "op") (str "Named") ⟨true, false, []⟩, .namedRule (str "atom") (str "Named") (str "Atom") ⟨true, false, [19]⟩]),
  (str "PragmaImportNode", .rule (str "PragmaImportNode") [.unnamedToken (str "PragmaImportNode") ⟨true, false, [21]⟩, .namedRule (str "path") (str "PragmaImport") (str "PragmaImportPath") ⟨true, false, []⟩]),
  (str "PragmaImportPathNode", .rule (str "PragmaImportPathNode") [.choice (str "PragmaImportPath"), .unnamedToken (str "PragmaImportPath") ⟨false, true, []⟩]),
  (str "PragmaMacrodefNode", .rule (str "PragmaMacrodefNode") [.unnamedToken (str "PragmaMacrodefNode") ⟨true, true, [25]⟩, .namedRule (str "name") (str "PragmaMacrodef") (str "IDENT") ⟨true, false, []⟩, .namedRule (str "args") (str "PragmaMacrodef") (str "IDENT") ⟨false, true, []⟩, .namedRule (str "term") (str "PragmaMacrodef") (str "Term") ⟨true, false, [25]⟩]),
  (str "PragmaNode", .rule (str "PragmaNode") [.choice (str "Pragma"), .namedRule (str "import") (str "Pragma") (str "PragmaImport") ⟨true, false, [26]⟩, .namedRule (str "macrodef") (str "Pragma") (str "PragmaMacrodef") ⟨true, false, [27]⟩]),
  (str "ProdNode", .rule (str "ProdNode") [.namedRule (str "IDENT") (str "Prod") (str "Ident") ⟨true, false, [28]⟩, .unnamedToken (str "Prod") ⟨true, true, [28]⟩, .namedRule (str "term") (str "Prod") (str "Term") ⟨false, true, []⟩]),
  (str "QuantNode", .rule (str "QuantNode") [.choice (str "Quant"), .namedToken (str "op") (str "Quant") ⟨true, false, []⟩, .unnamedToken (str "Quant") ⟨true, true, [31]⟩, .namedRule (str "min") (str "Quant") (str "INT") ⟨true, false, []⟩, .namedRule (str "max") (str "Quant") (str "INT") ⟨true, false, []⟩, .namedToken (str "opt_leading") (str "Quant") ⟨true, false, []⟩, .namedRule (str "named") (str "Quant") (str "Named") ⟨true, false, [32]⟩, .namedToken (str "opt_trailing") (str "Quant") ⟨true, false, []⟩]),
  (str "StmtNode", .rule (str "StmtNode") [.choice (str "Stmt"), .namedRule (str "COMMENT") (str "Stmt") (str "Comment") ⟨true, false, [34]⟩, .namedRule (str "prod") (str "Stmt") (str "Prod") ⟨true, false, [35]⟩, .namedRule (str "pragma") (str "Stmt") (str "Pragma") ⟨true, false, [36]⟩]),
  (str "TermNode", .rule (str "TermNode") [.stackBackRef (str "term") (str "Term"), .unnamedToken (str "Term") ⟨false, true, []⟩, .namedRule (str "grammar") (str "Term") (str "Grammar") ⟨false, true, []⟩, .namedToken (str "op") (str "Term") ⟨true, false, []⟩, .namedRule (str "named") (str "Term") (str "Named") ⟨true, false, [37]⟩, .namedRule (str "quant") (str "Term") (str "Quant") ⟨false, true, []⟩])]

/-- wbnf/wbnfgrammar.go:130-696, `type … struct { ast.Node }`. -/
def generatedTypes : List Str := [
  str "AtomExtRefNode",
  str "AtomNode",
  str "CommentNode",
  str "GrammarNode",
  str "IdentNode",
  str "IntNode",
  str "MacrocallNode",
  str "NamedNode",
  str "PragmaImportNode",
  str "PragmaImportPathNode",
  str "PragmaMacrodefNode",
  str "PragmaNode",
  str "ProdNode",
  str "QuantNode",
  str "ReNode",
  str "RefNode",
  str "StmtNode",
  str "StrNode",
  str "TermNode",
  str "WrapReNode"]

/-- wbnf/wbnfgrammar.go:130-696, the methods. -/
def generatedMethods : List MethodDecl := [
  ⟨str "AtomExtRefNode", str "OneIdent", .oneNode (str "IDENT") (str "IdentNode")⟩,
  ⟨str "AtomExtRefNode", str "OneToken", .oneToken⟩,
  ⟨str "AtomNode", str "Choice", .choice⟩,
  ⟨str "AtomNode", str "OneExtRef", .oneNode (str "ExtRef") (str "AtomExtRefNode")⟩,
  ⟨str "AtomNode", str "OneIdent", .oneNode (str "IDENT") (str "IdentNode")⟩,
  ⟨str "AtomNode", str "OneLookahead", .oneNode (str "lookahead") (str "TermNode")⟩,
  ⟨str "AtomNode", str "OneMacrocall", .oneNode (str "macrocall") (str "MacrocallNode")⟩,
  ⟨str "AtomNode", str "OneRe", .oneNode (str "RE") (str "ReNode")⟩,
  ⟨str "AtomNode", str "OneRef", .oneNode (str "REF") (str "RefNode")⟩,
  ⟨str "AtomNode", str "OneStr", .oneNode (str "STR") (str "StrNode")⟩,
  ⟨str "AtomNode", str "OneTerm", .oneNode (str "term") (str "TermNode")⟩,
  ⟨str "AtomNode", str "OneToken", .oneToken⟩,
  ⟨str "AtomNode", str "AllToken", .allTokens⟩,
  ⟨str "CommentNode", str "String", .text⟩,
  ⟨str "GrammarNode", str "AllStmt", .allNodes (str "stmt") (str "StmtNode")⟩,
  ⟨str "IdentNode", str "String", .text⟩,
  ⟨str "IntNode", str "String", .text⟩,
  ⟨str "MacrocallNode", str "OneName", .oneNode (str "name") (str "IdentNode")⟩,
  ⟨str "MacrocallNode", str "AllTerm", .allNodes (str "term") (str "TermNode")⟩,
  ⟨str "MacrocallNode", str "OneToken", .oneToken⟩,
  ⟨str "MacrocallNode", str "AllToken", .allTokens⟩,
  ⟨str "NamedNode", str "OneAtom", .oneNode (str "atom") (str "AtomNode")⟩,
  ⟨str "NamedNode", str "OneIdent", .oneNode (str "IDENT") (str "IdentNode")⟩,
  ⟨str "NamedNode", str "OneOp", .oneText (str "op")⟩,
  ⟨str "PragmaImportNode", str "OnePath", .oneNode (str "path") (str "PragmaImportPathNode")⟩,
  ⟨str "PragmaImportNode", str "OneToken", .oneToken⟩,
  ⟨str "PragmaImportPathNode", str "Choice", .choice⟩,
  ⟨str "PragmaImportPathNode", str "AllToken", .allTokens⟩,
  ⟨str "PragmaMacrodefNode", str "AllArgs", .allNodes (str "args") (str "IdentNode")⟩,
  ⟨str "PragmaMacrodefNode", str "OneName", .oneNode (str "name") (str "IdentNode")⟩,
  ⟨str "PragmaMacrodefNode", str "OneTerm", .oneNode (str "term") (str "TermNode")⟩,
  ⟨str "PragmaMacrodefNode", str "OneToken", .oneToken⟩,
  ⟨str "PragmaMacrodefNode", str "AllToken", .allTokens⟩,
  ⟨str "PragmaNode", str "Choice", .choice⟩,
  ⟨str "PragmaNode", str "OneImport", .oneNode (str "import") (str "PragmaImportNode")⟩,
  ⟨str "PragmaNode", str "OneMacrodef", .oneNode (str "macrodef") (str "PragmaMacrodefNode")⟩,
  ⟨str "ProdNode", str "OneIdent", .oneNode (str "IDENT") (str "IdentNode")⟩,
  ⟨str "ProdNode", str "AllTerm", .allNodes (str "term") (str "TermNode")⟩,
  ⟨str "ProdNode", str "OneToken", .oneToken⟩,
  ⟨str "ProdNode", str "AllToken", .allTokens⟩,
  ⟨str "QuantNode", str "Choice", .choice⟩,
  ⟨str "QuantNode", str "OneMax", .oneNode (str "max") (str "IntNode")⟩,
  ⟨str "QuantNode", str "OneMin", .oneNode (str "min") (str "IntNode")⟩,
  ⟨str "QuantNode", str "OneNamed", .oneNode (str "named") (str "NamedNode")⟩,
  ⟨str "QuantNode", str "OneOp", .oneText (str "op")⟩,
  ⟨str "QuantNode", str "OneOptLeading", .oneText (str "opt_leading")⟩,
  ⟨str "QuantNode", str "OneOptTrailing", .oneText (str "opt_trailing")⟩,
  ⟨str "QuantNode", str "OneToken", .oneToken⟩,
  ⟨str "QuantNode", str "AllToken", .allTokens⟩,
  ⟨str "ReNode", str "String", .text⟩,
  ⟨str "RefNode", str "OneDefault", .oneNode (str "default") (str "StrNode")⟩,
  ⟨str "RefNode", str "OneIdent", .oneNode (str "IDENT") (str "IdentNode")⟩,
  ⟨str "RefNode", str "OneToken", .oneToken⟩,
  ⟨str "StmtNode", str "Choice", .choice⟩,
  ⟨str "StmtNode", str "OneComment", .oneNode (str "COMMENT") (str "CommentNode")⟩,
  ⟨str "StmtNode", str "OnePragma", .oneNode (str "pragma") (str "PragmaNode")⟩,
  ⟨str "StmtNode", str "OneProd", .oneNode (str "prod") (str "ProdNode")⟩,
  ⟨str "StrNode", str "String", .text⟩,
  ⟨str "TermNode", str "AllGrammar", .allNodes (str "grammar") (str "GrammarNode")⟩,
  ⟨str "TermNode", str "OneNamed", .oneNode (str "named") (str "NamedNode")⟩,
  ⟨str "TermNode", str "OneOp", .oneText (str "op")⟩,
  ⟨str "TermNode", str "AllQuant", .allNodes (str "quant") (str "QuantNode")⟩,
  ⟨str "TermNode", str "AllTerm", .allNodes (str "term") (str "TermNode")⟩,
  ⟨str "TermNode", str "AllToken", .allTokens⟩,
  ⟨str "WrapReNode", str "String", .text⟩]

/-- wbnf/wbnfgrammar.go:818-1443, the functions of the walker. -/
def generatedWalks : List WalkFunc := [
  ⟨str "AtomExtRefNode", [⟨false, str "Ident", str "IdentNode", false⟩]⟩,
  ⟨str "AtomNode", [⟨false, str "ExtRef", str "AtomExtRefNode", true⟩, ⟨false, str "Ident", str "IdentNode", false⟩, ⟨false, str "Lookahead", str "TermNode", true⟩, ⟨false, str "Macrocall", str "MacrocallNode", true⟩, ⟨false, str "Re", str "ReNode", false⟩, ⟨false, str "Ref", str "RefNode", true⟩, ⟨false, str "Str", str "StrNode", false⟩, ⟨false, str "Term", str "TermNode", true⟩]⟩,
  ⟨str "GrammarNode", [⟨true, str "Stmt", str "StmtNode", true⟩]⟩,
  ⟨str "MacrocallNode", [⟨false, str "Name", str "IdentNode", false⟩, ⟨true, str "Term", str "TermNode", true⟩]⟩,
  ⟨str "NamedNode", [⟨false, str "Atom", str "AtomNode", true⟩, ⟨false, str "Ident", str "IdentNode", false⟩]⟩,
  ⟨str "PragmaImportNode", [⟨false, str "Path", str "PragmaImportPathNode", true⟩]⟩,
  ⟨str "PragmaImportPathNode", []⟩,
  ⟨str "PragmaMacrodefNode", [⟨true, str "Args", str "IdentNode", false⟩, ⟨false, str "Name", str "IdentNode", false⟩, ⟨false, str "Term", str "TermNode", true⟩]⟩,
  ⟨str "PragmaNode", [⟨false, str "Import", str "PragmaImportNode", true⟩, ⟨false, str "Macrodef", str "PragmaMacrodefNode", true⟩]⟩,
  ⟨str "ProdNode", [⟨false, str "Ident", str "IdentNode", false⟩, ⟨true, str "Term", str "TermNode", true⟩]⟩,
  ⟨str "QuantNode", [⟨false, str "Max", str "IntNode", false⟩, ⟨false, str "Min", str "IntNode", false⟩, ⟨false, str "Named", str "NamedNode", true⟩]⟩,
  ⟨str "RefNode", [⟨false, str "Default", str "StrNode", false⟩, ⟨false, str "Ident", str "IdentNode", false⟩]⟩,
  ⟨str "StmtNode", [⟨false, str "Comment", str "CommentNode", false⟩, ⟨false, str "Pragma", str "PragmaNode", true⟩, ⟨false, str "Prod", str "ProdNode", true⟩]⟩,
  ⟨str "TermNode", [⟨true, str "Grammar", str "GrammarNode", true⟩, ⟨false, str "Named", str "NamedNode", true⟩, ⟨true, str "Quant", str "QuantNode", true⟩, ⟨true, str "Term", str "TermNode", true⟩]⟩]

/-- The types in the order of their names (types.go:360-372), their children sorted. -/
def insertType (e : Str × GoType) : TypeMap → TypeMap
  | [] => [e]
  | x :: xs => if e.1 < x.1 then e :: x :: xs else x :: insertType e xs

def sortedTypes : TypeMap := (coreTypes.foldr insertType []).map fun e =>
  match e.2 with
  | .basic n => (e.1, .basic n)
  | .rule n cs => (e.1, .rule n (sortMembers cs))

theorem coreTypes_made : makeTypes (toCamel true) id coreWritten = some coreTypes := by decide +kernel

/-- The types are those in the file. -/
example : allTypes (toCamel true) sortedTypes = generatedTypes := by decide +kernel

/-- The accessors are. -/
example : allMethods (toCamel true) sortedTypes = generatedMethods := by decide +kernel

/-- And the functions of the walker. -/
example : walkFuncs (toCamel true) sortMembers sortedTypes = generatedWalks := by decide +kernel

end Wbnf.Ex
