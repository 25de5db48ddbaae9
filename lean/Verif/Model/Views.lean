import Verif.Model.Syntax
import Verif.Model.AstQuery
import Verif.Model.Core

/-!
# Model of the typed views of the nodes of a wbnf source

wbnf/wbnfgrammar.go:130-704: the node types wrap an `ast.Node`; their accessors look for children by name. The functions
here read with these accessors what the types of Model/Syntax.lean have as fields. `none` says that an accessor panics, or
that the node has something else than those types have room for (say, both terms and a named atom).
-/

namespace Wbnf

/-- `n.Scanner().String()`; `none` is a panic. -/
def Ast.text (n : Ast) : Option Str :=
  match n.scanner with
  | .ok s => s.toStr
  | .error _ => none

/-- ast/helpers.go:8-18 `Which`, first result: the first of the names that the branch has. -/
def Branch.which (b : Branch) : List Str → Str
  | [] => []
  | k :: ks => if hasKey k b then k else Branch.which b ks

/-- Apply to each; `none` if that is so for one of them. -/
def mapO {α β : Type} (f : α → Option β) : List α → Option (List β)
  | [] => some []
  | a :: as => (f a).bind fun b => (mapO f as).map fun bs => b :: bs

/-- `OneOp`, `OneOptLeading`, `OneOptTrailing` (340-345, 522-541, 660-665): the text of the child's token, `""` if there is no
child; lines 342 etc. dereference the token without a check. -/
def Ast.opText (n : Ast) (k : String) : Option Str :=
  match n.first (str k) with
  | none => some []
  | some c =>
    match c.first [] with
    | none => none
    | some l => l.text

/-- `OneIdent`, `OneName`, … and `String()` of what they return, which must not be nil. -/
def Ast.nameText (n : Ast) (k : String) : Option Str := (n.first (str k)).bind Ast.text

/-- The same where it may be nil. -/
def Ast.optText (n : Ast) (k : String) : Option (Option Str) :=
  match n.first (str k) with
  | none => some none
  | some c => c.text.map some

/-- There is no child with one of these names. -/
def Ast.lacks (n : Ast) (ks : List String) : Bool := ks.all fun k => (n.all (str k)).isEmpty

mutual
/-- wbnf/wbnfgrammar.go:639-686 `TermNode`. -/
def viewTerm : Nat → Ast → Option TermN
  | 0, _ => none
  | n + 1, a =>
    if a.lacks ["term"] then
      if a.lacks ["grammar", "op"] then
        ((a.first (str "named")).bind (viewNamed n)).bind fun nm =>
          (mapO (viewQuant n) (a.all (str "quant"))).map fun qs => .one nm qs
      else none
    else if a.lacks ["named", "quant"] then
      (a.opText "op").bind fun op => (mapO (viewGrammar n) (a.all (str "grammar"))).bind fun gs =>
        (mapO (viewTerm n) (a.all (str "term"))).map fun ts => .many op gs ts
    else none
/-- 322-345 `NamedNode`. -/
def viewNamed : Nat → Ast → Option NamedN
  | 0, _ => none
  | n + 1, a => (a.optText "IDENT").bind fun i => ((a.first (str "atom")).bind (viewAtom n)).map fun x => .mk i x
/-- 157-238 `AtomNode`, as `buildAtom` (wbnf/compile.go:118-165) reads it: by the first name that is there; the others must
not be. It takes `One` of `RE`, `STR` and `IDENT`, which is nil if there is a list of them. -/
def viewAtom : Nat → Ast → Option AtomN
  | n + 1, .branch b =>
    let names := ["RE", "STR", "macrocall", "ExtRef", "IDENT", "REF", "lookahead", "term"]
    let x := Branch.which b (names.map str)
    if (Ast.branch b).lacks (names.filter fun k => str k ≠ x) then
      if x = str "RE" then ((Branch.one? b x).bind Ast.text).map .re
      else if x = str "STR" then ((Branch.one? b x).bind Ast.text).map .str
      else if x = str "IDENT" then ((Branch.one? b x).bind Ast.text).map .ident
      else if x = str "macrocall" then
        ((Ast.branch b).first x).bind fun c =>                                            -- 281-301 `MacrocallNode`
          (c.nameText "name").bind fun name => (mapO (viewTerm n) (c.all (str "term"))).map fun ts => .macrocall name ts
      else if x = str "ExtRef" then ((Ast.branch b).first x).bind fun c => (c.nameText "IDENT").map .ext     -- 132-142 `AtomExtRefNode`
      else if x = str "REF" then
        ((Ast.branch b).first x).bind fun c =>                                            -- 571-587 `RefNode`
          (c.nameText "IDENT").bind fun i => (c.optText "default").map fun d => .ref i d
      else if x = str "lookahead" then (((Ast.branch b).first x).bind (viewTerm n)).map .look
      else if x = str "term" then (((Ast.branch b).first x).bind (viewTerm n)).map .term
      else some .unit
    else none
  | _, _ => none
/-- 492-541 `QuantNode`, by `Choice()`. -/
def viewQuant : Nat → Ast → Option QuantN
  | 0, _ => none
  | n + 1, a =>
    match a.choice with
    | some 0 =>
      if a.lacks ["min", "max", "named", "opt_leading", "opt_trailing"] then (a.opText "op").map .op else none
    | some 1 =>
      if a.lacks ["op", "named", "opt_leading", "opt_trailing"] then
        (a.optText "min").bind fun lo => (a.optText "max").map fun hi => .range lo hi
      else none
    | some 2 =>
      if a.lacks ["min", "max"] then
        (a.opText "op").bind fun op => (a.opText "opt_leading").bind fun l => (a.opText "opt_trailing").bind fun t =>
          ((a.first (str "named")).bind (viewNamed n)).map fun nm => .sep op (l ≠ []) (t ≠ []) nm
      else none
    | _ => none
/-- 603-627 `StmtNode`, 451-470 `ProdNode`, 432-449 `PragmaNode`, 347-383 `PragmaImportNode` and `PragmaImportPathNode`,
385-409 `PragmaMacrodefNode`. -/
def viewStmt : Nat → Ast → Option StmtN
  | 0, _ => none
  | n + 1, a =>
    match a.first (str "COMMENT"), a.first (str "prod"), a.first (str "pragma") with
    | some c, none, none => c.text.map .comment
    | none, some c, none => (c.nameText "IDENT").bind fun i => (mapO (viewTerm n) (c.all (str "term"))).map fun ts => .prod i ts
    | none, none, some c =>
      match c.first (str "import"), c.first (str "macrodef") with
      | some c, none => (c.first (str "path")).bind fun c => (mapO Ast.text (c.all [])).map .imp
      | none, some c => (c.nameText "name").bind fun name => (mapO Ast.text (c.all (str "args"))).bind fun as =>
          ((c.first (str "term")).bind (viewTerm n)).map fun t => .macrodef name as t
      | _, _ => none
    | _, _, _ => none
/-- 250-259 `GrammarNode`. -/
def viewGrammar : Nat → Ast → Option GrammarN
  | 0, _ => none
  | n + 1, a => (mapO (viewStmt n) (a.all (str "stmt"))).map .mk
end

namespace Core

/-- What `Parse` returns: a node, or an error (with a nil node). -/
inductive NodeRes
  | node (b : Branch)
  | err
  | panic
  | oof

/-- wbnf/wbnfgrammar.go:1449-1456 `Parse`: the parse and the conversion to a node. -/
def parseNode (E : Engine) (ρ : Nat → Nat) (n : Nat) (inp : Scanner) : NodeRes :=
  match grammar.compile E n with
  | .error .oof => .oof
  | .error _ => .panic
  | .ok ps =>
    match ps.parse E noExternals ρ n (str "grammar") inp with
    | .err _ _ => .err
    | .panic => .panic
    | .oof => .oof
    | .ok v _ =>
      match fromParserNode n ps.grammar v with
      | .ok (_, b) => .node b
      | .error .oof => .oof
      | .error _ => .panic

end Core

end Wbnf
