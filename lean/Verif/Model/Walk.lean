import Verif.Model.Syntax

/-!
# Model of the generated walkers

wbnf/wbnfgrammar.go:698-1443. Every `Walk*Node` function does the same with other children: it calls the `Enter` callback,
then walks over the children in the order of the accessors' names, then calls the `Exit` callback. `GrammarN.tree` gives
each node with its children in that order, and `walk` is that common pattern. A callback that is not set is one that
returns nil. Callbacks may have side effects: they act on a state of type `σ`.
-/

namespace Wbnf

/-- The nodes callbacks are called with. -/
inductive Item
  | term (t : TermN) | named (n : NamedN) | atom (a : AtomN) | quant (q : QuantN) | stmt (s : StmtN) | grammar (g : GrammarN)
  | ext (i : Str) | ref (i : Str) (dflt : Option Str) | macrocall (name : Str) (terms : List TermN)
  | prod (i : Str) (terms : List TermN) | pragma (s : StmtN) | imp (path : List Str) | impPath (path : List Str)
  | macrodef (name : Str) (args : List Str) (body : TermN)
  | comment (text : Str) | ident (i : Str) | int (text : Str) | re (text : Str) | str (text : Str)

/-- The node types whose text is all there is to them (parser.S and parser.RE rules) have no `Walk*Node` function: their
parents call the `Enter` callback, and nothing calls `Exit`. -/
def Item.leaf : Item → Bool
  | .comment _ | .ident _ | .int _ | .re _ | .str _ => true
  | _ => false

/-- A node and its children in the order of the walk. -/
inductive WTree
  | mk (item : Item) (kids : List WTree)

def WTree.item : WTree → Item
  | .mk i _ => i
def WTree.kids : WTree → List WTree
  | .mk _ ks => ks

/-- A node without children. -/
def WTree.tip (i : Item) : WTree := .mk i []
/-- A child that may be nil. -/
def tipOf (mk : Str → Item) : Option Str → List WTree
  | none => []
  | some x => [.tip (mk x)]

mutual
/-- wbnf/wbnfgrammar.go:1389-1443 `WalkTermNode`: grammars, named, quants, terms. -/
def TermN.tree : TermN → WTree
  | .many op gs ts => .mk (.term (.many op gs ts)) (grammarTrees gs ++ termTrees ts)
  | .one n qs => .mk (.term (.one n qs)) (n.tree :: quantTrees qs)
/-- 1022-1061 `WalkNamedNode`: atom, ident. -/
def NamedN.tree : NamedN → WTree
  | .mk i a => .mk (.named (.mk i a)) (a.tree :: tipOf .ident i)
/-- 849-952 `WalkAtomNode`, 818-847 `WalkAtomExtRefNode`, 982-1020 `WalkMacrocallNode`: name, terms,
1295-1336 `WalkRefNode`: default, ident. -/
def AtomN.tree : AtomN → WTree
  | .ident i => .mk (.atom (.ident i)) [.tip (.ident i)]
  | .str x => .mk (.atom (.str x)) [.tip (.str x)]
  | .re x => .mk (.atom (.re x)) [.tip (.re x)]
  | .macrocall m ts => .mk (.atom (.macrocall m ts)) [.mk (.macrocall m ts) (.tip (.ident m) :: termTrees ts)]
  | .ext i => .mk (.atom (.ext i)) [.mk (.ext i) [.tip (.ident i)]]
  | .ref i d => .mk (.atom (.ref i d)) [.mk (.ref i d) (tipOf .str d ++ [.tip (.ident i)])]
  | .look t => .mk (.atom (.look t)) [t.tree]
  | .term t => .mk (.atom (.term t)) [t.tree]
  | .unit => .mk (.atom .unit) []
/-- 1242-1293 `WalkQuantNode`: max, min, named. -/
def QuantN.tree : QuantN → WTree
  | .op o => .mk (.quant (.op o)) []
  | .range lo hi => .mk (.quant (.range lo hi)) (tipOf .int hi ++ tipOf .int lo)
  | .sep o l t n => .mk (.quant (.sep o l t n)) [n.tree]
/-- 1338-1387 `WalkStmtNode`: comment, pragma, prod; 1202-1240 `WalkProdNode`: ident, terms; 1163-1200 `WalkPragmaNode`;
1063-1090 `WalkPragmaImportNode`: path; 1092-1109 `WalkPragmaImportPathNode`; 1111-1161 `WalkPragmaMacrodefNode`: args,
name, term. -/
def StmtN.tree : StmtN → WTree
  | .comment x => .mk (.stmt (.comment x)) [.tip (.comment x)]
  | .prod i ts => .mk (.stmt (.prod i ts)) [.mk (.prod i ts) (.tip (.ident i) :: termTrees ts)]
  | .imp p => .mk (.stmt (.imp p)) [.mk (.pragma (.imp p)) [.mk (.imp p) [.mk (.impPath p) []]]]
  | .macrodef m as t => .mk (.stmt (.macrodef m as t)) [.mk (.pragma (.macrodef m as t))
      [.mk (.macrodef m as t) (as.map (fun a => .tip (.ident a)) ++ [.tip (.ident m), t.tree])]]
/-- 954-980 `WalkGrammarNode`. -/
def GrammarN.tree : GrammarN → WTree
  | .mk ss => .mk (.grammar (.mk ss)) (stmtTrees ss)
def termTrees : List TermN → List WTree
  | [] => []
  | t :: ts => t.tree :: termTrees ts
def quantTrees : List QuantN → List WTree
  | [] => []
  | q :: qs => q.tree :: quantTrees qs
def stmtTrees : List StmtN → List WTree
  | [] => []
  | s :: ss => s.tree :: stmtTrees ss
def grammarTrees : List GrammarN → List WTree
  | [] => []
  | g :: gs => g.tree :: grammarTrees gs
end

/-- wbnf/wbnfgrammar.go:111-128 `Stopper`. -/
structure Stopper where
  exitNode : Bool
  abort : Bool
  deriving DecidableEq, Repr

/-- 115-118, 125-126 `NodeExiter`. -/
def nodeExiter : Stopper := ⟨true, false⟩
/-- 120-123, 127 `Aborter`. -/
def aborter : Stopper := ⟨true, true⟩

/-- wbnf/wbnfgrammar.go:698-739 `WalkerOps`. -/
structure WalkerOps (σ : Type) where
  enter : Item → σ → σ × Option Stopper
  exit : Item → σ → σ × Option Stopper

variable {σ : Type}

mutual
/-- The `Walk*Node` functions. For a leaf it is the call of the `Enter` callback by the parent. -/
def walk (ops : WalkerOps σ) : WTree → σ → σ × Option Stopper
  | .mk i ks, s =>
    if i.leaf then ops.enter i s
    else
      match ops.enter i s with
      | (s, some st) =>
        if st.exitNode then (s, none)
        else if st.abort then (s, some st)
        else walkRest ops i ks s
      | (s, none) => walkRest ops i ks s
/-- After the `Enter` callback: the remaining children and the `Exit` callback. -/
def walkRest (ops : WalkerOps σ) (i : Item) : List WTree → σ → σ × Option Stopper
  | k :: ks, s =>
    match walk ops k s with
    | (s, some st) =>
      if st.exitNode then (s, none)
      else if st.abort then (s, some st)
      else walkRest ops i ks s
    | (s, none) => walkRest ops i ks s
  | [], s =>
    match ops.exit i s with
    | (s, some st) => if st.abort then (s, some st) else (s, none)
    | (s, none) => (s, none)
end

end Wbnf
