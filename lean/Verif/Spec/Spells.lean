import Verif.Model.Syntax
import Verif.Model.Core

/-!
# How a syntax tree is spelled

The notation of wbnf: the words that a statement, a term, ... is written with, in order, and the white space around them.
-/

namespace Wbnf

/-- White space. -/
def White (x : Str) : Prop := ∀ c ∈ x, c = 9 ∨ c = 10 ∨ c = 12 ∨ c = 13 ∨ c = 32

/-- The text is made of these words, in this order, with any white space before, between and after them. -/
inductive Spaced : List Str → Str → Prop
  | nil : Spaced [] []
  | cons {before w after ws x} : White before → White after → Spaced ws x → Spaced (w :: ws) (before ++ w ++ after ++ x)

/-- More names of a path, each after a slash. -/
inductive SpellsNames : List Str → Prop
  | nil : SpellsNames []
  | cons {x p} : x ≠ str "/" → SpellsNames p → SpellsNames (str "/" :: x :: p)

/-- A path: names with slashes between them, maybe one before. -/
inductive SpellsPath : List Str → Prop
  | relative {x p} : x ≠ str "/" → SpellsNames p → SpellsPath (x :: p)
  | rooted {x p} : x ≠ str "/" → SpellsNames p → SpellsPath (str "/" :: x :: p)

/-- What comes after the first parameter: commas and parameters, some of which may be missing. -/
inductive SpellsParams : List Str → List Str → Prop
  | nil : SpellsParams [] []
  | skip {as ws} : SpellsParams as ws → SpellsParams as (str "," :: ws)
  | cons {a as ws} : SpellsParams as ws → SpellsParams (a :: as) (str "," :: a :: ws)

/-- The end of a pragma: a semicolon or nothing. -/
def SpellsEnd (ws : List Str) : Prop := ws = [] ∨ ws = [str ";"]

mutual
/-- The words of a term at a level of precedence: 0 for layers (`>`), which bind weakest, 1 for alternatives (`|`), 2 for
sequences, 3 for atoms with what is before and after them. -/
inductive SpellsTerm : Nat → TermN → List Str → Prop
  | layers {t ts gs gs' ws ws'} : SpellsLayer t gs ws → SpellsLayers ts gs' ws' →
      SpellsTerm 0 (.many (if ts.isEmpty then [] else str ">") (gs ++ gs') (t :: ts)) (ws ++ ws')
  | alternatives {t ts ws ws'} : SpellsTerm 2 t ws → SpellsAlts ts ws' →
      SpellsTerm 1 (.many (if ts.isEmpty then [] else str "|") [] (t :: ts)) (ws ++ ws')
  | sequence {ts ws} : ts ≠ [] → SpellsTerms 3 ts ws → SpellsTerm 2 (.many [] [] ts) ws
  | one {n qs ws ws'} : SpellsNamed n ws → SpellsQuants qs ws' → SpellsTerm 3 (.one n qs) (ws ++ ws')
/-- A layer, maybe with a grammar in braces. -/
inductive SpellsLayer : TermN → List GrammarN → List Str → Prop
  | plain {t ws} : SpellsTerm 1 t ws → SpellsLayer t [] ws
  | braces {t g ws ws'} : SpellsTerm 1 t ws → SpellsGrammar g ws' → SpellsLayer t [g] (ws ++ str "{" :: ws' ++ [str "}"])
/-- More layers. -/
inductive SpellsLayers : List TermN → List GrammarN → List Str → Prop
  | nil : SpellsLayers [] [] []
  | cons {t ts gs gs' ws ws'} : SpellsLayer t gs ws → SpellsLayers ts gs' ws' → SpellsLayers (t :: ts) (gs ++ gs') (str ">" :: ws ++ ws')
/-- More alternatives. -/
inductive SpellsAlts : List TermN → List Str → Prop
  | nil : SpellsAlts [] []
  | cons {t ts ws ws'} : SpellsTerm 2 t ws → SpellsAlts ts ws' → SpellsAlts (t :: ts) (str "|" :: ws ++ ws')
/-- One term after the other. -/
inductive SpellsTerms : Nat → List TermN → List Str → Prop
  | nil {k} : SpellsTerms k [] []
  | cons {k t ts ws ws'} : SpellsTerm k t ws → SpellsTerms k ts ws' → SpellsTerms k (t :: ts) (ws ++ ws')
inductive SpellsNamed : NamedN → List Str → Prop
  | plain {a ws} : SpellsAtom a ws → SpellsNamed (.mk none a) ws
  | named {i a ws} : SpellsAtom a ws → SpellsNamed (.mk (some i) a) (i :: str "=" :: ws)
inductive SpellsAtom : AtomN → List Str → Prop
  | ident {i} : SpellsAtom (.ident i) [i]
  | str {x} : SpellsAtom (.str x) [x]
  | re {x} : SpellsAtom (.re x) [x]
  | macrocall {m ts ts' ws ws'} : SpellsArg ts ws → SpellsArgs ts' ws' →
      SpellsAtom (.macrocall m (ts ++ ts')) (Wbnf.str "%!" :: m :: Wbnf.str "(" :: (ws ++ ws' ++ [Wbnf.str ")"]))
  | ext {i} : SpellsAtom (.ext i) [Wbnf.str "%%", i]
  | ref {i} : SpellsAtom (.ref i none) [Wbnf.str "%", i]
  | default {i d} : SpellsAtom (.ref i (some d)) [Wbnf.str "%", i, Wbnf.str "=", d]
  /-- The node of the term in it is the only child of another. -/
  | look {t ws} : SpellsTerm 0 t ws → SpellsAtom (.look (.many [] [] [t])) (Wbnf.str "(?=" :: (ws ++ [Wbnf.str ")"]))
  | term {t ws} : SpellsTerm 0 t ws → SpellsAtom (.term t) (Wbnf.str "(" :: (ws ++ [Wbnf.str ")"]))
  | unit : SpellsAtom .unit [Wbnf.str "(", Wbnf.str ")"]
/-- An argument of a macro, which may be missing. -/
inductive SpellsArg : List TermN → List Str → Prop
  | missing : SpellsArg [] []
  | given {t ws} : SpellsTerm 0 t ws → SpellsArg [t] ws
/-- More arguments. -/
inductive SpellsArgs : List TermN → List Str → Prop
  | nil : SpellsArgs [] []
  | cons {ts ts' ws ws'} : SpellsArg ts ws → SpellsArgs ts' ws' → SpellsArgs (ts ++ ts') (str "," :: ws ++ ws')
inductive SpellsQuant : QuantN → List Str → Prop
  | op {o} : SpellsQuant (.op o) [o]
  | range {lo hi} : SpellsQuant (.range lo hi) (str "{" :: (lo.toList ++ str "," :: (hi.toList ++ [str "}"])))
  | sep {o lead trail n ws} : SpellsNamed n ws →
      SpellsQuant (.sep o lead trail n) (o :: ((if lead then [str ","] else []) ++ ws ++ (if trail then [str ","] else [])))
inductive SpellsQuants : List QuantN → List Str → Prop
  | nil : SpellsQuants [] []
  | cons {q qs ws ws'} : SpellsQuant q ws → SpellsQuants qs ws' → SpellsQuants (q :: qs) (ws ++ ws')
inductive SpellsStmt : StmtN → List Str → Prop
  | comment {x} : SpellsStmt (.comment x) [x]
  | prod {i ts ws} : ts ≠ [] → SpellsTerms 0 ts ws → SpellsStmt (.prod i ts) (i :: str "->" :: (ws ++ [str ";"]))
  | imp {p ws} : SpellsPath p → SpellsEnd ws → SpellsStmt (.imp p) (str ".import" :: (p ++ ws))
  /-- The first parameter may be missing too. -/
  | macrodef {m as first rest ws ws' t} : SpellsParams as rest → SpellsTerm 0 t ws → SpellsEnd ws' →
      SpellsStmt (.macrodef m (Option.toList first ++ as) t)
        (str ".macro" :: m :: str "(" :: (first.toList ++ rest ++ str ")" :: str "{" :: (ws ++ str "}" :: ws')))
inductive SpellsStmts : List StmtN → List Str → Prop
  | nil : SpellsStmts [] []
  | cons {s ss ws ws'} : SpellsStmt s ws → SpellsStmts ss ws' → SpellsStmts (s :: ss) (ws ++ ws')
inductive SpellsGrammar : GrammarN → List Str → Prop
  | mk {ss ws} : ss ≠ [] → SpellsStmts ss ws → SpellsGrammar (.mk ss) ws
end

/-! ## Nodes that say all -/

mutual
/-- Nodes that tell all the words they were written with: there are no pragmas (whose semicolon is optional), no macro calls
(which may have arguments left out), and no braces among layers (nothing tells which layer they belong to). -/
def TermN.settled : TermN → Prop
  | .many op gs ts => (op = str ">" → gs = []) ∧ settledGrammars gs ∧ settledTerms ts
  | .one n qs => n.settled ∧ settledQuants qs
def NamedN.settled : NamedN → Prop
  | .mk _ a => a.settled
def AtomN.settled : AtomN → Prop
  | .macrocall _ _ => False
  | .look t => t.settled
  | .term t => t.settled
  | _ => True
def QuantN.settled : QuantN → Prop
  | .sep _ _ _ n => n.settled
  | _ => True
def StmtN.settled : StmtN → Prop
  | .comment _ => True
  | .prod _ ts => settledTerms ts
  | _ => False
def GrammarN.settled : GrammarN → Prop
  | .mk ss => settledStmts ss
def settledTerms : List TermN → Prop
  | [] => True
  | t :: ts => t.settled ∧ settledTerms ts
def settledQuants : List QuantN → Prop
  | [] => True
  | q :: qs => q.settled ∧ settledQuants qs
def settledStmts : List StmtN → Prop
  | [] => True
  | s :: ss => s.settled ∧ settledStmts ss
def settledGrammars : List GrammarN → Prop
  | [] => True
  | g :: gs => g.settled ∧ settledGrammars gs
end

end Wbnf
