import Verif.Spec.Macro
import Verif.Spec.Source

/-!
# Sources with the calls of macros expanded

A call is replaced by the body of the macro, with the arguments for the parameters, in parentheses; so are the calls in what this
gives.
-/

namespace Wbnf

section
variable (ms : Macros)

mutual
inductive ExpandsTerm : TermN → TermN → Prop
  | many {op gs gs' ts ts'} : ExpandsGrammars gs gs' → ExpandsTerms ts ts' → ExpandsTerm (.many op gs ts) (.many op gs' ts')
  | one {n n' qs qs'} : ExpandsNamed n n' → ExpandsQuants qs qs' → ExpandsTerm (.one n qs) (.one n' qs')
inductive ExpandsNamed : NamedN → NamedN → Prop
  | mk {i a a'} : ExpandsAtom a a' → ExpandsNamed (.mk i a) (.mk i a')
inductive ExpandsAtom : AtomN → AtomN → Prop
  | call {m args mc t} : lookup m ms = some mc → args.length = mc.args.length → ExpandsTerm (mc.body.subst (mc.argument args)) t →
      ExpandsAtom (.macrocall m args) (.term t)
  | ident {i} : ExpandsAtom (.ident i) (.ident i)
  | str {x} : ExpandsAtom (.str x) (.str x)
  | re {x} : ExpandsAtom (.re x) (.re x)
  | ext {i} : ExpandsAtom (.ext i) (.ext i)
  | ref {i d} : ExpandsAtom (.ref i d) (.ref i d)
  | look {t t'} : ExpandsTerm t t' → ExpandsAtom (.look t) (.look t')
  | term {t t'} : ExpandsTerm t t' → ExpandsAtom (.term t) (.term t')
  | unit : ExpandsAtom .unit .unit
inductive ExpandsQuant : QuantN → QuantN → Prop
  | op {o} : ExpandsQuant (.op o) (.op o)
  | range {lo hi} : ExpandsQuant (.range lo hi) (.range lo hi)
  | sep {o l t n n'} : ExpandsNamed n n' → ExpandsQuant (.sep o l t n) (.sep o l t n')
inductive ExpandsStmt : StmtN → StmtN → Prop
  | comment {x} : ExpandsStmt (.comment x) (.comment x)
  | prod {i ts ts'} : ExpandsTerms ts ts' → ExpandsStmt (.prod i ts) (.prod i ts')
  | imp {p} : ExpandsStmt (.imp p) (.imp p)
  /-- The macros stay as they are; nothing calls them any more. -/
  | macrodef {m as t} : ExpandsStmt (.macrodef m as t) (.macrodef m as t)
inductive ExpandsGrammar : GrammarN → GrammarN → Prop
  | mk {ss ss'} : ExpandsStmts ss ss' → ExpandsGrammar (.mk ss) (.mk ss')
inductive ExpandsTerms : List TermN → List TermN → Prop
  | nil : ExpandsTerms [] []
  | cons {t t' ts ts'} : ExpandsTerm t t' → ExpandsTerms ts ts' → ExpandsTerms (t :: ts) (t' :: ts')
inductive ExpandsQuants : List QuantN → List QuantN → Prop
  | nil : ExpandsQuants [] []
  | cons {q q' qs qs'} : ExpandsQuant q q' → ExpandsQuants qs qs' → ExpandsQuants (q :: qs) (q' :: qs')
inductive ExpandsStmts : List StmtN → List StmtN → Prop
  | nil : ExpandsStmts [] []
  | cons {s s' ss ss'} : ExpandsStmt s s' → ExpandsStmts ss ss' → ExpandsStmts (s :: ss) (s' :: ss')
inductive ExpandsGrammars : List GrammarN → List GrammarN → Prop
  | nil : ExpandsGrammars [] []
  | cons {g g' gs gs'} : ExpandsGrammar g g' → ExpandsGrammars gs gs' → ExpandsGrammars (g :: gs) (g' :: gs')
end

end

/-- No parameter is used in a look-ahead or in braces, and no macro uses a name that is a parameter of another and not of its
own (see C38). -/
def Macros.Hygienic (ms : Macros) : Prop :=
  ∀ m mc, lookup m ms = some mc → (∀ p ∈ mc.args, p ∉ mc.body.hidden) ∧ ms.NoCapture mc.args

/-- `g'` is the source `g` with the calls of its macros expanded, where that is what they mean. -/
def Unfolds (g g' : GrammarN) : Prop := ExpandsGrammar (macrosOf g) g g' ∧ (g.calls = [] ∨ (macrosOf g).Hygienic)

mutual
/-- Every call is of a macro there is, with as many arguments as it has parameters. -/
def TermN.CallsRight (ms : Macros) : TermN → Prop
  | .many _ gs ts => callsRightGrammars ms gs ∧ callsRightTerms ms ts
  | .one n qs => n.CallsRight ms ∧ callsRightQuants ms qs
def NamedN.CallsRight (ms : Macros) : NamedN → Prop
  | .mk _ a => a.CallsRight ms
def AtomN.CallsRight (ms : Macros) : AtomN → Prop
  | .macrocall m ts => (∃ mc, lookup m ms = some mc ∧ ts.length = mc.args.length) ∧ callsRightTerms ms ts
  | .look t => t.CallsRight ms
  | .term t => t.CallsRight ms
  | _ => True
def QuantN.CallsRight (ms : Macros) : QuantN → Prop
  | .sep _ _ _ n => n.CallsRight ms
  | _ => True
def StmtN.CallsRight (ms : Macros) : StmtN → Prop
  | .prod _ ts => callsRightTerms ms ts
  | _ => True
def GrammarN.CallsRight (ms : Macros) : GrammarN → Prop
  | .mk ss => callsRightStmts ms ss
def callsRightTerms (ms : Macros) : List TermN → Prop
  | [] => True
  | t :: ts => t.CallsRight ms ∧ callsRightTerms ms ts
def callsRightQuants (ms : Macros) : List QuantN → Prop
  | [] => True
  | q :: qs => q.CallsRight ms ∧ callsRightQuants ms qs
def callsRightStmts (ms : Macros) : List StmtN → Prop
  | [] => True
  | s :: ss => s.CallsRight ms ∧ callsRightStmts ms ss
def callsRightGrammars (ms : Macros) : List GrammarN → Prop
  | [] => True
  | g :: gs => g.CallsRight ms ∧ callsRightGrammars ms gs
end

end Wbnf
