import Verif.Model.Syntax

/-!
# Sources without their comments
-/

namespace Wbnf

def StmtN.isComment : StmtN → Bool
  | .comment _ => true
  | _ => false

mutual
/-- Without the comments, also those in braces. -/
def TermN.uncomment : TermN → TermN
  | .many op gs ts => .many op (uncommentGrammars gs) (uncommentTerms ts)
  | .one n qs => .one n.uncomment (uncommentQuants qs)
def NamedN.uncomment : NamedN → NamedN
  | .mk i a => .mk i a.uncomment
def AtomN.uncomment : AtomN → AtomN
  | .macrocall m ts => .macrocall m (uncommentTerms ts)
  | .look t => .look t.uncomment
  | .term t => .term t.uncomment
  | .ident i => .ident i
  | .str x => .str x
  | .re x => .re x
  | .ext i => .ext i
  | .ref i d => .ref i d
  | .unit => .unit
def QuantN.uncomment : QuantN → QuantN
  | .op o => .op o
  | .range lo hi => .range lo hi
  | .sep o l t n => .sep o l t n.uncomment
def GrammarN.uncomment : GrammarN → GrammarN
  | .mk ss => .mk (uncommentStmts ss)
def uncommentTerms : List TermN → List TermN
  | [] => []
  | t :: ts => t.uncomment :: uncommentTerms ts
def uncommentQuants : List QuantN → List QuantN
  | [] => []
  | q :: qs => q.uncomment :: uncommentQuants qs
def uncommentGrammars : List GrammarN → List GrammarN
  | [] => []
  | g :: gs => g.uncomment :: uncommentGrammars gs
def uncommentStmts : List StmtN → List StmtN
  | [] => []
  | .comment _ :: ss => uncommentStmts ss
  | .prod i ts :: ss => .prod i (uncommentTerms ts) :: uncommentStmts ss
  | .imp p :: ss => .imp p :: uncommentStmts ss
  | .macrodef m as t :: ss => .macrodef m as t.uncomment :: uncommentStmts ss
end

end Wbnf
