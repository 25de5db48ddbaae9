import Verif.Model.Build

/-!
# Substitution in syntax trees
-/

namespace Wbnf

mutual
/-- Replace identifiers used as atoms by terms in parentheses, all at once. -/
def TermN.subst (σ : Str → Option TermN) : TermN → TermN
  | .many op gs ts => .many op (substGrammars σ gs) (substTerms σ ts)
  | .one n qs => .one (n.subst σ) (substQuants σ qs)
def NamedN.subst (σ : Str → Option TermN) : NamedN → NamedN
  | .mk i a => .mk i (a.subst σ)
def AtomN.subst (σ : Str → Option TermN) : AtomN → AtomN
  | .ident i => match σ i with
    | some t => .term t
    | none => .ident i
  | .str x => .str x
  | .re x => .re x
  | .macrocall m ts => .macrocall m (substTerms σ ts)
  | .ext i => .ext i
  | .ref i d => .ref i d
  | .look t => .look (t.subst σ)
  | .term t => .term (t.subst σ)
  | .unit => .unit
def QuantN.subst (σ : Str → Option TermN) : QuantN → QuantN
  | .op o => .op o
  | .range lo hi => .range lo hi
  | .sep o l t n => .sep o l t (n.subst σ)
def StmtN.subst (σ : Str → Option TermN) : StmtN → StmtN
  | .comment x => .comment x
  | .prod i ts => .prod i (substTerms σ ts)
  | .imp p => .imp p
  | .macrodef m as t => .macrodef m as t
def GrammarN.subst (σ : Str → Option TermN) : GrammarN → GrammarN
  | .mk ss => .mk (substStmts σ ss)
def substTerms (σ : Str → Option TermN) : List TermN → List TermN
  | [] => []
  | t :: ts => t.subst σ :: substTerms σ ts
def substQuants (σ : Str → Option TermN) : List QuantN → List QuantN
  | [] => []
  | q :: qs => q.subst σ :: substQuants σ qs
def substStmts (σ : Str → Option TermN) : List StmtN → List StmtN
  | [] => []
  | s :: ss => s.subst σ :: substStmts σ ss
def substGrammars (σ : Str → Option TermN) : List GrammarN → List GrammarN
  | [] => []
  | g :: gs => g.subst σ :: substGrammars σ gs
end

mutual
/-- The identifiers used as atoms. -/
def TermN.idents : TermN → List Str
  | .many _ gs ts => identsGrammars gs ++ identsTerms ts
  | .one n qs => n.idents ++ identsQuants qs
def NamedN.idents : NamedN → List Str
  | .mk _ a => a.idents
def AtomN.idents : AtomN → List Str
  | .ident i => [i]
  | .macrocall _ ts => identsTerms ts
  | .look t => t.idents
  | .term t => t.idents
  | _ => []
def QuantN.idents : QuantN → List Str
  | .sep _ _ _ n => n.idents
  | _ => []
def StmtN.idents : StmtN → List Str
  | .prod _ ts => identsTerms ts
  | _ => []
def GrammarN.idents : GrammarN → List Str
  | .mk ss => identsStmts ss
def identsTerms : List TermN → List Str
  | [] => []
  | t :: ts => t.idents ++ identsTerms ts
def identsQuants : List QuantN → List Str
  | [] => []
  | q :: qs => q.idents ++ identsQuants qs
def identsStmts : List StmtN → List Str
  | [] => []
  | s :: ss => s.idents ++ identsStmts ss
def identsGrammars : List GrammarN → List Str
  | [] => []
  | g :: gs => g.idents ++ identsGrammars gs
end

mutual
/-- The identifiers used as atoms in look-aheads and in grammars in braces. -/
def TermN.hidden : TermN → List Str
  | .many _ gs ts => identsGrammars gs ++ hiddenTerms ts
  | .one n qs => n.hidden ++ hiddenQuants qs
def NamedN.hidden : NamedN → List Str
  | .mk _ a => a.hidden
def AtomN.hidden : AtomN → List Str
  | .macrocall _ ts => hiddenTerms ts
  | .look t => t.idents
  | .term t => t.hidden
  | _ => []
def QuantN.hidden : QuantN → List Str
  | .sep _ _ _ n => n.hidden
  | _ => []
def hiddenTerms : List TermN → List Str
  | [] => []
  | t :: ts => t.hidden ++ hiddenTerms ts
def hiddenQuants : List QuantN → List Str
  | [] => []
  | q :: qs => q.hidden ++ hiddenQuants qs
end

/-- The argument of a call for a parameter: of several parameters of one name the first counts. -/
def Macro.argument (m : Macro) (args : List TermN) (r : Str) : Option TermN :=
  lookup r (m.args.zip args)

/-- No macro but those that have a parameter of that name use one of these names in their bodies. -/
def Macros.NoCapture (ms : Macros) (ps : List Str) : Prop :=
  ∀ n m, lookup n ms = some m → ∀ p ∈ ps, p ∈ m.body.idents → p ∈ m.args

/-- Building the term of an atom gives this term. -/
def Builds (ms : Macros) (a : AtomN) (t : Term) : Prop := ∃ n, buildAtom ms n a = .ok t

mutual
/-- The macros defined in a source, wherever they are, in order; of a term, those in the braces after it come before those
in the term. -/
def TermN.macros : TermN → List (Str × Macro)
  | .many _ gs ts => macrosGrammars gs ++ macrosTerms ts
  | .one n qs => n.macros ++ macrosQuants qs
def NamedN.macros : NamedN → List (Str × Macro)
  | .mk _ a => a.macros
def AtomN.macros : AtomN → List (Str × Macro)
  | .macrocall _ ts => macrosTerms ts
  | .look t => t.macros
  | .term t => t.macros
  | _ => []
def QuantN.macros : QuantN → List (Str × Macro)
  | .sep _ _ _ n => n.macros
  | _ => []
def StmtN.macros : StmtN → List (Str × Macro)
  | .prod _ ts => macrosTerms ts
  | .macrodef m as t => (m, ⟨as, t⟩) :: t.macros
  | _ => []
def GrammarN.macros : GrammarN → List (Str × Macro)
  | .mk ss => macrosStmts ss
def macrosTerms : List TermN → List (Str × Macro)
  | [] => []
  | t :: ts => t.macros ++ macrosTerms ts
def macrosQuants : List QuantN → List (Str × Macro)
  | [] => []
  | q :: qs => q.macros ++ macrosQuants qs
def macrosStmts : List StmtN → List (Str × Macro)
  | [] => []
  | s :: ss => s.macros ++ macrosStmts ss
def macrosGrammars : List GrammarN → List (Str × Macro)
  | [] => []
  | g :: gs => g.macros ++ macrosGrammars gs
end

end Wbnf
