import Verif.Model.Syntax
import Verif.Model.Term
import Verif.Spec.Literal

/-!
# What a wbnf source is meant to denote

Sources without macro calls (for those see C38). Cut points are left out (for those see C37).
-/

namespace Wbnf

/-- A string literal and the text it denotes. -/
inductive LiteralMeans : Str → Str → Prop
  | quoted {q body text} : q = 34 ∨ q = 39 → Reads q body text → LiteralMeans (q :: body ++ [q]) text
  | backquoted {text} : LiteralMeans (96 :: doubled text ++ [96]) text

/-- A regexp without its white space, with `\_` for a space. -/
def regexpText (s : Str) : Str := withSpaces (s.filter fun c => !(c = 9 || c = 10 || c = 12 || c = 13 || c = 32))

/-- A regexp literal and the regexp it denotes. -/
inductive RegexpMeans : Str → Str → Prop
  | braces {body} : RegexpMeans (str "/{" ++ body ++ str "}") (regexpText body)
  | bare {text} : ¬ str "/{" <+: regexpText text → RegexpMeans text (regexpText text)

/-- Decimal digits and the number they denote. -/
inductive Numeral : Str → Nat → Prop
  | one {d : Nat} : d ≤ 9 → Numeral [UInt8.ofNat (48 + d)] d
  | more {x n} {d : Nat} : Numeral x n → d ≤ 9 → Numeral (x ++ [UInt8.ofNat (48 + d)]) (10 * n + d)

/-- A bound in braces; left out it is 0, which as an upper bound means that there is none. -/
inductive BoundMeans : Option Str → Nat → Prop
  | absent : BoundMeans none 0
  | number {x n} : Numeral x n → n < 2 ^ 63 → BoundMeans (some x) n

/-- The operators that make a list. -/
inductive OpMeans : Str → Int → Prop
  | plain : OpMeans (str ":") nonAssociative
  | left : OpMeans (str ":>") leftToRight
  | right : OpMeans (str "<:") rightToLeft

/-- Productions to a grammar: of two for one rule the later counts. -/
def lastWins (ps : List (Str × Term)) : Grammar := ps.foldl (fun g p => mapSet p.1 p.2 g) []

mutual
/-- The term a source term denotes. -/
inductive MeansTerm : TermN → Term → Prop
  /-- `a | b | c`. -/
  | choice {gs ts us} : MeansTerms ts us → MeansTerm (.many (str "|") gs ts) (.oneof us)
  /-- `a > b > c`. -/
  | layers {gs ts us} : MeansTerms ts us → MeansTerm (.many (str ">") gs ts) (.stack us)
  /-- `a b c`. -/
  | seq {ts us} : ts.length ≠ 1 → MeansTerms ts us → MeansTerm (.many [] [] ts) (.seq us)
  | single {t u} : MeansTerm t u → MeansTerm (.many [] [] [t]) u
  /-- `a b { … }`. -/
  | braces {ts u g G} : MeansTerm (.many [] [] ts) u → MeansGrammar g G → MeansTerm (.many [] [g] ts) (.scope u G)
  /-- `a` and quantifiers. -/
  | quants {nm qs t u} : MeansNamed nm t → MeansQuants qs t u → MeansTerm (.one nm qs) u
/-- One after the other. -/
inductive MeansTerms : List TermN → List Term → Prop
  | nil : MeansTerms [] []
  | cons {t ts u us} : MeansTerm t u → MeansTerms ts us → MeansTerms (t :: ts) (u :: us)
/-- Quantifiers: the one written first is applied last. -/
inductive MeansQuants : List QuantN → Term → Term → Prop
  | nil {t} : MeansQuants [] t t
  | cons {q qs t u v} : MeansQuants qs t u → MeansQuant q u v → MeansQuants (q :: qs) t v
inductive MeansQuant : QuantN → Term → Term → Prop
  | any {t} : MeansQuant (.op (str "*")) t (.quant t 0 0)
  | opt {t} : MeansQuant (.op (str "?")) t (.quant t 0 1)
  | some {t} : MeansQuant (.op (str "+")) t (.quant t 1 0)
  /-- `{lo,hi}`. -/
  | range {lo hi a b t} : BoundMeans lo a → BoundMeans hi b → MeansQuant (.range lo hi) t (.quant t a b)
  /-- `a:,sep,` with or without the commas: whether it may start and whether it may end with a separator. -/
  | sep {op leading trailing nm a u t} : OpMeans op a → MeansNamed nm u →
      MeansQuant (.sep op leading trailing nm) t (.delim t u a leading trailing)
/-- `name=atom`. -/
inductive MeansNamed : NamedN → Term → Prop
  | plain {a u} : MeansAtom a u → MeansNamed (.mk none a) u
  | named {i a u} : i ≠ [] → MeansAtom a u → MeansNamed (.mk (some i) a) (.named i u)
inductive MeansAtom : AtomN → Term → Prop
  | ident {i} : MeansAtom (.ident i) (.rule i)
  | str {x l} : LiteralMeans x l → MeansAtom (.str x) (.s l)
  | re {x p} : RegexpMeans x p → MeansAtom (.re x) (.re p)
  /-- `%name` and `%name="default"`. -/
  | ref {i} : MeansAtom (.ref i none) (.ref i none)
  | default {i x l} : LiteralMeans x l → MeansAtom (.ref i (some x)) (.ref i (some (.s l)))
  /-- `%%name`. -/
  | ext {i} : MeansAtom (.ext i) (.ext i)
  /-- `(?=term)`. -/
  | look {t u} : MeansTerm t u → MeansAtom (.look t) (.look u)
  /-- `(term)`. -/
  | parens {t u} : MeansTerm t u → MeansAtom (.term t) u
  /-- `()`. -/
  | unit : MeansAtom .unit (.seq [])
inductive MeansGrammar : GrammarN → Grammar → Prop
  | mk {ss ps} : MeansStmts ss ps → MeansGrammar (.mk ss) (lastWins ps)
/-- Statements and the productions among them. -/
inductive MeansStmts : List StmtN → List (Str × Term) → Prop
  | nil : MeansStmts [] []
  /-- `i -> a b c;`. -/
  | prod {i ts u ss ps} : MeansTerm (.many [] [] ts) u → MeansStmts ss ps → MeansStmts (.prod i ts :: ss) ((i, u) :: ps)
  | comment {x ss ps} : MeansStmts ss ps → MeansStmts (.comment x :: ss) ps
  | imp {p ss ps} : MeansStmts ss ps → MeansStmts (.imp p :: ss) ps
  | macrodef {m as t ss ps} : MeansStmts ss ps → MeansStmts (.macrodef m as t :: ss) ps
end

/-! ## Sources that denote something -/

mutual
/-- The source has no macro calls, its literals and bounds denote something and its operators are those there are. -/
def TermN.Readable : TermN → Prop
  | .many op gs ts => (op = str "|" ∨ op = str ">" ∨ op = [] ∧ gs.length ≤ 1) ∧ readableGrammars gs ∧ readableTerms ts
  | .one n qs => n.Readable ∧ readableQuants qs
def NamedN.Readable : NamedN → Prop
  | .mk i a => i ≠ some [] ∧ a.Readable
def AtomN.Readable : AtomN → Prop
  | .str x => ∃ l, LiteralMeans x l
  | .re x => ∃ p, RegexpMeans x p
  | .ref _ (some x) => ∃ l, LiteralMeans x l
  | .macrocall _ _ => False
  | .look t => t.Readable
  | .term t => t.Readable
  | _ => True
def QuantN.Readable : QuantN → Prop
  | .op o => o = str "*" ∨ o = str "?" ∨ o = str "+"
  | .range lo hi => (∃ a, BoundMeans lo a) ∧ ∃ b, BoundMeans hi b
  | .sep o _ _ n => (∃ a, OpMeans o a) ∧ n.Readable
def StmtN.Readable : StmtN → Prop
  | .prod _ ts => readableTerms ts
  | _ => True
def GrammarN.Readable : GrammarN → Prop
  | .mk ss => readableStmts ss
def readableTerms : List TermN → Prop
  | [] => True
  | t :: ts => t.Readable ∧ readableTerms ts
def readableQuants : List QuantN → Prop
  | [] => True
  | q :: qs => q.Readable ∧ readableQuants qs
def readableStmts : List StmtN → Prop
  | [] => True
  | s :: ss => s.Readable ∧ readableStmts ss
def readableGrammars : List GrammarN → Prop
  | [] => True
  | g :: gs => g.Readable ∧ readableGrammars gs
end

end Wbnf
