import Verif.Model.Views
import Verif.Model.Import
import Verif.Spec.Lexemes
import Verif.Spec.Means

/-!
# From the text of a grammar to what it denotes
-/

namespace Wbnf

mutual
/-- The macros a source calls, also in the arguments of calls and in braces; what the macros it defines call does not count. -/
def TermN.calls : TermN → List Str
  | .many _ gs ts => callsGrammars gs ++ callsTerms ts
  | .one n qs => n.calls ++ callsQuants qs
def NamedN.calls : NamedN → List Str
  | .mk _ a => a.calls
def AtomN.calls : AtomN → List Str
  | .macrocall m ts => m :: callsTerms ts
  | .look t => t.calls
  | .term t => t.calls
  | _ => []
def QuantN.calls : QuantN → List Str
  | .sep _ _ _ n => n.calls
  | _ => []
def StmtN.calls : StmtN → List Str
  | .prod _ ts => callsTerms ts
  | _ => []
def GrammarN.calls : GrammarN → List Str
  | .mk ss => callsStmts ss
def callsTerms : List TermN → List Str
  | [] => []
  | t :: ts => t.calls ++ callsTerms ts
def callsQuants : List QuantN → List Str
  | [] => []
  | q :: qs => q.calls ++ callsQuants qs
def callsStmts : List StmtN → List Str
  | [] => []
  | s :: ss => s.calls ++ callsStmts ss
def callsGrammars : List GrammarN → List Str
  | [] => []
  | g :: gs => g.calls ++ callsGrammars gs
end

/-- The macro `a` calls the macro `b`. -/
def Macros.Calls (ms : Macros) (a b : Str) : Prop := ∃ mc, lookup a ms = some mc ∧ b ∈ mc.body.calls

/-- Following calls from a macro comes to an end: it does not call itself, nor does one that it calls, and so on. -/
def Macros.Ends (ms : Macros) (a : Str) : Prop := Acc (fun b a => ms.Calls a b) a

/-! ## Texts -/

section
variable (E : Engine) (ρ : Nat → Nat)

/-- The parser of wbnf sources makes the source `g` of the text. -/
def Stands (x : Str) (g : GrammarN) : Prop :=
  ∃ N b, ∀ n, N ≤ n → Core.parseNode E ρ n (newScanner x) = .node b ∧ viewGrammar n (.branch b) = some g

/-- The parser of wbnf sources reports an error. -/
def Refused (x : Str) : Prop := ∃ N, ∀ n, N ≤ n → Core.parseNode E ρ n (newScanner x) = .err

/-- Texts are read by the parser of wbnf sources. -/
structure Files.Parsed (F : Files) : Prop where
  stands : ∀ {x g}, F.parse x = some g → Stands E ρ x g
  refused : ∀ {x}, F.parse x = none → Refused E ρ x

end

end Wbnf
