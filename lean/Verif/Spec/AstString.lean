import Verif.Model.AstString
import Verif.Spec.Ast

/-!
# Printed ASTs
-/

namespace Wbnf

/-- What is used of Go's `strconv.Quote`: a quoted text begins with a quote, has no newline, and can be read back, whatever follows it. -/
structure Quoting (quote : Str → Str) : Prop where
  opens : ∀ s, ∃ t, quote s = 34 :: t
  line : ∀ s, (10 : UInt8) ∉ quote s
  reads : ∀ s t x y, quote s ++ x = quote t ++ y → s = t ∧ x = y

/-- Names as grammars have them: no control characters, spaces, quotes or any of ``:,'`(){}[]``. -/
def Identifier (s : Str) : Prop := ∀ c ∈ s, isSpecial c = false ∧ c ≠ 32 ∧ c ≠ 34

mutual
/-- ASTs whose names are identifiers, each used once in a branch; so are the data in them, and these have no `‣`. -/
inductive Printable : Ast → Prop
  | leaf {s} : Printable (.leaf s)
  | extra {d} : Identifier d.string → d.string ≠ [] → ¬ bullet <:+: d.string → Printable (.extra d)
  | branch {b} : (b.map (·.1)).Nodup → (∀ name ∈ b.map (·.1), Identifier name) → PrintableEntries b → Printable (.branch b)
inductive PrintableKids : Kids → Prop
  | one {n} : Printable n → PrintableKids (.one n)
  | many {ns} : PrintableAll ns → PrintableKids (.many ns)
inductive PrintableAll : List Ast → Prop
  | nil : PrintableAll []
  | cons {n ns} : Printable n → PrintableAll ns → PrintableAll (n :: ns)
inductive PrintableEntries : List (Str × Kids) → Prop
  | nil : PrintableEntries []
  | cons {name c b} : PrintableKids c → PrintableEntries b → PrintableEntries ((name, c) :: b)
end

mutual
/-- The same AST, but for the sources and for the Go types of data: the same names, with one child or several, in the same order; leaves with the same
offset and text. The order of the names in a branch makes no difference. -/
inductive Alike : Ast → Ast → Prop
  | leaf {s s' : Scanner} : s.start = s'.start → s.toStr = s'.toStr → Alike (.leaf s) (.leaf s')
  | extra {d d' : Datum} : d.string = d'.string → Alike (.extra d) (.extra d')
  | branch {b c b' c'} : b.Perm c → AlikeEntries c c' → c'.Perm b' → Alike (.branch b) (.branch b')
inductive AlikeKids : Kids → Kids → Prop
  | one {n n'} : Alike n n' → AlikeKids (.one n) (.one n')
  | many {ns ns'} : AlikeAll ns ns' → AlikeKids (.many ns) (.many ns')
inductive AlikeAll : List Ast → List Ast → Prop
  | nil : AlikeAll [] []
  | cons {n n' ns ns'} : Alike n n' → AlikeAll ns ns' → AlikeAll (n :: ns) (n' :: ns')
inductive AlikeEntries : List (Str × Kids) → List (Str × Kids) → Prop
  | nil : AlikeEntries [] []
  | cons {name c c' b b'} : AlikeKids c c' → AlikeEntries b b' → AlikeEntries ((name, c) :: b) ((name, c') :: b')
end

/-- All names in the grammar are identifiers. -/
def Term.IdentifierName : Term → Prop
  | .rule r => Identifier (shownName r)
  | .named n _ => Identifier n
  | .ref i _ => Identifier i
  | _ => True

end Wbnf
