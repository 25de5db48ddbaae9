import Verif.Spec.Deep

/-!
# Literals of a grammar and the cut points on them
-/

namespace Wbnf

mutual
/-- All occurrences of literals in a term, in order: also in look-aheads, defaults of back references and grammars in
braces. -/
def Term.lits : Term → List Str
  | .s l => [l]
  | .seq ts => litsList ts
  | .oneof ts => litsList ts
  | .stack ts => litsList ts
  | .delim t sep _ _ _ => t.lits ++ sep.lits
  | .look t => t.lits
  | .quant t _ _ => t.lits
  | .named _ t => t.lits
  | .scope t g => t.lits ++ litsDefs g
  | .cut t => t.lits
  | .ref _ none => []
  | .ref _ (some d) => d.lits
  | .rule _ => []
  | .re _ => []
  | .ext _ => []
def litsList : List Term → List Str
  | [] => []
  | t :: ts => t.lits ++ litsList ts
def litsDefs : List (Str × Term) → List Str
  | [] => []
  | (_, t) :: g => t.lits ++ litsDefs g
end

mutual
/-- The occurrences of literals that have a cut point right on them. -/
def Term.cutLits : Term → List Str
  | .cut (.s l) => [l]
  | .cut t => t.cutLits
  | .seq ts => cutLitsList ts
  | .oneof ts => cutLitsList ts
  | .stack ts => cutLitsList ts
  | .delim t sep _ _ _ => t.cutLits ++ sep.cutLits
  | .look t => t.cutLits
  | .quant t _ _ => t.cutLits
  | .named _ t => t.cutLits
  | .scope t g => t.cutLits ++ cutLitsDefs g
  | .ref _ none => []
  | .ref _ (some d) => d.cutLits
  | .s _ => []
  | .rule _ => []
  | .re _ => []
  | .ext _ => []
def cutLitsList : List Term → List Str
  | [] => []
  | t :: ts => t.cutLits ++ cutLitsList ts
def cutLitsDefs : List (Str × Term) → List Str
  | [] => []
  | (_, t) :: g => t.cutLits ++ cutLitsDefs g
end

mutual
/-- The occurrences of literals outside look-aheads and grammars in braces; separators a list may start with twice. -/
def Term.openLits : Term → List Str
  | .s l => [l]
  | .seq ts => openLitsList ts
  | .oneof ts => openLitsList ts
  | .stack ts => openLitsList ts
  | .delim t sep _ cs _ => t.openLits ++ sep.openLits ++ (if cs then sep.openLits else [])
  | .look _ => []
  | .quant t _ _ => t.openLits
  | .named _ t => t.openLits
  | .scope t _ => t.openLits
  | .cut t => t.openLits
  | .ref _ none => []
  | .ref _ (some d) => d.openLits
  | .rule _ => []
  | .re _ => []
  | .ext _ => []
def openLitsList : List Term → List Str
  | [] => []
  | t :: ts => t.openLits ++ openLitsList ts
end
def openLitsDefs : List (Str × Term) → List Str
  | [] => []
  | (_, t) :: g => t.openLits ++ openLitsDefs g

def Term.NotCut : Term → Prop
  | .cut _ => False
  | .ref _ (some d) => ∃ x, d = .s x
  | _ => True

/-- A grammar as it is written: no cut points in it, and defaults of back references are literals. -/
def Grammar.Uncut (g : Grammar) : Prop := g.Deep Term.NotCut

/-- A place in the grammar where `l` is not miscounted: not in a look-ahead, not in the separator of a list that may
start with it, and not twice among the rules of a grammar in braces. -/
def Term.Counts (l : Str) : Term → Prop
  | .look t => l ∉ t.lits
  | .delim _ sep _ true _ => l ∉ sep.lits
  | .scope _ g => (litsDefs g).count l ≤ 1
  | _ => True

/-- `l` is not the default of a back reference. -/
def Term.NoDefault (l : Str) : Term → Prop
  | .ref _ (some d) => l ∉ d.lits
  | _ => True

/-- There are no literals in the wrapper definitions of the grammar. -/
def Grammar.WrapNoLits (g : Grammar) : Prop := ∀ w, (str ".wrapRE", w) ∈ g → w.lits = []

/-- There are no literals in the wrapper definitions of grammars in braces. -/
def Term.WrapNoLits : Term → Prop
  | .scope _ g => Grammar.WrapNoLits g
  | _ => True

/-- Cut points are on literals only. -/
def Term.CutsLiteral : Term → Prop
  | .cut u => ∃ l, u = .s l
  | _ => True

end Wbnf
