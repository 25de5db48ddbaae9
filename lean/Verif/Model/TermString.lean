import Verif.Model.Term
import Verif.Model.Codegen
import Verif.Model.AstString
import Verif.Model.Show

/-!
# The text of terms and grammars

The methods `String` of parser/terms.go.
-/

namespace Wbnf

/-- Go's `fmt` with `%v` for a value with a method `String`: if the method panics, the text says so; errors/error.go:4 `Inconceivable`
is the only value with which those of terms do. -/
def verbText : Option Str → Str
  | some x => x
  | none => str "%!v(PANIC=String method: How did this happen!?)"

/-- parser/terms.go:237-258: what `Quant.String` writes after the term. `none` is a panic. -/
def quantString (lo hi : Nat) : Option Str :=
  if lo = 0 ∧ hi = 0 then some (str "*")
  else if lo = 0 ∧ hi = 1 then some (str "?")
  else if lo = 1 ∧ hi = 0 then some (str "+")
  else if lo = 1 ∧ hi = 1 then none
  else some (str "{" ++ (if lo ≠ 0 then decimal lo else []) ++ str "," ++ (if hi ≠ 0 then decimal hi else []) ++ str "}")

/-- parser/terms.go:189-209 `Grammar.String`, given the texts of the terms: the rules in the order of their names. -/
def defsString (defs : List (Str × Str)) : Str :=
  let keys := sortStrings (defs.map Prod.fst)
  separated (str "; ") (keys.map fun k => k ++ str " -> " ++ (lookup k defs).getD []) ++ (if 1 < keys.length then str ";" else [])

mutual
/-- parser/terms.go:211-263, `String` of each kind of term; `quote` is Go's `%q`. `none` is a panic: where a method calls that of
a part itself (`join`, 173-179, and `CutPoint`), the panic goes on; where it has `fmt` call it, it does not. -/
def Term.string (quote : Str → Str) : Term → Option Str
  | .rule r => some r
  | .s l => some (quote l)
  | .re p => some (str "/" ++ p ++ str "/")
  | .ref i none => some (str "%" ++ i ++ str "=<nil>")
  | .ref i (some d) => some (str "%" ++ i ++ str "=" ++ verbText (d.string quote))
  | .ext n => some n
  | .seq ts => (stringTerms quote ts).map fun xs => str "(" ++ separated (str " ") xs ++ str ")"
  | .oneof ts => (stringTerms quote ts).map (separated (str " | "))
  | .stack ts => (stringTerms quote ts).map (separated (str " > "))
  | .delim t sep a cs ce => some (verbText (t.string quote) ++ assocString a ++ (if cs then str "," else []) ++
      verbText (sep.string quote) ++ (if ce then str "," else []))
  | .look t => some (str "(?=" ++ verbText (t.string quote) ++ str ")")
  | .quant t lo hi => (quantString lo hi).map fun q => verbText (t.string quote) ++ q
  | .named n t => some (n ++ str "=" ++ verbText (t.string quote))
  | .scope t g => some (verbText (t.string quote) ++ str " { " ++ defsString (stringDefs quote g) ++ str " }")
  | .cut t => (t.string quote).map fun x => str "cutpoint {" ++ x ++ str "}"
/-- parser/terms.go:173-179 `join`, before the strings are joined. -/
def stringTerms (quote : Str → Str) : List Term → Option (List Str)
  | [] => some []
  | t :: ts => match t.string quote with
    | none => none
    | some x => (stringTerms quote ts).map (x :: ·)
/-- The definitions of a grammar with their texts. -/
def stringDefs (quote : Str → Str) : List (Str × Term) → List (Str × Str)
  | [] => []
  | (k, t) :: g => (k, verbText (t.string quote)) :: stringDefs quote g
end

/-- parser/terms.go:189-209 `Grammar.String`. -/
def Grammar.string (quote : Str → Str) (g : Grammar) : Str := defsString (stringDefs quote g)

end Wbnf
