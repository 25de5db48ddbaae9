import Verif.Model.Term

/-!
# Printing parse trees (parser/parsernodes.go)
-/

namespace Wbnf

/-- The UTF-8 bytes of `║` (parsernodes.go:75). -/
def doubleBar : Str := [0xe2, 0x95, 0x91]

/-- parser/terms.go:107-115 `Associativity.String`. -/
def assocString (a : Int) : Str :=
  if a < 0 then str "<:" else if a > 0 then str ":>" else str ":"

/-- parser/parsernodes.go:74-76: the extra of a node. A `Choice` printed with `%s` is written by
Go's fmt as `%!s(parser.Choice=i)`; with `%v` (modelled here) as `i`. -/
def extraFormat : Extra → Str
  | .nil => []
  | .choice i => doubleBar ++ decimal i
  | .assoc a => doubleBar ++ assocString a

mutual
/-- parser/parsernodes.go:71-85 `Node.Format` with verb `%v`, and scanner.go:63-69 for leaves (a nil
source panics: `none`). `Empty` (parser.go:387) is a struct without fields and prints as `{}`. What
a foreign tree prints as is unknown; the model says `none`. -/
def Tree.format : Tree → Option Str
  | .node tag e cs =>
    match formatList cs with
    | some body => some (tag ++ extraFormat e ++ str "[" ++ body ++ str "]")
    | none => none
  | .leaf s => s.slice
  | .empty => some (str "{}")
  | .foreign _ => none
/-- The loop of parsernodes.go:78-83. -/
def formatList : List Tree → Option Str
  | [] => some []
  | [t] => t.format
  | t :: ts =>
    match t.format, formatList ts with
    | some a, some b => some (a ++ str ", " ++ b)
    | _, _ => none
end

end Wbnf
