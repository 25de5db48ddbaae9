import Verif.Model.Show
import Verif.Model.Quote

/-!
# Printing parse trees with `%q` (parser/parsernodes.go, parser/scanner.go)
-/

namespace Wbnf

/-- `strconv.QuoteRune`, for the characters below 128; `isPrint` as in `goQuote`. Other characters are written as `escapedRune` has them, with
the bytes `src`, which are not modelled: the last byte of the number stands for them. -/
def goQuoteRune (isPrint : Nat → Bool) (r : Nat) : Str :=
  39 :: ((if r = 39 then [92, 39] else if r = 34 && isPrint 34 then [34] else escapedRune isPrint r [UInt8.ofNat r]) ++ [39])

/-- parser/parsernodes.go:74-76 with the verb `q`: a `Choice` is an int, which Go's fmt writes as a quoted character; an `Associativity` has a method
`String` (terms.go:107-115), of which fmt writes the result as a quoted text. -/
def extraQuoted (quote : Str → Str) (quoteRune : Nat → Str) : Extra → Str
  | .nil => []
  | .choice i => doubleBar ++ quoteRune i
  | .assoc a => doubleBar ++ quote (assocString a)

mutual
/-- parser/parsernodes.go:71-85 `Node.Format` with verb `%q`, and scanner.go:63-69 for leaves (a nil source panics: `none`). `Empty` prints as `{}`. What
a foreign tree prints as is unknown; the model says `none`. -/
def Tree.quoted (quote : Str → Str) (quoteRune : Nat → Str) : Tree → Option Str
  | .node tag e cs =>
    match quotedList quote quoteRune cs with
    | some body => some (tag ++ extraQuoted quote quoteRune e ++ str "[" ++ body ++ str "]")
    | none => none
  | .leaf s => s.slice.map quote
  | .empty => some (str "{}")
  | .foreign _ => none
/-- The loop of parsernodes.go:78-83. -/
def quotedList (quote : Str → Str) (quoteRune : Nat → Str) : List Tree → Option Str
  | [] => some []
  | t :: ts =>
    match t.quoted quote quoteRune, quotedRest quote quoteRune ts with
    | some a, some b => some (a ++ b)
    | _, _ => none
/-- The loop of parsernodes.go:78-83, for `i` greater than zero. -/
def quotedRest (quote : Str → Str) (quoteRune : Nat → Str) : List Tree → Option Str
  | [] => some []
  | t :: ts =>
    match t.quoted quote quoteRune, quotedRest quote quoteRune ts with
    | some a, some b => some (str ", " ++ a ++ b)
    | _, _ => none
end

end Wbnf
