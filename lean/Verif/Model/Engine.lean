import Verif.Model.Basic

/-!
# The regular expression engine

Go's `regexp` package is not part of the repository; the parser only uses three operations.
-/

namespace Wbnf

/-- What the parser uses of Go's `regexp`: `valid p` says whether `regexp.MustCompile(p)` returns,
`find p x` is `regexp.MustCompile(p).FindStringSubmatchIndex(x)` with the flat index slice as a list
of pairs, the whole match first; a group that did not take part in the match is `(-1, -1)`. -/
structure Engine where
  valid : Str → Bool
  find : Str → Str → Option (List (Int × Int))

/-- The bytes escaped by `regexp.QuoteMeta`: `\.+*?()|[]{}^$`. -/
def isMeta (c : UInt8) : Bool :=
  c = 92 || c = 46 || c = 43 || c = 42 || c = 63 || c = 40 || c = 41 || c = 124 || c = 91 ||
  c = 93 || c = 123 || c = 125 || c = 94 || c = 36

/-- Go `regexp.QuoteMeta`. -/
def quoteMeta : Str → Str
  | [] => []
  | c :: s => if isMeta c then 92 :: c :: quoteMeta s else c :: quoteMeta s

/-- Go `strings.Replace(hay, "()", new, 1)`. -/
def replaceParens (new : Str) : Str → Str
  | [] => []
  | [c] => [c]
  | a :: b :: s =>
    if a = 40 ∧ b = 41 then new ++ s else a :: replaceParens new (b :: s)

/-- The prefix `(?m)\A` of every pattern the parser compiles (parser.go:254, 284). -/
def anchor : Str := str "(?m)\\A"

end Wbnf
