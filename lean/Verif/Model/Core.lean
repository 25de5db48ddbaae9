import Verif.Model.Compile
import Verif.Model.Parse

/-!
# The grammar of wbnf sources

wbnf/wbnfgrammar.go:10-107, the literal that `Grammar()` compiles. A Go map; here its rules are in the order of the file.
-/

namespace Wbnf.Core

/-- `parser.S`, `parser.RE`, `parser.Rule`, `parser.Eq` of a Go string without bytes outside ASCII. -/
def s (x : String) : Term := .s (str x)
def re (x : String) : Term := .re (str x)
def rule (x : String) : Term := .rule (str x)
def eq (n : String) (t : Term) : Term := .named (str n) t
def opt (t : Term) : Term := .quant t 0 1
def any (t : Term) : Term := .quant t 0 0
def some (t : Term) : Term := .quant t 1 0

/-- wbnfgrammar.go:11 and 53. -/
def wrap : Term := re "\\s*()\\s*"

/-- wbnfgrammar.go:12-16, 22. -/
def comment : Term := re "//.*$|(?s:/\\*(?:[^*]|\\*+[^*/])\\*/)"
def ident : Term := re "@|\\.?[A-Za-z_]\\w*"
def int : Term := re "\\d+"
def regexpLit : Term := re ("/{(?:\\\\.|{(?:(?:\\d+(?:,\\d*)?|,\\d+)\\})?|\\[(?:\\\\.|\\[:^?[a-z]+:\\]|[^\\]])+]|[^\\\\{\\}])*\\}" ++
  "|(?:(?:\\[(?:\\\\.|\\[:^?[a-z]+:\\]|[^\\]])+]|\\\\[pP](?:[a-z]|\\{[a-zA-Z_]+\\})|\\\\[a-zA-Z]|[.^$])(?:(?:[+*?]|\\{\\d+,?\\d?\\})\\??)?)+")
def strLit : Term := re "\"(?:\\\\.|[^\\\\\"])*\"|'(?:\\\\.|[^\\\\'])*'|`(?:``|[^`])*`"

/-- wbnfgrammar.go:17-21. -/
def ref : Term := .seq [.cut (s "%"), rule "IDENT", opt (.seq [s "=", eq "default" (rule "STR")])]

/-- wbnfgrammar.go:23-38. -/
def atom : Term := .oneof [rule "IDENT", rule "STR", rule "RE", rule "macrocall",
  eq "ExtRef" (.seq [.cut (s "%%"), rule "IDENT"]), rule "REF",
  .seq [.cut (s "(?="), eq "lookahead" (rule "term"), s ")"], .seq [s "(", rule "term", s ")"], .seq [s "(", s ")"]]

/-- wbnfgrammar.go:40-46. -/
def macrocall : Term := .seq [.cut (s "%!"), eq "name" (rule "IDENT"), s "(",
  .delim (opt (rule "term")) (s ",") 0 false false, s ")"]

/-- wbnfgrammar.go:47-50. -/
def named : Term := .seq [opt (.seq [rule "IDENT", eq "op" (s "=")]), rule "atom"]

/-- wbnfgrammar.go:54-61. -/
def «import» : Term := .seq [.cut (s ".import"),
  eq "path" (.delim (.oneof [.cut (s ".."), .cut (s "."), re "[a-zA-Z0-9.:]+"]) (s "/") 0 true false),
  opt (.cut (s ";"))]

/-- wbnfgrammar.go:62-73. -/
def macrodef : Term := .seq [.cut (s ".macro"), eq "name" (rule "IDENT"), s "(",
  .delim (opt (eq "args" (rule "IDENT"))) (s ",") 0 false false, s ")", s "{", rule "term", s "}", opt (.cut (s ";"))]

/-- wbnfgrammar.go:53-73. -/
def pragmaGrammar : Grammar := [(wrapRE, wrap), (str "import", «import»), (str "macrodef", macrodef)]

/-- wbnfgrammar.go:51-73. -/
def pragma : Term := .scope (.oneof [rule "import", rule "macrodef"]) pragmaGrammar

/-- wbnfgrammar.go:74-77. -/
def prod : Term := .seq [rule "IDENT", .cut (s "->"), some (rule "term"), .cut (s ";")]

/-- wbnfgrammar.go:78-93. -/
def quant : Term := .oneof [eq "op" (re "[?*+]"),
  .seq [s "{", opt (eq "min" (rule "INT")), s ",", opt (eq "max" (rule "INT")), s "}"],
  .seq [eq "op" (re "<:|:>?"), opt (eq "opt_leading" (s ",")), rule "named", opt (eq "opt_trailing" (s ","))]]

/-- wbnfgrammar.go:94-96. -/
def stmt : Term := .oneof [rule "COMMENT", rule "prod", rule "pragma"]

/-- wbnfgrammar.go:97-107. -/
def term : Term := .stack [
  .delim (.seq [.rule atRule, opt (.seq [s "{", rule "grammar", s "}"])]) (eq "op" (s ">")) 0 false false,
  .delim (.rule atRule) (eq "op" (s "|")) 0 false false,
  some (.rule atRule),
  .seq [rule "named", any (rule "quant")]]

/-- wbnfgrammar.go:11-107. -/
def grammar : Grammar := [
  (wrapRE, wrap), (str "COMMENT", comment), (str "IDENT", ident), (str "INT", int), (str "RE", regexpLit), (str "REF", ref),
  (str "STR", strLit), (str "atom", atom), (str "grammar", some (rule "stmt")), (str "macrocall", macrocall),
  (str "named", named), (str "pragma", pragma), (str "prod", prod), (str "quant", quant), (str "stmt", stmt),
  (str "term", term)]

/-- wbnf/wbnfgrammar.go:1449-1452, first half of `Parse`: compile the literal and parse with the rule `grammar`. `Grammar()`
panics if the literal does not compile. -/
def parse (E : Engine) (ρ : Nat → Nat) (n : Nat) (inp : Scanner) : TopRes :=
  match grammar.compile E n with
  | .ok ps => ps.parse E noExternals ρ n (str "grammar") inp
  | .error .oof => .oof
  | .error _ => .panic

end Wbnf.Core
