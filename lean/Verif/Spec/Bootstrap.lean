import Verif.Model.Bootstrap

/-!
# The regexps in the text of the grammar of grammars
-/

namespace Wbnf

/-- These lines, one below the other. -/
def inLines : List String → Str
  | [] => []
  | [l] => str l
  | l :: ls => str l ++ 10 :: inLines ls

/-- The texts of the regexps that validation hands to `regexp.Compile` as they stand in the source, slash and braces included. -/
def coreRegexps : List Str := [
  str "[?*+]",
  str "/{<:|:>?}",
  inLines ["/{ //.*$", "            | (?s: /\\* (?: [^*] | \\*+[^*/] ) \\*/ )", "            }"],
  str "/{@|\\.?[A-Za-z_]\\w*}",
  str "\\d+",
  inLines ["/{ \" (?: \\\\. | [^\\\\\"] )* \"", "            | ' (?: \\\\. | [^\\\\'] )* '", "            | ` (?: ``  | [^`]   )* `", "            }"],
  inLines ["/{", "             /{", "               (?:", "                 \\\\.", "                 | { (?: (?: \\d+(?:,\\d*)? | ,\\d+ ) \\} )?", "                 | \\[ (?: \\\\. | \\[:^?[a-z]+:\\] | [^\\]] )+ ]", "                 | [^\\\\{\\}]", "               )*", "             \\}", "           | (?:", "               (?:", "                 \\[ (?: \\\\. | \\[:^?[a-z]+:\\] | [^\\]] )+ ]", "               | \\\\[pP](?:[a-z]|\\{[a-zA-Z_]+\\})", "               | \\\\[a-zA-Z]", "               | [.^$]", "               )(?: (?:[+*?]|\\{\\d+,?\\d?\\}) \\?? )?", "             )+", "           }"],
  str "/{\\s*()\\s*}"]

end Wbnf
