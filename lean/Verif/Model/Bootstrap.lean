import Verif.Model.Import
import Verif.Model.Diff
import Verif.Model.Core
import Verif.Model.Effect

/-!
# Model of the initialization of package wbnf

The grammar of grammars is in the package twice: as a literal, which `Grammar()` compiles, and as a text in its own notation.
When the package is initialized, the text is compiled with the literal, and what comes out is compared with the literal.
-/

namespace Wbnf

/-- The bytes of a text of ASCII characters and reversed primes (U+2035). -/
def faked (s : String) : Str := s.toList.flatMap fun c => if c = '‵' then [0xE2, 0x80, 0xB5] else [UInt8.ofNat c.toNat]

/-- wbnf/compile.go:16-20 `unfakeBackquote`. -/
def unfakeBackquote : Str → Str
  | 0xE2 :: 0x80 :: 0xB5 :: x => 96 :: unfakeBackquote x
  | c :: x => c :: unfakeBackquote x
  | [] => []

/-- wbnf/wbnfgrammar.go:1462-1524: the lines of the argument of `unfakeBackquote`. -/
def coreLines : List String := [
  "",
  "// Non-terminals",
  "grammar -> stmt+;",
  "stmt    -> COMMENT | prod | pragma;",
  "prod    -> IDENT \"->\" term+ \";\";",
  "term    -> (@ (\"{\" grammar \"}\")? ):op=\">\"",
  "         > @:op=\"|\"",
  "         > @+",
  "         > named quant*;",
  "named   -> (IDENT op=\"=\")? atom;",
  "quant   -> op=[?*+]",
  "         | \"{\" min=INT? \",\" max=INT? \"}\"",
  "         | op=/{<:|:>?} opt_leading=\",\"? named opt_trailing=\",\"?;",
  "atom    -> IDENT",
  "         | STR",
  "         | RE",
  "         | macrocall",
  "         | ExtRef=(\"%%\" IDENT)",
  "         | REF",
  "         | \"(?=\" lookahead=term \")\"",
  "         | \"(\" term \")\"",
  "         | \"(\" \")\";",
  "",
  "macrocall   -> \"%!\" name=IDENT \"(\" term:\",\"? \")\";",
  "REF         -> \"%\" IDENT (\"=\" default=STR)?;",
  "",
  "// Terminals",
  "COMMENT -> /{ //.*$",
  "            | (?s: /\\* (?: [^*] | \\*+[^*/] ) \\*/ )",
  "            };",
  "IDENT   -> /{@|\\.?[A-Za-z_]\\w*};",
  "INT     -> \\d+;",
  "STR     -> /{ \" (?: \\\\. | [^\\\\\"] )* \"",
  "            | ' (?: \\\\. | [^\\\\'] )* '",
  "            | ‵ (?: ‵‵  | [^‵]   )* ‵",
  "            };",
  "RE      -> /{",
  "             /{",
  "               (?:",
  "                 \\\\.",
  "                 | { (?: (?: \\d+(?:,\\d*)? | ,\\d+ ) \\} )?",
  "                 | \\[ (?: \\\\. | \\[:^?[a-z]+:\\] | [^\\]] )+ ]",
  "                 | [^\\\\{\\}]",
  "               )*",
  "             \\}",
  "           | (?:",
  "               (?:",
  "                 \\[ (?: \\\\. | \\[:^?[a-z]+:\\] | [^\\]] )+ ]",
  "               | \\\\[pP](?:[a-z]|\\{[a-zA-Z_]+\\})",
  "               | \\\\[a-zA-Z]",
  "               | [.^$]",
  "               )(?: (?:[+*?]|\\{\\d+,?\\d?\\}) \\?? )?",
  "             )+",
  "           };",
  "",
  "// Special",
  "pragma  -> import | macrodef {",
  "                import   -> \".import\" path=((\"..\"|\".\"|[a-zA-Z0-9.:]+):,\"/\") \";\"?;",
  "                macrodef -> \".macro\" name=IDENT \"(\" args=IDENT:\",\"? \")\" \"{\" term \"}\" \";\"?;",
  "            };",
  "",
  ".wrapRE -> /{\\s*()\\s*};"]

/-- wbnf/wbnfgrammar.go:1462-1524 `grammarGrammarSrc`. Each line ends with a newline. -/
def grammarGrammarSrc : Str := unfakeBackquote (coreLines.flatMap fun l => faked l ++ [10])

/-- wbnf/grammar.go:12-28 `core`, wbnf/compile.go:374-381 `MustCompile`: `none` is a panic. `newGrammarGrammar.Compile` gets the
map that `g` has, so it compiles what `g` shows. -/
def initCore (F : Files) (E : Engine) (reOK : Str → Bool) (ord : List Str → List Str → List Str) (n : Nat) : Option Parsers :=
  match compileSource F E reOK ord n grammarGrammarSrc, Core.grammar.compile E n with
  | .ok g, .ok a =>
    match diffGrammars a.shown g.shown with
    | none => none
    | some d =>
      if d.equal then
        match Grammar.compile E n g.shown with
        | .ok ps => some ps
        | .error _ => none
      else none
  | _, _ => none

end Wbnf
