import Verif.Model.Cmd
import Verif.Model.Codegen

/-!
# Model of the command `wbnf gen`

cmd/gen.go, cmd/codegen/template.go, cmd/codegen/idents.go:14-16. Of the package that is written, the functions `Grammar`, `Parse` and
`ParseString` are modelled here; the types and the walkers in `MiddleSection` are modelled in Model/Types and
Model/TypesWalk.
`format.Source` only changes the layout. Where the package is written to is not modelled.
-/

namespace Wbnf

/-- cmd/gen.go:18-50: the flags that matter here. -/
structure GenFlags where
  grammar : Str
  start : Str

/-- template.go:9-19 `TemplateData`: the two expressions in the functions of the package. -/
structure PkgText where
  grammar : Str
  start : Str

/-- What the command does: it writes a package, or fails, or goes on for longer than the fuel lasts. -/
inductive GenRes
  | oof
  | failed
  | written (p : PkgText)

/-- idents.go:14-16 `IdentName`. -/
def identName (name : Str) : Str := 34 :: (name ++ [34])

/-- cmd/gen.go:53-69 `gen`, with cmd/test.go:86-95 `loadTestGrammar`. -/
def genCmd (T : Tools) (W : World) (f : GenFlags) (n : Nat) : GenRes :=
  match W.read f.grammar with
  | none => .failed                                                                                  -- test.go:88-90
  | some text =>
    if f.start = [] then .failed                                                                     -- test.go:91-93
    else
      match compileSource (cmdFiles W.read T.parse f.grammar) T.engine T.reOK T.ord n text with
      | .load .oof => .oof
      | .stop .oof => .oof
      | .ok ps => .written ⟨grammarLiteral ps.grammar, identName f.start⟩                            -- 61, 63
      | _ => .failed

/-- What `Parse` of a package does: it returns a node, or an error; it panics, or goes on for longer than the fuel lasts. -/
inductive PkgRes
  | oof
  | panic
  | err
  | node (b : Branch)

/-- template.go:60-64, and the same with `wbnf.Compile`: `Parse` and, if there is no error, `ast.FromParserNode`. -/
def parseNode (E : Engine) (ps : Parsers) (start : Str) (ρ : Nat → Nat) (n : Nat) (inp : Scanner) : PkgRes :=
  match ps.parse E noExternals ρ n start inp with
  | .oof => .oof
  | .panic => .panic
  | .err _ _ => .err
  | .ok tree _ =>
    match fromParserNode n ps.grammar tree with
    | .error .oof => .oof
    | .error .panic => .panic
    | .ok (_, b) => .node b

/-- template.go:30-32 `Grammar`, 58-65 `Parse`; `g` and `start` are the values of the two expressions. -/
def pkgParse (E : Engine) (g : Grammar) (start : Str) (ρ : Nat → Nat) (n : Nat) (inp : Scanner) : PkgRes :=
  match g.compile E n with
  | .error .oof => .oof
  | .error .panic => .panic
  | .ok ps => parseNode E ps start ρ n inp

/-- template.go:67-69 `ParseString`. -/
def pkgParseString (E : Engine) (g : Grammar) (start : Str) (ρ : Nat → Nat) (n : Nat) (input : Str) : PkgRes :=
  pkgParse E g start ρ n (newScanner input)

/-- What a program does that calls `wbnf.Compile`, `Parse` and `ast.FromParserNode`, with the same resolver of imports as the
command. -/
def libParse (T : Tools) (W : World) (f : GenFlags) (ρ : Nat → Nat) (n : Nat) (inp : Scanner) : PkgRes :=
  match W.read f.grammar with
  | none => .err
  | some text =>
    match compileSource (cmdFiles W.read T.parse f.grammar) T.engine T.reOK T.ord n text with
    | .load .oof => .oof
    | .stop .oof => .oof
    | .stop .panic => .panic
    | .ok ps => parseNode T.engine ps f.start ρ n inp
    | _ => .err

end Wbnf
