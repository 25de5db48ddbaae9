import Verif.Model.Path
import Verif.Model.TreeView
import Verif.Model.Parse

/-!
# Model of the command `wbnf test`

cmd/test.go, cmd/main.go. What is printed for errors and panics, and the verbose flag (which makes the parser log what it does),
are not modelled. Files do not change while the command runs.
-/

namespace Wbnf

/-- What the command reads: files, and the standard input; `none` is an error. -/
structure World where
  read : Str → Option Str
  stdin : Option Str

/-- cmd/test.go:18-68: the flags. A flag that is not given is empty. -/
structure TestFlags where
  grammar : Str
  start : Str
  input : Str
  tree : Bool

/-- What the command uses from elsewhere: regexps, `Parse` of wbnf sources, whether a regexp compiles, the order of maps in
the check for recursion, `%q`, `sort.Slice` and the room that `append` leaves (see `buildTreeView`). -/
structure Tools where
  engine : Engine
  parse : Str → Option GrammarN
  reOK : Str → Bool
  ord : List Str → List Str → List Str
  quote : Str → Str
  sort : List GTree → List GTree
  room : Nat → Nat

/-- What is printed besides errors and warnings. -/
inductive Shown
  | nothing
  /-- the text of an AST, and a newline -/
  | text (s : Str)
  /-- what `fmt` prints when a method `String` panics, and a newline: it recovers from the panic -/
  | failed
  /-- the AST of the grammar itself -/
  | grammar

/-- What the command does: it prints something and exits with a status, or goes on for longer than the fuel lasts. -/
inductive CmdRes
  | oof
  | exit (shown : Shown) (status : Nat)

/-- cmd/test.go:118-132: the text to be parsed. -/
def World.input (W : World) (source : Str) : Option Str :=
  if source = [] ∨ source = str "-" then W.stdin else W.read source

/-- cmd/test.go:153-163: the AST is made and printed. `status` is that of returning: 0, or 1 for an error. -/
def showAst (T : Tools) (n : Nat) (f : TestFlags) (g : Grammar) (tree : Tree) (status : Nat) : CmdRes :=
  match fromParserNode n g tree with
  | .error .oof => .oof
  | .error .panic => .exit .nothing 1                                                                -- 111-116
  | .ok (_, b) =>
    if f.tree then
      match buildTreeView T.quote T.sort T.room f.start (.branch b) true with
      | none => .exit .nothing 1                                                                     -- 111-116
      | some s => .exit (.text s) status
    else
      match (Ast.branch b).string T.quote with
      | none => .exit .failed status
      | some s => .exit (.text s) status

/-- cmd/test.go:108-164 `test` with 86-95 `loadTestGrammar`, 97-106 `testWbnfFile` (what it prints is not modelled), and
cmd/main.go:29-32: an error that is returned ends the program with status 1, as a panic does. -/
def testCmd (T : Tools) (W : World) (f : TestFlags) (ρ : Nat → Nat) (n : Nat) : CmdRes :=
  match W.input f.input with
  | none => .exit .nothing 1                                                                         -- 122-124, 128-130
  | some input =>
    if f.grammar = [] then                                                                           -- 133-135
      match compileSource (cmdFiles W.read T.parse f.input) T.engine T.reOK T.ord n input with
      | .load .oof => .oof
      | .stop .oof => .oof
      | .ok _ => .exit .grammar 0
      | _ => .exit .nothing 1
    else
      match W.read f.grammar with
      | none => .exit .nothing 1                                                                     -- 88-90
      | some text =>
        if f.start = [] then .exit .nothing 1                                                        -- 91-93
        else
          match compileSource (cmdFiles W.read T.parse f.grammar) T.engine T.reOK T.ord n text with
          | .load .oof => .oof
          | .stop .oof => .oof
          | .ok ps =>
            if hasKey f.start ps.parsers = false then .exit .nothing 1                               -- 141-143
            else
              match ps.parse T.engine noExternals ρ n f.start (newScannerWithFilename input f.input) with  -- 144
              | .oof => .oof
              | .panic => .exit .nothing 1
              | .ok tree _ => showAst T n f ps.grammar tree 0
              | .err (.unconsumed tree _) _ => showAst T n f ps.grammar tree 1                       -- 146-148, 159-161
              | .err _ _ => .exit .nothing 1                                                         -- 149-151
          | _ => .exit .nothing 1

end Wbnf
