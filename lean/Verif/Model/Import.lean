import Verif.Model.Validate
import Verif.Model.Compile

/-!
# Model of loading grammars with imports

wbnf/compile.go:299-372. Reading and parsing files, joining and cleaning paths and the resolver are parameters. Files do
not change while a grammar is loaded.
-/

namespace Wbnf

/-- What loading a grammar needs from outside. -/
structure Files where
  /-- `os.ReadFile`; `none` is an error. -/
  read : Str → Option Str
  /-- `Parse` (wbnf/wbnfgrammar.go:1445-1455); `none` is an error. -/
  parse : Str → Option GrammarN
  /-- wbnf/compile.go:321-324: `filepath.Join` of the tokens of an import, and `Resolve` from the file it is in. -/
  path : Str → List Str → Str
  /-- `filepath.Clean`. -/
  clean : Str → Str

/-- The errors; `oof` says that the fuel was not enough (Go recurses without bound for files that import each other). -/
inductive LoadError
  | read (file : Str)
  | parse (file : Str)
  | oof
  deriving DecidableEq, Repr

/-- wbnf/compile.go:309-312 `compiler`; `reads` are the files that were read, or tried, in order. -/
structure Loader where
  imports : List (Str × GrammarN)
  reads : List Str

/-- The variables of `makeGrammar`: the compiler, `node` and `err`. -/
structure LoadState where
  loader : Loader
  node : GrammarN
  err : Option LoadError

/-- wbnf/compile.go:299-302 `mergeGrammarNodes`. -/
def mergeNodes : GrammarN → GrammarN → GrammarN
  | .mk a, .mk b => .mk (a ++ b)

/-- wbnf/compile.go:319-337: the callback. After running out of fuel nothing happens any more. -/
def importOps (path : List Str → Str) (load : Str → Loader → Loader × Except LoadError GrammarN) : WalkerOps LoadState where
  enter
    | .imp p, s =>
      if s.err = some .oof then (s, none)
      else
        match load (path p) s.loader with
        | (c, .error e) => ({ s with loader := c, err := some e }, some aborter)                     -- 326-329
        | (c, .ok g) => ({ s with loader := c, node := mergeNodes s.node g }, none)                  -- 330-334
    | _, s => (s, none)
  exit _ s := (s, none)

mutual
/-- wbnf/compile.go:314-341 `makeGrammar`. The walk is over the node as parsed: the statements of a node are listed before
the first of them is walked (wbnf/wbnfgrammar.go:954-980). -/
def makeGrammar (F : Files) : Nat → Str → Str → Loader → Loader × Except LoadError GrammarN
  | 0, _, _, c => (c, .error .oof)
  | n + 1, file, text, c =>
    match F.parse text with
    | none => (c, .error (.parse file))                                                              -- 315-318
    | some g =>
      let s := (walk (importOps (F.path file) (loadGrammarFile F n)) g.tree ⟨c, g, none⟩).1
      match s.err with
      | some e => (s.loader, .error e)                                                               -- 337-339
      | none => (s.loader, .ok s.node)
/-- wbnf/compile.go:343-357 `loadGrammarFile`. -/
def loadGrammarFile (F : Files) : Nat → Str → Loader → Loader × Except LoadError GrammarN
  | 0, _, c => (c, .error .oof)
  | n + 1, file, c =>
    let file := F.clean file
    match lookup file c.imports with
    | some g => (c, .ok g)                                                                           -- 356
    | none =>
      let c := { c with reads := c.reads ++ [file] }
      match F.read file with
      | none => (c, .error (.read file))                                                             -- 346-349
      | some text =>
        match makeGrammar F n file text c with
        | (c, .error e) => (c, .error e)                                                             -- 350-353
        | (c, .ok g) => ({ c with imports := mapSet file g c.imports }, .ok g)
end

/-- What `Compile` returns. -/
inductive Compiled
  | load (e : LoadError)
  | invalid (es : List ErrorKind)
  | stop (e : Stop)
  | ok (ps : Parsers)

/-- wbnf/compile.go:359-372 `Compile`. -/
def compileSource (F : Files) (E : Engine) (reOK : Str → Bool) (ord : List Str → List Str → List Str) (n : Nat) (text : Str) : Compiled :=
  match (makeGrammar F n [] text ⟨[], []⟩).2 with
  | .error e => .load e
  | .ok g =>
    match validate reOK ord g with
    | .error e => .stop e
    | .ok (e :: es) => .invalid (e :: es)
    | .ok [] =>
      match newFromAst n g with
      | .error e => .stop e
      | .ok G =>
        match G.compile E n with
        | .error e => .stop e
        | .ok ps => .ok ps

end Wbnf
