# Formal model of arr-ai/wbnf in Lean 4

## 1. Approach

`/verif/lean/Verif/` holds

* `Model/*.lean` – executable, total Lean functions, one per Go function, each with a comment
  citing the lines of `/repo` it models and any simplification;
* `Spec/*.lean` – small specifications that do not mention the model's helpers (big-step PEG
  semantics, tree conformance, substitution, what a source denotes, ...);
* `Lemmas/*.lean` – auxiliary facts;
* `Props/*.lean` – the property theorems (`Cnn_...`), each with `example`s showing that the
  hypotheses are met by a non-trivial case, and, where the code violates the plain English
  property, a theorem with a concrete witness of the violation.

Theorems are about all inputs, grammars, files, random numbers, and (where it matters) all orders in
which Go may iterate over a map. Nothing is bounded: fuel only makes the functions total, and theorems say
"there is a fuel from which on" or "for every fuel".

### Modelling conventions

| Go | model |
|---|---|
| `string`, `[]byte` | `List UInt8` (`Str`) |
| `int` offsets | `Int` (unbounded; overflow of 64-bit offsets not modelled). Bounds of quantifiers, which are parsed with `strconv.Atoi`, do have the 64-bit limit |
| `panic` (incl. nil dereference, index out of range, failed type assertion) | explicit `panic` outcome |
| `error` values | an inductive type: plain, fatal with its cut token, stop, unconsumed input, other |
| infinite loop / unbounded recursion | fuel argument; outcome `oof` (out of fuel). "Terminates" = some fuel gives an outcome other than `oof`; more fuel then changes nothing (proved) |
| Go `map` | association list with unique keys; iteration order is an explicit permutation where it can matter (C21, C39, C50) |
| slices with shared backing arrays | modelled as such where the code relies on it or trips over it (`Recursion`, `GoTree`), else lists |
| pointers to parser slots patched after compilation | `link r` nodes looked up in a stack of frames |
| `rand.Int31` | an arbitrary stream `Nat → Nat` of draws, with a counter threaded through the parse |
| `regexp` package | an abstract engine `Engine` (`valid`, `find`); laws used are hypotheses of the theorems (`Engine.Sane`, `Core.EngineOK`, `Core.EngineReads`, `Concatenates`). A concrete backtracking engine for a part of the syntax (`Model/Engine`) shows that the laws can be met; it reads all regexps of the grammar of grammars |
| external references | arbitrary functions `Call → Scanner → Result` |
| `frozen.Map` scope | association list for bindings + separate fields for cut token (reserved key names cannot collide in the model) |
| error message text, call stack text | not modelled (an error carries only what control flow depends on) |
| file system, path functions | arbitrary functions (`Files`) |

## 2. Per property: what is modelled and how it is proved

The model column names modules of `Verif/Model`, the next one the specification the theorem is stated with (`Verif/Spec`; – if the
statement needs none), the last one the main step of the proof. Statuses and the reasons for `partial` are in MANIFEST.json.

| id | status | model | specification | proof |
|---|---|---|---|---|
| C01 | proved | Parse, Scanner | Basic | induction on fuel, invariant on outcomes|
| C02 | proved | Parse | Basic (leaves of a tree) | induction on fuel|
| C03 | proved | Parse | Basic | induction on derivations|
| C04 | proved | Parse, Show | Shape | induction on fuel|
| C05 | proved | Parse (`parse`) | – | case analysis, C01|
| C06, C07, C08 | proved | Parse (loops, look-ahead) | Peg | characterisation of the loops, both directions|
| C09, C10 | proved | Parse (`Delim`, folds) | Derives | equivalence with `t (sep t)*`; flattening by induction on the list|
| C11 | proved | Parse, Compile | Peg, Top | soundness by induction on fuel, completeness by induction on derivations|
| C12 | proved | Parse | – | simulation that renames live cut tokens|
| C13 | proved | Parse, Compile | Uncut | simulation with the grammar without cut points|
| C14 | proved | Parse | – | fatal errors cross every combinator|
| C15 | proved | Parse, Compile | Terminates | lexicographic measure (rest of the text, rank of rules, size)|
| C16 | proved | Parse | – | `∀ fuel, = oof` by induction on fuel|
| C17, C18 | proved | Parse (`REF`, scope) | Peg, Scope | induction on the bound tree; relation between scopes|
| C19 | proved | Compile, Parse | Scope, Rename | simulation between frames|
| C20 | proved | Term, Compile | Stacks | induction on the list of rules|
| C21 | proved | Compile, Parse | Reorder | induction on permutations|
| C22 | partial | Effect | Effect | exact condition; witness of the violation; simulation between a grammar before and after it was compiled (Lemmas/Effect)|
| C23 | proved | Compile | Wrap | calculation with the law of concatenation|
| C24 | proved | Compile, Parse | Compiles, Safe | equivalence for compiling; induction on fuel for parsing|
| C25 | proved | Parse | Basic | induction on fuel|
| C26 | partial | Unparse | Unparse | induction on derivations; witnesses|
| C27, C28, C29, C30, C46 | proved | Scanner | Basic | arithmetic on lists|
| C31, C32 | partial | Ast | Ast, Shape, Parts | induction on trees, invariant on the groups of a branch|
| C33 | partial | Ast (`ToParserNode`) | Return | induction on trees and on the terms read back|
| C34, C35 | partial | AstQuery | AstQuery | induction on trees|
| C36, C49 | partial/proved | Literal | Literal | induction on the text; witnesses for the numeric escapes|
| C37 | partial | Cutpoints, Build | Cutpoints, Uncut | counting of literals by induction on terms; C13|
| C38 | partial | Build | Macro, Source | induction on syntax trees; accessibility of calls|
| C39 | partial | Recursion (with shared slices) | Recursion | invariants of the worklist; witnesses|
| C40 | partial | Validate, Walk | Validate | walk of the tree as a fold; equivalence|
| C41 | partial | Import | Import | invariants of the loader; accessibility of imports|
| C42, C50 | partial/proved | Codegen | GoCode, Codegen | evaluator for Go literals, induction on terms; sorting|
| C43 | proved | GoTree | GoTree | induction on trees, invariant on the shared array|
| C44 | partial | Diff | Diff | induction on pairs; witnesses|
| C45 | partial | Walk | Walk | induction on trees|
| C47 | proved | Parse | – | simulation between texts|
| C48 | proved | Parse | – | case analysis of the loop|
| C51 | proved | Build | Means | induction on derivations, totality by induction on syntax|
| C52 | partial | Ast, AstQuery | Picks | from C31|
| C53 | proved | Core, Parse | Core, Terminates | the grammar of grammars meets the hypotheses of C15, C24 and C11|
| C54 | proved | Views, Ast | Lexemes, Tokens | shape of the trees of each rule, then of the AST (C31)|
| C55 | partial | Import, Build, Validate, Compile, Core, Views | Source, CompileEnds, Means, Top | composition of C54, C41, C40, C51, C37 and C11; accessibility for termination|
| C56 | partial | Import, Build, Validate | Comments, Source | callbacks do nothing at comments; induction on statements|
| C57 | proved | Views, Ast, Core | Spells, Lexemes | the shape of trees of C54 with the texts of their leaves; a fold over derivations for the white space|
| C58 | partial | Types, Codegen, Ast, Views | Types, Ast | invariants of the walk over the grammar: what is used is present in the types; induction on the parts of a node|
| C59 | partial | Types, Codegen, Ast | TypesMany, Types, Ast | what is counted stays counted while types grow; induction on terms: two occurrences have met in the count, or one was forced to many|
| C60 | partial | Types, Codegen | TypesDecl, Types, Deep | keys of the map of types are unique; an invariant of the walk with the list of uses so far: children of a type have different names and purposes, back references are among the uses|
| C61 | partial | TypesWalk, Types, Ast | TypesWalk, Walk, TypesDecl | induction on the size of the node: the calls of a walk are a tour over what the accessors return; conformity of ASTs to their types by induction on the parts of a node, so that accessors return all|
| C62 | proved | Externals, Parse | Escape | induction on the fuel: without the delimiter both parses agree, with it the first lines of every parser decide; leaves by induction over the tree that is built; the map by permutation|
| C63 | partial | AstString, Ast, Quote | AstString, Ast | newlines and what they indent can be dropped without loss; then induction on the AST: a printed node is read back whatever follows it, if that cannot go on a name|
| C64 | partial | TreeView, GoTree, AstString | TreeView, AstString | ranks are the least place below, by induction on the tree; same ends by induction on the AST; two sorted permutations with different ranks are equal; for parses, induction on the parts: views in the order of the parts are already sorted|
| C65 | partial | Path, Import | Path, Import | what Clean keeps is names after `..`, by induction on the elements; it is determined by where it leads from a deep directory with a fresh name; C41 for what is read|
| C66 | partial | Cmd, Path, Import | Cmd, Top, Source | the command is the composition of its parts: C55 for what is compiled, C11 for the parse, C31, C63 and C64 for what is printed; compiling is monotone in the fuel|
| C67 | partial | Gen, Cmd, Codegen | Gen, Cmd, GoCode | C42 for the literal, C11 on both sides; FromParserNode gives the same for grammars that differ in the order of rules, by induction on the fuel (Lemmas/AstReorder)|
| C68 | partial | Build | Expand, Macro, Means, Source | induction on the derivation of the expansion, C38 for the calls, C51 for the rest; accessibility of calls for existence|
| C69 | partial | Core, Views, Parse | Written, Lexemes, Spells, Source | what each rule of the grammar of grammars reads and misses at a list of words, bottom up; then mutual induction on how the source is spelled; C53 for the parser and the views of C54|
| C70 | partial | TermString, Quote | TermString, Written, Reorder | mutual induction on how a term prints: words that spell a node that means the term, laid out in its text however it goes on; then C69; map order by sorting; witnesses for what fails|
| C71 | proved | Bootstrap, Core, Import, Diff, Compile | Bootstrap, Written, Reorder | a speller and a checker of tokens, proved sound, run by the kernel on the embedded text, then C69; validity by C40 and a rank on what rules name first; the grammar built is computed, compared, and shown to be the literal up to order; C21 for behaviour|
| C72 | proved | NodeGet | NodeGet, Shape | induction on the path; the leaves of a tree are those of its children in order; then C02 for the order in the text|
| C73 | partial | Report, Parse, GoTree | Report, GoTree | the report of a parser follows its parse (induction on fuel); induction on the report for what the text shows and when it ends; a quantifier's error is a cause of itself; kernel-computed witnesses|
| C74 | proved | Leftover, Scanner, Parse | - (in the statement) | C05 for the residue, C28 for line and column, C46 for the lines shown|
| C75 | partial | UnparseTo, Unparse | UnparseTo | slices composed by induction on the fuel and the lists of children; the count with an error is refuted by a witness|
| C76 | proved | Validate, Walk, Import | Faults, Validate, Source | the callbacks of the validator add an error exactly for a fault of the node; induction on the events of the walk, which are the nodes checked|
| C77 | proved | ShowQuoted, Show, Quote | ShowQuoted, AstString, Shape | unique readability by mutual induction on the trees; QuoteRune below 128 by a table; tags of parses by induction on Conforms|

## 3. Which parts of the code are modelled

| file | modelled | not modelled |
|---|---|---|
| parser/scanner.go | all (`Model/Scanner`, `Leftover`; `Format` in `Show`, `ShowQuoted`) | |
| parser/terms.go | term types, `Parsers.Parse`, `Grammar` helpers, associativity, `String` methods (`Model/Term`, `Parse`, `Compile`, `TermString`) | `%q` is a parameter, as for ast/node_string.go |
| parser/parser.go | all parsers, `Compile`, `Resolve`, wrapping, scopes (`Model/Compile`, `Parse`, `Effect`) | logging (escapes are modelled; most theorems are for parses without an escape, and C62 carries them over to texts without an opening delimiter) |
| parser/resolve.go, scope.go, error.go, externals.go, parsernodes.go | all that control flow depends on (`Model/Term`, `Parse`, `Show`, `ShowQuoted`, `NodeGet`, `Externals`), and the texts of parse errors (`Model/Report`) | what the notes in them say beyond the place and the text looked at (`Model/Leftover`): the term expected and the call stack |
| parser/unparse.go | all (`Model/Unparse`; with any writer `Model/UnparseTo`) | what is written before a panic |
| parser/diff/nodes.go, terms.go | all (`Model/Diff`) | `Report` strings beyond emptiness and notes |
| ast/from_parsernode.go, to_parsernode.go, counter.go, node.go, helpers.go | all (`Model/Ast`, `AstQuery`, `Views`) | logging |
| ast/node_string.go | all (`Model/AstQuery`, `AstString`) | `%q` is a parameter; a model of `strconv.Quote` (`Model/Quote`, written from memory of Go's library, which is not in /repo; `IsPrint` a parameter) is shown to meet what is asked of it |
| wbnf/wbnfgrammar.go | the grammar of grammars (`Model/Core`), typed views (`Model/Syntax`, `Views`), walkers (`Model/Walk`), the embedded text (`Model/Bootstrap`) | |
| wbnf/grammar.go | all (`Model/Bootstrap`) | |
| wbnf/compile.go | all (`Model/Literal`, `Build`, `Import`) | the real file system; `filepath` as documented (`Model/Path`) |
| wbnf/validation.go, recursion.go, cutpoints.go | all (`Model/Validate`, `Recursion`, `Cutpoints`) | texts of errors |
| gotree/gotree.go | building and printing (`Model/GoTree`), `SortItems` and `Rank` (`Model/TreeView`; the sort is a parameter) | – |
| ast/treeview.go | all (`Model/TreeView`) | – |
| cmd/codegen/grammar.go | all (`Model/Codegen`) | |
| cmd/codegen/types.go, pushtype.go, typebuilder.go | all but the Go text the methods are printed as: what it declares and does is modelled (`Model/Types`) | `strcase.ToCamel` is a parameter; sorting of types and children. `Examples/Generated` checks in the kernel that the types, accessors and walker functions the model makes of the grammar of wbnf are those of wbnf/wbnfgrammar.go, all and in the order of that file |
| cmd/codegen/walkerinterface.go | all but the Go text: which functions there are, what they call in which order (`Model/TypesWalk`) | `strings.ToUpper`, by which children are sorted, is a parameter |
| cmd/test.go | the resolver (`Model/Path`), the command `test` (`Model/Cmd`) | how flags are read, what is printed for errors, the verbose flag |
| cmd/main.go | that errors end the program with status 1 (`Model/Cmd`) | all else |
| cmd/gen.go, cmd/codegen/template.go, idents.go `IdentName` | the grammar and the start rule in the package, its functions `Grammar`, `Parse` and `ParseString` (`Model/Gen`) | how flags are read, `format.Source`, where the package is written |
| other cmd/codegen files, testutil.go, logging.go | – | all |

### Simplifications that can be seen in no theorem

* A scoped grammar within the default of a back reference that names a rule outside of it panics in Go when it is compiled and in the
  model when it is parsed.
* Concurrency: the package starts no goroutines; parsing one compiled grammar from several goroutines is not modelled, except
  that parsing does not change the parsers (they are an argument of a pure function, as the Go code writes to none of their fields).

## 4. Trusted base

* Lean 4.33.0's kernel and the axioms below; no `sorry`, `native_decide`, `bv_decide`, `implemented_by` or own axioms.
* The reading of the Go source: each model definition cites the lines it models. The model cannot be run against the Go code here.
* Go's `regexp` package satisfies the laws named in the hypotheses of a theorem.
* Go's maps, slices, strings, `strconv`, `unicode`, `path/filepath` and `github.com/arr-ai/frozen` maps behave as documented.

## 5. Checks on the theorems

`seeded/LOG.jsonl` has one line for each wrong program tried: an edit of a model definition in a scratch copy, the claim it breaks, the theorems
that no longer proved, and those tightened because they still did.

### Axioms of each property theorem

`#print axioms` of the theorems in MANIFEST.json, no others occur:

* `propext`, `Classical.choice`, `Quot.sound`: all but those below (377 theorems)
* `propext`, `Quot.sound` only: C27_new, C27_out_of_range, C29_merge_hull, C29_merge_error, C30_contains_iff, C30_contains_refl, C30_contains_trans, C30_contains_merge, C31_shown_word, C34_positions, C35_unique, C36_backquotes, C37_erase, C37_only_unique_partial, C37_all_unique_partial, C37_never_repeated, C38_collected, C43_blocks, C43_one_line, C43_injective, C44_nodes_panic, C44_grammars, C44_default, C45_walk_partial, C45_all, C49_spaces, C63_order, C63_prints, C64_line_runs, C68_unique, C68_plain, C70_quote, C72_get, C72_panics, C72_kinds, C72_leaves, C72_apart, C72_shows, C77_rune
* `propext` only: C30_contains_defined, C45_aborter, C52_stored, C68_exists, C72_steps, C72_normalize
