{"id": "C01", "title": "Consumption: a successful parse eats a prefix and nothing else", "statement": "When a compiled rule succeeds on a scanner, the scanner it leaves behind is over the same source, ends at the same place as before, and starts at or after the old start; text before the start and after the end of the scanner is never looked at or consumed.", "quantifier": "every grammar, rule, input text, scanner position, scope and sequence of random cut tokens for which the parse succeeds", "why_tests_cant": "A test fixes one grammar and one text; a mis-advanced scanner in one combinator only shows for particular nestings.", "anchors": ["parser/parser.go:seqParser.Parse", "parser/parser.go:quantParser.Parse", "parser/parser.go:oneofParser.Parse", "parser/scanner.go:Scanner.EatRegexp", "parser/scanner.go:Scanner.Skip"]}
{"id": "C02", "title": "Leaves are in order, disjoint and inside the consumed text", "statement": "In the tree of a successful parse every leaf is a slice of the input source, the leaves read left to right have non-decreasing, non-overlapping spans, and all of them lie between where the parse started and where it stopped (children of a look-ahead excepted).", "quantifier": "every grammar without external references whose patterns always set the reported capture group, every input and position", "why_tests_cant": "Span bookkeeping is threaded through mutable pointers by every combinator; a finite set of texts cannot exclude overlap for all nestings.", "anchors": ["parser/parser.go:eatRegexp", "parser/scanner.go:Scanner.Slice", "parser/parser.go:delimParser.Parse"]}
{"id": "C03", "title": "Leaf text concatenates to the consumed text", "statement": "For a grammar without .wrapRE, look-aheads or external references and whose regexps have no capture groups of their own, concatenating the text of the leaves of a successful parse gives back exactly the consumed text.", "quantifier": "every such grammar, every input, every position", "why_tests_cant": "This is the losslessness of the parser: it must hold for every grammar at once.", "anchors": ["parser/parser.go:eatRegexp", "parser/parser.go:delimParser.Parse", "parser/parser.go:tag"]}
{"id": "C04", "title": "The tree has the shape the grammar prescribes", "statement": "The tree of a successful parse conforms to the grammar: a sequence node has one child per term in order, a choice node one child and the index of a real alternative, a repetition node between Min and Max children, a delimited list alternates terms and separators, and tags are the rule name, the given name or the operator's default tag.", "quantifier": "every grammar, rule and input for which the parse succeeds", "why_tests_cant": "Consumers index into the tree (Get(0,1)...) and panic if the shape is ever different; tests see a few shapes only.", "anchors": ["parser/parser.go:tag", "parser/parser.go:seqParser.Parse", "parser/parser.go:oneofParser.Parse", "parser/parser.go:quantParser.Parse", "parser/parser.go:delimParser.Parse", "parser/parsernodes.go:Node"]}
{"id": "C05", "title": "Parse accepts exactly when nothing is left over", "statement": "Parsers.Parse returns a tree iff the rule succeeds and leaves no text; if the rule succeeds but leaves text the error is an UnconsumedInputError whose residue is exactly the unread suffix and whose Result is the tree built so far; if the rule fails, that error is returned and no tree.", "quantifier": "every compiled grammar, rule, input and externals", "why_tests_cant": "Partition of all inputs into three outcomes; a test samples one point per outcome.", "anchors": ["parser/terms.go:Parsers.ParseWithExternals", "parser/error.go:UnconsumedInput"]}
{"id": "C06", "title": "Ordered choice picks the first alternative that matches", "statement": "A choice without cut points succeeds with index i and tree v iff alternative i succeeds with v at the current position and every earlier alternative fails there; it fails iff all fail; each alternative starts from the same position and sees the same scope.", "quantifier": "every list of alternatives, position, scope and input", "why_tests_cant": "Backtracking correctness depends on what earlier alternatives did to the scanner before failing.", "anchors": ["parser/parser.go:oneofParser.Parse"]}
{"id": "C07", "title": "Repetition is greedy and bounded", "statement": "A repetition {Min,Max} that succeeds yields n items with Min <= n and (Max = 0 or n <= Max), each item parsed where the previous one stopped, and it stopped because the bound was reached or because the term fails at the stopping position; it fails only if fewer than Min items could be parsed.", "quantifier": "every term, bounds (0 = no upper bound), position and input", "why_tests_cant": "Off-by-one at the bounds and restoration of the scanner after the last failing iteration need all counts.", "anchors": ["parser/parser.go:quantParser.Parse", "parser/terms.go:Quant"]}
{"id": "C08", "title": "Look-ahead consumes nothing", "statement": "(?=t) succeeds iff t succeeds at the current position, leaves the scanner where it was, and yields a single-child node; when t fails so does the look-ahead, with the scanner where it was.", "quantifier": "every term t, position, scope and input", "why_tests_cant": "Zero-width behaviour must survive every t, including ones that consume much text before succeeding or failing.", "anchors": ["parser/parser.go:lookaheadParser.Parse"]}
{"id": "C09", "title": "Delimited lists are exactly terms joined by separators", "statement": "t:sep matches exactly what t (sep t)* matches, with an optional leading separator for ':,' and an optional trailing one for ',' after the separator; the node lists terms and separators alternately, with an Empty marker standing for the missing term before a leading or after a trailing separator.", "quantifier": "every term, separator, both flags, position and input", "why_tests_cant": "The result list is assembled by indexing an intermediate sequence tree; all four flag combinations and all lengths matter.", "anchors": ["parser/parser.go:Delim.Parser", "parser/parser.go:delimParser.Parse"]}
{"id": "C10", "title": "Associativity only changes nesting", "statement": "For t:sep, t:>sep and t<:sep the same text is consumed and the in-order list of terms and separators is the same; with two or more terms ':>' nests every earlier operator in the first child and '<:' in the last child, each nested node having exactly three children.", "quantifier": "every term, separator, flags and list length", "why_tests_cant": "The two folds index the result list from different ends; correct for n=3 does not mean correct for all odd n.", "anchors": ["parser/parser.go:delimParser.Parse"]}
{"id": "C11", "title": "The parser implements the PEG semantics of the grammar", "statement": "For grammars without cut points, the compiled parser and a declarative big-step PEG semantics of the grammar agree: it succeeds with tree v at position q iff the semantics derives (v, q), and it fails iff the semantics derives failure.", "quantifier": "every grammar, rule, position and input", "why_tests_cant": "Equivalence of an implementation and a specification over an infinite set of programs.", "anchors": ["parser/parser.go:Grammar.Compile", "parser/parser.go"]}
{"id": "C12", "title": "Random cut tokens do not influence the result", "statement": "Cut points are identified by random integers drawn during the parse. For any two runs whose drawn tokens are pairwise distinct within the run, the outcome, tree and scanner are the same; the property fails when two live tokens collide.", "quantifier": "every pair of token streams, every grammar and input", "why_tests_cant": "Depends on the random source, which a test cannot enumerate.", "anchors": ["parser/scope.go:Scope.ReplaceCutPoint", "parser/error.go:isNotMyFatalError"]}
{"id": "C13", "title": "Cut points only prune", "statement": "If a parse succeeds on a grammar with cut points then the same grammar with every cut point removed succeeds too, with the same tree and the same scanner.", "quantifier": "every grammar, input and token stream", "why_tests_cant": "A relation between two programs on every input.", "anchors": ["parser/parser.go:cutPointParser.Parse", "parser/parser.go:seqParser.Parse", "parser/scope.go:Scope.ReplaceCutPoint"]}
{"id": "C14", "title": "A cut point commits every enclosing choice and repetition", "statement": "Once a sequence has passed a cut point, a later failure inside that sequence is final for every enclosing choice or repetition: no other alternative is tried and the whole parse reports that failure. Before the cut point, failure backtracks normally.", "quantifier": "every sequence with a cut point, every enclosing context and input", "why_tests_cant": "The commitment travels through error values and scopes across arbitrarily nested combinators.", "anchors": ["parser/error.go:isFatal", "parser/error.go:isNotMyFatalError", "parser/parser.go:seqParser.Parse", "parser/parser.go:oneofParser.Parse"]}
{"id": "C15", "title": "Well-formed grammars terminate", "statement": "If no rule can reach itself without consuming text and no unbounded repetition has a term that can match the empty text, then parsing stops on every input.", "quantifier": "every well-formed grammar, rule, and input of any length", "why_tests_cant": "Termination on all inputs is not testable.", "anchors": ["parser/parser.go:quantParser.Parse", "wbnf/recursion.go:checkForRecursion"]}
{"id": "C16", "title": "Nothing stops a grammar whose parser never returns", "statement": "A repetition without upper bound over a term that matches the empty text never returns once it reaches such a match, and a left-recursive rule never returns; the checks made while compiling accept some grammars of both kinds.", "quantifier": "every fuel bound for the witness grammars", "why_tests_cant": "A hang cannot be observed by a finite test.", "anchors": ["parser/parser.go:quantParser.Parse", "wbnf/recursion.go:checkForRecursion"]}
{"id": "C17", "title": "Back references repeat the earlier text", "statement": "%ident succeeds exactly when the text at the current position starts with the concatenated leaf text of the latest value bound to ident in the same or an enclosing sequence, consumes exactly that text and yields leaves with the same texts; when ident is unbound the default is used, and without default the parse fails.", "quantifier": "every bound value, position and input (values without leading/trailing-separator Empty markers)", "why_tests_cant": "The value is any tree the grammar can produce.", "anchors": ["parser/parser.go:REF.Parse", "parser/parser.go:termFromRefVal", "parser/parser.go:nodesEqual", "parser/scope.go:Scope.GetVal"]}
{"id": "C18", "title": "Bindings made inside a term are not visible after it", "statement": "What a rule or sub-term binds for back references is visible to the later items of the same sequence and everything they call, and never outside that sequence: the outcome of a term depends only on the bindings at its start.", "quantifier": "every grammar, scope and input", "why_tests_cant": "Scopes are persistent maps copied through every call; leakage shows only in particular nestings.", "anchors": ["parser/scope.go:Scope.WithVal", "parser/parser.go:seqParser.Parse"]}
{"id": "C19", "title": "Scoped grammars follow lexical scope", "statement": "A rule name used inside a scoped grammar means the innermost enclosing definition; definitions inside braces are invisible outside them; renaming a scoped rule consistently does not change what is matched.", "quantifier": "every nesting of scoped grammars and every input", "why_tests_cant": "Rule references are linked by patching pointers across several caches; all nestings must be linked properly.", "anchors": ["parser/parser.go:ScopedGrammar.Parser", "parser/parser.go:cache.registerRule"]}
{"id": "C20", "title": "Stacks become precedence layers", "statement": "Compiling a rule r defined by a stack of n layers gives rules r, r@1 ... r@(n-1) whose terms are the layers with '@' replaced by the next layer (and by r itself in the last), no stack remains, and rules that are not stacks are untouched.", "quantifier": "every grammar and every number of layers", "why_tests_cant": "The rewriting mutates the map being iterated; must hold for every iteration order and every n.", "anchors": ["parser/parser.go:Grammar.resolveStacks", "parser/resolve.go"]}
{"id": "C21", "title": "Compile does not depend on map order", "statement": "The compiled parser behaves the same whatever order the runtime iterates the grammar map in.", "quantifier": "every permutation of the rules of a grammar", "why_tests_cant": "Go randomises the iteration order at run time; tests see a few orders.", "anchors": ["parser/parser.go:Grammar.Compile", "parser/parser.go:Grammar.resolveStacks", "parser/parser.go:ScopedGrammar.Parser"]}
{"id": "C22", "title": "Compile leaves the caller's grammar alone", "statement": "Compile does not change the grammar passed to it.", "quantifier": "every grammar", "why_tests_cant": "Aliased maps may be updated on rare paths only.", "anchors": ["parser/parser.go:Grammar.Compile", "parser/parser.go:ScopedGrammar.Parser"]}
{"id": "C23", "title": ".wrapRE surrounds every literal and regexp and is stripped from leaves", "statement": "With .wrapRE -> /{pre()post}/ every literal and regexp of the grammar and its scoped grammars matches pre, itself, post in order, the leaf is only the inner part, literals listed as exclusions are matched bare, and back references are matched bare.", "quantifier": "every grammar, wrapper and input", "why_tests_cant": "The wrapper is spliced textually into every pattern.", "anchors": ["parser/parser.go:applyWrapRE", "parser/parser.go:S.Parser", "parser/parser.go:RE.Parser"]}
{"id": "C24", "title": "Well-formed grammars never make the parser panic", "statement": "If every rule reference resolves, no rule or cut point is a bare reference hidden under a name, stacks are resolved, regexps compile and have at most one group of their own, then compiling and parsing never panic on any input.", "quantifier": "every such grammar and every input", "why_tests_cant": "Absence of a panic on all inputs.", "anchors": ["parser/parser.go:ruleParser.Parse", "parser/parser.go:eatRegexp", "parser/scanner.go:Scanner.EatRegexp", "parser/parser.go:delimParser.Parse"]}
{"id": "C25", "title": "On failure the scanner points between the start and the end", "statement": "After a failed parse the caller's scanner is over the same source with the same end, and starts between where the parse began and the end of the text.", "quantifier": "every grammar and input for which the parse fails", "why_tests_cant": "Error positions are restored differently by each combinator.", "anchors": ["parser/parser.go:seqParser.Parse", "parser/parser.go:oneofParser.Parse"]}
{"id": "C26", "title": "Unparse writes back the leaves", "statement": "For trees produced by parsing with a grammar of literals, regexps, sequences, choices, repetitions, names, rules and plain delimited lists, Grammar.Unparse writes the concatenation of the leaf texts, so that unparse after parse gives back the consumed text.", "quantifier": "every such grammar and input", "why_tests_cant": "Round trip over all grammars.", "anchors": ["parser/unparse.go", "parser/terms.go:Grammar.Unparse"]}
{"id": "C27", "title": "Scanner slices compose", "statement": "Slice, Skip and Eat compose: eating i then j bytes is eating i+j, the text of a scanner is the text eaten followed by the text left, and Slice(a,b) of an in-range scanner is bytes a..b of its text.", "quantifier": "every text, scanner and in-range offsets", "why_tests_cant": "Universal algebraic law over offsets.", "anchors": ["parser/scanner.go:Scanner.Slice", "parser/scanner.go:Scanner.Skip", "parser/scanner.go:Scanner.Eat", "parser/scanner.go:stringSource.slice"]}
{"id": "C28", "title": "Position is the line and column of the offset", "statement": "Position returns line = 1 + number of newlines before the offset and column = distance to the last newline before it, and (line, column) determines the offset uniquely; offsets out of range make it panic or answer for the wrong text.", "quantifier": "every text and offset", "why_tests_cant": "Correct at samples does not give injectivity.", "anchors": ["parser/scanner.go:Scanner.Position", "parser/scanner.go:lineColumn"]}
{"id": "C29", "title": "MergeScanners returns the hull", "statement": "Merging scanners of one source gives the smallest scanner that contains them all, independent of order and of duplicates; merging none or scanners of different sources is an error.", "quantifier": "every list of scanners", "why_tests_cant": "Order independence over all permutations.", "anchors": ["parser/scanner.go:MergeScanners"]}
{"id": "C30", "title": "Contains is a partial order", "statement": "Contains is reflexive and transitive on all scanners and antisymmetric on scanners of one source, and holds iff the byte interval of the argument is inside the receiver's.", "quantifier": "every pair and triple of scanners", "why_tests_cant": "Laws over all triples.", "anchors": ["parser/scanner.go:Scanner.Contains"]}
{"id": "C31", "title": "AST conversion keeps every leaf", "statement": "FromParserNode keeps every leaf of the parse tree of a conforming tree exactly once and adds none.", "quantifier": "every grammar and conforming tree", "why_tests_cant": "The leaves are spread over maps keyed by names computed from the grammar.", "anchors": ["ast/from_parsernode.go:FromParserNode", "ast/from_parsernode.go:fromParserNode"]}
{"id": "C32", "title": "One or many is decided by the grammar, not the input", "statement": "In the AST of a parse, a name's children are stored as One exactly when the grammar allows at most one occurrence of that name in the rule, and as Many otherwise, whatever the input; the conversion never finds a second child where the grammar promised one.", "quantifier": "every grammar and conforming tree", "why_tests_cant": "User code type-asserts One/Many; must hold for every input.", "anchors": ["ast/counter.go", "ast/from_parsernode.go:Branch.add", "ast/from_parsernode.go:Branch.one"]}
{"id": "C33", "title": "ToParserNode undoes FromParserNode", "statement": "For trees parsed with a grammar in which no name is shared by two places of a rule under optional or repeated terms, ToParserNode applied to FromParserNode returns the original tree.", "quantifier": "every such grammar and input", "why_tests_cant": "Round trip over all grammars and trees.", "anchors": ["ast/to_parsernode.go:ToParserNode", "ast/from_parsernode.go:FromParserNode"]}
{"id": "C34", "title": "ContentEquals is an equivalence", "statement": "ContentEquals ignores positions, is reflexive, symmetric and transitive.", "quantifier": "every pair and triple of AST nodes", "why_tests_cant": "Laws over all nodes.", "anchors": ["ast/node.go:Branch.ContentEquals"]}
{"id": "C35", "title": "A node's scanner covers exactly its leaves", "statement": "Branch.Scanner of a node of a parse is the hull of its leaves.", "quantifier": "every AST node", "why_tests_cant": "Merging iterates a map in random order.", "anchors": ["ast/node_string.go:Branch.Scanner", "parser/scanner.go:MergeScanners"]}
{"id": "C36", "title": "String literals denote what they are written to denote", "statement": "Quoting any text with the documented escapes and reading it back in a grammar gives the same text; backquoted text is taken literally with doubled backquotes standing for one.", "quantifier": "every byte string", "why_tests_cant": "Round trip over all strings.", "anchors": ["wbnf/compile.go:parseString"]}
{"id": "C37", "title": "Automatic cut points go only on globally unique literals", "statement": "Compiling a wbnf grammar puts a cut point only on literals that occur exactly once in the grammar, changes nothing else, and erasing the cut points gives back the original grammar.", "quantifier": "every grammar", "why_tests_cant": "Uniqueness is a whole-grammar property.", "anchors": ["wbnf/cutpoints.go:insertCutPoints", "wbnf/cutpoints.go:findUniqueStrings", "wbnf/cutpoints.go:fixTerm"]}
{"id": "C38", "title": "Macro calls are simultaneous substitution", "statement": "Expanding a macro call replaces each parameter by its argument, all at once, never re-expanding inside arguments, and leaves other identifiers alone.", "quantifier": "every macro body and argument list", "why_tests_cant": "Capture and ordering problems appear only with particular names.", "anchors": ["wbnf/compile.go:expandMacro"]}
{"id": "C39", "title": "The recursion check reports only real left recursion", "statement": "When compiling reports recursion, the reported chain is a chain of rules each of which can call the next before consuming anything, back to itself; direct and two-rule left recursion through sequences and choices is always reported.", "quantifier": "every grammar and every map order", "why_tests_cant": "All rule graphs and all map orders.", "anchors": ["wbnf/recursion.go:checkForRecursion", "wbnf/recursion.go:findPaths"]}
{"id": "C40", "title": "Validated grammars have no dangling rule references", "statement": "If validation reports no error then every rule referred to at the top level of the grammar is defined, no rule is defined twice and no quantifier has its bounds swapped.", "quantifier": "every wbnf grammar tree", "why_tests_cant": "For all grammars.", "anchors": ["wbnf/validation.go:validate"]}
{"id": "C41", "title": "Imports are merged once and in order", "statement": "Loading a grammar file with imports gives the statements of the imported files and its own, each file being read at most once per path; loading terminates when the import graph is acyclic.", "quantifier": "every acyclic import graph", "why_tests_cant": "All graphs.", "anchors": ["wbnf/compile.go:loadGrammarFile", "wbnf/compile.go:mergeGrammarNodes"]}
{"id": "C42", "title": "Generated grammar literals denote the grammar", "statement": "The Go composite literal written by the code generator for a grammar evaluates to that grammar.", "quantifier": "every grammar built from a wbnf source", "why_tests_cant": "All grammars and all literal contents.", "anchors": ["cmd/codegen/grammar.go:walkTerm", "cmd/codegen/grammar.go:safeString"]}
{"id": "C43", "title": "Printed trees have one line per node with the right indentation", "statement": "gotree's Print writes one block per node in depth-first order, whose prefix encodes the ancestors' last-child flags, so that the tree can be read back from the text when labels have no line breaks.", "quantifier": "every tree", "why_tests_cant": "All shapes.", "anchors": ["gotree/gotree.go"]}
{"id": "C44", "title": "Diffs are empty exactly for equal structures", "statement": "The tree and term differ reports no difference iff tags, extras and structure are equal.", "quantifier": "every pair of trees and every pair of terms", "why_tests_cant": "All pairs.", "anchors": ["parser/diff/nodes.go", "parser/diff/terms.go"]}
{"id": "C45", "title": "Grammar walkers visit every node once in order and honour abort", "statement": "The generated walker calls the callbacks for each node of the grammar AST exactly once in order, skips the children of a node for which the callback says so, and stops entirely on abort.", "quantifier": "every grammar AST and set of callbacks", "why_tests_cant": "All callback behaviours.", "anchors": ["wbnf/wbnfgrammar.go:WalkerOps"]}
{"id": "C46", "title": "Context shows the source around the position", "statement": "Scanner.Context with NoLimit shows the whole source with the scanner's text highlighted; with a line limit it shows the limit many complete lines before and after, unaltered.", "quantifier": "every text, scanner and limit", "why_tests_cant": "texts and limits are unbounded; off-by-one errors at line boundaries show only for particular layouts", "anchors": ["parser/scanner.go:Scanner.Context"]}
{"id": "C47", "title": "Parsing is local: only the visible slice matters", "statement": "The outcome of a parse depends only on the text visible in the scanner: parsing the same text inside a different source, or at a different offset, gives the same outcome and the same tree with all leaves moved by the same distance.", "quantifier": "every grammar whose patterns always set the reported group, every text, and every pair of surrounding texts", "why_tests_cant": "quantifies over all surroundings of all inputs", "anchors": ["parser/scanner.go:Scanner", "parser/parser.go:eatRegexp"]}
{"id": "C48", "title": "A failed choice reports the furthest point reached", "statement": "When every alternative of a choice fails without a cut, the scanner handed back stands at the furthest position any of the alternatives had reached when it failed.", "quantifier": "every choice, grammar, input and random tokens", "why_tests_cant": "Quantifies over all lists of alternatives and all the ways each of them can fail.", "anchors": ["parser/parser.go:oneofParser.Parse", "parser/parser.go:Oneof"]}
{"id": "C49", "title": "Regexp literals drop whitespace and read \\_ as a space", "statement": "In a regexp literal of a grammar whitespace is dropped and each unescaped \\_ denotes a space; every other byte is handed on to the regexp engine as written, and /{ } are taken off.", "quantifier": "every text of a regexp literal", "why_tests_cant": "The replacement runs as two regexp passes that skip overlapping matches; whether two passes suffice must hold for all texts.", "anchors": ["wbnf/compile.go:buildAtom", "wbnf/compile.go:escapedSpaceRE", "wbnf/compile.go:whitespaceRE"]}
{"id": "C50", "title": "Generated grammar literals do not depend on map order", "statement": "The Go source written for a grammar is the same byte for byte each time it is generated, whatever order Go iterates over its maps in.", "quantifier": "every grammar and every order of its rules and of those of grammars in braces", "why_tests_cant": "Map iteration order is random; all orders at all nesting levels must give the same text.", "anchors": ["cmd/codegen/grammar.go:MakeGrammarString"]}
{"id": "C51", "title": "A wbnf source denotes the grammar it is written to denote", "statement": "NewFromAst on a source without macro calls gives exactly the grammar the source denotes: `|` gives the alternatives in order, `>` the layers in order, juxtaposition the sequence, braces the local rules, `name=` the name, `*`, `?`, `+`, `{lo,hi}` the repetition with these bounds, `:`, `:>`, `<:` the list with that associativity and with the leading or trailing separator allowed exactly if a comma stands there; literals, regexps, references, externals, look-aheads and `()` what they are; of two productions for a rule the later; several quantifiers are applied from the last to the first. Only cut points are added. Every source whose literals and bounds can be read denotes exactly one grammar, and every grammar without explicit cut points and one-element sequences has a source that denotes it.", "quantifier": "for all syntax trees of sources without macro calls, and for all grammars that can be written", "why_tests_cant": "Sources nest to any depth and the constructs combine freely; a wrong order of quantifiers or a swapped flag shows only in particular combinations.", "anchors": ["wbnf/compile.go:NewFromAst", "wbnf/compile.go:buildGrammar", "wbnf/compile.go:buildProd", "wbnf/compile.go:buildTerm", "wbnf/compile.go:buildNamed", "wbnf/compile.go:buildQuant", "wbnf/compile.go:buildAtom", "parser/terms.go:NewAssociativity"]}
{"id": "C52", "title": "First, All and Choice tell what was parsed", "statement": "On the AST of a parse, All(n, name) lists the children under that name in the order of the text, whether they are stored as One or as Many; First(n, name) is the first of them or nil; Choice(n) is the index of the first alternative chosen in the rule, and -1 if none was; none of them panics.", "quantifier": "every grammar, input and name", "why_tests_cant": "User code walks the AST with these helpers; they must not depend on how many children the input happens to have.", "anchors": ["ast/helpers.go:First", "ast/helpers.go:All", "ast/helpers.go:Choice", "ast/from_parsernode.go:fromParserNode"]}
{"id": "C53", "title": "Parsing a wbnf source always ends with a tree or an error", "statement": "wbnf.Parse and wbnf.ParseString, given any text at all, run to completion and return either a tree or an error: the grammar of grammars is not left recursive, has no empty loops, refers to no missing rule and uses no regexp the parser cannot handle. The text is accepted exactly when the grammar of grammars denotes a tree for it.", "quantifier": "every text, every regexp engine that accepts the regexps of the grammar of grammars, every source of random numbers", "why_tests_cant": "The texts are unboundedly many, and a hang or panic needs just one of them; termination depends on every way through sixteen mutually recursive rules.", "anchors": ["wbnf/wbnfgrammar.go: Grammar, Parse, ParseString", "parser/terms.go: Parsers.Parse"]}
{"id": "C54", "title": "The nodes of a parsed wbnf source have what their accessors promise", "statement": "wbnf.Parse of any text returns an error or a GrammarNode whose typed accessors (OneStmt, AllTerm, OneOp, Choice, ...) can be used as the compiler uses them: no accessor panics, no child the grammar requires is nil, exactly one of the alternatives of an atom, a statement and a quantifier is there, and the texts at the leaves are tokens of their kind (identifiers are names, bounds are digits, strings are quoted, operators are operators of wbnf).", "quantifier": "every text, every regexp engine that matches the regexps of the grammar of grammars as Go's does", "why_tests_cant": "User code and the compiler dereference what the accessors return without checking; a nil needs just one unusual source among unboundedly many.", "anchors": ["wbnf/wbnfgrammar.go: Parse, GrammarNode, StmtNode, ProdNode, TermNode, NamedNode, AtomNode, QuantNode, PragmaNode", "ast/from_parsernode.go: FromParserNode", "ast/helpers.go: First, All, Which, Choice"]}
{"id": "C55", "title": "Compile, given the text of a grammar, returns the parsers the text denotes", "statement": "wbnf.Compile of a text returns parsers exactly if the text parses, its imports can be read, the statements together are valid, and the grammar they denote compiles; the parsers it returns accept and return exactly what that grammar denotes. If the imports, macro calls and aliases of rules do not go round in circles Compile always returns: parsers, or an error for a text that is not accepted. It does not panic.", "quantifier": "every text, every set of files to import from, every regexp engine that matches the regexps of the grammar of grammars as Go's does", "why_tests_cant": "It is the composition of lexing, parsing, import, validation, macro expansion and compilation over unboundedly many texts; a test settles one text.", "anchors": ["wbnf/compile.go: Compile, MustCompile, NewFromAst, makeGrammar, loadGrammarFile", "wbnf/validate.go: validate", "wbnf/wbnfgrammar.go: Parse", "parser/terms.go: Grammar.Compile"]}
{"id": "C56", "title": "Comments do not change what a source compiles to", "statement": "Adding or removing comments between the statements of a source changes neither the errors Compile reports (of loading and of validation) nor the parsers it returns, nor, for comments in braces, the grammar that is denoted; a comment of any length is accepted wherever a statement may begin.", "quantifier": "every pair of sources that differ only in comments, every set of files to import from", "why_tests_cant": "Comments can be anywhere in unboundedly many sources, and each of import, validation and compilation walks over them.", "anchors": ["wbnf/compile.go: Compile, NewFromAst, buildGrammar, makeGrammar", "wbnf/validate.go: validate", "wbnf/wbnfgrammar.go: COMMENT"]}
{"id": "C57", "title": "The node Parse returns for a wbnf text is a node of that text", "statement": "If Parse accepts a wbnf text, then the words that its node is written with (names, literals, operators, brackets, in the order and with the precedence of the notation) are, with white space before, between and after them, exactly the text. So two texts with the same node differ in white space only, and in what the node does not record.", "quantifier": "every text that Parse accepts, every regexp engine that matches the regexps of the grammar of grammars as Go's does", "why_tests_cant": "The sources are unboundedly many and unboundedly nested; a dropped or misplaced token would show only in some of them.", "anchors": ["wbnf/wbnfgrammar.go: Parse, grammarGrammarSrc, GrammarNode, StmtNode, TermNode, AtomNode, QuantNode", "ast/from_parser.go: FromParserNode", "parser/terms.go: delim, quant, seq, oneof"]}
{"id": "C58", "title": "The types generated for a grammar can read every AST of the grammar", "statement": "The code generator makes a Go type for every rule, with accessors for the names of its children. For every input the rule accepts, each child of the AST node that has a name is returned by an accessor of the rule's type, and each node that an accessor returns, wrapped in the type it returns, can be read in the same way, down to the tokens. These accessors do not panic.", "quantifier": "every grammar that the code generator accepts, every input its parsers accept, every choice of its random numbers, every naming function for Go identifiers", "why_tests_cant": "Grammars and their inputs are unboundedly many; a type that lacks an accessor, or that wraps the wrong node, shows only for some of the shapes of rules, and only when an input has that child.", "anchors": ["cmd/codegen/types.go: MakeTypes, goType, namedRule, namedToken, unnamedToken, stackBackRef, backRef, choice, basicRule, rule", "cmd/codegen/pushtype.go: createOrAddParent, checkForDupes", "cmd/codegen/typebuilder.go: makeTypesFromGrammar, walkGrammar, walkTerm, makeLeafType"]}
{"id": "C59", "title": "Where there may be several children of a name, the generated type has an accessor for all of them", "statement": "If the AST node of a rule, or of a named group in it, may have more than one child of a name, then the Go type generated for it has an accessor that returns all children of that name: the list in the AST is returned as a whole and no child is unreachable through the generated code.", "quantifier": "every grammar that the code generator accepts, every rule, every named group, every name of a child, every input its parsers accept, every choice of the random numbers with which the code generator tells alternatives apart", "why_tests_cant": "How often a name may occur depends on how quantifiers, separators, alternatives, stacks and named groups are nested; each nesting has its own path through the counting in the code generator, and only an input with several children shows that an accessor is missing.", "anchors": ["cmd/codegen/types.go: countManager, pushSingleNode, merge, forceMany", "cmd/codegen/pushtype.go: createOrAddParent, checkForDupes, getNewCount", "cmd/codegen/typebuilder.go: walkTerm, handleSeq, makeLeafType"]}
{"id": "C60", "title": "The code generator does not panic, and generated code declares what it uses, once", "statement": "For every grammar that compiles, the code generator makes types without a panic. No Go type is declared twice, and every rule has its type. Every type that an accessor returns is declared, every accessor belongs to a declared type, and no type has two accessors of the same name, so that the generated code is accepted by a Go compiler as far as types and accessors go.", "quantifier": "every grammar, every naming function for Go identifiers, every choice of the random numbers of the code generator", "why_tests_cant": "Accessors of the same name and types that are missing come from how names are nested and repeated in grammars and from how Go names are made of them; a sample of grammars does not show that no combination is rejected by the Go compiler.", "anchors": ["cmd/codegen/types.go: MakeTypes, GoName, GoTypeName, goType.String, namedRule.String, stackBackRef.String, backRef.String", "cmd/codegen/pushtype.go: createOrAddParent, checkForDupes", "cmd/codegen/typebuilder.go: walkGrammar, walkTerm, makeLeafType, mergeGrammarRules"]}
{"id": "C61", "title": "The walker generated for a grammar visits every node, once, in a fixed order", "statement": "For every grammar, all that the functions of the generated walker use is declared with the right type. A walk ends, whatever the node. It enters a node, then visits the children that the accessors of its type return, sorted by name, then exits it; a token is only entered. It does not go into a node whose Enter callback says to leave it, and makes no call after a callback that says to stop. Over the AST of a parsed text with callbacks that return nil, exactly the nodes in the AST are entered, each with the type generated for it.", "quantifier": "every grammar, every naming function for Go identifiers, every text and its AST, every set of callbacks with any state and any stoppers, every point at which they stop", "why_tests_cant": "Which children are reached depends on the grammar, on the counts in the generated types and on the shape of the AST, and the callbacks are arbitrary code that may stop anywhere; tests of one generated walker show nothing about the walkers of other grammars.", "anchors": ["cmd/codegen/walkerinterface.go: GetVisitorWriter, VisitorWriter.String, getTypeWalker, getWalkerFuncs", "cmd/codegen/types.go: CallbackData, goType.String", "cmd/gen.go: the generation of types before the walker"]}
{"id": "C62", "title": "External handlers and escapes are used as their keys say", "statement": "ParseWithExternals uses a map of handlers in the same way whatever the order in which the map is gone through. It panics at once exactly if the map has two escapes, or one whose key has no () or whose delimiters are not regexps; otherwise each handler is called under its own key and the escape has the delimiters of its key. If the opening delimiter of the escape is nowhere in the text, a parse is as if there were no escape. Where it is, any term of any grammar that returns has read exactly what the handler reads after the delimiter and the closing delimiter; it fails if the handler fails or if the closing delimiter is missing. With handlers whose trees are over the text they were given, all leaves with text of any result are inside of the text; handlers that call Parse of a grammar are such handlers.", "quantifier": "all maps of handlers, grammars, texts, scanners, regexp engines and handlers", "why_tests_cant": "The order of a map is random, handlers are arbitrary functions, and an escape may be anywhere in a text and meet any term.", "anchors": ["parser/scope.go: WithExternals, GetExternal", "parser/parser.go: parseEscape, ExtRef.Parse", "parser/terms.go: ParseWithExternals"]}
{"id": "C63", "title": "The text of an AST tells which AST it is", "statement": "String of an AST whose names and data are identifiers (as those of grammars are) does not depend on the order in which the maps are gone through, and two ASTs have the same text exactly if they have the same names, each with one child or a list, in the same order, and leaves with the same offsets and texts, whatever is in these texts. It does not panic if all leaves have a text. The AST of every parse of a grammar whose names are identifiers is such an AST.", "quantifier": "all ASTs of any depth, with any texts in their leaves; all grammars, texts and regexp engines", "why_tests_cant": "The texts of leaves are arbitrary and may contain the punctuation, newlines and quotes that the format uses; the layout depends on how deep and wide all parts are; the order of a map is random.", "anchors": ["ast/node_string.go: Leaf.String, Branch.String, One.String, Many.String, Extra.String", "ast/node.go: narrow"]}
{"id": "C64", "title": "Tree views show all of an AST, in order", "statement": "BuildTreeView shows every leaf and every empty node of the AST exactly once, with siblings in the order of the first leaf below each; it does not panic if names do not begin with a number. A node with only one child shares a line with it (if the child has only one too); the line has the names in order, and dots where a name is repeated. The text depends neither on the order of the maps nor on how the sort treats equal items, if no two ends are at the same place. For the AST of a parse in which every rule leaves text, the view read from the top to the bottom shows the leaves of the parse from left to right.", "quantifier": "all ASTs of any depth; all orders of the maps; all sorts by rank; all grammars, texts and regexp engines", "why_tests_cant": "The items come from a map in random order and go through a sort that is not stable, by ranks that are parsed back from the texts of leaves; whether lines are joined depends on the whole tree below.", "anchors": ["ast/treeview.go: BuildTreeView, fromAst, collapseNodeText", "gotree/gotree.go: SortItems, Rank"]}
{"id": "C65", "title": "Imports are looked for relative to the file they are in", "statement": "The commands look for an imported file by going along the path of the import from the directory of the file with the import (the current directory if it is read from the standard input; a slash at the start means nothing). Paths are cleaned without changing where they lead to, and two cleaned paths are equal exactly if they lead to the same place from everywhere, so that no file is read twice under an absolute path.", "quantifier": "all paths of grammars and of imports, all current directories, all trees of files without symbolic links", "why_tests_cant": "Depends on how path elements, `..` and empty elements combine, for paths of any length, and on every import graph; the examples in the repository import only one level deep.", "anchors": ["cmd/test.go: resolver.Resolve, makeResolver", "wbnf/compile.go: ImportResolver, makeGrammar, loadGrammarFile"]}
{"id": "C66", "title": "The status of `wbnf test` tells whether the text matches", "statement": "`wbnf test --grammar=g --start=r` prints the AST of the text and exits with status 0 if rule r of the grammar in file g (with what it imports) matches all of the text; if the rule matches only a beginning, it prints the AST of that and exits with status 1; in all other cases - the rule does not match, the grammar has no such rule or does not compile, a file cannot be read - it exits with status 1 and prints no AST. Without a grammar the text itself is taken for one, and the status tells whether it compiles.", "quantifier": "all texts, all grammars and trees of files without macro calls, all rules, all random numbers that are distinct", "why_tests_cant": "Scripts that call the command rely on its status for every text and every grammar; the outcome goes through the compiler, the parser, the AST and the printers, which unit tests only try one at a time on a few inputs.", "anchors": ["cmd/test.go: test, loadTestGrammar, testWbnfFile", "cmd/main.go: main", "wbnf/compile.go: Compile", "ast/from_parsernode.go: FromParserNode"]}
{"id": "C67", "title": "The package written by `wbnf gen` parses what the grammar file says", "statement": "For a grammar file that compiles, `wbnf gen --grammar=g --start=r` writes a Go package whose Parse (and ParseString) returns a node exactly if rule r of the grammar in file g (with what it imports) matches all of the input, and then the node is the AST of the match; it returns an error exactly if the rule does not match or leaves some of the input. It does the same as a program that compiles the file itself with wbnf.Compile, parses with it and calls ast.FromParserNode. Nothing is written for a grammar that cannot be read or does not compile.", "quantifier": "all inputs, all grammars and trees of files that can be written as Go source, all rules, all random numbers that are distinct", "why_tests_cant": "Users ship the generated package instead of the grammar; that it accepts the same inputs and gives the same ASTs goes through the text of the literal, the order of maps, the layers of stacks and compiling once more, for every grammar and input.", "anchors": ["cmd/gen.go: gen", "cmd/codegen/template.go: outFileTemplate", "cmd/codegen/grammar.go: MakeGrammarString", "cmd/codegen/idents.go: IdentName", "ast/from_parsernode.go: FromParserNode"]}
{"id": "C68", "title": "A grammar with macros is the grammar with the calls written out", "statement": "Compiling a grammar that defines and calls macros gives the same grammar as writing, in place of every call (also those in arguments of calls, in bodies of macros, in look-aheads and in braces), the body of the macro in parentheses with the arguments for the parameters. If the macros that are called are defined with that number of parameters and do not call themselves, it can be written out, in one way.", "quantifier": "all grammars with any number of macros, calls nested to any depth in each other and in the bodies of macros", "why_tests_cant": "Macros calling macros with arguments that call macros give unboundedly many ways to nest; each is expanded after its body was built, with the arguments built again at each use.", "anchors": ["wbnf/compile.go: expandMacro, buildAtom, NewFromAst", "wbnf/cutpoints.go: fixTerm"]}
{"id": "C69", "title": "Whatever is written in the notation is read as what it spells", "statement": "A text made of the words of a grammar in the notation of wbnf, with any white space between them, or none where that does not make other words, is accepted by Parse, and the node it returns is that grammar, whatever the white space is. So no such text is refused, precedences come out as documented, and the same words never mean two grammars.", "quantifier": "all grammars in the notation (of any size and nesting), all ways to put white space between their words, all engines that find tokens", "why_tests_cant": "There are infinitely many grammars and layouts; a test shows some text is read well, not that ordered choice, greedy repetition or a cut never takes a wrong turn on a text of the notation.", "anchors": ["wbnf/wbnfgrammar.go: Grammar, Parse", "examples/wbnf.wbnf", "parser/parser.go: oneofParser.Parse, quantParser.Parse, delimParser.Parse, sequenceParser.Parse"]}
{"id": "C70", "title": "The text of a grammar is read back as that grammar", "statement": "String of a Grammar returns a text that Parse accepts, and the grammar compiled from it is the one it is the text of; different grammars have different texts; the text is the same on every run, whatever order Go goes through the map in; String does not panic.", "quantifier": "all grammars (terms of any kind nested to any depth, rules in any order), all orders of map iteration", "why_tests_cant": "Whether a text needs parentheses or separators depends on how terms are nested, in unboundedly many ways; the order of a map changes from run to run.", "anchors": ["parser/terms.go: Grammar.String, Quant.String, Delim.String, Seq.String, Oneof.String, Stack.String, ScopedGrammar.String, join", "wbnf/compile.go: Compile", "wbnf/wbnfgrammar.go: Parse"]}
{"id": "C71", "title": "The package initializes: the grammar of grammars describes itself", "statement": "Importing package wbnf never panics. The grammar of grammars that is embedded as a text in its own notation is compiled without error by the parsers made from the grammar literal, the grammar it denotes is equal to that literal (so the check at initialization passes), and it can be compiled again. Core() and Grammar() then do the same with every rule and every input.", "quantifier": "all regexp engines with the properties assumed of regexp, all orders in which maps are ranged over, all random draws that are distinct, all rules and inputs", "why_tests_cant": "A test run initializes the package once, with one order of maps and one series of draws, and compares two parsers on the inputs that were thought of; that they agree on every input needs a proof.", "anchors": ["wbnf/grammar.go: core, Core", "wbnf/wbnfgrammar.go: grammarGrammarSrc, Grammar", "wbnf/compile.go: unfakeBackquote, MustCompile, Compile", "parser/diff/terms.go: Grammars", "parser/parser.go: Grammar.Compile, ScopedGrammar.Parser"]}
{"id": "C72", "title": "The accessors of parse trees find what is at a path, and nothing else", "statement": "Get of a node returns the element the path leads to, each number being the position of a child, and panics exactly if the path leads out of the tree; GetNode, GetScanner and GetString return the same for elements of the right kind and panic for others. A path may be walked in steps, and may go on with the numbers below Count. Every leaf is found by some path. Of two paths to leaves of a tree that Parse returned for a grammar without look-ahead and external references, whose patterns report their group, the one that turns off to the left leads to the text that comes first. Trees of which the accessors show the same are the same, and Normalize returns the tree unchanged.", "quantifier": "all trees of any depth and width, all paths (also with negative numbers); for the order: all grammars, inputs and draws as in C02", "why_tests_cant": "There are unboundedly many trees and paths; that paths are ordered as the text is depends on every grammar and input.", "anchors": ["parser/parsernodes.go: Node.Get, Node.GetNode, Node.GetScanner, Node.GetString, Node.Count, Node.Normalize", "parser/parser.go: Parsers.Parse"]}
{"id": "C73", "title": "The text of a parse error tells every failure that led to it", "statement": "Error of an error that Parse returns for a text it refuses returns, always the same text, and shows there, line by line, what the error says and what every error and note says that led to it, at any depth; for every literal or pattern that was not found it notes what was expected and the text at the place where it was not found.", "quantifier": "all grammars, all texts, all handlers of external references and escapes, errors caused by errors to any depth and width", "why_tests_cant": "Causes are closures that are called when the text is asked for, nested to any depth, so which of them return and what they show depends on every way a grammar can fail on a text.", "anchors": ["parser/error.go: ParseError.Error, ParseError.walkErrors, newParseError", "parser/parser.go: sParser.Parse, reParser.Parse, seqParser.Parse, quantParser.Parse, oneofParser.Parse, refParser.Parse", "gotree/gotree.go: Print"]}
{"id": "C74", "title": "The error for text left over says where it begins and shows it", "statement": "If a rule matches the beginning of a text and leaves the rest, the text of the error that Parse returns names the file, line and column where the rest begins, shows the line before and what is matched of that line, and shows all of the rest.", "quantifier": "all grammars, texts, file names, and all places where a rule may stop", "why_tests_cant": "Where a rule stops depends on grammar and text, and line, column and the lines shown are computed from the newlines before it; boundary cases (start of a line, first line, end) are unbounded in number.", "anchors": ["parser/error.go: UnconsumedInputError.Error", "parser/scanner.go: Scanner.Context, Scanner.Position", "parser/terms.go: Parsers.ParseWithExternals"]}
{"id": "C75", "title": "Unparse to a writer that may fail", "statement": "Unparse writes the same text in the same order to any io.Writer. If a write fails, Unparse returns an error and writes nothing more, so the writer has been given a beginning of the text; if none fails, it returns no error and the writer has been given all of it. The number returned is the number of bytes written.", "quantifier": "all grammars, all trees Unparse does not panic on, all writers whose answers may depend on everything written before", "why_tests_cant": "A writer may fail at any write, and what follows a failure depends on how deep in the tree it happens; both are unbounded.", "anchors": ["parser/unparse.go: unparse, Seq.Unparse, Delim.Unparse, Quant.Unparse, Named.Unparse, S.Unparse", "parser/terms.go: Parsers.Unparse, Grammar.Unparse"]}
{"id": "C76", "title": "The faults validation reports are those there are", "statement": "If no name is defined twice and all bounds of quantifiers are ints, the error for a grammar text has a message of a kind (unknown rule, invalid regexp, clashing name, bounds in the wrong order, name given twice, not a macro, wrong number of arguments, recursion) exactly if there is a fault of that kind where validation looks: no fault hides another and none is made up. There is one message for each fault, in the order of the text. If a name is defined twice, that alone is reported, with the names that are. Validation panics exactly if no name is defined twice and a bound is not an int.", "quantifier": "all syntax trees of grammar texts, any regexp package, any order of maps", "why_tests_cant": "Faults can occur anywhere in texts of any depth and in any combination; tests have one fault each.", "anchors": ["wbnf/validation.go: findDefinedRules, validate, validator.validateTerm, validator.validateNamed, validator.validateAtom, validator.validateQuant, validator.validateMacro, validator.validateMacroCall"]}
{"id": "C77", "title": "%q tells parse trees apart", "statement": "Printing two parse trees with %q gives the same text exactly if they have the same tags, the same numbers of alternatives and directions of lists, the same children in the same order, and leaves with the same texts: nothing but the offsets of the leaves is lost, although %v does lose more. This holds for tags without [ or a character beginning as ║ does, that do not begin with a quote, { or ], and choices of at most 128 alternatives; with other tags it can fail.", "quantifier": "all pairs of parse trees with such tags, of any depth and width, and whatever is printed after them", "why_tests_cant": "It is about all pairs of trees and all texts of leaves, quotes and brackets among them; tests compare the texts of a few trees.", "anchors": ["parser/parsernodes.go: Node.Format", "parser/scanner.go: Scanner.Format", "parser/terms.go: Associativity.String, Choice"]}
