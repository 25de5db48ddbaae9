import Verif.Model.Cmd
import Verif.Spec.Expand
import Verif.Spec.Import
import Verif.Spec.Top
import Verif.Spec.Validate
import Verif.Model.Recursion

/-!
# What `wbnf test` is run with
-/

namespace Wbnf

/-- The file, with what it imports, is a valid source that denotes the grammar `G` (in the sense of C55), with the calls of
macros expanded; `H` is what `G`, with cut points and its stacks resolved, is compiled as. -/
def GrammarFile (T : Tools) (W : World) (file : Str) (G H : Grammar) : Prop :=
  ∃ text g ss g', W.read file = some text ∧ T.parse text = some g ∧ (cmdFiles W.read T.parse file).Includes [] g ss ∧
    Unfolds (.mk ss) g' ∧ Valid T.reOK (.mk ss) ∧ (GrammarN.mk ss).Ints ∧ badRoutes T.ord (.mk ss) = [] ∧
    MeansGrammar g' G ∧ ∃ m ps, (insertCutPoints G).compile T.engine m = .ok ps ∧ (insertCutPoints G).resolveStacks = some H

/-- The text that is given: that of the file, or the standard input if no file or `-` is named. -/
def GivenText (W : World) (file text : Str) : Prop :=
  (file ∈ [[], str "-"] ∧ W.stdin = some text) ∨ (file ∉ [[], str "-"] ∧ W.read file = some text)

/-- The AST of the tree is `b`. -/
def HasAst (H : Grammar) (v : Tree) (b : Branch) : Prop := ∃ N H', ∀ n, N ≤ n → fromParserNode n H v = .ok (H', b)

/-- The text that the flags ask for. -/
def astView (T : Tools) (f : TestFlags) (b : Branch) : Option Str :=
  if f.tree then buildTreeView T.quote T.sort T.room f.start (.branch b) true else (Ast.branch b).string T.quote

/-- The command does this in every long enough run, whatever distinct random numbers it draws (`K` of them). -/
def TestDoes (T : Tools) (W : World) (f : TestFlags) (r : CmdRes) : Prop :=
  ∃ N K, ∀ ρ, DistinctDraws noExternals ρ K → ∀ n, N ≤ n → testCmd T W f ρ n = r

/-- A rule defined as this gives a node or a leaf of its own. -/
def Term.Yielding : Term → Prop
  | .s _ => True
  | .re _ => True
  | .seq _ => True
  | .oneof _ => True
  | .quant _ _ _ => True
  | .delim _ _ a _ _ => a ≠ 1 ∧ a ≠ -1
  | .cut t => t.Yielding
  | _ => False

/-- The random numbers that the parse of this run draws are distinct. -/
def TestDistinct (T : Tools) (W : World) (f : TestFlags) (ρ : Nat → Nat) (n : Nat) : Prop :=
  ∀ text input ps, W.read f.grammar = some text → GivenText W f.input input →
    compileSource (cmdFiles W.read T.parse f.grammar) T.engine T.reOK T.ord n text = .ok ps →
    DistinctDraws noExternals ρ (ps.draws T.engine noExternals ρ n f.start (newScannerWithFilename input f.input))

end Wbnf
