import Verif.Props.Scanner
import Verif.Props.Consume
import Verif.Props.Semantics
import Verif.Props.Cut
import Verif.Props.Tree
import Verif.Props.Combinators
import Verif.Props.Safe
import Verif.Props.Terminates
import Verif.Props.Refs
import Verif.Props.Stacks
import Verif.Props.Scope
import Verif.Props.Prune
import Verif.Props.Wrap
import Verif.Props.Unparse
import Verif.Props.Ast
import Verif.Props.AstQuery
import Verif.Props.Return
import Verif.Props.Literal
import Verif.Props.Furthest
import Verif.Props.Cutpoints
import Verif.Props.Walk
import Verif.Props.Macro
import Verif.Props.Recursion
import Verif.Props.Validate
import Verif.Props.Import
import Verif.Props.GoTree
import Verif.Props.Diff
import Verif.Props.Codegen
import Verif.Props.Means
import Verif.Props.Helpers
import Verif.Props.Core
import Verif.Props.Views
import Verif.Props.Source
import Verif.Props.Comments
import Verif.Props.Spells
import Verif.Model.Core
import Verif.Model.Views
import Verif.Spec.Lexemes
import Verif.Model.Types
import Verif.Spec.Types
import Verif.Lemmas.Types
import Verif.Lemmas.TypesWalk
import Verif.Lemmas.TypesRules
import Verif.Lemmas.TypesReads
import Verif.Lemmas.TypesLegible
import Verif.Lemmas.TypesGrammar
import Verif.Lemmas.TypesCheck
import Verif.Props.Types
import Verif.Spec.TypesMany
import Verif.Lemmas.TypesMany
import Verif.Lemmas.TypesNoted
import Verif.Lemmas.TypesManyGrammar
import Verif.Props.TypesMany
import Verif.Spec.TypesDecl
import Verif.Lemmas.TypesDecl
import Verif.Lemmas.TypesDeclWalk
import Verif.Lemmas.TypesDeclMethods
import Verif.Lemmas.TypesDeclClosed
import Verif.Lemmas.TypesDeclTotal
import Verif.Props.TypesDecl
import Verif.Model.TypesWalk
import Verif.Examples.Generated
import Verif.Spec.TypesWalk
import Verif.Lemmas.TypesVisitCode
import Verif.Lemmas.TypesVisit
import Verif.Lemmas.TypesVisitNames
import Verif.Lemmas.TypesVisitNodes
import Verif.Lemmas.TypesVisitGrammar
import Verif.Props.TypesWalk
import Verif.Model.Externals
import Verif.Spec.Escape
import Verif.Lemmas.Escape
import Verif.Lemmas.EscapeNested
import Verif.Props.Escape
import Verif.Model.AstString
import Verif.Spec.AstString
import Verif.Lemmas.AstString
import Verif.Lemmas.AstStringRead
import Verif.Props.AstString
import Verif.Model.TreeView
import Verif.Spec.TreeView
import Verif.Lemmas.TreeView
import Verif.Lemmas.TreeViewSame
import Verif.Lemmas.TreeViewLine
import Verif.Props.TreeView
import Verif.Props.TreeViewReads
import Verif.Props.TreeViewExamples
import Verif.Model.Path
import Verif.Spec.Path
import Verif.Lemmas.Path
import Verif.Lemmas.PathWords
import Verif.Props.Path
import Verif.Model.Cmd
import Verif.Spec.Cmd
import Verif.Props.Cmd
import Verif.Lemmas.AstReorder
import Verif.Model.Gen
import Verif.Spec.Gen
import Verif.Lemmas.Gen
import Verif.Props.Gen
import Verif.Props.Expand
import Verif.Examples.Finds
import Verif.Props.Written
import Verif.Props.Bootstrap
import Verif.Props.TermString
import Verif.Props.Quote
import Verif.Props.NodeGet
import Verif.Props.Report
import Verif.Props.Leftover
import Verif.Props.UnparseTo
import Verif.Props.Faults
import Verif.Props.FaultsCompile
import Verif.Props.ShowQuoted
import Verif.Props.ShowQuotedParse
