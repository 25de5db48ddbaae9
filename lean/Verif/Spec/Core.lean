import Verif.Spec.Safe
import Verif.Model.Core

/-!
# What the grammar of grammars asks of a regexp engine

The regexps below are all that the parser for wbnf sources ever compiles.
-/

namespace Wbnf.Core

/-- The literals of the grammar of grammars. -/
def literals : List String := ["%", "=", "%%", "(?=", ")", "(", "%!", ",", ".import", "..", ".", "/", ";", ".macro", "{", "}", "->", ">", "|"]

/-- Its regexps: comments, identifiers, numbers, regexps, strings, parts of paths and operators. -/
def regexps : List Term := [comment, ident, int, regexpLit, strLit, re "[a-zA-Z0-9.:]+", re "[?*+]", re "<:|:>?"]

/-- The regexp for a literal or regexp that is written `own`: it may have white space around it. -/
def pattern (own : Str) : Str := anchor ++ str "\\s*(?:(" ++ own ++ str "))\\s*"

/-- The regexps of all leaves. -/
def patterns : List Str :=
  literals.map (fun l => pattern (quoteMeta (str l))) ++ regexps.filterMap (fun | .re p => Option.some (pattern p) | _ => none)

/-- The regexp of the rule `.wrapRE` itself: it has a group of its own. -/
def wrapPattern : Str := pattern (str "\\s*()\\s*")

/-- The engine accepts the regexps, matches them at the start of the text, reports no more groups than they have, and never
matches the empty text with one of a leaf. -/
structure EngineOK (E : Engine) : Prop where
  valid : ∀ p ∈ wrapPattern :: patterns, E.valid p = true
  groups : ∀ p ∈ wrapPattern :: patterns, LeafSafe E p
  consumes : ∀ p ∈ patterns, NeverEmpty E p

end Wbnf.Core
