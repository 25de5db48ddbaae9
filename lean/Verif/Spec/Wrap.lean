import Verif.Spec.Deep
import Verif.Spec.Scope
import Verif.Spec.Peg

/-!
# Wrappers
-/

namespace Wbnf

/-- The grammar's wrapper is `pre()post`, and the literals and regexps in `except` are exempt from it. -/
structure Grammar.WrappedBy (g : Grammar) (except : List Term) (pre post : Str) : Prop where
  /-- `.wrapRE -> /{pre()post};` or `.wrapRE -> "e1" | ... | /{pre()post};` -/
  rule : lookup (str ".wrapRE") g = some (.re (pre ++ str "()" ++ post)) ∧ except = [] ∨
    lookup (str ".wrapRE") g = some (.oneof (except ++ [.re (pre ++ str "()" ++ post)]))
  /-- This `()` is the first in the wrapper. -/
  first : ¬ str "()" <:+: pre ++ str "("

/-- A grammar in braces does not define a wrapper of its own. -/
def Term.NoOwnWrap : Term → Prop
  | .scope _ g => ¬ Grammar.Has g (str ".wrapRE")
  | _ => True

/-- The engine treats the regexp `pre(?:(m))post` as what it looks like: a text in `A`, then a text in `B`, the
group, then a text in `C`, where `A`, `B` and `C` are what `pre`, `m` and `post` match. (This is so in Go's
syntax unless one of them has an alternation at top level or sets flags.) -/
structure Concatenates (E : Engine) (pre m post : Str) (A B C : Str → Prop) : Prop where
  some : ∀ x gs, E.find (anchor ++ (pre ++ (str "(?:" ++ (str "(" ++ m ++ str ")") ++ str ")") ++ post)) x = some gs →
    ∃ a b c rest, x = a ++ b ++ c ++ rest ∧ A a ∧ B b ∧ C c ∧
      gs = [(0, ((a ++ b ++ c).length : Int)), ((a.length : Int), ((a ++ b).length : Int))]
  none : ∀ x, E.find (anchor ++ (pre ++ (str "(?:" ++ (str "(" ++ m ++ str ")") ++ str ")") ++ post)) x = none →
    ∀ a b c rest, x = a ++ b ++ c ++ rest → A a → B b → ¬ C c

end Wbnf
