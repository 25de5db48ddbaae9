import Verif.Spec.Shape

/-!
# Where things are in a tree
-/

namespace Wbnf

/-- The path leads from a tree to one of its parts: each number is the position of a child, from 0. -/
inductive PathTo : Tree → List Int → Tree → Prop
  | here {v : Tree} : PathTo v [] v
  | down {tag : Str} {x : Extra} {before after : List Tree} {c w : Tree} {path : List Int} : PathTo c path w →
      PathTo (.node tag x (before ++ c :: after)) (before.length :: path) w

/-- One path turns off to the left of another. -/
def LeftOf (p q : List Int) : Prop := ∃ c i j p' q', p = c ++ i :: p' ∧ q = c ++ j :: q' ∧ i < j

/-- What can be seen of a tree without going down: what kind it is, its tag, its data and how many children it has, or the scanner. -/
inductive SeenAlike : Tree → Tree → Prop
  | node {tag x cs cs'} : cs.length = cs'.length → SeenAlike (.node tag x cs) (.node tag x cs')
  | leaf {s} : SeenAlike (.leaf s) (.leaf s)
  | empty : SeenAlike .empty .empty
  | foreign {n} : SeenAlike (.foreign n) (.foreign n)

end Wbnf
