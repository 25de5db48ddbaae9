import Verif.Model.UnparseTo

/-! What is to happen to a writer. -/

namespace Wbnf

/-- Slices are written one after the other, after those in the list before, until all are written or one fails: those written, the sum of the numbers
returned by the writes that succeeded, and whether one failed. -/
def feed (w : Writer) : List Str → List Str → List Str × Nat × Bool
  | before, [] => (before, 0, false)
  | before, x :: xs =>
    if (w before x).2 then (before ++ [x], 0, true)
    else ((feed w (before ++ [x]) xs).1, (w before x).1 + (feed w (before ++ [x]) xs).2.1, (feed w (before ++ [x]) xs).2.2)

end Wbnf
