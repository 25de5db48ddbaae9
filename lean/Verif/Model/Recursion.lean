import Verif.Model.Walk

/-!
# Model of the check for recursion

wbnf/recursion.go. Sets are lists. Go slices are modelled with their backing arrays, because `findPaths` appends to a
slice that others share (66).
-/

namespace Wbnf

/-- wbnf/recursion.go:124: this quantifier means that at least one is required. -/
def QuantN.required : QuantN → Bool
  | .op o => o = str "+"
  | .range (some lo) _ => lo ≠ str "0"
  | .range none _ => false
  | .sep _ _ _ _ => true

mutual
/-- wbnf/recursion.go:105-140 `getSequenceDangerTerms`. -/
def TermN.dangers : TermN → List Str
  | .many op _ ts => if op = str "|" then dangersAny ts else dangersSeq ts
  | .one n qs => if qs.any QuantN.required then [] else n.dangers qs.isEmpty
/-- 128-137: the atom; `bare` says that there are no quantifiers. -/
def NamedN.dangers (bare : Bool) : NamedN → List Str
  | .mk _ a => a.dangers bare
def AtomN.dangers (bare : Bool) : AtomN → List Str
  | .term t => t.dangers
  | .ident i => [i]
  | .str _ => if bare then [] else [[]]
  | .re _ => if bare then [] else [[]]
  | .macrocall _ _ => if bare then [] else [[]]
  | .ext _ => if bare then [] else [[]]
  | .ref _ _ => if bare then [] else [[]]
  | .look _ => if bare then [] else [[]]
  | .unit => if bare then [] else [[]]
/-- 108-112. -/
def dangersAny : List TermN → List Str
  | [] => []
  | t :: ts => t.dangers ++ dangersAny ts
/-- 113-121. -/
def dangersSeq : List TermN → List Str
  | [] => []
  | t :: ts => if t.dangers = [] then [] else t.dangers.filter (· ≠ []) ++ dangersSeq ts
end

/-- wbnf/recursion.go:25-34: the callback leaves productions, so those in braces do not count. The terms of a production are
not taken as a sequence (29-31). -/
def dangerOps : WalkerOps (List (Str × List Str)) where
  enter
    | .prod i ts, ds => (mapSet i (dangersAny ts) ds, some nodeExiter)
    | _, ds => (ds, none)
  exit _ ds := (ds, none)

def dangersOf (g : GrammarN) : List (Str × List Str) := (walk dangerOps g.tree []).1

/-- wbnf/recursion.go:36-40, 85-103 `gnode`, `walkRule`: `g.next` of the root has one node for each name that can be reached,
and `next` of a node leads to the nodes of its targets. So the graph is given by names. -/
def nextOf (ds : List (Str × List Str)) (r : Str) : List Str := ((lookup r ds).getD []).eraseDups

def rootsOf (ds : List (Str × List Str)) : List Str := (ds.map Prod.fst ++ ds.flatMap Prod.snd).eraseDups

/-- A Go slice of strings: a backing array and how much of it is in use. -/
structure Slice where
  arr : Nat
  len : Nat
  deriving DecidableEq

/-- The backing arrays; each list is as long as the array's capacity. -/
abbrev Heap := List (List Str)

/-- The strings of a slice. -/
def Heap.read (h : Heap) (s : Slice) : List Str := (h.getD s.arr []).take s.len

/-- Go's `append(s, x)`: in place if there is room, else in a new array of twice the capacity (Go grows by less when there
are more than 256 elements). -/
def Heap.append (h : Heap) (s : Slice) (x : Str) : Heap × Slice :=
  let a := h.getD s.arr []
  if s.len < a.length then (h.set s.arr (a.set s.len x), ⟨s.arr, s.len + 1⟩)
  else (h ++ [a ++ x :: List.replicate (a.length - 1) []], ⟨h.length, s.len + 1⟩)

/-- wbnf/recursion.go:61-75 `findPaths`. `path` are the names on the way, which are `seen`; `current` was meant to hold them (but not `""`).
Go ranges over a map: `ord` gives the order for each call. The recursion ends because `seen` grows; `n` is more than it can grow. -/
def findPaths (roots : List Str) (next : Str → List Str) (ord : List Str → List Str → List Str) :
    Nat → List Str → Slice → Heap → Heap × List Slice
  | 0, _, _, h => (h, [])
  | n + 1, path, cur, h =>
    (ord path (match path.getLast? with | none => roots | some k => next k)).foldl
      (fun hp k =>
        if k ∈ path then                                                        -- 67-68
          let (h, s) := hp.1.append cur k
          (h, hp.2 ++ [s])
        else                                                                    -- 69-70, and 62-64 of that call
          let (h, s) := if k = [] then (hp.1, cur) else hp.1.append cur k
          let (h, ss) := findPaths roots next ord n (path ++ [k]) s h
          (h, hp.2 ++ ss))
      (h, [])

/-- wbnf/recursion.go:42-50: the routes that are reported. -/
def badRoutes (ord : List Str → List Str → List Str) (g : GrammarN) : List (List Str) :=
  let ds := dangersOf g
  let roots := rootsOf ds
  let (h, ss) := findPaths roots (nextOf ds) ord (roots.length + 1) [] ⟨0, 0⟩ [[]]
  (ss.map h.read).filter fun p => p.eraseDups.length ≠ p.length

end Wbnf
