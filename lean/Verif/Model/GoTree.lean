import Verif.Model.Basic

/-!
# Model of printed trees

gotree/gotree.go. A `Tree` is taken to be the one this package makes (18-22), without sharing or cycles.
-/

namespace Wbnf

/-- gotree/gotree.go:18-22 `tree`. -/
inductive GTree
  | mk (text : Str) (items : List GTree)
  deriving Repr

/-- gotree/gotree.go:48-53 `New`, 56-60 `Add`, 63-65 `AddTree`, as functions that return the changed tree. -/
def GTree.new (text : Str) : GTree := .mk text []
def GTree.addTree : GTree → GTree → GTree
  | .mk text items, t => .mk text (items ++ [t])
def GTree.add (t : GTree) (text : Str) : GTree := t.addTree (.new text)

/-- gotree/gotree.go:68-75 `Text`, `Items`. -/
def GTree.text : GTree → Str
  | .mk text _ => text
def GTree.items : GTree → List GTree
  | .mk _ items => items

/-- gotree/gotree.go:11-17, in UTF-8. -/
def newLine : Str := [10]
def emptySpace : Str := [0x20, 0x20, 0x20, 0x20]
def middleItem : Str := [0xe2, 0x94, 0x9c, 0xe2, 0x94, 0x80, 0xe2, 0x94, 0x80, 0x20]
def continueItem : Str := [0xe2, 0x94, 0x82, 0x20, 0x20, 0x20]
def lastItem : Str := [0xe2, 0x94, 0x94, 0xe2, 0x94, 0x80, 0xe2, 0x94, 0x80, 0x20]

/-- Go's `strings.Split(text, "\n")`. -/
def splitLines : Str → List Str
  | [] => [[]]
  | c :: s =>
    if c = 10 then [] :: splitLines s
    else
      match splitLines s with
      | [] => [[c]]
      | l :: ls => (c :: l) :: ls

/-- gotree/gotree.go:122-129: the loop over `spaces`. -/
def spacesText : List Bool → Str
  | [] => []
  | sp :: sps => (if sp then emptySpace else continueItem) ++ spacesText sps

/-- gotree/gotree.go:138-150: the lines after the first. -/
def moreLines (result : Str) (last : Bool) : List Str → Str
  | [] => []
  | l :: ls => result ++ (if last then emptySpace else continueItem) ++ l ++ newLine ++ moreLines result last ls

/-- gotree/gotree.go:121-153 `printText`. -/
def printText (text : Str) (spaces : List Bool) (last : Bool) : Str :=
  let result := spacesText spaces
  let indicator := if last then lastItem else middleItem
  match splitLines text with
  | [] => []
  | l :: ls => result ++ indicator ++ l ++ newLine ++ moreLines result last ls

/-- A Go slice of bools: a backing array and how much of it is in use. -/
structure Flags where
  arr : Nat
  len : Nat

/-- The backing arrays; each list is as long as the array's capacity. -/
abbrev FlagHeap := List (List Bool)

def FlagHeap.read (h : FlagHeap) (s : Flags) : List Bool := (h.getD s.arr []).take s.len

/-- Go's `append(s, x)`: in place if there is room, else in a new array. How much room the new array has is up to Go:
`room` gives what there is beyond the new element. -/
def FlagHeap.append (room : Nat → Nat) (h : FlagHeap) (s : Flags) (x : Bool) : FlagHeap × Flags :=
  let a := h.getD s.arr []
  if s.len < a.length then (h.set s.arr (a.set s.len x), ⟨s.arr, s.len + 1⟩)
  else (h ++ [a.take s.len ++ x :: List.replicate (room s.len) false], ⟨h.length, s.len + 1⟩)

mutual
/-- gotree/gotree.go:158-163: one turn of the loop. -/
def printItem (room : Nat → Nat) (h : FlagHeap) (spaces : Flags) (last : Bool) : GTree → FlagHeap × Str
  | .mk text items =>
    let out := printText text (h.read spaces) last
    match items with
    | [] => (h, out)
    | _ :: _ =>
      let r := h.append room spaces last
      let q := printItems room r.1 r.2 items
      (q.1, out ++ q.2)
/-- gotree/gotree.go:155-166 `printItems`. -/
def printItems (room : Nat → Nat) (h : FlagHeap) (spaces : Flags) : List GTree → FlagHeap × Str
  | [] => (h, [])
  | f :: rest =>
    let r := printItem room h spaces rest.isEmpty f
    let q := printItems room r.1 spaces rest
    (q.1, r.2 ++ q.2)
end

/-- gotree/gotree.go:78-80, 117-119 `Print`. -/
def GTree.print (room : Nat → Nat) (t : GTree) : Str :=
  t.text ++ newLine ++ (printItems room [[]] ⟨0, 0⟩ t.items).2

end Wbnf
