import Verif.Model.TreeView
import Verif.Spec.AstString

/-!
# What a tree view shows
-/

namespace Wbnf

/-- The name begins with `@`, and such names are left out. -/
def Hidden (skip : Bool) (name : Str) : Prop := skip = true ∧ ∃ s, name = 64 :: s

instance (skip : Bool) (name : Str) : Decidable (Hidden skip name) :=
  match skip, name with
  | false, _ => .isFalse (fun h => Bool.noConfusion h.1)
  | true, [] => .isFalse (fun h => by obtain ⟨_, s, h⟩ := h; cases h)
  | true, c :: s => if h : c = 64 then .isTrue ⟨rfl, s, by rw [h]⟩ else .isFalse (fun g => by obtain ⟨_, s, g⟩ := g; exact h (List.cons.inj g).1)

mutual
/-- What is at the ends of an AST: its leaves, as they are printed, the data in it, and the names of branches with nothing in them. -/
def Ast.ends (quote : Str → Str) (skip : Bool) : Str → Ast → List Str
  | _, .leaf s => [(leafString quote s).getD []]
  | _, .extra d => [d.string]
  | name, .branch b => if branchEnds quote skip b = [] then [name] else branchEnds quote skip b
def Kids.ends (quote : Str → Str) (skip : Bool) : Str → Kids → List Str
  | name, .one n => n.ends quote skip name
  | name, .many ns => manyEnds quote skip name ns
def manyEnds (quote : Str → Str) (skip : Bool) : Str → List Ast → List Str
  | _, [] => []
  | name, n :: ns => n.ends quote skip name ++ manyEnds quote skip name ns
def branchEnds (quote : Str → Str) (skip : Bool) : List (Str × Kids) → List Str
  | [] => []
  | (name, c) :: b => (if Hidden skip name then [] else c.ends quote skip name) ++ branchEnds quote skip b
end

mutual
/-- The texts of nodes with nothing below them, from the top to the bottom. -/
def GTree.ends : GTree → List Str
  | .mk text items => if items.isEmpty then [text] else endsAll items
def endsAll : List GTree → List Str
  | [] => []
  | t :: ts => t.ends ++ endsAll ts
end

/-- The text begins with a number from 1 on. -/
def Numbered (s : Str) : Prop := ∃ c t, s = c :: t ∧ 49 ≤ c ∧ c ≤ 57

/-- The number a text begins with, -1 if there is none. -/
inductive StandsAt : Str → Int → Prop
  | number {c ds s} : 49 ≤ c → c ≤ 57 → ds.all isDigitByte = true → (∀ d t, s = d :: t → isDigitByte d = false) → StandsAt (c :: (ds ++ s)) (digitsValue (c :: ds))
  | nowhere {s} : ¬ Numbered s → StandsAt s (-1)

/-- Where the first of the texts is. -/
def First (ss : List Str) (k : Int) : Prop := (∃ s ∈ ss, StandsAt s k) ∧ ∀ s ∈ ss, ∀ j, StandsAt s j → k ≤ j

mutual
/-- Siblings are in the order of where the first of what is below them is. -/
def GTree.Ordered : GTree → Prop
  | .mk _ items => items.Pairwise (fun t u => ∀ j k, First t.ends j → First u.ends k → j ≤ k) ∧ orderedAll items
def orderedAll : List GTree → Prop
  | [] => True
  | t :: ts => t.Ordered ∧ orderedAll ts
end

mutual
/-- Leaves have a text and an offset in the range of a Go int, data too; no names begin with 1 to 9. -/
def Ast.Viewable (skip : Bool) : Ast → Prop
  | .leaf s => (∃ x, s.toStr = some x) ∧ s.start < 2 ^ 63
  | .extra (.choice i) => i < 2 ^ 63
  | .extra d => ¬ Numbered d.string
  | .branch b => viewableBranch skip b
def Kids.Viewable (skip : Bool) : Kids → Prop
  | .one n => n.Viewable skip
  | .many ns => viewableAll skip ns
def viewableAll (skip : Bool) : List Ast → Prop
  | [] => True
  | n :: ns => n.Viewable skip ∧ viewableAll skip ns
def viewableBranch (skip : Bool) : List (Str × Kids) → Prop
  | [] => True
  | (name, c) :: b => (Hidden skip name ∨ (¬ Numbered name ∧ c.Viewable skip)) ∧ viewableBranch skip b
end

/-- What is used of Go's `sort.Slice`: it gives the same items, by rank. (It is not stable.) -/
def SortsByRank (sort : List GTree → List GTree) : Prop :=
  ∀ items, (sort items).Perm items ∧ ((∀ t ∈ items, t.rank ≠ none) → (sort items).Pairwise fun t u => t.rank.getD 0 ≤ u.rank.getD 0)

/-- No two ends are at the same place. -/
def Apart (ss : List Str) : Prop := ss.Pairwise fun s t => ∀ j k, StandsAt s j → StandsAt t k → j ≠ k

/-- The nodes a node shows. -/
def shownKids (skip : Bool) : List (Str × Kids) → List (Str × Ast)
  | [] => []
  | (name, .one n) :: b => (if Hidden skip name then [] else [(name, n)]) ++ shownKids skip b
  | (name, .many ns) :: b => (if Hidden skip name then [] else ns.map (name, ·)) ++ shownKids skip b

/-- The node shows one node, or a datum. -/
def Single (skip : Bool) : Ast → Prop
  | .leaf _ => False
  | .extra _ => True
  | .branch b => (shownKids skip b).length = 1

/-- The names of a node and of those below it that are in one line: while each has only one node, that also has only one below it. -/
inductive InLine (skip : Bool) : Str → Ast → List Str → Prop
  | extra {name d} : InLine skip name (.extra d) [name]
  | stop {name b} : (∀ n a, shownKids skip b = [(n, a)] → ¬ Single skip a) → InLine skip name (.branch b) [name]
  | step {name b n a names} : shownKids skip b = [(n, a)] → Single skip a → InLine skip n a names → InLine skip name (.branch b) (name :: names)

/-- Names with how often each is repeated. -/
def unrun : List (Str × Nat) → List Str
  | [] => []
  | (n, k) :: rs => List.replicate (k + 1) n ++ unrun rs

/-- Neighbours are different. -/
def Runs : List (Str × Nat) → Prop
  | (n, _) :: (m, k) :: rs => n ≠ m ∧ Runs ((m, k) :: rs)
  | _ => True

/-- Each name once, with dots after those that are repeated, but not at the end. -/
def runsLine : List (Str × Nat) → List Str
  | [] => []
  | [(n, _)] => [n]
  | (n, k) :: rs => n :: ((if 0 < k then [str "..."] else []) ++ runsLine rs)

/-- No name in the grammar begins with 1 to 9, and the numbers of alternatives are in the range of a Go int. -/
def Term.UnnumberedName : Term → Prop
  | .rule r => ¬ Numbered (shownName r)
  | .named n _ => ¬ Numbered n
  | .ref i _ => ¬ Numbered i
  | .oneof ts => ts.length ≤ 2 ^ 63
  | _ => True

end Wbnf
