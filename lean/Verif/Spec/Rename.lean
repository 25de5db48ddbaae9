import Verif.Spec.Stacks
import Verif.Spec.Peg

/-!
# Consistent renaming

`π` renames rules, names of items, and back references to them, in a grammar, and the tags of nodes in a tree.
-/

namespace Wbnf

mutual
def Term.rename (π : Str → Str) : Term → Term
  | .rule r => .rule (π r)
  | .s l => .s l
  | .re p => .re p
  | .ref i d => .ref (π i) d
  | .ext x => .ext x
  | .seq ts => .seq (renameList π ts)
  | .oneof ts => .oneof (renameList π ts)
  | .stack ts => .stack (renameList π ts)
  | .delim t sep a cs ce => .delim (t.rename π) (sep.rename π) a cs ce
  | .look t => .look (t.rename π)
  | .quant t lo hi => .quant (t.rename π) lo hi
  | .named n t => .named (π n) (t.rename π)
  | .cut t => .cut (t.rename π)
  | .scope t g => .scope (t.rename π) (renameDefs π g)
def renameList (π : Str → Str) : List Term → List Term
  | [] => []
  | t :: ts => t.rename π :: renameList π ts
def renameDefs (π : Str → Str) : List (Str × Term) → List (Str × Term)
  | [] => []
  | (k, t) :: g => (π k, t.rename π) :: renameDefs π g
end

mutual
/-- The tree with its tags renamed by `π` and its leaves moved by `σ`. -/
def Tree.map (π : Str → Str) (σ : Scanner → Scanner) : Tree → Tree
  | .node tag e cs => .node (π tag) e (mapTrees π σ cs)
  | .leaf s => .leaf (σ s)
  | .empty => .empty
  | .foreign n => .foreign n
def mapTrees (π : Str → Str) (σ : Scanner → Scanner) : List Tree → List Tree
  | [] => []
  | t :: ts => t.map π σ :: mapTrees π σ ts
end

/-- The outcome with its tree so mapped. -/
def Out.map (π : Str → Str) (σ : Scanner → Scanner) : Out → Out
  | .ok v i => .ok (v.map π σ) (σ i)
  | .oks vs i => .oks (mapTrees π σ vs) (σ i)
  | .fail => .fail
  | .abort => .abort

/-- The scanner `s` over the text of `inp`, moved to the same text in `inp'`. -/
def Scanner.move (inp inp' s : Scanner) : Scanner := ⟨inp'.src, s.start - inp.start + inp'.start, s.len⟩

/-- The layers of a stack are renamed along with it. -/
def Grammar.LayersFollow (π : Str → Str) (g : Grammar) : Prop :=
  ∀ r ls i, (r, .stack ls) ∈ g → i < ls.length → π (layer r i) = layer (π r) i

mutual
/-- … in all grammars in braces. -/
def Term.LayersFollow (π : Str → Str) : Term → Prop
  | .seq ts => layersFollowList π ts
  | .oneof ts => layersFollowList π ts
  | .stack ts => layersFollowList π ts
  | .delim t sep _ _ _ => t.LayersFollow π ∧ sep.LayersFollow π
  | .look t => t.LayersFollow π
  | .quant t _ _ => t.LayersFollow π
  | .named _ t => t.LayersFollow π
  | .cut t => t.LayersFollow π
  | .scope t g => t.LayersFollow π ∧ layersFollowDefs π g ∧ Grammar.LayersFollow π g
  | .rule _ => True
  | .s _ => True
  | .re _ => True
  | .ref _ _ => True
  | .ext _ => True
def layersFollowList (π : Str → Str) : List Term → Prop
  | [] => True
  | t :: ts => t.LayersFollow π ∧ layersFollowList π ts
def layersFollowDefs (π : Str → Str) : List (Str × Term) → Prop
  | [] => True
  | (_, t) :: g => t.LayersFollow π ∧ layersFollowDefs π g
end

/-- A renaming: one-to-one, and it leaves the reserved names alone: the empty name, `@`, `.wrapRE` and the
tags of nodes without a name. -/
structure Renaming (π : Str → Str) : Prop where
  inj : ∀ {a b}, π a = π b → a = b
  nil : π [] = []
  at_ : π (str "@") = str "@"
  wrap : π (str ".wrapRE") = str ".wrapRE"
  seq : π (str "_") = str "_"
  oneof : π (str "|") = str "|"
  delim : π (str ":") = str ":"
  quant : π (str "?") = str "?"
  look : π (str "?=") = str "?="

end Wbnf
