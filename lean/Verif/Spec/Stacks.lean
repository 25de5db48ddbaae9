import Verif.Model.Term

/-!
# Stacks as layers

What `r -> L0 > L1 > ... ;` stands for, without reference to how it is computed.
-/

namespace Wbnf

mutual
/-- The term without its cut points, also inside grammars in braces. -/
def Term.uncut : Term → Term
  | .cut t => t.uncut
  | .seq ts => .seq (uncutList ts)
  | .oneof ts => .oneof (uncutList ts)
  | .stack ts => .stack (uncutList ts)
  | .delim t sep a cs ce => .delim t.uncut sep.uncut a cs ce
  | .look t => .look t.uncut
  | .quant t lo hi => .quant t.uncut lo hi
  | .named n t => .named n t.uncut
  | .scope t g => .scope t.uncut (uncutDefs g)
  | .rule r => .rule r
  | .s l => .s l
  | .re p => .re p
  | .ref i d => .ref i d
  | .ext x => .ext x
def uncutList : List Term → List Term
  | [] => []
  | t :: ts => t.uncut :: uncutList ts
def uncutDefs : List (Str × Term) → List (Str × Term)
  | [] => []
  | (r, t) :: g => (r, t.uncut) :: uncutDefs g
end

mutual
/-- Every reference to rule `@` replaced by one to rule `new`; nothing is replaced in grammars in braces or
in stacks below the top (`Term.flat` excludes both). -/
def Term.atTo (new : Str) : Term → Term
  | .rule r => if r = str "@" then .rule new else .rule r
  | .cut t => .cut (t.atTo new)
  | .seq ts => .seq (atToList new ts)
  | .oneof ts => .oneof (atToList new ts)
  | .delim t sep a cs ce => .delim (t.atTo new) (sep.atTo new) a cs ce
  | .look t => .look (t.atTo new)
  | .quant t lo hi => .quant (t.atTo new) lo hi
  | .named n t => .named n (t.atTo new)
  | .stack ts => .stack ts
  | .scope t g => .scope t g
  | .s l => .s l
  | .re p => .re p
  | .ref i d => .ref i d
  | .ext x => .ext x
def atToList (new : Str) : List Term → List Term
  | [] => []
  | t :: ts => t.atTo new :: atToList new ts
end

mutual
/-- Neither a stack nor a grammar in braces anywhere in the term. -/
def Term.flat : Term → Bool
  | .stack _ => false
  | .scope _ _ => false
  | .cut t => t.flat
  | .seq ts => flatList ts
  | .oneof ts => flatList ts
  | .delim t sep _ _ _ => t.flat && sep.flat
  | .look t => t.flat
  | .quant t _ _ => t.flat
  | .named _ t => t.flat
  | .rule _ => true
  | .s _ => true
  | .re _ => true
  | .ref _ _ => true
  | .ext _ => true
def flatList : List Term → Bool
  | [] => true
  | t :: ts => t.flat && flatList ts
end

/-- The rule that layer `i` of the stack `r` becomes: `r`, `r@1`, `r@2`, … -/
def layer (r : Str) (i : Nat) : Str := if i = 0 then r else r ++ str "@" ++ decimal i

/-- Rule `k` has the definition `t` in what `g` stands for: either `g` says so itself and it is not a
(non-empty) stack, or `k` is the `i`-th layer of a stack of `n` layers, with `@` standing for the next layer,
in the last one for the first. Cut points in stacks get lost. -/
inductive Layered (g : Grammar) : Str → Term → Prop
  | plain {k t} : (k, t) ∈ g → (∀ l ls, t ≠ .stack (l :: ls)) → Layered g k t
  | layer {r ls i L} : (r, .stack ls) ∈ g → ls[i]? = some L →
      Layered g (layer r i) (L.uncut.atTo (layer r (if i + 1 = ls.length then 0 else i + 1)))

/-- No two rules with the same name. (A Go map cannot have any.) -/
def Grammar.Distinct (g : Grammar) : Prop := (g.map Prod.fst).Nodup

/-- No rule of `g` has the name of a layer. (wbnf names have no `@` in them.) -/
def Grammar.LayersFresh (g : Grammar) : Prop :=
  ∀ r ls i t, (r, .stack ls) ∈ g → 0 < i → i < ls.length → (layer r i, t) ∉ g

end Wbnf
