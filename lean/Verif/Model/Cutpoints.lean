import Verif.Model.Term

/-!
# Model of the automatic cut points

wbnf/cutpoints.go. A map from strings to counts, `frozen.Map[string, int]`, is given by its values: `count l` is the
entry of `l`, and 0 if there is none. `Merge` with `mergeFn` adds. The order in which Go ranges over the rules of a
grammar does not matter for sums.
-/

namespace Wbnf

mutual
/-- wbnf/cutpoints.go:64-111 `forTerm`: the entry of `l` for a term. Literals in look-aheads are not counted (line 106);
a grammar in braces adds one for each of its unique strings (96-101), nothing for its others. -/
def Term.countLit (l : Str) : Term → Nat
  | .s l' => if l' = l then 1 else 0                                                       -- 70-71
  | .seq ts => countLitList l ts                                                           -- 72-75
  | .stack ts => countLitList l ts                                                         -- 76-79
  | .oneof ts => countLitList l ts                                                         -- 80-83
  | .delim t sep _ cs _ => t.countLit l + sep.countLit l + (if cs then sep.countLit l else 0)   -- 84-90
  | .quant t _ _ => t.countLit l                                                           -- 91-92
  | .named _ t => t.countLit l                                                             -- 93-94
  | .scope t g => t.countLit l + (if countLitDefs l g = 1 then 1 else 0)                   -- 95-100
  | .ref _ none => 0                                                                       -- 66-68, 101-102
  | .ref _ (some d) => d.countLit l                                                        -- 101-102
  | .cut t => t.countLit l                                                                 -- 103-104
  | .re _ => 0                                                                             -- 105
  | .rule _ => 0
  | .ext _ => 0
  | .look _ => 0
def countLitList (l : Str) : List Term → Nat
  | [] => 0
  | t :: ts => t.countLit l + countLitList l ts
/-- wbnf/cutpoints.go:113-116: the counts of a grammar. -/
def countLitDefs (l : Str) : List (Str × Term) → Nat
  | [] => 0
  | (_, t) :: g => t.countLit l + countLitDefs l g
end

/-- wbnf/cutpoints.go:60-120 `findUniqueStrings`: is `l` in the set? -/
def uniqueString (g : Grammar) (l : Str) : Bool := countLitDefs l g = 1

mutual
/-- wbnf/cutpoints.go:130-171 `fixTerm`. `deep` tells whether the callback rebuilds grammars in braces, as the one of
`insertCutPoints` does (51-53) before it does anything else. A `Seq` is not handed to the callback (132-137). Terms in
look-aheads and defaults of back references are not reached (166-167). -/
def fixTerm (f : Term → Term) (deep : Bool) : Term → Term
  | .seq ts => .seq (fixTerms f deep ts)
  | .stack ts => f (.stack (fixTerms f deep ts))
  | .oneof ts => f (.oneof (fixTerms f deep ts))
  | .delim t sep a cs ce => f (.delim (fixTerm f deep t) (fixTerm f deep sep) a cs ce)
  | .quant t lo hi => f (.quant (fixTerm f deep t) lo hi)
  | .named n t => f (.named n (fixTerm f deep t))
  | .scope t g => f (.scope (fixTerm f deep t) (if deep then rebuildGrammar f deep g else g))
  | .cut t => f (.cut (fixTerm f deep t))
  | .s l => f (.s l)
  | .ref i d => f (.ref i d)
  | .re p => f (.re p)
  | .rule r => f (.rule r)
  | .ext x => f (.ext x)
  | .look t => f (.look t)
def fixTerms (f : Term → Term) (deep : Bool) : List Term → List Term
  | [] => []
  | t :: ts => fixTerm f deep t :: fixTerms f deep ts
/-- wbnf/cutpoints.go:122-128 `rebuildGrammar`. -/
def rebuildGrammar (f : Term → Term) (deep : Bool) : List (Str × Term) → List (Str × Term)
  | [] => []
  | (r, t) :: g => (r, fixTerm f deep t) :: rebuildGrammar f deep g
end

/-- wbnf/cutpoints.go:45-56: the callback of `insertCutPoints` (its case for grammars in braces is `deep` of `fixTerm`). -/
def cutLiteral (unique : Str → Bool) : Term → Term
  | .s l => if unique l then .cut (.s l) else .s l
  | t => t

/-- wbnf/cutpoints.go:40-58 `insertCutPoints`. -/
def insertCutPoints (g : Grammar) : Grammar := rebuildGrammar (cutLiteral (uniqueString g)) true g

end Wbnf
