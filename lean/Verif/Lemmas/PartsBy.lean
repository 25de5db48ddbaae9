import Verif.Spec.Ast

/-!
# The parts of a tree, and what is known of their leaves

`PartsBy L` is `PartsOf` where each leaf of a literal or regexp satisfies `L`.
-/

namespace Wbnf

mutual
/-- `PartsBy L G t v ps`: `ps` are the parts of tree `v`, read as an instance of term `t`, in order. `G` has all rules, those
in braces too. -/
inductive PartsBy (L : Term → Scanner → Prop) (G : Grammar) : Term → Tree → List (Str × Ast) → Prop
  | lit {l s} : L (.s l) s → PartsBy L G (.s l) (.leaf s) [([], .leaf s)]
  | regexp {l s} : L (.re l) s → PartsBy L G (.re l) (.leaf s) [([], .leaf s)]
  | rule {r t v ps b} : lookup r G = some t → PartsBy L G t v ps → Groups t ps b →
      PartsBy L G (.rule r) v [(shownName r, .branch b)]
  | named {n t v ps b} : PartsBy L G t v ps → Groups t ps b → PartsBy L G (.named n t) v [(n, .branch b)]
  | cut {t v ps} : PartsBy L G t v ps → PartsBy L G (.cut t) v ps
  | scope {t g v ps} : PartsBy L G t v ps → PartsBy L G (.scope t g) v ps
  | look {t tag v ps} : PartsBy L G t v ps → PartsBy L G (.look t) (.node tag .nil [v]) ps
  | seq {ts tag vs ps} : PartsBySeq L G ts vs ps → PartsBy L G (.seq ts) (.node tag .nil vs) ps
  | oneof {ts i t tag v ps} : ts[i]? = some t → PartsBy L G t v ps →
      PartsBy L G (.oneof ts) (.node tag (.choice i) [v]) ((choiceTag, .extra (.choice i)) :: ps)
  | quant {t lo hi tag vs ps} : lo ≤ vs.length → (hi = 0 ∨ vs.length ≤ hi) → PartsByReps L G t vs ps →
      PartsBy L G (.quant t lo hi) (.node tag .nil vs) ps
  /-- a list with neither a separator at the start nor at the end -/
  | delim {t sep a cs ce tag v vs ps ps'} : PartsBy L G t v ps → PartsByList L G ce t sep vs ps' →
      PartsBy L G (.delim t sep a cs ce) (.node tag (.assoc 0) (v :: vs)) (ps ++ ps')
  /-- a list that starts with a separator: the Empty marker for the missing term is a part -/
  | delimLead {t sep a cs ce tag s v vs ps} : cs = true → v ≠ .empty → PartsByList L G ce t sep (s :: v :: vs) ps →
      PartsBy L G (.delim t sep a cs ce) (.node tag (.assoc 0) (.empty :: s :: v :: vs)) ((emptyTag, .extra (.text (str "@prefix"))) :: ps)
  | refLeaf {i d s} : PartsBy L G (.ref i d) (.leaf s) [(i, .leaf s)]
  | refNode {i d tag x vs ps b} : PartsByReps L G (.ref i d) vs ps → Groups (.ref i d) ps b →
      PartsBy L G (.ref i d) (.node tag x vs) [(i, .branch b)]
/-- The items of a sequence, one tree each. -/
inductive PartsBySeq (L : Term → Scanner → Prop) (G : Grammar) : List Term → List Tree → List (Str × Ast) → Prop
  | nil : PartsBySeq L G [] [] []
  | cons {t ts v vs ps ps'} : PartsBy L G t v ps → PartsBySeq L G ts vs ps' → PartsBySeq L G (t :: ts) (v :: vs) (ps ++ ps')
/-- Repetitions of a term. -/
inductive PartsByReps (L : Term → Scanner → Prop) (G : Grammar) : Term → List Tree → List (Str × Ast) → Prop
  | nil {t} : PartsByReps L G t [] []
  | cons {t v vs ps ps'} : PartsBy L G t v ps → PartsByReps L G t vs ps' → PartsByReps L G t (v :: vs) (ps ++ ps')
/-- What comes after a term in a list: separators and terms in turn, maybe (if `ce`) a separator at the end. -/
inductive PartsByList (L : Term → Scanner → Prop) (G : Grammar) : Bool → Term → Term → List Tree → List (Str × Ast) → Prop
  | nil {ce t sep} : PartsByList L G ce t sep [] []
  | cons {ce t sep s v vs ps ps' ps''} : PartsBy L G sep s ps → PartsBy L G t v ps' → PartsByList L G ce t sep vs ps'' →
      PartsByList L G ce t sep (s :: v :: vs) (ps ++ ps' ++ ps'')
  | trail {ce t sep s ps} : ce = true → PartsBy L G sep s ps →
      PartsByList L G ce t sep [s, .empty] (ps ++ [(emptyTag, .extra (.text (str "@suffix")))])
end

mutual
theorem PartsBy.forget {L : Term → Scanner → Prop} {G : Grammar} {t v ps} : PartsBy L G t v ps → PartsOf G t v ps
  | .lit _ => .lit
  | .regexp _ => .regexp
  | .rule hl h hg => .rule hl h.forget hg
  | .named h hg => .named h.forget hg
  | .cut h => .cut h.forget
  | .scope h => .scope h.forget
  | .look h => .look h.forget
  | .seq h => .seq h.forget
  | .oneof hi h => .oneof hi h.forget
  | .quant hl _ h => .quant hl h.forget
  | .delim h h' => .delim h.forget h'.forget
  | .delimLead _ hv h => .delimLead hv h.forget
  | .refLeaf => .refLeaf
  | .refNode h hg => .refNode h.forget hg
theorem PartsBySeq.forget {L : Term → Scanner → Prop} {G : Grammar} {ts vs ps} : PartsBySeq L G ts vs ps → PartsSeq G ts vs ps
  | .nil => .nil
  | .cons h h' => .cons h.forget h'.forget
theorem PartsByReps.forget {L : Term → Scanner → Prop} {G : Grammar} {t vs ps} : PartsByReps L G t vs ps → PartsReps G t vs ps
  | .nil => .nil
  | .cons h h' => .cons h.forget h'.forget
theorem PartsByList.forget {L : Term → Scanner → Prop} {G : Grammar} {ce t sep vs ps} : PartsByList L G ce t sep vs ps → PartsList G t sep vs ps
  | .nil => .nil
  | .cons h h' h'' => .cons h.forget h'.forget h''.forget
  | .trail _ h => .trail h.forget
end

end Wbnf
