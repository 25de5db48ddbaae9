import Verif.Spec.Peg

/-!
# Derivations: what a successful match consists of

`Derives E X G i vs j`: matching `G` from `i` yields the trees `vs` and stops at `j`. Unlike `Peg` this
relation says nothing about what is *not* matched – which alternative is preferred, when a repetition
stops, what a cut point does – so it is the plain grammar reading of terms. One tree for a term, one
per item for a sequence, one per repetition.
-/

namespace Wbnf

inductive DGoal
  | term (Γ : List Grammar) (rule : Str) (t : Term) (vals : List (Str × Tree))
  | items (Γ : List Grammar) (ts : List Term) (vals : List (Str × Tree))
  | reps (Γ : List Grammar) (t : Term) (vals : List (Str × Tree))

inductive Derives (E : Engine) (X : Externals) : DGoal → Scanner → List Tree → Scanner → Prop
  | rule {Γ rule r Γ' t vals i v j} : Resolves Γ r Γ' t → Derives E X (.term Γ' r t vals) i [v] j →
      Derives E X (.term Γ rule (.rule r) vals) i [v] j
  | named {Γ rule n t vals i v j} : Derives E X (.term Γ n t vals) i [v] j →
      Derives E X (.term Γ rule (.named n t) vals) i [v] j
  | cut {Γ rule t vals i v j} : Derives E X (.term Γ rule t vals) i [v] j →
      Derives E X (.term Γ rule (.cut t) vals) i [v] j
  | scope {Γ rule t g g' vals i v j} : Enters Γ g g' →
      Derives E X (.term (g' :: Γ) rule t vals) i [v] j →
      Derives E X (.term Γ rule (.scope t g) vals) i [v] j
  | lit {Γ rule l p vals i v j} : LeafPattern (wrapOf Γ) l (str "(" ++ quoteMeta l ++ str ")") p →
      LeafOut E (anchor ++ p) i (.ok v j) → Derives E X (.term Γ rule (.s l) vals) i [v] j
  | regexp {Γ rule l p vals i v j} : LeafPattern (wrapOf Γ) l (str "(" ++ l ++ str ")") p →
      LeafOut E (anchor ++ p) i (.ok v j) → Derives E X (.term Γ rule (.re l) vals) i [v] j
  | seq {Γ rule ts vals i vs j} : Derives E X (.items Γ ts vals) i vs j →
      Derives E X (.term Γ rule (.seq ts) vals) i [.node (ruleOrAlt rule seqTag) .nil vs] j
  | nil {Γ vals i} : Derives E X (.items Γ [] vals) i [] i
  | cons {Γ t ts vals i v j vs k} : Derives E X (.term Γ [] t vals) i [v] j →
      Derives E X (.items Γ ts (bindVal vals (identFromTerm t) v)) j vs k →
      Derives E X (.items Γ (t :: ts) vals) i (v :: vs) k
  | oneof {Γ rule ts n t vals i v j} : ts[n]? = some t → Derives E X (.term Γ [] t vals) i [v] j →
      Derives E X (.term Γ rule (.oneof ts) vals) i [.node (ruleOrAlt rule oneofTag) (.choice n) [v]] j
  | quant {Γ rule t lo hi vals i vs j} : Derives E X (.reps Γ t vals) i vs j →
      lo ≤ vs.length → (hi = 0 ∨ vs.length ≤ hi) →
      Derives E X (.term Γ rule (.quant t lo hi) vals) i [.node (ruleOrAlt rule quantTag) .nil vs] j
  | stop {Γ t vals i} : Derives E X (.reps Γ t vals) i [] i
  | more {Γ t vals i v j vs k} : Derives E X (.term Γ [] t vals) i [v] j →
      Derives E X (.reps Γ t vals) j vs k → Derives E X (.reps Γ t vals) i (v :: vs) k
  | look {Γ rule t vals i v j} : Derives E X (.term Γ [] t vals) i [v] j →
      Derives E X (.term Γ rule (.look t) vals) i [.node (ruleOrAlt rule lookaheadTag) .nil [v]] i
  | delim {Γ rule term sep a cs ce vals i v v' j} :
      Derives E X (.term Γ rule (.seq (delimSeq term sep cs ce)) vals) i [v] j →
      delimFinish (ruleOrAlt rule delimTag) a cs ce v = some v' →
      Derives E X (.term Γ rule (.delim term sep a cs ce) vals) i [v'] j
  | ref {Γ rule ident d vals i w t v j} : lookup ident vals = some w → termFromRefVal w = some t →
      t.quotable E = true → Derives E X (.term [] ident t vals) i [v] j → nodesEqual v w = some true →
      Derives E X (.term Γ rule (.ref ident d) vals) i [v] j
  | default {Γ rule ident t vals i v j} : lookup ident vals = none → t.quotable E = true →
      Derives E X (.term [] ident t vals) i [v] j →
      Derives E X (.term Γ rule (.ref ident (some t)) vals) i [v] j
  | ext {Γ rule x f cp vals i v j} : X.refs x = some f →
      f ⟨fun n => lookup n vals, cp, [], none⟩ i = ⟨v, none, j⟩ →
      Derives E X (.term Γ rule (.ext x) vals) i [v] j

end Wbnf
